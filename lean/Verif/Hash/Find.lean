import Verif.Hash.Inv

/-! # Searching. Proofs only. -/

namespace STL.UH
open STL STL.DL
variable {α K β : Type}

theorem WF.valAt {h : Hp α} {c : Con} {X : List (Nat × α)} (W : WF h c X) {a : Nat × α} (ha : a ∈ X) : valAt h a.1 = .ok a.2 :=
  valAt_ok (W.live (Or.inr (List.mem_map_of_mem ha))) (W.val a ha)

theorem WF.ndAt {h : Hp α} {c : Con} {A B : List (Nat × α)} {a : Nat × α} (W : WF h c (A ++ [a] ++ B)) : nd h a.1 = .ok ⟨atFirst c.hd B, atLast c.hd A, some a.2⟩ := by
  rw [nd_live (W.live (Or.inr (by simp [ids]))), WF.next (A := A) (B := B) (by simpa using W), W.val a (by simp)]
  have := WF.prev (A := A) (B := [a] ++ B) (by simpa using W)
  rw [show atFirst c.hd ([a] ++ B) = a.1 from rfl] at this
  rw [this]

theorem WF.ndHd {h : Hp α} {c : Con} {X : List (Nat × α)} (W : WF h c X) : nd h c.hd = .ok ⟨atFirst c.hd X, atLast c.hd X, vl h c.hd⟩ := by
  rw [nd_live (W.live (Or.inl rfl)), W.first, W.last]

theorem shl1 (b : Nat) : b <<< 1 = 2 * b := by rw [Nat.shiftLeft_eq]; omega

theorem vget_ok {v : List Nat} {i x : Nat} (h : v[i]? = some x) : vget v i = .ok x := by unfold vget; rw [h]

theorem vset_ok {v : List Nat} {i : Nat} (h : i < v.length) (x : Nat) : ∃ v', vset v i x = .ok v' ∧ v'.length = v.length ∧ ∀ j, v'[j]? = if j = i then some x else v[j]? := by
  refine ⟨v.set i x, by unfold vset; rw [if_pos h], by simp, ?_⟩
  intro j
  rw [List.getElem?_set]
  by_cases hj : j = i
  · subst hj; simp [h]
  · rw [if_neg hj, if_neg (fun hh => hj hh.symm)]

theorem filter_ids {p : Nat × α → Bool} {X : List (Nat × α)} {q : Nat} (h : q ∈ ids (X.filter p)) : q ∈ ids X := by
  simp only [ids, List.mem_map] at h ⊢
  obtain ⟨a, ha, rfl⟩ := h
  exact ⟨a, (List.mem_filter.1 ha).1, rfl⟩

theorem first_hd {hd : Nat} {X Y : List (Nat × α)} (hnd : (hd :: ids X).Nodup) (hs : ∀ q ∈ ids Y, q ∈ ids X) : atFirst hd Y = hd ↔ Y = [] := by
  constructor
  · intro h
    by_contra hY
    have := hs _ (atFirst_block (d := hd) hY)
    rw [h] at this
    exact (List.nodup_cons.1 hnd).1 this
  · rintro rfl; rfl

theorem last_hd {hd : Nat} {X Y : List (Nat × α)} (hnd : (hd :: ids X).Nodup) (hs : ∀ q ∈ ids Y, q ∈ ids X) : atLast hd Y = hd ↔ Y = [] := by
  constructor
  · intro h
    by_contra hY
    have := hs _ (atLast_block (d := hd) hY)
    rw [h] at this
    exact (List.nodup_cons.1 hnd).1 this
  · rintro rfl; rfl

theorem nodup_inj {X : List (Nat × α)} (hn : (ids X).Nodup) {a b : Nat × α} (ha : a ∈ X) (hb : b ∈ X) (h : a.1 = b.1) : a = b := by
  induction X with
  | nil => simp at ha
  | cons x X ih =>
    simp only [ids, List.map_cons, List.nodup_cons, List.mem_map, not_exists, not_and] at hn
    rcases List.mem_cons.1 ha with h1 | h1 <;> rcases List.mem_cons.1 hb with h2 | h2
    · rw [h1, h2]
    · rw [h1] at h; exact absurd h.symm (hn.1 b h2)
    · rw [h2] at h; exact absurd h (hn.1 a h1)
    · exact ih hn.2 h1 h2

/-- What the search from the back finds. -/
def LastIn (P : Par α K) (key : K) (hd : Nat) (B C : List (Nat × α)) (r : Nat × Option Nat) : Prop :=
  (∃ D a E, B = D ++ [a] ++ E ∧ eqk P key a = true ∧ (∀ e ∈ E, eqk P key e = false) ∧ r = (atFirst hd (E ++ C), some a.1)) ∨
  ((∀ e ∈ B, eqk P key e = false) ∧ r = (atFirst hd B, none))

theorem findBack_spec {P : Par α K} {h : Hp α} {c : Con} {key : K} {A : List (Nat × α)} : ∀ {f : Nat} {B C : List (Nat × α)} {w : Nat × α},
    WF h c (A ++ (B ++ [w]) ++ C) → B.length < f → ∃ r, findBack P h key (atFirst c.hd (B ++ [w])) f w.1 = .ok r ∧ LastIn P key c.hd (B ++ [w]) C r
  | 0, _, _, _, _, hf => by omega
  | f + 1, B, C, w, W, hf => by
    unfold findBack
    rw [WF.valAt (a := w) W (by simp), R.ok_bind]
    have n := WF.ndAt (A := A ++ B) (a := w) (B := C) (by simpa using W)
    by_cases he : P.eq key (P.kfn w.2) = true
    · rw [if_pos he, n, R.ok_bind]
      exact ⟨_, rfl, Or.inl ⟨B, w, [], by simp, he, by simp, rfl⟩⟩
    rw [if_neg he]
    rcases List.eq_nil_or_concat B with rfl | ⟨B', w', rfl⟩
    · rw [if_pos (by simp [atFirst])]
      exact ⟨_, rfl, Or.inr ⟨by simpa [eqk] using he, rfl⟩⟩
    · have hnd := W.nd
      rw [List.concat_eq_append] at *
      have hne : w.1 ≠ atFirst c.hd (B' ++ [w'] ++ [w]) := by
        rw [atFirst_app (by simp)]
        have b1 := atFirst_block (d := c.hd) (M := B' ++ [w']) (by simp)
        nds at hnd b1; grind
      rw [if_neg hne, n, R.ok_bind, show atLast c.hd (A ++ (B' ++ [w'])) = w'.1 by rw [← List.append_assoc, atLast_snoc]]
      simp only
      obtain ⟨r, e, hr⟩ := findBack_spec (P := P) (key := key) (A := A) (f := f) (B := B') (C := [w] ++ C) (w := w') (by simpa using W) (by simp at hf; omega)
      rw [show atFirst c.hd (B' ++ [w'] ++ [w]) = atFirst c.hd (B' ++ [w']) from atFirst_app (by simp), e]
      refine ⟨r, rfl, ?_⟩
      rcases hr with ⟨D, a, E, e1, e2, e3, e4⟩ | ⟨e1, e2⟩
      · refine Or.inl ⟨D, a, E ++ [w], by rw [e1]; simp, e2, ?_, by rw [e4]; simp⟩
        simp only [List.mem_append, List.mem_singleton]; rintro e (h | rfl)
        · exact e3 e h
        · simpa [eqk] using he
      · refine Or.inr ⟨?_, by rw [e2]; congr 1; exact (atFirst_app (by simp)).symm⟩
        intro e; rw [List.mem_append, List.mem_singleton]; rintro (h | rfl)
        · exact e1 e h
        · simpa [eqk] using he

/-- What `_Find_last` finds. -/
def FL (P : Par α K) (mask hd : Nat) (key : K) (X : List (Nat × α)) (r : Nat × Option Nat) : Prop :=
  ∃ L N, X = L ++ N ∧ r.1 = atFirst hd N ∧ Place P mask key L N ∧ (∀ a ∈ N, eqk P key a = false) ∧
    match r.2 with
    | some d => ∃ L' a, L = L' ++ [a] ∧ eqk P key a = true ∧ d = a.1
    | none => ∀ a ∈ X, eqk P key a = false

theorem not_eqk_of_not_inB {P : Par α K} (g : Good P) {mask : Nat} {key : K} {a : Nat × α} (h : inB P mask (P.hash key &&& mask) a = false) : eqk P key a = false := by
  cases hp : eqk P key a
  · rfl
  · rw [g.inB_eqk hp] at h; simp at h

theorem findLast_ok {P : Par α K} (g : Good P) {h : Hp α} {t : Tab} {X : List (Nat × α)} (W : WF h t.con X) (B : BOK P t.mask t.con.hd t.vec X) (key : K) :
    ∃ r, findLast P h t key (P.hash key) = .ok r ∧ FL P t.mask t.con.hd key X r := by
  unfold findLast
  have hb : P.hash key &&& t.mask ≤ t.mask := Nat.and_le_right
  simp only [shl1]
  rw [vget_ok (B.hi _ hb), R.ok_bind]
  obtain ⟨A, C, e, hA, hC⟩ := (B.cont (P.hash key &&& t.mask)).split
  by_cases hF : X.filter (inB P t.mask (P.hash key &&& t.mask)) = []
  · rw [if_pos ((last_hd W.nd fun q hq => filter_ids hq).2 hF)]
    have hno : ∀ a ∈ X, inB P t.mask (P.hash key &&& t.mask) a = false := filter_none.1 hF
    refine ⟨_, rfl, X, [], by simp, rfl, Or.inr ⟨?_, Or.inl ⟨by simpa using hno, rfl⟩⟩, by simp, ?_⟩
    · intro a ha; exact not_eqk_of_not_inB g (hno a (by simpa using ha))
    · intro a ha; exact not_eqk_of_not_inB g (hno a ha)
  · rw [if_neg (fun hh => hF ((last_hd W.nd fun q hq => filter_ids hq).1 hh)), vget_ok (B.lo _ hb), R.ok_bind]
    have hall : ∀ a ∈ X.filter (inB P t.mask (P.hash key &&& t.mask)), inB P t.mask (P.hash key &&& t.mask) a = true := fun a ha => (List.mem_filter.1 ha).2
    generalize X.filter (inB P t.mask (P.hash key &&& t.mask)) = F at *
    have hAk : ∀ a ∈ A, eqk P key a = false := fun a ha => not_eqk_of_not_inB g (hA a ha)
    have hCk : ∀ a ∈ C, eqk P key a = false := fun a ha => not_eqk_of_not_inB g (hC a ha)
    have hFl : F.length ≤ t.con.size := by rw [W.size, e]; simp; omega
    rcases List.eq_nil_or_concat F with h0 | ⟨F', w, rfl⟩
    · exact absurd h0 hF
    rw [List.concat_eq_append] at *
    rw [atLast_snoc]
    obtain ⟨r, er, hr⟩ := findBack_spec (P := P) (key := key) (A := A) (B := F') (C := C) (w := w) (f := t.con.size + 1) (by rw [← e]; exact W) (by simp at hFl; omega)
    refine ⟨r, er, ?_⟩
    rcases hr with ⟨D, a, E, e1, e2, e3, e4⟩ | ⟨e1, e2⟩
    · refine ⟨A ++ D ++ [a], E ++ C, by rw [e, e1]; simp, by rw [e4], Or.inl ⟨A ++ D, a, rfl, e2⟩, ?_, ?_⟩
      · intro b hb; rcases List.mem_append.1 hb with hb | hb
        · exact e3 b hb
        · exact hCk b hb
      · rw [e4]; exact ⟨A ++ D, a, rfl, e2, rfl⟩
    · have hno : ∀ a ∈ X, eqk P key a = false := by
        rw [e]; intro b hb; rw [List.mem_append, List.mem_append] at hb
        rcases hb with (hb | hb) | hb
        · exact hAk b hb
        · exact e1 b hb
        · exact hCk b hb
      refine ⟨A, F' ++ [w] ++ C, by rw [e]; simp, by rw [e2]; exact (atFirst_app (by simp)).symm, Or.inr ⟨?_, Or.inr ?_⟩, ?_, ?_⟩
      · intro b hb; exact hno b (by rw [e, List.append_assoc]; exact hb)
      · cases hFc : F' ++ [w] with
        | nil => simp at hFc
        | cons r F'' => exact ⟨r, F'' ++ C, by simp, hall r (by simp [hFc]), hA⟩
      · intro b hb; exact hno b (by rw [e, List.append_assoc]; exact List.mem_append_right _ hb)
      · rw [e2]; exact hno

/-- What `_Find_hint` finds. -/
def FH (P : Par α K) (mask hd : Nat) (key : K) (hint : Nat) (X : List (Nat × α)) (r : Nat × Option Nat) : Prop :=
  FL P mask hd key X r ∧ (∀ a ∈ X, a.1 = hint → eqk P key a = false) ∨
  ∃ L a N, X = L ++ [a] ++ N ∧ a.1 = hint ∧ eqk P key a = true ∧ r = (atFirst hd N, some hint)

theorem findHint_ok {P : Par α K} (g : Good P) {h : Hp α} {t : Tab} {X : List (Nat × α)} (W : WF h t.con X) (B : BOK P t.mask t.con.hd t.vec X) (key : K) {hint : Nat}
    (hh : hint = t.con.hd ∨ hint ∈ ids X) : ∃ r, findHint P h t hint key (P.hash key) = .ok r ∧ FH P t.mask t.con.hd key hint X r := by
  unfold findHint
  have hl := findLast_ok g W B key
  have hnd := W.nd
  by_cases h1 : hint = t.con.hd
  · rw [if_neg (by simpa using h1), R.ok_bind]
    rw [if_neg (by simp)]
    obtain ⟨r, e, hr⟩ := hl
    refine ⟨r, e, Or.inl ⟨hr, ?_⟩⟩
    rintro a ha rfl
    exact absurd (show t.con.hd ∈ ids X by rw [← h1]; exact List.mem_map_of_mem (f := Prod.fst) ha) (List.nodup_cons.1 hnd).1
  · have h2 : hint ∈ ids X := by tauto
    simp only [ids, List.mem_map] at h2
    obtain ⟨a, ha, rfl⟩ := h2
    have e := List.append_of_mem ha
    obtain ⟨L, N, e⟩ := e
    rw [if_pos h1, WF.valAt W ha, R.ok_bind, R.ok_bind]
    have e' : X = L ++ [a] ++ N := by rw [e]; simp
    by_cases he : P.eq (P.kfn a.2) key = true
    · rw [if_pos he, WF.ndAt (A := L) (a := a) (B := N) (by rw [← e']; exact W), R.ok_bind]
      exact ⟨_, rfl, Or.inr ⟨L, a, N, e', rfl, g.symm _ _ he, rfl⟩⟩
    · rw [if_neg he]
      obtain ⟨r, er, hr⟩ := hl
      refine ⟨r, er, Or.inl ⟨hr, ?_⟩⟩
      intro b hb hba
      have : b = a := by
        exact nodup_inj (List.nodup_cons.1 hnd).2 hb ha hba
      subst this
      cases hp : eqk P key b
      · rfl
      · exact absurd (g.symm _ _ hp) he

theorem findFwd_spec {P : Par α K} (g : Good P) {h : Hp α} {c : Con} {key : K} {C : List (Nat × α)} : ∀ {f : Nat} {A B : List (Nat × α)} {w : Nat × α},
    WF h c (A ++ (w :: B) ++ C) → B.length < f → findFwd P h key c.hd (atLast c.hd (w :: B)) f w.1 = .ok (atFirst c.hd ((w :: B).filter (eqk P key)))
  | 0, _, _, _, _, hf => by omega
  | f + 1, A, B, w, W, hf => by
    unfold findFwd
    rw [WF.valAt (a := w) W (by simp), R.ok_bind, g.comm]
    have n := WF.ndAt (A := A) (a := w) (B := B ++ C) (by simpa using W)
    by_cases he : P.eq key (P.kfn w.2) = true
    · rw [if_pos he, List.filter_cons_of_pos (by exact he), atFirst_cons]
    rw [if_neg he, List.filter_cons_of_neg (by simpa [eqk] using he)]
    cases B with
    | nil => rw [if_pos (by simp [atLast, atFirst])]; rfl
    | cons b B =>
      have hl : atLast c.hd (w :: b :: B) = atLast c.hd (b :: B) := atLast_app (M := [w]) (N := b :: B) (by simp)
      have hnd := W.nd
      have hne : w.1 ≠ atLast c.hd (w :: b :: B) := by
        rw [hl]
        have b1 := atLast_block (d := c.hd) (M := b :: B) (by simp)
        nds at hnd b1; grind
      rw [if_neg hne, n, R.ok_bind, hl]
      exact findFwd_spec g (A := A ++ [w]) (by simpa using W) (by simp at hf; omega)

theorem grp_sub {P : Par α K} (g : Good P) {mask : Nat} {key : K} {X : List (Nat × α)} : (X.filter (inB P mask (P.hash key &&& mask))).filter (eqk P key) = X.filter (eqk P key) := by
  rw [List.filter_filter]
  apply List.filter_congr
  intro a _
  cases hp : eqk P key a
  · simp
  · simp [g.inB_eqk hp]

theorem findFirst_ok {P : Par α K} (g : Good P) {h : Hp α} {t : Tab} {X : List (Nat × α)} (W : WF h t.con X) (B : BOK P t.mask t.con.hd t.vec X) (key : K) :
    findFirst P h t key (P.hash key) = .ok (atFirst t.con.hd (X.filter (eqk P key))) := by
  unfold findFirst
  have hb : P.hash key &&& t.mask ≤ t.mask := Nat.and_le_right
  simp only [shl1]
  rw [vget_ok (B.lo _ hb), R.ok_bind]
  obtain ⟨A, C, e, hA, hC⟩ := (B.cont (P.hash key &&& t.mask)).split
  rw [← grp_sub g (mask := t.mask)]
  by_cases hF : X.filter (inB P t.mask (P.hash key &&& t.mask)) = []
  · rw [if_pos ((first_hd W.nd fun q hq => filter_ids hq).2 hF), hF]; rfl
  · rw [if_neg (fun hh => hF ((first_hd W.nd fun q hq => filter_ids hq).1 hh)), vget_ok (B.hi _ hb), R.ok_bind]
    generalize X.filter (inB P t.mask (P.hash key &&& t.mask)) = F at *
    have hFl : F.length ≤ t.con.size := by rw [W.size, e]; simp; omega
    cases F with
    | nil => exact absurd rfl hF
    | cons w F => rw [atFirst_cons]; exact findFwd_spec g (A := A) (C := C) (by rw [← e]; exact W) (by simp at hFl; omega)

theorem eqLoop_spec {P : Par α K} {h : Hp α} {c : Con} {key : K} {B C : List (Nat × α)} (hB : ∀ a ∈ B, eqk P key a = false) : ∀ {f : Nat} {A G : List (Nat × α)} {w : Nat × α} {d : Nat},
    WF h c (A ++ (w :: G) ++ B ++ C) → (∀ a ∈ G, eqk P key a = true) → G.length < f →
    eqLoop P h key (atLast c.hd (w :: G ++ B)) f w.1 d = .ok (atFirst c.hd (B ++ C), d + (G.length + 1))
  | 0, _, _, _, _, _, _, hf => by omega
  | f + 1, A, G, w, d, W, hG, hf => by
    unfold eqLoop
    rw [WF.ndAt (A := A) (a := w) (B := G ++ B ++ C) (by simpa using W), R.ok_bind]
    have hnd := W.nd
    cases G with
    | nil =>
      cases B with
      | nil => rw [if_pos (by simp [atLast, atFirst])]; rfl
      | cons b B =>
        have hl : atLast c.hd ([w] ++ (b :: B)) = atLast c.hd (b :: B) := atLast_app (by simp)
        have hne : w.1 ≠ atLast c.hd ([w] ++ (b :: B)) := by
          rw [hl]
          have b1 := atLast_block (d := c.hd) (M := b :: B) (by simp)
          nds at hnd b1; grind
        rw [if_neg hne]
        simp only [List.nil_append, List.cons_append, atFirst_cons]
        rw [WF.valAt (a := b) W (by simp), R.ok_bind, if_neg]
        · rfl
        · have := hB b (by simp); simpa [eqk] using this
    | cons v G =>
      have hl : atLast c.hd (w :: v :: G ++ B) = atLast c.hd (v :: G ++ B) := atLast_app (M := [w]) (N := v :: G ++ B) (by simp)
      have hne : w.1 ≠ atLast c.hd (w :: v :: G ++ B) := by
        rw [hl]
        have b1 := atLast_block (d := c.hd) (M := v :: G ++ B) (by simp)
        nds at hnd b1; grind
      rw [if_neg hne]
      simp only [List.cons_append, atFirst_cons]
      rw [WF.valAt (a := v) W (by simp), R.ok_bind, if_pos (by exact hG v (by simp))]
      rw [show w :: v :: (G ++ B) = w :: v :: G ++ B from rfl, hl]
      rw [eqLoop_spec hB (A := A ++ [w]) (G := G) (w := v) (by simpa using W) (fun a ha => hG a (by simp [ha])) (by simp at hf; omega)]
      simp; omega

/-- The group of a key within its bucket. -/
theorem grp_split {P : Par α K} {X : List (Nat × α)} {key : K} {A F C : List (Nat × α)} (hg : Contig (eqk P key) X) (e : X = A ++ F ++ C) :
    ∃ F1 F2, F = F1 ++ F.filter (eqk P key) ++ F2 ∧ (∀ a ∈ F1, eqk P key a = false) ∧ ∀ a ∈ F2, eqk P key a = false := by
  have : Contig (eqk P key) F := hg.sub (by rw [e]; simp)
  obtain ⟨F1, F2, e1, h1, h2⟩ := this.split
  exact ⟨F1, F2, e1, h1, h2⟩

/-- The end of a range of equal keys. -/
def eqEnd (P : Par α K) (hd : Nat) (key : K) (X : List (Nat × α)) (q : Nat) : Prop :=
  if X.filter (eqk P key) = [] then q = hd else ∃ A C, X = A ++ X.filter (eqk P key) ++ C ∧ q = atFirst hd C

theorem equalRange_ok {P : Par α K} (g : Good P) {h : Hp α} {t : Tab} {X : List (Nat × α)} (W : WF h t.con X) (B : BOK P t.mask t.con.hd t.vec X)
    (hu : P.multi = false → ∀ k, (X.filter (eqk P k)).length ≤ 1) (key : K) :
    ∃ q, equalRange P h t key = .ok (atFirst t.con.hd (X.filter (eqk P key)), q, (X.filter (eqk P key)).length) ∧ eqEnd P t.con.hd key X q := by
  unfold equalRange eqEnd
  have hb : P.hash key &&& t.mask ≤ t.mask := Nat.and_le_right
  simp only [shl1]
  rw [vget_ok (B.lo _ hb), R.ok_bind]
  obtain ⟨A, C, e, hA, hC⟩ := (B.cont (P.hash key &&& t.mask)).split
  have hfe := grp_sub g (mask := t.mask) (key := key) (X := X)
  by_cases hF : X.filter (inB P t.mask (P.hash key &&& t.mask)) = []
  · rw [hF] at hfe
    rw [if_pos ((first_hd W.nd fun q hq => filter_ids hq).2 hF), ← hfe]
    exact ⟨_, rfl, by simp⟩
  · rw [if_neg (fun hh => hF ((first_hd W.nd fun q hq => filter_ids hq).1 hh)), vget_ok (B.hi _ hb), R.ok_bind]
    generalize X.filter (inB P t.mask (P.hash key &&& t.mask)) = F at *
    have hFl : F.length ≤ t.con.size := by rw [W.size, e]; simp; omega
    cases F with
    | nil => exact absurd rfl hF
    | cons w F =>
      rw [atFirst_cons, findFwd_spec g (A := A) (C := C) (by rw [← e]; exact W) (by simp at hFl; omega), R.ok_bind, hfe]
      obtain ⟨F1, F2, e1, h1, h2⟩ := grp_split (B.grp key) e
      rw [hfe] at e1
      have hu' := fun hm => hu hm key
      have hfX : ∀ q ∈ ids (X.filter (eqk P key)), q ∈ ids X := fun q hq => filter_ids hq
      have hGall : ∀ a ∈ X.filter (eqk P key), eqk P key a = true := fun a ha => (List.mem_filter.1 ha).2
      have hGl : (X.filter (eqk P key)).length ≤ t.con.size := by rw [W.size]; exact List.length_filter_le _ _
      generalize X.filter (eqk P key) = G at *
      by_cases hG : G = []
      · subst hG; rw [if_pos (by rfl)]; exact ⟨_, rfl, by simp⟩
      · rw [if_neg (fun hh => hG ((first_hd W.nd hfX).1 hh))]
        simp only [if_neg hG]
        cases G with
        | nil => exact absurd rfl hG
        | cons v G =>
          have eX : X = A ++ F1 ++ (v :: G) ++ F2 ++ C := by rw [e, e1]; simp
          rw [atFirst_cons]
          by_cases hm : P.multi = true
          · rw [if_pos hm]
            have hl : atLast t.con.hd (w :: F) = atLast t.con.hd (v :: G ++ F2) := by
              rw [e1, List.append_assoc, atLast_app (by simp)]
            rw [hl, eqLoop_spec h2 (A := A ++ F1) (C := C) (by rw [← eX]; exact W) (fun a ha => hGall a (by simp [ha])) (by simp at hGl; omega), R.ok_bind]
            refine ⟨atFirst t.con.hd (F2 ++ C), by simp, A ++ F1, F2 ++ C, by rw [eX]; simp, rfl⟩
          · rw [if_neg hm]
            have := hu' (by simpa using hm)
            have hG0 : G = [] := by simpa using this
            subst hG0
            rw [WF.ndAt (A := A ++ F1) (a := v) (B := F2 ++ C) (by rw [eX] at W; simpa using W), R.ok_bind]
            exact ⟨_, rfl, A ++ F1, F2 ++ C, by rw [eX]; simp, rfl⟩

theorem dist_spec {h : Hp α} {c : Con} {N : List (Nat × α)} : ∀ {f : Nat} {A M : List (Nat × α)}, WF h c (A ++ M ++ N) → M.length < f →
    dist h f (atFirst c.hd (M ++ N)) (atFirst c.hd N) = .ok M.length
  | 0, _, _, _, hf => by omega
  | f + 1, A, [], W, hf => by simp [dist]
  | f + 1, A, a :: M, W, hf => by
    unfold dist
    have hnd := W.nd
    have b1 := atFirst_mem (hd := c.hd) N
    rw [List.cons_append, atFirst_cons, if_neg (by nds at hnd b1; grind), WF.ndAt (A := A) (a := a) (B := M ++ N) (by simpa using W), R.ok_bind]
    simp only
    rw [dist_spec (A := A ++ [a]) (by simpa using W) (by simp at hf; omega), R.ok_bind]; rfl

/-- The last element found by `_Find_last`: the search result for the unique containers. -/
theorem FL.dup {P : Par α K} {mask hd : Nat} {key : K} {X : List (Nat × α)} {r : Nat × Option Nat} (f : FL P mask hd key X r) : r.2.isSome = true ↔ X.filter (eqk P key) ≠ [] := by
  obtain ⟨L, N, rfl, _, _, hN, hm⟩ := f
  cases hr : r.2 with
  | none => rw [hr] at hm; simp only [Option.isSome_none, Bool.false_eq_true, ne_eq, false_iff, not_not]; exact filter_none.2 hm
  | some d =>
    rw [hr] at hm; obtain ⟨L', a, rfl, ha, _⟩ := hm
    simp only [Option.isSome_some, ne_eq, true_iff]
    intro h; have := filter_none.1 h a (by simp); rw [ha] at this; simp at this

theorem FL.last {P : Par α K} {mask hd : Nat} {key : K} {X : List (Nat × α)} {r : Nat × Option Nat} (f : FL P mask hd key X r) {d : Nat} (hd' : r.2 = some d) :
    X.filter (eqk P key) ≠ [] ∧ d = atLast hd (X.filter (eqk P key)) := by
  refine ⟨f.dup.1 (by simp [hd']), ?_⟩
  obtain ⟨L, N, rfl, _, _, hN, hm⟩ := f
  rw [hd'] at hm; obtain ⟨L', a, rfl, ha, rfl⟩ := hm
  rw [List.filter_append, filter_none.2 hN, List.filter_append, List.append_nil, List.filter_cons_of_pos ha]
  simp [atLast_snoc]

end STL.UH
