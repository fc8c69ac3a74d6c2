import Verif.Hash.Step

/-! # `merge`. Proofs only. -/

namespace STL.UH
open STL STL.DL
variable {α K : Type}

/-- Two containers in one heap. -/
structure Two (P Q : Par α K) (h : Hp α) (t u : Tab) (X Y : List (Nat × α)) : Prop where
  tk : TOK P h t X
  uk : TOK Q h u Y
  dis : ∀ q, q = t.con.hd ∨ q ∈ ids X → ¬ (q = u.con.hd ∨ q ∈ ids Y)
  zero : h 0 = none

theorem Two.one {P Q : Par α K} {h h' : Hp α} {t t' u : Tab} {X X' Y : List (Nat × α)} (I : Two P Q h t u X Y) (O : One h t.con X h' t'.con X') (T : TOK P h' t' X') : Two P Q h' t' u X' Y := by
  have hh : t'.con.hd = t.con.hd := O.hd
  have nx : ∀ q, q = u.con.hd ∨ q ∈ ids Y → q ≠ t.con.hd ∧ q ∉ ids X ∧ q ∉ ids X' := by
    intro q hq
    have h1 := I.dis q
    refine ⟨fun e => h1 (Or.inl e) hq, fun e => h1 (Or.inr e) hq, fun e => ?_⟩
    rcases O.new q e with h2 | h2
    · exact h1 (Or.inr h2) hq
    · exact I.uk.wf.live hq h2.1
  refine ⟨T, I.uk.frame (fun q hq => O.frame q (nx q hq).1 (nx q hq).2.1 (nx q hq).2.2), ?_, ?_⟩
  · intro q hq hq'
    rcases hq with hq | hq
    · exact (nx q hq').1 (hq.trans hh)
    · exact (nx q hq').2.2 hq
  · have h0 := I.zero
    have n1 : (0 : Nat) ≠ t.con.hd := fun e => I.tk.wf.live (Or.inl e) h0
    have n2 : (0 : Nat) ∉ ids X := fun e => I.tk.wf.live (Or.inr e) h0
    rw [O.frame 0 n1 n2 ?_]
    · exact h0
    · intro e
      rcases O.new 0 e with h | h
      · exact n2 h
      · exact h.2 rfl

/-- What happens to the heap: nothing outside the two containers changes, elements that have disappeared are freed. -/
structure Eff (h : Hp α) (t u : Tab) (X Y : List (Nat × α)) (h' : Hp α) (X' Y' : List (Nat × α)) : Prop where
  out : ∀ q, q ≠ t.con.hd → q ≠ u.con.hd → q ∉ ids X → q ∉ ids Y → h' q = h q ∧ q ∉ ids X' ∧ q ∉ ids Y'
  gone : ∀ q, q ∈ ids X ∨ q ∈ ids Y → q ∉ ids X' → q ∉ ids Y' → h' q = none

theorem Eff.refl {h : Hp α} {t u : Tab} {X Y : List (Nat × α)} : Eff h t u X Y h X Y :=
  ⟨fun q _ _ h3 h4 => ⟨rfl, h3, h4⟩, fun q hq h1 h2 => by rcases hq with h | h <;> contradiction⟩

theorem Two.neq {P Q : Par α K} {h : Hp α} {t u : Tab} {X Y : List (Nat × α)} (I : Two P Q h t u X Y) {q : Nat} (hq : q ∈ ids X ∨ q ∈ ids Y) : q ≠ t.con.hd ∧ q ≠ u.con.hd := by
  have h1 := (List.nodup_cons.1 I.tk.wf.nd).1
  have h2 := (List.nodup_cons.1 I.uk.wf.nd).1
  have h3 := I.dis q
  constructor
  · rintro rfl
    rcases hq with h | h
    · exact h1 h
    · exact h3 (Or.inl rfl) (Or.inr h)
  · rintro rfl
    rcases hq with h | h
    · exact h3 (Or.inr h) (Or.inl rfl)
    · exact h2 h

theorem Eff.trans {P Q : Par α K} {h h1 h2 : Hp α} {t u t1 u1 : Tab} {X Y X1 Y1 X2 Y2 : List (Nat × α)} (I : Two P Q h t u X Y) (a : Eff h t u X Y h1 X1 Y1) (b : Eff h1 t1 u1 X1 Y1 h2 X2 Y2)
    (e1 : t1.con.hd = t.con.hd) (e2 : u1.con.hd = u.con.hd) : Eff h t u X Y h2 X2 Y2 where
  out := by
    intro q q1 q2 q3 q4
    obtain ⟨a1, a2, a3⟩ := a.out q q1 q2 q3 q4
    obtain ⟨b1, b2, b3⟩ := b.out q (by rw [e1]; exact q1) (by rw [e2]; exact q2) a2 a3
    exact ⟨b1.trans a1, b2, b3⟩
  gone := by
    intro q hq n1 n2
    by_cases hm : q ∈ ids X1 ∨ q ∈ ids Y1
    · exact b.gone q hm n1 n2
    · have h1 : q ∉ ids X1 := fun h => hm (Or.inl h)
      have h2 : q ∉ ids Y1 := fun h => hm (Or.inr h)
      have hn := I.neq hq
      rw [(b.out q (by rw [e1]; exact hn.1) (by rw [e2]; exact hn.2) h1 h2).1]
      exact a.gone q hq h1 h2

theorem Eff.one {h h' : Hp α} {t t' u : Tab} {X X' Y : List (Nat × α)} (O : One h t.con X h' t'.con X') (hs : ∀ q ∈ ids X', q ∈ ids X) : Eff h t u X Y h' X' Y :=
  ⟨fun q h1 _ h3 h4 => ⟨O.frame q h1 h3 (fun hh => h3 (hs q hh)), fun hh => h3 (hs q hh), h4⟩,
   fun q hq h1 h2 => by
    rcases hq with h | h
    · exact O.gone q h h1
    · contradiction⟩

theorem same_sub {P : Par α K} (g : Good P) {X X' : List (Nat × α)} (s : Same P X X') : ∀ q ∈ ids X', q ∈ ids X := by
  intro q hq
  obtain ⟨a, ha, rfl⟩ := List.mem_map.1 hq
  have : a ∈ X'.filter (eqk P (P.kfn a.2)) := List.mem_filter.2 ⟨ha, g.refl _⟩
  rw [s] at this
  exact List.mem_map_of_mem (List.mem_filter.1 this).1

/-- What one pass does. -/
def Pass (P : Par α K) (X S T : List (Nat × α)) (b : Nat × α) (vok : Bool) (thr : Option Nat) (X' Y' : List (Nat × α)) : Option Exc → Prop
  | none => P.multi = false ∧ grp P (P.kfn b.2) X ≠ [] ∧ X' = X ∧ Y' = S ++ [b] ++ T ∨
      ¬ (P.multi = false ∧ grp P (P.kfn b.2) X ≠ []) ∧ Same P (X ++ [b]) X' ∧ Y' = S ++ T
  | some .user => X' = [] ∧ Y' = S ++ [b] ++ T ∧ thr ≠ none
  | some .badAlloc => X' = X ∧ Y' = S ++ [b] ++ T ∧ vok = false
  | some .lengthError => X' = X ∧ Y' = S ++ [b] ++ T
  | some _ => False

/-- Taking the node `b` from one container and giving it to the other. -/
theorem Two.move {P Q : Par α K} (g : Good P) {h : Hp α} {t u : Tab} {L N S T : List (Nat × α)} {b : Nat × α} (I : Two P Q h t u (L ++ N) (S ++ [b] ++ T))
    (pl : Place P t.mask (P.kfn b.2) L N) (hu : P.multi = false → (L ++ N).filter (eqk P (P.kfn b.2)) = []) :
    ∃ vec' h1 h' t', eraseBucket h u b.1 (Q.hash (Q.kfn b.2) &&& u.mask) = .ok { u with vec := vec' } ∧ unlinkNode h u.con b.1 = .ok (h1, ⟨u.con.hd, u.con.size - 1⟩) ∧
      insertNew h1 t (P.hash (P.kfn b.2)) (atFirst t.con.hd N) b.1 = .ok (h', t') ∧ t'.con.hd = t.con.hd ∧
      Two P Q h' t' { u with vec := vec', con := ⟨u.con.hd, u.con.size - 1⟩ } (L ++ b :: N) (S ++ T) ∧ Eff h t u (L ++ N) (S ++ [b] ++ T) h' (L ++ b :: N) (S ++ T) := by
  have W := I.uk.wf
  have hb : b.1 ∈ ids (S ++ [b] ++ T) := by simp [ids]
  obtain ⟨vec', e1, K', l⟩ := eraseBucket_ok W I.uk.ok
  obtain ⟨h1, e2, W', la, va, fr⟩ := unlink_ok W
  have fr1 : ∀ q, q = t.con.hd ∨ q ∈ ids (L ++ N) → h1 q = h q := fun q hq => fr q (fun hm => I.dis q hq (by simpa [ids] using hm))
  have T1 := I.tk.frame fr1
  have hnb : b.1 ∉ t.con.hd :: ids (L ++ N) := fun hm => I.dis b.1 (List.mem_cons.1 hm) (Or.inr hb)
  obtain ⟨h2, vec2, e3, W2, B2, l2, fr2⟩ := insertNew_ok g T1.wf T1.ok pl la va hnb
  have hs : (S ++ T).Sublist (S ++ [b] ++ T) := by simp
  have ha : ∀ q, q = u.con.hd ∨ q ∈ ids (S ++ T) → q = u.con.hd ∨ q ∈ ids (S ++ [b] ++ T) := by
    rintro q (h | h)
    · exact Or.inl h
    · exact Or.inr ((hs.map Prod.fst).subset h)
  have hbn := W.nd
  have hbS : b.1 ≠ u.con.hd ∧ b.1 ∉ ids (S ++ T) := by
    simp only [ids, List.map_append, List.map_cons, List.map_nil, List.nodup_cons, List.nodup_append, List.mem_append, List.mem_singleton] at hbn ⊢; grind
  have dis : ∀ q, q = t.con.hd ∨ q ∈ ids (L ++ b :: N) → ¬ (q = u.con.hd ∨ q ∈ ids (S ++ T)) := by
    intro q hq hq'
    by_cases hqb : q = b.1
    · subst hqb; rcases hq' with h | h
      · exact hbS.1 h
      · exact hbS.2 h
    · refine I.dis q ?_ (ha q hq')
      rcases hq with h | h
      · exact Or.inl h
      · right; simp only [ids, List.map_append, List.map_cons, List.mem_append, List.mem_cons] at h ⊢; tauto
  have eff : Eff h t u (L ++ N) (S ++ [b] ++ T) h2 (L ++ b :: N) (S ++ T) := by
    constructor
    · intro q q1 q2 q3 q4
      have n1 : q ∉ ids (L ++ b :: N) := by
        simp only [ids, List.map_append, List.map_cons, List.map_nil, List.mem_append, List.mem_cons, List.mem_singleton] at q3 q4 ⊢; tauto
      refine ⟨?_, n1, fun hh => q4 ((hs.map Prod.fst).subset hh)⟩
      rw [fr2 q (fun hm => by rcases List.mem_cons.1 hm with hm | hm <;> contradiction), fr q (fun hm => by rcases List.mem_cons.1 hm with hm | hm <;> contradiction)]
    · intro q hq n1 n2
      simp only [ids, List.map_append, List.map_cons, List.map_nil, List.mem_append, List.mem_cons, List.mem_singleton] at hq n1 n2; tauto
  refine ⟨vec', h1, h2, _, e1, e2, e3, rfl, ⟨⟨W2, B2, ?_, I.tk.pow, I.tk.mask⟩, ⟨W'.frame ?_, K', ?_, I.uk.pow, I.uk.mask⟩, dis, ?_⟩, eff⟩
  · intro hm k
    have u1 := I.tk.uniq hm k
    rw [grp_insert]
    rw [List.filter_append] at u1
    split
    · rename_i hk
      have h0 : (L ++ N).filter (eqk P k) = [] := by
        rw [filter_none]
        intro a ha
        have := filter_none.1 (hu hm) a ha
        cases hp : eqk P k a
        · rfl
        · rw [show eqk P (P.kfn b.2) a = true from g.trans _ _ _ (g.symm _ _ hk) hp] at this; simp at this
      rw [List.filter_append] at h0
      obtain ⟨z1, z2⟩ := List.append_eq_nil_iff.1 h0
      rw [z1, z2]; simp
    · simpa using u1
  · intro q hq
    exact fr2 q (fun hm => dis q (List.mem_cons.1 hm) hq)
  · intro hm k; exact Nat.le_trans (hs.filter _).length_le (I.uk.uniq hm k)
  · have h0 := I.zero
    have k1 : h1 0 = none := by
      rw [fr 0, h0]; intro hm; exact W.live (List.mem_cons.1 hm) h0
    rw [fr2 0, k1]
    intro hm
    simp only [ids, List.mem_cons, List.map_append, List.map_cons, List.mem_append] at hm
    have q1 : (0 : Nat) ≠ t.con.hd := fun e => I.tk.wf.live (Or.inl e) h0
    have q2 : (0 : Nat) ∉ ids (L ++ N) := fun e => I.tk.wf.live (Or.inr e) h0
    have q3 : (0 : Nat) ≠ b.1 := fun e => W.live (Or.inr hb) (e ▸ h0)
    simp only [ids, List.map_append, List.mem_append] at q2; tauto

theorem same_snoc {P : Par α K} {X L N : List (Nat × α)} {b : Nat × α} (s : ∀ k, (L ++ b :: N).filter (eqk P k) = if P.eq k (P.kfn b.2) = true then insAfter none (X.filter (eqk P k)) b else X.filter (eqk P k)) :
    Same P (X ++ [b]) (L ++ b :: N) := by
  intro k
  rw [s k, List.filter_append]
  by_cases h : P.eq k (P.kfn b.2) = true
  · rw [if_pos h, List.filter_cons_of_pos (show eqk P k b = true from h)]; rfl
  · rw [if_neg h, List.filter_cons_of_neg (show ¬ eqk P k b = true from h)]; simp

set_option maxHeartbeats 1600000 in
theorem mergeOne_ok {P Q : Par α K} (g : Good P) (hk : ∀ v, Q.kfn v = P.kfn v) (hh : ∀ k, Q.hash k = P.hash k) {h : Hp α} {t u : Tab} {X S T : List (Nat × α)} {b : Nat × α}
    (I : Two P Q h t u X (S ++ [b] ++ T)) (vok : Bool) (thr : Option Nat) :
    ∃ h' t' u' e X' Y', mergeOne P h t u b.1 vok thr = .ok (h', t', u', e) ∧ t'.con.hd = t.con.hd ∧ u'.con.hd = u.con.hd ∧ Two P Q h' t' u' X' Y' ∧ Eff h t u X (S ++ [b] ++ T) h' X' Y' ∧ Pass P X S T b vok thr X' Y' e := by
  unfold mergeOne
  rw [WF.valAt (a := b) I.uk.wf (by simp), R.ok_bind]
  simp only
  obtain ⟨r, er, f⟩ := findLast_ok g I.tk.wf I.tk.ok (P.kfn b.2)
  rw [er, R.ok_bind]
  have f' := f.found g (hint := none) (by simp)
  cases hd : (if P.multi = true then none else r.2) with
  | some d =>
    simp only
    have hm : P.multi = false := by cases hm : P.multi <;> simp [hm] at hd ⊢
    have hr : r.2 = some d := by rw [if_neg (by simp [hm])] at hd; exact hd
    obtain ⟨a, ha, _⟩ := f'.yes d hr
    exact ⟨h, t, u, none, X, _, rfl, rfl, rfl, I, Eff.refl, Or.inl ⟨hm, fun hn => by rw [show X.filter (eqk P (P.kfn b.2)) = [] from hn] at ha; simp at ha, rfl, rfl⟩⟩
  | none =>
    have hno : P.multi = false → X.filter (eqk P (P.kfn b.2)) = [] := fun hm => f'.no (by rw [if_neg (by simp [hm])] at hd; exact hd)
    have hno' : ¬ (P.multi = false ∧ grp P (P.kfn b.2) X ≠ []) := fun hn => hn.2 (hno hn.1)
    simp only
    by_cases hz : t.con.size = P.maxSize
    · rw [if_pos hz]
      exact ⟨h, t, u, _, X, _, rfl, rfl, rfl, I, Eff.refl, rfl, rfl⟩
    rw [if_neg hz]
    have fin : ∀ {h1 : Hp α} {t1 : Tab} {X1 : List (Nat × α)} {q : Nat × Option Nat}, t1.con.hd = t.con.hd → Two P Q h1 t1 u X1 (S ++ [b] ++ T) → Eff h t u X (S ++ [b] ++ T) h1 X1 (S ++ [b] ++ T) → Same P X X1 → Found P none t1.mask t1.con.hd (P.kfn b.2) X1 q →
        ∃ h' t' u' e X' Y', (do
          let u ← eraseBucket h1 u b.1 (P.hash (P.kfn b.2) &&& u.mask)
          let m ← unlinkNode h1 u.con b.1
          let q ← insertNew m.1 t1 (P.hash (P.kfn b.2)) q.1 b.1
          .ok (q.1, q.2, { u with con := m.2 }, none) : R (Hp α × Tab × Tab × Option Exc)) = .ok (h', t', u', e) ∧ t'.con.hd = t.con.hd ∧ u'.con.hd = u.con.hd ∧ Two P Q h' t' u' X' Y' ∧ Eff h t u X (S ++ [b] ++ T) h' X' Y' ∧ Pass P X S T b vok thr X' Y' e := by
      intro h1 t1 X1 q hc I1 E1 sm f1
      obtain ⟨L, N, eX, eT, pl, hg⟩ := f1.place
      subst eX
      obtain ⟨vec', h2, h3, t3, e1, e2, e3, e4, I3, E3⟩ := I1.move g pl (by intro hm; rw [sm]; exact hno hm)
      rw [hk, hh] at e1
      rw [e1, R.ok_bind]
      simp only
      rw [e2, R.ok_bind]
      simp only
      rw [eT, e3, R.ok_bind]
      refine ⟨h3, t3, _, none, _, _, rfl, e4.trans hc, rfl, I3, E1.trans I E3 hc rfl, Or.inr ⟨hno', ?_, rfl⟩⟩
      have s1 := same_snoc (P := P) (X := L ++ N) (b := b) (fun k => hg b rfl k)
      refine Same.trans ?_ s1
      intro k
      rw [List.filter_append, List.filter_append (l₁ := X), sm k]
    by_cases hn : t.lf.need (t.con.size + 1) t.maxidx = true
    · rw [if_pos hn]
      have hdz := desired_ge t (t.con.size + 1) I.tk.eight
      obtain ⟨h1, t1, e, X1, e1, T1, O, l1, R1⟩ := forcedRehash_ok g I.tk I.zero hdz.1 vok thr
      have I1 := I.one O T1
      unfold rehashFor1
      rw [e1, R.ok_bind]
      cases e with
      | some e =>
        simp only [R.ok_bind]
        refine ⟨h1, t1, u, some e, X1, _, rfl, O.hd, rfl, I1, Eff.one O ?_, ?_⟩
        · cases e <;> simp only [RehashRes] at R1
          · rw [R1.1]; exact fun q h => h
          · rw [R1.1]; exact fun q h => h
          · rw [R1.1]; intro q h; simp [ids] at h
        cases e <;> simp only [RehashRes] at R1 <;> simp only [Pass]
        · exact ⟨R1.1, trivial⟩
        · exact ⟨R1.1, trivial, R1.2.2⟩
        · exact ⟨R1.1, trivial, R1.2⟩
      | none =>
        simp only [RehashRes] at R1
        obtain ⟨q, eq, fq⟩ := findLast_ok g T1.wf T1.ok (P.kfn b.2)
        simp only
        rw [eq, R.ok_bind]
        simp only [R.ok_bind]
        exact fin O.hd I1 (Eff.one O (same_sub g R1.1)) R1.1 (fq.found g (by simp))
    · rw [if_neg hn, R.ok_bind]
      simp only
      exact fin rfl I Eff.refl Same.refl f'

theorem grp_eq_nil {P : Par α K} {X X' : List (Nat × α)} (s : Same P X X') (k : K) : grp P k X' = grp P k X := s k

theorem moves_same {P : Par α K} : ∀ {Y X X' : List (Nat × α)}, Same P X X' → moves P X' Y = moves P X Y ∧ stays P X' Y = stays P X Y
  | [], _, _, _ => ⟨rfl, rfl⟩
  | a :: Y, X, X', s => by
    have s' : Same P (X ++ [a]) (X' ++ [a]) := by intro k; rw [List.filter_append, List.filter_append, s k]
    have h1 := moves_same (Y := Y) s
    have h2 := moves_same (Y := Y) s'
    unfold moves stays
    rw [grp_eq_nil s, h1.1, h1.2, h2.1, h2.2]; exact ⟨rfl, rfl⟩

theorem headD_mem {env : List (Bool × Option Nat)} {p : Bool × Option Nat → Prop} (h : p (env.headD (true, none))) (h0 : ¬ p (true, none)) : ∃ x ∈ env, p x := by
  cases env with
  | nil => exact absurd h h0
  | cons a env => exact ⟨a, by simp, h⟩

set_option maxHeartbeats 1600000 in
theorem mergeLoop_ok {P Q : Par α K} (g : Good P) (hk : ∀ v, Q.kfn v = P.kfn v) (hh : ∀ k, Q.hash k = P.hash k) : ∀ {f : Nat} {h : Hp α} {t u : Tab} {X S T : List (Nat × α)} {env : List (Bool × Option Nat)},
    Two P Q h t u X (S ++ T) → T.length < f →
    ∃ h' t' u' e X' Y', mergeLoop P f h t u (atFirst u.con.hd T) env = .ok (h', t', u', e) ∧ t'.con.hd = t.con.hd ∧ u'.con.hd = u.con.hd ∧ Two P Q h' t' u' X' (S ++ Y') ∧ Eff h t u X (S ++ T) h' X' (S ++ Y') ∧ Merged P X T env X' Y' e
  | 0, _, _, _, _, _, _, _, _, hf => by omega
  | f + 1, h, t, u, X, S, [], env, I, hf => by
    unfold mergeLoop
    rw [if_neg (by simp [atFirst])]
    exact ⟨h, t, u, none, X, [], rfl, rfl, rfl, by simpa using I, Eff.refl, 0, by simp, rfl, rfl, fun k => by simp [moves, grp]⟩
  | f + 1, h, t, u, X, S, b :: T, env, I, hf => by
    unfold mergeLoop
    have hnd := I.uk.wf.nd
    have e0 : S ++ b :: T = S ++ [b] ++ T := by simp
    rw [e0] at I
    rw [if_pos (by rw [atFirst_cons]; nds at hnd; grind), atFirst_cons, WF.ndAt I.uk.wf, R.ok_bind]
    obtain ⟨h1, t1, u1, e, X1, Y1, e1, c1, c2, I1, E1, p1⟩ := mergeOne_ok g hk hh I (env.headD (true, none)).1 (env.headD (true, none)).2
    simp only
    rw [e1, R.ok_bind]
    have em : ∀ {p : Bool × Option Nat → Prop}, (∃ x ∈ env.tail, p x) → ∃ x ∈ env, p x := fun ⟨x, hx, hp⟩ => ⟨x, List.mem_of_mem_tail hx, hp⟩
    cases e with
    | some e =>
      simp only
      have hY : Y1 = S ++ b :: T := by
        rw [e0]; cases e <;> simp only [Pass] at p1
        · exact p1.2
        · exact p1.2.1
        · exact p1.2.1
      refine ⟨h1, t1, u1, some e, X1, b :: T, rfl, c1, c2, by rw [← hY]; exact I1, by rw [e0, ← e0, ← hY, hY, e0, ← e0, ← hY]; rw [← e0] at E1; rw [hY] at E1 ⊢; exact E1, 0, by simp, rfl, ?_⟩
      have hm : ∀ k, grp P k X = grp P k X ++ grp P k (moves P X (List.take 0 (b :: T))) := fun k => by simp [moves, grp]
      cases e <;> simp only [Pass] at p1 <;> simp only
      · rw [p1.1]; exact hm
      · rw [p1.1]; exact ⟨headD_mem (p := fun x => x.1 = false) p1.2.2 (by simp), hm⟩
      · exact ⟨headD_mem (p := fun x => x.2 ≠ none) p1.2.2 (by simp), p1.1⟩
    | none =>
      simp only
      simp only [Pass] at p1
      rcases p1 with ⟨m1, m2, rfl, rfl⟩ | ⟨m1, sm, rfl⟩
      · obtain ⟨h2, t2, u2, e, X2, Y2, e2, d1, d2, I2, E2, i, hi, hY, hX⟩ := mergeLoop_ok g hk hh (f := f) (S := S ++ [b]) (T := T) (env := env.tail) (by simpa using I1) (by simp at hf; omega)
        rw [c2] at e2
        refine ⟨h2, t2, u2, e, X2, b :: Y2, e2, d1.trans c1, d2.trans c2, by simpa using I2, by rw [e0]; exact E1.trans I (by simpa using E2) c1 c2, i + 1, by simp; omega, ?_, ?_⟩
        · rw [hY, List.take_succ_cons, List.drop_succ_cons]; conv_rhs => unfold stays
          rw [if_pos ⟨m1, m2⟩]; rfl
        · have hmv : moves P X1 (List.take (i + 1) (b :: T)) = moves P X1 (T.take i) := by
            rw [List.take_succ_cons]; conv_lhs => unfold moves
            rw [if_pos ⟨m1, m2⟩]
          rw [hmv]
          cases e with
          | none => simp only at hX ⊢; exact ⟨by simp [hX.1], hX.2⟩
          | some e => cases e <;> simp only at hX ⊢ <;> first | exact hX | exact ⟨em hX.1, hX.2⟩
      · obtain ⟨h2, t2, u2, e, X2, Y2, e2, d1, d2, I2, E2, i, hi, hY, hX⟩ := mergeLoop_ok g hk hh (f := f) (S := S) (T := T) (env := env.tail) I1 (by simp at hf; omega)
        rw [c2] at e2
        have hms := moves_same (P := P) (Y := T.take i) sm
        refine ⟨h2, t2, u2, e, X2, Y2, e2, d1.trans c1, d2.trans c2, I2, by rw [e0]; exact E1.trans I E2 c1 c2, i + 1, by simp; omega, ?_, ?_⟩
        · rw [hY, List.take_succ_cons, List.drop_succ_cons]; conv_rhs => unfold stays
          rw [if_neg m1, hms.2]
        · have hmv : ∀ k, grp P k X1 ++ grp P k (moves P X1 (T.take i)) = grp P k X ++ grp P k (moves P X (List.take (i + 1) (b :: T))) := by
            intro k
            rw [List.take_succ_cons, hms.1]; conv_rhs => unfold moves
            rw [if_neg m1, grp_eq_nil sm]
            unfold grp; simp only [List.filter_append, List.filter_cons, List.append_assoc]; split <;> simp
          simp only [hmv] at hX
          cases e with
          | none => simp only at hX ⊢; exact ⟨by simp [hX.1], hX.2⟩
          | some e => cases e <;> simp only at hX ⊢ <;> first | exact hX | exact ⟨em hX.1, hX.2⟩

theorem merge_ok {P Q : Par α K} (g : Good P) (hk : ∀ v, Q.kfn v = P.kfn v) (hh : ∀ k, Q.hash k = P.hash k) {h : Hp α} {t u : Tab} {X Y : List (Nat × α)} (I : Two P Q h t u X Y) (env : List (Bool × Option Nat)) :
    ∃ h' t' u' e X' Y', merge P h t u env = .ok (h', t', u', e) ∧ t'.con.hd = t.con.hd ∧ u'.con.hd = u.con.hd ∧ Two P Q h' t' u' X' Y' ∧ Eff h t u X Y h' X' Y' ∧ Merged P X Y env X' Y' e := by
  unfold merge
  rw [WF.ndHd I.uk.wf, R.ok_bind]
  exact mergeLoop_ok g hk hh (S := []) (by simpa using I) (by rw [I.uk.wf.size]; omega)

end STL.UH
