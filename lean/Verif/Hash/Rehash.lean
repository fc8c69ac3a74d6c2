import Verif.Hash.Clear

/-! # Rehashing. Proofs only. -/

namespace STL.UH
open STL STL.DL
variable {α K β : Type}

/-- Where `_Forced_rehash` puts an element whose key differs from the last one of its bucket. -/
theorem rehashBack_spec {P : Par α K} {h : Hp α} {c : Con} {key : K} {A : List (Nat × α)} : ∀ {f : Nat} {B C : List (Nat × α)} {w : Nat × α},
    WF h c (A ++ (B ++ [w]) ++ C) → B.length < f →
    (∃ D a E, B = D ++ [a] ++ E ∧ eqk P key a = true ∧ (∀ e ∈ E, eqk P key e = false) ∧
      rehashBack P h key (atFirst c.hd (B ++ [w])) f w.1 = .ok (atFirst c.hd (E ++ [w] ++ C), false)) ∨
    ((∀ e ∈ B, eqk P key e = false) ∧ rehashBack P h key (atFirst c.hd (B ++ [w])) f w.1 = .ok (atFirst c.hd (B ++ [w]), true))
  | 0, _, _, _, _, hf => by omega
  | f + 1, B, C, w, W, hf => by
    unfold rehashBack
    have n := WF.ndAt (A := A ++ B) (a := w) (B := C) (by simpa using W)
    rcases List.eq_nil_or_concat B with rfl | ⟨B', w', rfl⟩
    · right
      rw [if_pos (by rfl)]
      exact ⟨by simp, rfl⟩
    · have hnd := W.nd
      rw [List.concat_eq_append] at *
      have hne : atFirst c.hd (B' ++ [w'] ++ [w]) ≠ w.1 := by
        rw [atFirst_app (by simp)]
        have b1 := atFirst_block (d := c.hd) (M := B' ++ [w']) (by simp)
        nds at hnd b1; grind
      rw [if_neg hne, n, R.ok_bind, show atLast c.hd (A ++ (B' ++ [w'])) = w'.1 by rw [← List.append_assoc, atLast_snoc]]
      simp only
      rw [WF.valAt (a := w') W (by simp), R.ok_bind]
      by_cases he : P.eq key (P.kfn w'.2) = true
      · left
        rw [if_pos he, WF.ndAt (A := A ++ B') (a := w') (B := [w] ++ C) (by simpa using W), R.ok_bind]
        exact ⟨B', w', [], by simp, he, by simp, by simp⟩
      · rw [if_neg he]
        have e0 : atFirst c.hd (B' ++ [w'] ++ [w]) = atFirst c.hd (B' ++ [w']) := atFirst_app (by simp)
        rw [e0]
        rcases rehashBack_spec (P := P) (key := key) (A := A) (f := f) (B := B') (C := [w] ++ C) (w := w') (by simpa using W) (by simp at hf; omega) with ⟨D, a, E, e1, e2, e3, e4⟩ | ⟨e1, e2⟩
        · left
          refine ⟨D, a, E ++ [w'], by rw [e1]; simp, e2, ?_, by rw [e4]; simp⟩
          simp only [List.mem_append, List.mem_singleton]; rintro e (h | rfl)
          · exact e3 e h
          · simpa [eqk] using he
        · right
          refine ⟨?_, e2⟩
          simp only [List.mem_append, List.mem_singleton]; rintro e (h | rfl)
          · exact e1 e h
          · simpa [eqk] using he

/-- Moving the element after `N` to before `N`. -/
theorem moveOne {h : Hp α} {c : Con} {L N T : List (Nat × α)} {x : Nat × α} (W : WF h c (L ++ N ++ x :: T)) (hN : N ≠ []) :
    ∃ h', uncheckedSplice h (atFirst c.hd (N ++ x :: T)) x.1 (atFirst c.hd T) = .ok h' ∧ One h c (L ++ N ++ x :: T) h' c (L ++ x :: N ++ T) := by
  have HH := splice_left (A := L) (M := N) (N := [x]) (B := T) (by simpa using W) hN (by simp)
  obtain ⟨h', e, O⟩ := HH
  refine ⟨h', ?_, by simpa using O⟩
  rw [atFirst_app hN]; exact e

/-- One pass of the loop. -/
theorem rehashOne_ok {P : Par α K} (g : Good P) {h : Hp α} {t : Tab} {Dn Td : List (Nat × α)} {x : Nat × α} (W : WF h t.con (Dn ++ x :: Td)) (k : BOK P t.mask t.con.hd t.vec Dn) :
    ∃ h' vec' L N, rehashOne P h t x.1 (atFirst t.con.hd Td) = .ok (h', vec') ∧ Dn = L ++ N ∧ One h t.con (Dn ++ x :: Td) h' t.con (L ++ x :: N ++ Td) ∧
      BOK P t.mask t.con.hd vec' (L ++ x :: N) ∧ vec'.length = t.vec.length ∧ ∀ a ∈ N, eqk P (P.kfn x.2) a = false := by
  unfold rehashOne bucket
  rw [WF.valAt (a := x) W (by simp), R.ok_bind]
  simp only [shl1]
  have hb : P.hash (P.kfn x.2) &&& t.mask ≤ t.mask := Nat.and_le_right
  rw [vget_ok (k.lo _ hb), R.ok_bind]
  have hlen := k.len hb
  have hlo := k.lo _ hb
  have hhi := k.hi _ hb
  have hnd := W.nd
  have hndD : (t.con.hd :: ids Dn).Nodup := by nds at hnd ⊢; grind
  have hsz := W.size
  have hins : ∀ vec' L N, Dn = L ++ N → Place P t.mask (P.kfn x.2) L N → Upd P t.mask (P.hash (P.kfn x.2) &&& t.mask) t.vec L N x.1 vec' → BOK P t.mask t.con.hd vec' (L ++ x :: N) := by
    intro vec' L N e pl u; rw [e] at k; exact k.insert g pl u
  have hkey : ∀ {a : Nat × α}, inB P t.mask (P.hash (P.kfn x.2) &&& t.mask) a = false → eqk P (P.kfn x.2) a = false := fun h => not_eqk_of_not_inB g h
  obtain ⟨A, C, e, hA, hC⟩ := (k.cont (P.hash (P.kfn x.2) &&& t.mask)).split
  by_cases hF : Dn.filter (inB P t.mask (P.hash (P.kfn x.2) &&& t.mask)) = []
  · rw [if_pos ((first_hd hndD fun q hq => filter_ids hq).2 hF)]
    have hno := filter_none.1 hF
    generalize eb : P.hash (P.kfn x.2) &&& t.mask = b at *
    obtain ⟨v1, ev1, l1, g1⟩ := vset_ok (v := t.vec) (i := 2 * b) (by omega) x.1
    obtain ⟨v2, ev2, l2, g2⟩ := vset_ok (v := v1) (i := 2 * b + 1) (by omega) x.1
    rw [ev1, R.ok_bind, ev2, R.ok_bind]
    refine ⟨h, v2, Dn, [], rfl, by simp, by simpa using One.refl W, hins v2 Dn [] (by simp) (Or.inr ⟨?_, Or.inl ⟨?_, rfl⟩⟩) ⟨by omega, ?_, ?_, ?_⟩, by omega, by simp⟩
    · intro a ha; exact hkey (hno a (by simpa using ha))
    · rw [eb]; simpa using hno
    · rw [g2, g1, if_neg (by omega), if_pos rfl, if_pos hF]
    · rw [g2, if_pos rfl, if_pos (by simp)]
    · intro i h1 h2; rw [g2, g1, if_neg h2, if_neg h1]
  rw [if_neg (fun hh => hF ((first_hd hndD fun q hq => filter_ids hq).1 hh)), vget_ok (k.hi _ hb), R.ok_bind]
  have hall : ∀ a ∈ Dn.filter (inB P t.mask (P.hash (P.kfn x.2) &&& t.mask)), inB P t.mask (P.hash (P.kfn x.2) &&& t.mask) a = true := fun a ha => (List.mem_filter.1 ha).2
  generalize Dn.filter (inB P t.mask (P.hash (P.kfn x.2) &&& t.mask)) = F at *
  have hCk : ∀ a ∈ C, eqk P (P.kfn x.2) a = false := fun a ha => hkey (hC a ha)
  have hAk : ∀ a ∈ A, eqk P (P.kfn x.2) a = false := fun a ha => hkey (hA a ha)
  rcases List.eq_nil_or_concat F with h0 | ⟨F', w, h0⟩
  · exact absurd h0 hF
  rw [List.concat_eq_append] at h0
  subst h0
  rw [atLast_snoc]
  have hw := hall w (by simp)
  rw [e] at W hsz
  rw [WF.valAt (a := w) W (by simp), R.ok_bind]
  by_cases he : P.eq (P.kfn x.2) (P.kfn w.2) = true
  · -- after the last element of the bucket
    rw [if_pos he, WF.ndAt (A := A ++ F') (a := w) (B := C ++ x :: Td) (by simpa using W), R.ok_bind]
    simp only
    have hsp : ∃ h', (if atFirst t.con.hd (C ++ x :: Td) ≠ x.1 then uncheckedSplice h (atFirst t.con.hd (C ++ x :: Td)) x.1 (atFirst t.con.hd Td) else .ok h : R (Hp α)) = .ok h' ∧
        One h t.con (Dn ++ x :: Td) h' t.con (A ++ (F' ++ [w]) ++ x :: C ++ Td) := by
      by_cases hC0 : C = []
      · subst hC0
        rw [if_neg (by simp [atFirst])]
        rw [e]
        exact ⟨h, rfl, by simpa using One.refl W⟩
      · rw [if_pos (by
          rw [atFirst_app hC0]
          have := atFirst_block (d := t.con.hd) hC0
          rw [e] at hnd
          nds at hnd this; grind)]
        rw [e]
        exact moveOne W hC0
    obtain ⟨h', e1, O⟩ := hsp
    rw [e1, R.ok_bind]
    have hL : (A ++ (F' ++ [w])).filter (inB P t.mask (P.hash (P.kfn x.2) &&& t.mask)) ≠ [] := by
      rw [← List.append_assoc]; exact filter_snoc_ne hw
    generalize eb : P.hash (P.kfn x.2) &&& t.mask = b at *
    obtain ⟨v1, ev1, l1, g1⟩ := vset_ok (v := t.vec) (i := 2 * b + 1) (by omega) x.1
    rw [ev1, R.ok_bind]
    refine ⟨h', v1, A ++ (F' ++ [w]), C, rfl, e, O, hins v1 _ _ e (Or.inl ⟨A ++ F', w, by simp, he⟩) ⟨l1, ?_, ?_, ?_⟩, l1, hCk⟩
    · rw [g1, if_neg (by omega), if_neg hL]
    · rw [g1, if_pos rfl, if_pos (filter_none.2 hC)]
    · intro i h1 h2; rw [g1, if_neg h2]
  rw [if_neg he]
  rcases rehashBack_spec (P := P) (key := P.kfn x.2) (A := A) (f := t.con.size + 1) (B := F') (C := C ++ x :: Td) (w := w) (by simpa using W) (by simp at hsz; omega) with
    ⟨D, a, E, e1, e2, e3, e4⟩ | ⟨e1, e2⟩
  · rw [e4, R.ok_bind]
    simp only [Bool.false_eq_true, ↓reduceIte]
    have eD : Dn = (A ++ D ++ [a]) ++ (E ++ [w] ++ C) := by rw [e, e1]; simp
    have HH := moveOne (L := A ++ D ++ [a]) (N := E ++ [w] ++ C) (T := Td) (x := x) (h := h) (c := t.con) (by rw [← eD, e]; exact W) (by simp)
    obtain ⟨h', es, O⟩ := HH
    rw [← List.append_assoc, es, R.ok_bind]
    have ha : inB P t.mask (P.hash (P.kfn x.2) &&& t.mask) a = true := hall a (by rw [e1]; simp)
    refine ⟨h', t.vec, _, _, rfl, eD, by rw [← eD] at O; exact O, hins t.vec _ _ eD (Or.inl ⟨A ++ D, a, rfl, e2⟩) ⟨rfl, ?_, ?_, fun _ _ _ => rfl⟩, rfl, ?_⟩
    · rw [if_neg (filter_snoc_ne ha)]
    · rw [if_neg]
      intro hh; have := filter_none.1 hh w (by simp); rw [hw] at this; simp at this
    · simp only [List.mem_append, List.mem_singleton]
      rintro b ((hb | rfl) | hb)
      · exact e3 b hb
      · simpa [eqk] using he
      · exact hCk b hb
  · rw [e2, R.ok_bind]
    simp only [↓reduceIte]
    have eD : Dn = A ++ (F' ++ [w] ++ C) := by rw [e]; simp
    have HH := moveOne (L := A) (N := F' ++ [w] ++ C) (T := Td) (x := x) (h := h) (c := t.con) (by rw [← eD, e]; exact W) (by simp)
    obtain ⟨h', es, O⟩ := HH
    rw [show atFirst t.con.hd (F' ++ [w] ++ C ++ x :: Td) = atFirst t.con.hd (F' ++ [w]) by rw [List.append_assoc _ C, atFirst_app (by simp)]] at es
    rw [es, R.ok_bind]
    have hN : (F' ++ [w] ++ C).filter (inB P t.mask (P.hash (P.kfn x.2) &&& t.mask)) ≠ [] := by
      intro hh; have := filter_none.1 hh w (by simp); rw [hw] at this; simp at this
    have hNk : ∀ a ∈ F' ++ [w] ++ C, eqk P (P.kfn x.2) a = false := by
      simp only [List.mem_append, List.mem_singleton]
      rintro b ((hb | rfl) | hb)
      · exact e1 b hb
      · simpa [eqk] using he
      · exact hCk b hb
    have pl : Place P t.mask (P.kfn x.2) A (F' ++ [w] ++ C) := by
      right
      refine ⟨?_, Or.inr ?_⟩
      · intro b hb; rcases List.mem_append.1 hb with hb | hb
        · exact hAk b hb
        · exact hNk b hb
      · cases hFc : F' ++ [w] with
        | nil => simp at hFc
        | cons r F'' => exact ⟨r, F'' ++ C, by simp, hall r (by simp [hFc]), hA⟩
    generalize eb : P.hash (P.kfn x.2) &&& t.mask = b at *
    obtain ⟨v1, ev1, l1, g1⟩ := vset_ok (v := t.vec) (i := 2 * b) (by omega) x.1
    rw [ev1, R.ok_bind]
    refine ⟨h', v1, _, _, rfl, eD, by rw [← eD] at O; exact O, hins v1 _ _ eD pl ⟨l1, ?_, ?_, ?_⟩, l1, hNk⟩
    · rw [g1, if_pos rfl, if_pos (filter_none.2 hA)]
    · rw [g1, if_neg (by omega), if_neg hN]
    · intro i h1 h2; rw [g1, if_neg h1]

/-- All groups are as before. -/
def Same (P : Par α K) (X Y : List (Nat × α)) : Prop := ∀ k, Y.filter (eqk P k) = X.filter (eqk P k)

theorem Same.mem {P : Par α K} (g : Good P) {X Y : List (Nat × α)} (s : Same P X Y) (a : Nat × α) : a ∈ Y ↔ a ∈ X := by
  have := s (P.kfn a.2)
  have h1 : a ∈ Y.filter (eqk P (P.kfn a.2)) ↔ a ∈ X.filter (eqk P (P.kfn a.2)) := by rw [this]
  simp only [List.mem_filter, eqk, g.refl, and_true] at h1
  exact h1

theorem Same.refl {P : Par α K} {X : List (Nat × α)} : Same P X X := fun _ => rfl
theorem Same.trans {P : Par α K} {X Y Z : List (Nat × α)} (a : Same P X Y) (b : Same P Y Z) : Same P X Z := fun k => (b k).trans (a k)

theorem rehashLoop_ok {P : Par α K} (g : Good P) : ∀ {f : Nat} {h : Hp α} {t : Tab} {Dn Td : List (Nat × α)} {thr : Option Nat}, WF h t.con (Dn ++ Td) → BOK P t.mask t.con.hd t.vec Dn → Td.length < f →
    ∃ h' vec' fl Dn' Td', rehashLoop P f h t (atFirst t.con.hd Td) thr = .ok (h', { t with vec := vec' }, fl) ∧ One h t.con (Dn ++ Td) h' t.con (Dn' ++ Td') ∧ Same P (Dn ++ Td) (Dn' ++ Td') ∧
      BOK P t.mask t.con.hd vec' Dn' ∧ vec'.length = t.vec.length ∧ (fl = false → Td' = []) ∧ (thr = none → fl = false)
  | 0, _, _, _, _, _, _, _, hf => by omega
  | f + 1, h, t, Dn, [], thr, W, k, hf => by
    unfold rehashLoop
    rw [if_neg (by simp [atFirst])]
    exact ⟨h, t.vec, false, Dn, [], rfl, One.refl W, Same.refl, k, rfl, by simp, by simp⟩
  | f + 1, h, t, Dn, x :: Td, thr, W, k, hf => by
    unfold rehashLoop
    have hnd := W.nd
    rw [if_pos (by rw [atFirst_cons]; nds at hnd; grind), atFirst_cons, WF.ndAt (A := Dn) (a := x) (B := Td) (by simpa using W), R.ok_bind]
    by_cases ht : thr = some 0
    · rw [if_pos ht]
      exact ⟨h, t.vec, true, Dn, x :: Td, rfl, One.refl W, Same.refl, k, rfl, by simp, by simp [ht]⟩
    · rw [if_neg ht]
      obtain ⟨h1, v1, L, N, e1, e2, O, K1, l1, hN⟩ := rehashOne_ok g W k
      simp only
      rw [e1, R.ok_bind]
      obtain ⟨h2, v2, fl, Dn', Td', e3, O2, s2, K2, l2, hfl, hthr⟩ := rehashLoop_ok g (f := f) (h := h1) (t := { t with vec := v1 }) (Dn := L ++ x :: N) (Td := Td) (thr := thr.map (· - 1)) O.wf K1 (by simp at hf; omega)
      refine ⟨h2, v2, fl, Dn', Td', e3, O.trans O2, ?_, K2, by rw [l2]; exact l1, hfl, fun h => hthr (by rw [h]; rfl)⟩
      refine Same.trans ?_ s2
      intro q
      rw [e2, List.filter_append, grp_insert_last g q hN]
      simp only [List.filter_append, List.filter_cons]
      split <;> simp

theorem ceil_ge (n : Nat) : n ≤ 1 <<< ceilLog2 n := by
  unfold ceilLog2 floorLog2
  rw [Nat.shiftLeft_eq, Nat.one_mul]
  have h1 : (n - 1) ||| 1 < 2 ^ (Nat.log2 ((n - 1) ||| 1) + 1) := Nat.lt_log2_self
  have h2 : n - 1 ≤ (n - 1) ||| 1 := Nat.left_le_or
  rw [Nat.add_comm 1]; omega

/-- The invariant of a table with the elements `X`. -/
structure TOK (P : Par α K) (h : Hp α) (t : Tab) (X : List (Nat × α)) : Prop where
  wf : WF h t.con X
  ok : BOK P t.mask t.con.hd t.vec X
  uniq : P.multi = false → ∀ k, (X.filter (eqk P k)).length ≤ 1
  pow : ∃ n, 3 ≤ n ∧ t.maxidx = 2 ^ n
  mask : t.mask + 1 = t.maxidx

/-- What `_Forced_rehash` does. -/
def RehashRes (P : Par α K) (X : List (Nat × α)) (t : Tab) (buckets : Nat) (vok : Bool) (thr : Option Nat) (X' : List (Nat × α)) (t' : Tab) : Option Exc → Prop
  | some .lengthError => X' = X ∧ t' = t ∧ 2 ^ Nat.log2 (P.vecMax / 2 ||| 1) < buckets
  | some .badAlloc => X' = X ∧ t' = t ∧ vok = false
  | some .user => X' = [] ∧ thr ≠ none
  | none => Same P X X' ∧ buckets ≤ t'.maxidx
  | _ => False

theorem forcedRehash_ok {P : Par α K} (g : Good P) {h : Hp α} {t : Tab} {X : List (Nat × α)} (T : TOK P h t X) (h0 : h 0 = none) {buckets : Nat} (hb : 8 ≤ buckets) (vok : Bool) (thr : Option Nat) :
    ∃ h' t' e X', forcedRehash P h t buckets vok thr = .ok (h', t', e) ∧ TOK P h' t' X' ∧ One h t.con X h' t'.con X' ∧ t'.lf = t.lf ∧ RehashRes P X t buckets vok thr X' t' e := by
  unfold forcedRehash
  by_cases hl : buckets > 1 <<< floorLog2 (P.vecMax >>> 1)
  · rw [if_pos hl]
    refine ⟨h, t, _, X, rfl, T, One.refl T.wf, rfl, rfl, rfl, ?_⟩
    simpa [floorLog2, Nat.shiftLeft_eq, Nat.shiftRight_eq_div_pow] using hl
  rw [if_neg hl]
  have hge := ceil_ge buckets
  have hpow : 1 <<< ceilLog2 buckets = 2 ^ ceilLog2 buckets := by rw [Nat.shiftLeft_eq, Nat.one_mul]
  have h3 : 3 ≤ ceilLog2 buckets := by
    by_contra hh
    have : 2 ^ ceilLog2 buckets ≤ 2 ^ 2 := Nat.pow_le_pow_right (by omega) (by omega)
    rw [hpow] at hge; omega
  generalize eB : 1 <<< ceilLog2 buckets = B at *
  simp only [shl1]
  cases ha : assignGrow t.vec (2 * B) t.con.hd vok with
  | none =>
    refine ⟨h, t, _, X, rfl, T, One.refl T.wf, rfl, rfl, rfl, ?_⟩
    unfold assignGrow at ha
    split at ha
    · cases vok <;> simp at ha ⊢
    · simp at ha
  | some vec =>
    simp only
    have hv : ∃ n, vec = List.replicate n t.con.hd ∧ 2 * B ≤ n := by
      unfold assignGrow at ha
      split at ha
      · cases vok
        · simp at ha
        · simp at ha; exact ⟨_, ha.symm, Nat.le_refl _⟩
      · simp at ha; exact ⟨_, ha.symm, by omega⟩
    obtain ⟨n, rfl, hn⟩ := hv
    rw [WF.ndHd T.wf, R.ok_bind]
    simp only
    obtain ⟨h1, v1, fl, Dn, Td, e1, O, s, K1, l1, hfl, hthr⟩ := rehashLoop_ok g (f := t.con.size + 1) (h := h) (t := { t with vec := List.replicate n t.con.hd, mask := B - 1, maxidx := B }) (Dn := []) (Td := X) (thr := thr)
      (by simpa using T.wf) (BOK.empty (show 2 * (B - 1) + 1 < n by omega)) (by rw [T.wf.size]; omega)
    rw [e1, R.ok_bind]
    simp only [List.nil_append] at O s
    cases fl
    · simp only [Bool.false_eq_true, ↓reduceIte]
      have := hfl rfl; subst this
      rw [List.append_nil] at O s
      refine ⟨h1, _, _, Dn, rfl, ⟨O.wf, K1, ?_, ⟨_, h3, hpow⟩, by simp only; omega⟩, O, rfl, s, hge⟩
      intro hm q; rw [s q]; exact T.uniq hm q
    · simp only [↓reduceIte]
      obtain ⟨h2, v2, e2, O2, K2, l2⟩ := clearTab_ok (P := P) (t := { t with vec := v1, mask := B - 1, maxidx := B }) O.wf K1 (by
        by_cases h00 : (0 : Nat) = t.con.hd
        · exfalso; exact T.wf.live (Or.inl h00) h0
        · by_cases hX' : (0 : Nat) ∈ ids (Dn ++ Td)
          · rcases O.new 0 hX' with hh | hh
            · exfalso; exact T.wf.live (Or.inr hh) h0
            · exact absurd rfl hh.2
          · by_cases hX : (0 : Nat) ∈ ids X
            · exfalso; exact T.wf.live (Or.inr hX) h0
            · rw [O.frame 0 h00 hX hX', h0])
      rw [e2, R.ok_bind]
      refine ⟨h2, _, _, [], rfl, ⟨O2.wf, K2, by simp, ⟨_, h3, hpow⟩, by simp only; omega⟩, O.trans O2, rfl, rfl, ?_⟩
      intro hh; have := hthr hh; simp at this

end STL.UH
