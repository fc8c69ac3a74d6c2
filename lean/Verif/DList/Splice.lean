import Verif.DList.Assign

/-! # `splice`. Proofs only. -/

namespace STL.DL
open STL
variable {α : Type}

theorem range_split {hd i j : Nat} {X : List (Nat × α)} (hnd : (hd :: ids X).Nodup) (hi : i ∈ hd :: ids X) (hj : j = hd ∨ j ∈ ids (fro X i)) :
    X = bef X i ++ range X i j ++ fro (fro X i) j ∧ atFirst hd (range X i j ++ fro (fro X i) j) = i ∧ atFirst hd (fro (fro X i) j) = j := by
  obtain ⟨e1, e2, e3⟩ := pos_split hnd (List.mem_cons.1 hi)
  have hnd2 : (hd :: ids (fro X i)).Nodup := by rw [e1] at hnd; nds at hnd ⊢; grind
  obtain ⟨e4, e5, e6⟩ := pos_split hnd2 hj
  unfold range
  refine ⟨?_, ?_, e5⟩
  · rw [List.append_assoc, ← e4, ← e1]
  · rw [← e4, e2]

theorem putAt_nil {X : List (Nat × α)} {p : Nat} : putAt X p [] = X := by unfold putAt; simp [bef, fro]

/-- Moving a block to another place of the same list. -/
theorem splice_within {h : Hp α} {c : Con} {A M B : List (Nat × α)} {p : Nat} (W : WF h c (A ++ M ++ B)) (hM : M ≠ []) (hp : p = c.hd ∨ p ∈ ids (A ++ B)) (hpB : p ≠ atFirst c.hd B) :
    ∃ h', uncheckedSplice h p (atFirst c.hd M) (atFirst c.hd B) = .ok h' ∧ One h c (A ++ M ++ B) h' c (putAt (A ++ B) p M) := by
  have hnd := W.nd
  have hnd2 : (c.hd :: ids (A ++ B)).Nodup := by nds at hnd ⊢; grind
  by_cases hA : p ∈ ids A
  · have hndA : (c.hd :: ids A).Nodup := by nds at hnd ⊢; grind
    obtain ⟨e1, e2, e3⟩ := pos_split hndA (Or.inr hA)
    have hne : fro A p ≠ [] := by
      intro hh; rw [hh] at e2; simp [atFirst] at e2; rw [← e2] at hA; nds at hndA; grind
    generalize eA1 : bef A p = A1 at *
    generalize eA2 : fro A p = A2 at *
    subst e1
    have HH := splice_left (A := A1) (M := A2) (N := M) (B := B) W hne hM
    obtain ⟨h', e, O⟩ := HH
    rw [e2] at e
    refine ⟨h', e, ?_⟩
    have : putAt (A1 ++ A2 ++ B) p M = A1 ++ M ++ A2 ++ B := by
      unfold putAt
      rw [List.append_assoc A1 A2 B, bef_app e3, fro_app e3]
      cases A2 with
      | nil => exact absurd rfl hne
      | cons a A2 => rw [atFirst_cons] at e2; subst e2; rw [List.cons_append, bef_cons, fro_cons]; simp
    rw [this]; exact O
  · have hpB2 : p = c.hd ∨ p ∈ ids B := by nds at hp hA ⊢; grind
    have hndB : (c.hd :: ids B).Nodup := by nds at hnd ⊢; grind
    obtain ⟨e1, e2, e3⟩ := pos_split hndB hpB2
    have hne : bef B p ≠ [] := by
      intro hh; rw [hh] at e1; rw [List.nil_append] at e1; rw [← e1] at e2; exact hpB e2.symm
    have hputAt : putAt (A ++ B) p M = A ++ bef B p ++ M ++ fro B p := by
      unfold putAt; rw [bef_app hA, fro_app hA]
    rw [hputAt]
    have W' := W
    rw [e1] at W'
    rw [← List.append_assoc] at W'
    have HH := splice_right W' hM hne
    rw [e2] at HH
    rw [← atFirst_app (N := fro B p) hne, ← e1] at HH
    have e5 : A ++ M ++ bef B p ++ fro B p = A ++ M ++ B := by rw [List.append_assoc, ← e1]
    rw [e5] at HH
    exact HH

theorem spliceOneSelf_ok {h : Hp α} {c : Con} {X : List (Nat × α)} {p i : Nat} (W : WF h c X) (hp : p ∈ c.hd :: ids X) (hi : i ∈ ids X) :
    ∃ h', spliceOneSelf h p i = .ok h' ∧ One h c X h' c (if p = i then X else putAt (bef X i ++ (fro X i).tail) p ((fro X i).take 1)) := by
  obtain ⟨e1, e2, e3⟩ := pos_split W.nd (Or.inr hi)
  generalize eA : bef X i = A at *
  generalize eB : fro X i = B at *
  subst e1
  have hnd := W.nd
  cases B with
  | nil => exfalso; simp [atFirst] at e2; subst e2; nds at hi hnd; grind
  | cons a B =>
  rw [atFirst_cons] at e2; subst e2
  unfold spliceOneSelf
  rw [nd_live (W.live (Or.inr hi)), R.ok_bind, W.next]; simp only
  by_cases h1 : p = a.1
  · rw [if_neg (by tauto), if_pos h1]; exact ⟨h, rfl, One.refl W⟩
  rw [if_neg h1]
  simp only [List.tail_cons, List.take_succ_cons, List.take_zero]
  by_cases h2 : p = atFirst c.hd B
  · rw [if_neg (by tauto)]
    refine ⟨h, rfl, ?_⟩
    have HH := bef_fro (hd := c.hd) (A := A) (B := B) (by nds at hnd ⊢; grind)
    unfold putAt
    rw [h2, HH.1, HH.2]
    simpa using One.refl W
  · rw [if_pos ⟨h1, h2⟩]
    have HH := splice_within (p := p) (A := A) (M := [a]) (B := B) (by simpa using W) (by simp) (by nds at hp ⊢; grind) h2
    rw [atFirst_cons] at HH
    simpa using HH

theorem spliceRangeSelf_ok {h : Hp α} {c : Con} {X : List (Nat × α)} {p i j : Nat} (W : WF h c X) (hp : p ∈ c.hd :: ids X) (hi : i ∈ c.hd :: ids X) (hj : j = c.hd ∨ j ∈ ids (fro X i))
    (hpM : p ∉ ids (range X i j)) : ∃ h', spliceRangeSelf h p i j = .ok h' ∧ One h c X h' c (putAt (without X i j) p (range X i j)) := by
  obtain ⟨e1, e2, e3⟩ := range_split W.nd hi hj
  unfold without
  generalize eA : bef X i = A at *
  generalize eM : range X i j = M at *
  generalize eB : fro (fro X i) j = B at *
  subst e1
  have hnd := W.nd
  unfold spliceRangeSelf
  have hp2 : p = c.hd ∨ p ∈ ids (A ++ B) := by nds at hp hpM ⊢; grind
  by_cases hM : M = []
  · subst hM
    rw [List.nil_append] at e2
    rw [if_neg (by rw [← e2, ← e3]; simp)]
    refine ⟨h, rfl, ?_⟩
    rw [putAt_nil]
    simpa using One.refl W
  rw [atFirst_app hM] at e2
  have hij : i ≠ j := by
    have b1 := atFirst_mem (hd := c.hd) B
    have b2 := atFirst_block (d := c.hd) hM
    rw [e2] at b2; rw [e3] at b1; nds at hnd; grind
  by_cases hpj : p = j
  · rw [if_neg (by tauto)]
    refine ⟨h, rfl, ?_⟩
    have HH := bef_fro (hd := c.hd) (A := A) (B := B) (by nds at hnd ⊢; grind)
    unfold putAt
    rw [hpj, ← e3, HH.1, HH.2]
    exact One.refl W
  · rw [if_pos ⟨hij, hpj⟩]
    have HH := splice_within (p := p) W hM hp2 (by rw [e3]; exact hpj)
    rwa [e2, e3] at HH

/-! ## Two lists -/

theorem splice2_ok {maxsz : Nat} {h : Hp α} {c d : Con} {X D M E : List (Nat × α)} {p : Nat} (W : WF h c X) (hp : p ∈ c.hd :: ids X) (V : WF h d (D ++ M ++ E)) (ap : Apart c X d (D ++ M ++ E)) (hM : M ≠ []) :
    ∃ h' c' d' e X' Y', splice2 maxsz h c d p (atFirst d.hd M) (atFirst d.hd E) M.length = .ok (h', c', d', e) ∧ Two h c X d (D ++ M ++ E) h' c' X' d' Y' ∧
      if maxsz - X.length < M.length then X' = X ∧ Y' = D ++ M ++ E ∧ e = some .lengthError else X' = putAt X p M ∧ Y' = D ++ E ∧ e = none := by
  unfold splice2
  rw [← W.size]
  by_cases hm : maxsz - c.size < M.length
  · simp only [if_pos hm]; exact ⟨h, c, d, _, X, _, rfl, Two.refl W V ap, rfl, rfl, rfl⟩
  · simp only [if_neg hm]
    obtain ⟨e1, e2, e3⟩ := pos_split W.nd (List.mem_cons.1 hp)
    unfold putAt
    generalize eA : bef X p = A at *
    generalize eB : fro X p = B at *
    subst e1
    obtain ⟨h', e, T⟩ := splice_other W V ap hM
    rw [e2] at e
    rw [e, R.ok_bind]
    exact ⟨h', _, _, _, _, _, rfl, T, rfl, rfl, rfl⟩

/-- What `splice` between two lists does. -/
def SplRes (maxsz p : Nat) (X Y M Y0 : List (Nat × α)) (X' Y' : List (Nat × α)) (e : Option Exc) : Prop :=
  if maxsz - X.length < M.length then X' = X ∧ Y' = Y ∧ e = some .lengthError else X' = putAt X p M ∧ Y' = Y0 ∧ e = none

theorem spliceAll_ok {maxsz : Nat} {h : Hp α} {c d : Con} {X Y : List (Nat × α)} {p : Nat} (W : WF h c X) (hp : p ∈ c.hd :: ids X) (V : WF h d Y) (ap : Apart c X d Y) :
    ∃ h' c' d' e X' Y', spliceAll maxsz h c d p = .ok (h', c', d', e) ∧ Two h c X d Y h' c' X' d' Y' ∧ SplRes maxsz p X Y Y [] X' Y' e := by
  unfold spliceAll SplRes
  by_cases hs : d.size = 0
  · have hY : Y = [] := by have := V.size; rw [hs] at this; exact List.eq_nil_of_length_eq_zero this.symm
    subst hY
    rw [if_neg (by simp [hs])]
    exact ⟨h, c, d, none, X, [], rfl, Two.refl W V ap, by simp [putAt_nil]⟩
  · have hY : Y ≠ [] := by rintro rfl; exact hs V.size
    rw [if_pos hs, nd_live (V.live (Or.inl rfl)), R.ok_bind, V.first]; simp only
    have HH := splice2_ok (maxsz := maxsz) (D := []) (M := Y) (E := []) W hp (by simpa using V) (by simpa using ap) hY
    rw [V.size]
    simpa [atFirst] using HH

theorem spliceOne_ok {maxsz : Nat} {h : Hp α} {c d : Con} {X Y : List (Nat × α)} {p i : Nat} (W : WF h c X) (hp : p ∈ c.hd :: ids X) (V : WF h d Y) (ap : Apart c X d Y) (hi : i ∈ ids Y) :
    ∃ h' c' d' e X' Y', spliceOne maxsz h c d p i = .ok (h', c', d', e) ∧ Two h c X d Y h' c' X' d' Y' ∧ SplRes maxsz p X Y ((fro Y i).take 1) (bef Y i ++ (fro Y i).tail) X' Y' e := by
  obtain ⟨e1, e2, e3⟩ := pos_split V.nd (Or.inr hi)
  generalize eA : bef Y i = A at *
  generalize eB : fro Y i = B at *
  subst e1
  have hnd := V.nd
  cases B with
  | nil => exfalso; simp [atFirst] at e2; subst e2; nds at hi hnd; grind
  | cons a B =>
  rw [atFirst_cons] at e2; subst e2
  unfold spliceOne SplRes
  rw [nd_live (V.live (Or.inr hi)), R.ok_bind, V.next]; simp only
  have HH := splice2_ok (maxsz := maxsz) (D := A) (M := [a]) (E := B) W hp (by simpa using V) (by simpa using ap) (by simp)
  rw [atFirst_cons] at HH
  simpa using HH

theorem countLoop_ok {h : Hp α} {c : Con} {B : List (Nat × α)} : ∀ {M A : List (Nat × α)} {f : Nat}, WF h c (A ++ M ++ B) → M.length < f →
    countLoop h f (atFirst c.hd (M ++ B)) (atFirst c.hd B) = .ok M.length
  | _, _, 0, _, hf => by omega
  | [], A, f + 1, W, _ => by simp [countLoop]
  | a :: M, A, f + 1, W, hf => by
    have hnd := W.nd
    have b1 := atFirst_mem (hd := c.hd) B
    unfold countLoop
    rw [List.cons_append, atFirst_cons, if_neg (by nds at hnd; grind), nd_live (W.live (Or.inr (by simp [ids]))), R.ok_bind]; simp only
    rw [WF.next (A := A) (a := a) (B := M ++ B) (by simpa using W), countLoop_ok (A := A ++ [a]) (by simpa using W) (by simp at hf; omega)]
    rfl

theorem spliceRange_ok {maxsz : Nat} {h : Hp α} {c d : Con} {X Y : List (Nat × α)} {p i j : Nat} (W : WF h c X) (hp : p ∈ c.hd :: ids X) (V : WF h d Y) (ap : Apart c X d Y)
    (hi : i ∈ d.hd :: ids Y) (hj : j = d.hd ∨ j ∈ ids (fro Y i)) :
    ∃ h' c' d' e X' Y', spliceRange maxsz h c d p i j = .ok (h', c', d', e) ∧ Two h c X d Y h' c' X' d' Y' ∧ SplRes maxsz p X Y (range Y i j) (without Y i j) X' Y' e := by
  obtain ⟨e1, e2, e3⟩ := range_split V.nd hi hj
  unfold without
  generalize eA : bef Y i = A at *
  generalize eM : range Y i j = M at *
  generalize eB : fro (fro Y i) j = B at *
  subst e1
  have hnd := V.nd
  unfold spliceRange
  by_cases hM : M = []
  · subst hM
    rw [List.nil_append] at e2
    rw [if_neg (by rw [← e2, ← e3]; simp)]
    refine ⟨h, c, d, none, X, _, rfl, Two.refl W V ap, ?_⟩
    unfold SplRes; simp [putAt_nil]
  have hc := countLoop_ok (f := d.size + 1) V (by rw [V.size]; simp; omega)
  rw [e2, e3] at hc
  rw [atFirst_app hM] at e2
  have b1 := atFirst_mem (hd := d.hd) B
  have b2 := atFirst_block (d := d.hd) hM
  have hij : i ≠ j := by rw [e2] at b2; rw [e3] at b1; nds at hnd; grind
  rw [if_pos hij, nd_live (V.live (Or.inl rfl)), R.ok_bind, V.first]; simp only
  have hcount : (if i = atFirst d.hd (A ++ M ++ B) ∧ j = d.hd then .ok d.size else countLoop h (d.size + 1) i j : R Nat) = .ok M.length := by
    split
    · rename_i hh
      obtain ⟨h1, h2⟩ := hh
      have hB : B = [] := by
        cases B with
        | nil => rfl
        | cons b B => exfalso; rw [atFirst_cons] at e3; nds at hnd; grind
      have hA : A = [] := by
        cases A with
        | nil => rfl
        | cons a A => exfalso; rw [List.cons_append, List.cons_append, atFirst_cons] at h1; rw [e2] at b2; nds at hnd; grind
      rw [V.size, hA, hB]; simp
    · exact hc
  rw [hcount, R.ok_bind]
  have HH := splice2_ok (maxsz := maxsz) W hp V ap hM
  rw [e2, e3] at HH
  exact HH

end STL.DL
