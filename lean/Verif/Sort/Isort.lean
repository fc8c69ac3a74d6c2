import Verif.Sort.Heap

/-! Lemmas about insertion sort. Besides sortedness we track stability (`Stab`), needed by `stable_sort`. -/

namespace STL
variable {α : Type _}

/-- `x` is equivalent to `k` under the ordering. -/
def eqv (lt : α → α → Bool) (k x : α) : Bool := !lt x k && !lt k x

/-- Every class of equivalent elements appears in `ys` in the same order (and number) as in `xs`. -/
def Stab (lt : α → α → Bool) (xs ys : List α) : Prop :=
  ∀ k, ys.filter (eqv lt k) = xs.filter (eqv lt k)

theorem Stab.refl (lt : α → α → Bool) (xs : List α) : Stab lt xs xs := fun _ => rfl
theorem Stab.trans {lt : α → α → Bool} {xs ys zs : List α} (h₁ : Stab lt xs ys) (h₂ : Stab lt ys zs) :
    Stab lt xs zs := fun k => (h₂ k).trans (h₁ k)

theorem swapL_adj (xs : List α) (h : Nat) (hh : h + 1 < xs.length) :
    xs = xs.take h ++ [xs[h], xs[h+1]] ++ xs.drop (h+2) ∧
    swapL xs (h+1) h = xs.take h ++ [xs[h+1], xs[h]] ++ xs.drop (h+2) := by
  have e0 : xs = xs.take h ++ [xs[h], xs[h+1]] ++ xs.drop (h+2) := by
    conv => lhs; rw [← List.take_append_drop h xs]
    rw [List.drop_eq_getElem_cons (by omega), List.drop_eq_getElem_cons (by omega)]
    simp
  refine ⟨e0, ?_⟩
  have gen : ∀ (A : List α) (a b : α) (C : List α),
      swapL (A ++ a :: b :: C) (A.length + 1) A.length = A ++ b :: a :: C := by
    intro A a b C
    rw [swapL_eq _ _ _ (by simp) (by simp)]
    simp
  have := gen (xs.take h) xs[h] xs[h+1] (xs.drop (h+2))
  rw [List.length_take_of_le (by omega)] at this
  conv => lhs; rw [e0]
  simpa using this

theorem Stab.swap_adj {lt : α → α → Bool} (hlt : SWO lt) (xs : List α) (h : Nat) (hh : h + 1 < xs.length)
    (hne : lt xs[h+1] xs[h] = true) : Stab lt xs (swapL xs (h+1) h) := by
  intro k
  obtain ⟨e1, e2⟩ := swapL_adj xs h hh
  rw [e2]
  conv => rhs; rw [e1]
  simp only [List.filter_append]
  congr 2
  simp only [List.filter_cons, List.filter_nil]
  have : ¬ (eqv lt k xs[h] = true ∧ eqv lt k xs[h+1] = true) := by
    simp only [eqv, Bool.and_eq_true, Bool.not_eq_true']
    rintro ⟨⟨h1, h2⟩, h3, h4⟩
    have := hlt.le_trans h2 h3
    rw [hne] at this; contradiction
  grind

theorem isortInner_spec {lt : α → α → Bool} (hlt : SWO lt) (first mid : Nat) :
    ∀ (h : Nat) (ys : List α) (hf : first < h) (_ : h ≤ mid) (hm : mid < ys.length)
      (_ : ∀ i j (hj : j < ys.length), first ≤ i → (hij : i < j) → j ≤ mid → i ≠ h → j ≠ h → lt ys[j] (ys[i]'(by omega)) = false)
      (_ : ∀ j (hj : j < ys.length), h < j → j ≤ mid → lt ys[j] (ys[h]'(by omega)) = false)
      (_ : lt (ys[h]'(by omega)) (ys[first]'(by omega)) = false),
    ∃ zs h', isortInner lt (holed ys h) (ys[h]'(by omega)) h = .ok (holed zs h', h') ∧ SegPerm first (mid + 1) ys zs ∧
      Stab lt ys zs ∧ zs[h']? = ys[h]? ∧ h' ≤ mid ∧ SortedOn lt first (mid + 1) zs := by
  intro h
  induction h with
  | zero => intro ys hf; omega
  | succ h ih =>
    intro ys hf hm' hm hS hV hG
    unfold isortInner
    rw [rd_holed ys _ _ (by omega) (by omega), R.ok_bind]
    split
    · rename_i hcmp
      have hne : first ≠ h := by rintro rfl; rw [hG] at hcmp; contradiction
      rw [mvTo_holed ys _ _ (by omega) (by omega) (by omega), R.ok_bind]
      have hsw := fun k (hk : k < (swapL ys (h+1) h).length) => getElem_swapL ys (h+1) h k (by omega) (by omega) hk
      have e1 := getElem_swapL_right ys (h+1) h (by omega) (by omega) (by simp; omega)
      have key := ih (swapL ys (h+1) h) (by omega) (by omega) (by simpa using hm)
      rw [e1] at key
      have HH := key ?_ ?_ ?_
      · obtain ⟨zs, h', h1, h2, h3, h4, h5, h6⟩ := HH
        refine ⟨zs, h', h1, ?_, (Stab.swap_adj hlt ys h (by omega) hcmp).trans h3, ?_, h5, h6⟩
        · exact (SegPerm.swap ys (by omega) (by omega)).trans h2
        · rw [h4, List.getElem?_eq_getElem (by simp; omega), List.getElem?_eq_getElem (by omega), hsw]
          simp
      · intro i j hj hi hij hj' hi' hj''
        simp only [hsw]
        simp only [swapL_length] at hj
        by_cases hj3 : j = h + 1
        · subst hj3
          simp only [show i ≠ h by omega, show i ≠ h + 1 by omega, show h + 1 ≠ h by omega, if_true, if_false]
          exact hS i h (by omega) hi (by omega) (by omega) (by omega) (by omega)
        · by_cases hi3 : i = h + 1
          · subst hi3
            simp only [show j ≠ h by omega, show j ≠ h + 1 by omega, show h + 1 ≠ h by omega, if_true, if_false]
            exact hS h j (by omega) (by omega) (by omega) (by omega) (by omega) (by omega)
          · simp only [show i ≠ h by omega, hi3, show j ≠ h by omega, hj3, if_false]
            exact hS i j hj hi hij hj' hi3 hj3
      · intro j hj hj' hj''
        simp only [hsw]
        simp only [swapL_length] at hj
        by_cases hj3 : j = h + 1
        · subst hj3
          simp only [show h + 1 ≠ h by omega, if_true, if_false]
          exact hlt.asymm hcmp
        · simp only [show j ≠ h by omega, hj3, if_false]
          exact hV j hj (by omega) hj''
      · simp only [hsw]
        simp only [show first ≠ h by omega, show first ≠ h + 1 by omega, if_false]
        exact hG
    · rename_i hcmp
      refine ⟨ys, h+1, rfl, SegPerm.refl _ _ _, Stab.refl _ _, rfl, by omega, ?_⟩
      intro i j hj hi hij hj'
      by_cases hj3 : j = h + 1
      · subst hj3
        by_cases hi3 : i = h
        · subst hi3; simpa using hcmp
        · have := hS i h (by omega) hi (by omega) (by omega) (by omega) (by omega)
          exact hlt.le_trans this (by simpa using hcmp)
      · by_cases hi3 : i = h + 1
        · subst hi3
          exact hV j hj hij (by omega)
        · exact hS i j hj hi hij (by omega) hi3 hj3

theorem moveBackward_spec {lt : α → α → Bool} (hlt : SWO lt) (first mid : Nat) :
    ∀ (h : Nat) (ys : List α) (hf : first ≤ h) (_ : h ≤ mid) (hm : mid < ys.length)
      (_ : ∀ i j (hj : j < ys.length), first ≤ i → (hij : i < j) → j ≤ mid → i ≠ h → j ≠ h → lt ys[j] (ys[i]'(by omega)) = false)
      (_ : ∀ i (hj : i < ys.length), first ≤ i → i ≤ mid → i ≠ h → lt (ys[h]'(by omega)) ys[i] = true),
    ∃ zs, moveBackward (holed ys h) first h (h + 1) = .ok (holed zs first) ∧ SegPerm first (mid + 1) ys zs ∧
      Stab lt ys zs ∧ zs[first]? = ys[h]? ∧ SortedOn lt first (mid + 1) zs := by
  intro h
  induction h with
  | zero =>
    intro ys hf _ hm hS hV
    have : first = 0 := by omega
    subst this
    unfold moveBackward
    simp only [Nat.lt_irrefl, dite_false]
    refine ⟨ys, rfl, SegPerm.refl _ _ _, Stab.refl _ _, rfl, ?_⟩
    intro i j hj hi hij hj'
    by_cases hi3 : i = 0
    · subst hi3; exact hlt.asymm (hV j hj (by omega) (by omega) (by omega))
    · exact hS i j hj hi hij (by omega) hi3 (by omega)
  | succ h ih =>
    intro ys hf hm' hm hS hV
    unfold moveBackward
    split
    · rename_i hlt'
      simp only [Nat.add_sub_cancel]
      rw [mvTo_holed ys _ _ (by omega) (by omega) (by omega), R.ok_bind]
      have hsw := fun k (hk : k < (swapL ys (h+1) h).length) => getElem_swapL ys (h+1) h k (by omega) (by omega) hk
      have e1 := getElem_swapL_right ys (h+1) h (by omega) (by omega) (by simp; omega)
      have key := ih (swapL ys (h+1) h) (by omega) (by omega) (by simpa using hm)
      have HH := key ?_ ?_
      · obtain ⟨zs, h1, h2, h3, h4, h5⟩ := HH
        refine ⟨zs, h1, ?_, (Stab.swap_adj hlt ys h (by omega) (hV h (by omega) (by omega) (by omega) (by omega))).trans h3, ?_, h5⟩
        · exact (SegPerm.swap ys (by omega) (by omega)).trans h2
        · rw [h4, List.getElem?_eq_getElem (by simp; omega), List.getElem?_eq_getElem (by omega), hsw]
          simp
      · intro i j hj hi hij hj' hi' hj''
        simp only [hsw]
        simp only [swapL_length] at hj
        by_cases hj3 : j = h + 1
        · subst hj3
          simp only [show i ≠ h by omega, show i ≠ h + 1 by omega, show h + 1 ≠ h by omega, if_true, if_false]
          exact hS i h (by omega) hi (by omega) (by omega) (by omega) (by omega)
        · by_cases hi3 : i = h + 1
          · subst hi3
            simp only [show j ≠ h by omega, show j ≠ h + 1 by omega, show h + 1 ≠ h by omega, if_true, if_false]
            exact hS h j (by omega) (by omega) (by omega) (by omega) (by omega) (by omega)
          · simp only [show i ≠ h by omega, hi3, show j ≠ h by omega, hj3, if_false]
            exact hS i j hj hi hij hj' hi3 hj3
      · intro i hi hi1 hi2 hi3
        simp only [hsw]
        simp only [swapL_length] at hi
        simp only [if_true, hi3, if_false]
        split
        · exact hV h (by omega) (by omega) (by omega) (by omega)
        · exact hV i hi hi1 hi2 (by omega)
    · rename_i hnl
      have : first = h + 1 := by omega
      subst this
      refine ⟨ys, rfl, SegPerm.refl _ _ _, Stab.refl _ _, rfl, ?_⟩
      intro i j hj hi hij hj'
      by_cases hi3 : i = h + 1
      · subst hi3; exact hlt.asymm (hV j hj (by omega) (by omega) (by omega))
      · exact hS i j hj hi hij (by omega) hi3 (by omega)

theorem isortStep_spec {lt : α → α → Bool} (hlt : SWO lt) (first mid : Nat) (xs : List α) (hf : first < mid)
    (hm : mid < xs.length) (hs : SortedOn lt first mid xs) :
    ∃ ys, isortStep lt (full xs) first mid = .ok (full ys) ∧ SegPerm first (mid + 1) xs ys ∧ Stab lt xs ys ∧
      SortedOn lt first (mid + 1) ys := by
  unfold isortStep
  rw [mv_full xs _ hm, R.ok_bind]
  dsimp only
  rw [rd_holed xs _ _ (by omega) (by omega), R.ok_bind]
  split
  · rename_i hcmp
    have HH := moveBackward_spec hlt first mid mid xs (by omega) (by omega) hm ?_ ?_
    · obtain ⟨zs, h1, h2, h3, h4, h5⟩ := HH
      rw [h1, R.ok_bind]
      have hl := h2.len
      refine ⟨zs, ?_, h2, h3, h5⟩
      rw [List.getElem?_eq_getElem (by omega), List.getElem?_eq_getElem (by omega)] at h4
      rw [← Option.some.inj h4]
      exact wr_holed_self zs first (by omega)
    · intro i j hj hi hij hj' hi' hj''
      exact hs i j hj hi hij (by omega)
    · intro i hi hi1 hi2 hi3
      by_cases hif : i = first
      · subst hif; exact hcmp
      · exact hlt.lt_of_lt_of_le hcmp (hs first i hi (by omega) (by omega) (by omega))
  · rename_i hcmp
    have HH := isortInner_spec hlt first mid mid xs hf (by omega) hm ?_ ?_ (by simpa using hcmp)
    · obtain ⟨zs, h', h1, h2, h3, h4, h5, h6⟩ := HH
      rw [h1, R.ok_bind]
      have hl := h2.len
      refine ⟨zs, ?_, h2, h3, h6⟩
      rw [List.getElem?_eq_getElem (by omega), List.getElem?_eq_getElem (by omega)] at h4
      dsimp only
      rw [← Option.some.inj h4]
      exact wr_holed_self zs h' (by omega)
    · intro i j hj hi hij hj' hi' hj''
      exact hs i j hj hi hij (by omega)
    · intro j hj h1 h2; omega

theorem isortLoop_spec {lt : α → α → Bool} (hlt : SWO lt) (first last : Nat) :
    ∀ (k mid : Nat) (xs : List α) (_ : last - mid ≤ k) (_ : first < mid) (_ : mid ≤ last) (_ : last ≤ xs.length)
      (_ : SortedOn lt first mid xs),
    ∃ ys, isortLoop lt (full xs) first mid last = .ok (full ys) ∧ SegPerm first last xs ys ∧ Stab lt xs ys ∧
      SortedOn lt first last ys := by
  intro k
  induction k with
  | zero =>
    intro mid xs hk hf hm hl hs
    unfold isortLoop
    have : mid = last := by omega
    subst this
    simp only [Nat.lt_irrefl, dite_false]
    exact ⟨xs, rfl, SegPerm.refl _ _ _, Stab.refl _ _, hs⟩
  | succ k ih =>
    intro mid xs hk hf hm hl hs
    unfold isortLoop
    split
    · obtain ⟨ys, h1, h2, h3, h4⟩ := isortStep_spec hlt first mid xs hf (by omega) hs
      rw [h1, R.ok_bind]
      obtain ⟨zs, g1, g2, g3, g4⟩ := ih (mid+1) ys (by omega) (by omega) (by omega) (by have := h2.len; omega) h4
      exact ⟨zs, g1, (h2.mono (by omega) (by omega)).trans g2, h3.trans g3, g4⟩
    · have : mid = last := by omega
      subst this
      exact ⟨xs, rfl, SegPerm.refl _ _ _, Stab.refl _ _, hs⟩

theorem insertionSort_spec {lt : α → α → Bool} (hlt : SWO lt) (first last : Nat) (xs : List α) (hl : last ≤ xs.length) :
    ∃ ys, insertionSort lt (full xs) first last = .ok (full ys) ∧ SegPerm first last xs ys ∧ Stab lt xs ys ∧
      SortedOn lt first last ys := by
  unfold insertionSort
  split
  · exact isortLoop_spec hlt first last (last - (first+1)) (first+1) xs (by omega) (by omega) (by omega) hl
      (by intro i j hj hi hij hj'; omega)
  · exact ⟨xs, rfl, SegPerm.refl _ _ _, Stab.refl _ _, by intro i j hj hi hij hj'; omega⟩

end STL
