import Verif.Tac
import Verif.Search.Model

/-!
# Property C04: binary searches return the exact partition points
-/

namespace STL

namespace Spec
variable {α : Type _}
/-- `k` splits `[first, last)` of `xs` into elements satisfying `P` and elements not satisfying it. At most one such
`k` exists, and `∃ k, PartPoint …` says exactly that the range is partitioned with respect to `P`. -/
structure PartPoint (P : α → Bool) (xs : List α) (first last k : Nat) : Prop where
  lo : first ≤ k
  hi : k ≤ last
  before : ∀ i x, xs[i]? = some x → first ≤ i → i < k → P x = true
  after : ∀ i x, xs[i]? = some x → k ≤ i → i < last → P x = false
end Spec

variable {α β : Type _}

/-- The partition point is unique (so "returns a partition point" is "returns *the* partition point"). -/
theorem Spec.PartPoint.unique {P : α → Bool} {xs : List α} {f l j k : Nat} (hl : l ≤ xs.length)
    (h1 : Spec.PartPoint P xs f l j) (h2 : Spec.PartPoint P xs f l k) : j = k := by
  rcases Nat.lt_trichotomy j k with h | h | h
  · have e := List.getElem?_eq_getElem (l := xs) (i := j) (by have := h2.hi; omega)
    have a := h1.after j _ e (Nat.le_refl _) (by have := h2.hi; omega)
    have b := h2.before j _ e h1.lo h
    simp_all
  · exact h
  · have e := List.getElem?_eq_getElem (l := xs) (i := k) (by have := h1.hi; omega)
    have a := h2.after k _ e (Nat.le_refl _) (by have := h1.hi; omega)
    have b := h1.before k _ e h2.lo h
    simp_all

theorem partPoint_right {P : α → Bool} {xs : List α} {f l k mid : Nat} (hp : Spec.PartPoint P xs f l k)
    (hl : mid < xs.length) (hm : f ≤ mid) (hm' : mid < l) (h : P xs[mid] = true) :
    Spec.PartPoint P xs (mid + 1) l k := by
  refine ⟨?_, hp.hi, fun i x hx _ => hp.before i x hx (by omega), hp.after⟩
  by_contra hc
  have := hp.after mid _ (List.getElem?_eq_getElem hl) (by omega) hm'
  simp_all

theorem partPoint_left {P : α → Bool} {xs : List α} {f l k mid : Nat} (hp : Spec.PartPoint P xs f l k)
    (hl : mid < xs.length) (hm : f ≤ mid) (hm' : mid < l) (h : P xs[mid] = false) :
    Spec.PartPoint P xs f mid k := by
  refine ⟨hp.lo, ?_, hp.before, fun i x hx h1 h2 => hp.after i x hx h1 (by omega)⟩
  by_contra hc
  have := hp.before mid _ (List.getElem?_eq_getElem hl) hm (by omega)
  simp_all

theorem partPoint_nil {P : α → Bool} {xs : List α} {f k : Nat} (hp : Spec.PartPoint P xs f f k) : f = k := by
  have := hp.lo; have := hp.hi; omega

theorem lowerBoundLoop_spec (ltE : α → β → Bool) (xs : List α) (v : β) (n first k : Nat)
    (hl : first + n ≤ xs.length) (hp : Spec.PartPoint (fun x => ltE x v) xs first (first + n) k) :
    lowerBoundLoop ltE (full xs) v first n = .ok k := by
  induction n using Nat.strongRecOn generalizing first with
  | ind n ih =>
    unfold lowerBoundLoop
    split
    · rename_i h
      have hm : first + n / 2 < xs.length := by omega
      simp only [rd_full _ _ hm, R.ok_bind]
      split
      · rename_i hc
        have := partPoint_right hp hm (by omega) (by omega) hc
        exact ih _ (by omega) _ (by omega) (by convert this using 1; omega)
      · rename_i hc
        have := partPoint_left hp hm (by omega) (by omega) (by simpa using hc)
        exact ih _ (by omega) _ (by omega) this
    · have : n = 0 := by omega
      subst this
      have := partPoint_nil hp; subst this; rfl

theorem upperBoundLoop_spec (ltV : β → α → Bool) (xs : List α) (v : β) (n first k : Nat)
    (hl : first + n ≤ xs.length) (hp : Spec.PartPoint (fun x => !ltV v x) xs first (first + n) k) :
    upperBoundLoop ltV (full xs) v first n = .ok k := by
  induction n using Nat.strongRecOn generalizing first with
  | ind n ih =>
    unfold upperBoundLoop
    split
    · rename_i h
      have hm : first + n / 2 < xs.length := by omega
      simp only [rd_full _ _ hm, R.ok_bind]
      split
      · rename_i hc
        have := partPoint_left hp hm (by omega) (by omega) (by simpa using hc)
        exact ih _ (by omega) _ (by omega) this
      · rename_i hc
        have := partPoint_right hp hm (by omega) (by omega) (by simpa using hc)
        exact ih _ (by omega) _ (by omega) (by convert this using 1; omega)
    · have : n = 0 := by omega
      subst this
      have := partPoint_nil hp; subst this; rfl

theorem partitionPointLoop_spec (p : α → Bool) (xs : List α) (n first k : Nat)
    (hl : first + n ≤ xs.length) (hp : Spec.PartPoint p xs first (first + n) k) :
    partitionPointLoop p (full xs) first n = .ok k := by
  induction n using Nat.strongRecOn generalizing first with
  | ind n ih =>
    unfold partitionPointLoop
    split
    · rename_i h
      have hm : first + n / 2 < xs.length := by omega
      simp only [rd_full _ _ hm, R.ok_bind]
      split
      · rename_i hc
        have := partPoint_right hp hm (by omega) (by omega) hc
        exact ih _ (by omega) _ (by omega) (by convert this using 1; omega)
      · rename_i hc
        have := partPoint_left hp hm (by omega) (by omega) (by simpa using hc)
        exact ih _ (by omega) _ (by omega) this
    · have : n = 0 := by omega
      subst this
      have := partPoint_nil hp; subst this; rfl

/-- **C04 lower_bound**: on a range partitioned by `e < v`, returns the first position whose element is not less than
`v`; never reads outside `[first, last)`. -/
theorem C04_lower_bound (ltE : α → β → Bool) (xs : List α) (first last : Nat) (v : β) (hfl : first ≤ last)
    (hl : last ≤ xs.length) (k : Nat) (hp : Spec.PartPoint (fun x => ltE x v) xs first last k) :
    lowerBound ltE (full xs) first last v = .ok k :=
  lowerBoundLoop_spec _ _ _ _ _ _ (by omega) (by convert hp using 1; omega)

/-- **C04 upper_bound**: on a range partitioned by `¬ (v < e)`, returns the first position whose element `v` is less
than. -/
theorem C04_upper_bound (ltV : β → α → Bool) (xs : List α) (first last : Nat) (v : β) (hfl : first ≤ last)
    (hl : last ≤ xs.length) (k : Nat) (hp : Spec.PartPoint (fun x => !ltV v x) xs first last k) :
    upperBound ltV (full xs) first last v = .ok k :=
  upperBoundLoop_spec _ _ _ _ _ _ (by omega) (by convert hp using 1; omega)

/-- **C04 partition_point**. -/
theorem C04_partition_point (p : α → Bool) (xs : List α) (first last : Nat) (hfl : first ≤ last)
    (hl : last ≤ xs.length) (k : Nat) (hp : Spec.PartPoint p xs first last k) :
    partitionPoint p (full xs) first last = .ok k :=
  partitionPointLoop_spec _ _ _ _ _ (by omega) (by convert hp using 1; omega)

theorem partPoint_sub_left {P : α → Bool} {xs : List α} {f l k mid : Nat} (hp : Spec.PartPoint P xs f l k)
    (hk : k ≤ mid) (hm : mid ≤ l) : Spec.PartPoint P xs f mid k :=
  ⟨hp.lo, hk, hp.before, fun i x hx h1 h2 => hp.after i x hx h1 (by omega)⟩

theorem partPoint_sub_right {P : α → Bool} {xs : List α} {f l k mid : Nat} (hp : Spec.PartPoint P xs f l k)
    (hk : mid ≤ k) (hm : f ≤ mid) : Spec.PartPoint P xs mid l k :=
  ⟨hk, hp.hi, fun i x hx h1 h2 => hp.before i x hx (by omega) h2, hp.after⟩

theorem equalRangeLoop_spec (ltE : α → β → Bool) (ltV : β → α → Bool) (xs : List α) (v : β) (n first k1 k2 : Nat)
    (hl : first + n ≤ xs.length) (hp1 : Spec.PartPoint (fun x => ltE x v) xs first (first + n) k1)
    (hp2 : Spec.PartPoint (fun x => !ltV v x) xs first (first + n) k2)
    (himp : ∀ i x, xs[i]? = some x → first ≤ i → i < first + n → ltE x v = true → ltV v x = false) :
    equalRangeLoop ltE ltV (full xs) v first n = .ok (k1, k2) ∧
    rangesEqualRangeLoop ltE ltV (full xs) v first n = .ok (k1, k2) := by
  induction n using Nat.strongRecOn generalizing first with
  | ind n ih =>
    unfold equalRangeLoop rangesEqualRangeLoop
    by_cases h : n = 0
    · subst h
      simp only [Nat.le_refl, dite_true, Nat.lt_irrefl, dite_false]
      have e1 := partPoint_nil hp1; have e2 := partPoint_nil hp2; subst e1; subst e2; exact ⟨rfl, rfl⟩
    · rw [dif_neg (by omega), dif_pos (by omega)]
      have hm : first + n / 2 < xs.length := by omega
      have hg := List.getElem?_eq_getElem hm
      simp only [rd_full _ _ hm, R.ok_bind]
      split
      · rename_i hc
        have hv := himp _ _ hg (by omega) (by omega) hc
        have q1 := partPoint_right hp1 hm (by omega) (by omega) hc
        have q2 := partPoint_right hp2 hm (by omega) (by omega) (by simpa using hv)
        have e : first + n / 2 + 1 + (n - (n / 2 + 1)) = first + n := by omega
        exact ih _ (by omega) _ (by omega) (by rw [e]; exact q1) (by rw [e]; exact q2)
          (fun i x hx h1 h2 => himp i x hx (by omega) (by omega))
      · rename_i hc
        have q1 := partPoint_left hp1 hm (by omega) (by omega) (by simpa using hc)
        split
        · rename_i hv
          have q2 := partPoint_left hp2 hm (by omega) (by omega) (by simpa using hv)
          exact ih _ (by omega) _ (by omega) q1 q2 (fun i x hx h1 h2 => himp i x hx (by omega) (by omega))
        · rename_i hv
          have q2 := partPoint_right hp2 hm (by omega) (by omega) (by simpa using hv)
          have e : first + n / 2 + 1 + (n - (n / 2 + 1)) = first + n := by omega
          rw [C04_lower_bound ltE xs first (first + n/2) v (by omega) (by omega) k1 q1,
            C04_upper_bound ltV xs (first + n/2 + 1) (first + n) v (by omega) (by omega) k2 q2,
            lowerBoundLoop_spec ltE xs v _ _ k1 (by omega) q1,
            upperBoundLoop_spec ltV xs v _ _ k2 (by omega) (by rw [e]; exact q2)]
          exact ⟨rfl, rfl⟩

/-- **C04 equal_range** (both the `std` and the `ranges` implementation): on a range partitioned by `e < v` and by
`¬ (v < e)` with `e < v` implying `¬ (v < e)`, returns the pair of the lower and the upper bound. -/
theorem C04_equal_range (ltE : α → β → Bool) (ltV : β → α → Bool) (xs : List α) (first last : Nat) (v : β)
    (hfl : first ≤ last) (hl : last ≤ xs.length) (k1 k2 : Nat)
    (hp1 : Spec.PartPoint (fun x => ltE x v) xs first last k1)
    (hp2 : Spec.PartPoint (fun x => !ltV v x) xs first last k2)
    (himp : ∀ i x, xs[i]? = some x → first ≤ i → i < last → ltE x v = true → ltV v x = false) :
    equalRange ltE ltV (full xs) first last v = .ok (k1, k2) ∧
    rangesEqualRangeLoop ltE ltV (full xs) v first (last - first) = .ok (k1, k2) := by
  have e : first + (last - first) = last := by omega
  exact equalRangeLoop_spec ltE ltV xs v (last - first) first k1 k2 (by omega) (by rw [e]; exact hp1) (by rw [e]; exact hp2)
    (by rw [e]; exact himp)

/-- **C04 binary_search**: tells whether some element of the range is equivalent to `v`. -/
theorem C04_binary_search (ltE : α → β → Bool) (ltV : β → α → Bool) (xs : List α) (first last : Nat) (v : β)
    (hfl : first ≤ last) (hl : last ≤ xs.length)
    (hp1 : ∃ k, Spec.PartPoint (fun x => ltE x v) xs first last k)
    (hp2 : ∃ k, Spec.PartPoint (fun x => !ltV v x) xs first last k) :
    ∃ b, binarySearch ltE ltV (full xs) first last v = .ok b ∧
      (b = true ↔ ∃ i x, xs[i]? = some x ∧ first ≤ i ∧ i < last ∧ ltE x v = false ∧ ltV v x = false) := by
  obtain ⟨k, hk⟩ := hp1
  obtain ⟨k2, hk2⟩ := hp2
  unfold binarySearch
  rw [C04_lower_bound ltE xs first last v hfl hl k hk]
  simp only [R.ok_bind]
  by_cases h : k = last
  · subst h
    rw [if_neg (by simp)]
    refine ⟨false, rfl, ?_⟩
    constructor
    · simp
    · rintro ⟨i, x, hx, h1, h2, h3, _⟩
      have := hk.before i x hx h1 h2
      simp_all
  · have := hk.hi
    have hkl : k < xs.length := by omega
    rw [if_pos h, rd_full _ _ hkl]
    refine ⟨!ltV v xs[k], rfl, ?_⟩
    have hlo := hk.lo
    constructor
    · intro hb
      have e := List.getElem?_eq_getElem hkl
      exact ⟨k, _, e, hlo, by omega, hk.after k _ e (by omega) (by omega), by simpa using hb⟩
    · rintro ⟨i, x, hx, h1, h2, h3, h4⟩
      have hik : k ≤ i := by
        by_contra hc
        have := hk.before i x hx h1 (by omega)
        simp_all
      -- i < k2, hence k < k2
      have : i < k2 := by
        by_contra hc
        have := hk2.after i x hx (by omega) h2
        simp_all
      exact hk2.before k _ (List.getElem?_eq_getElem hkl) hlo (by omega)

/-- A sorted range meets the partition hypotheses for every value, so C04 applies to sorted ranges. -/
theorem C04_sorted_partitioned {lt : α → α → Bool} (hlt : SWO lt) (xs : List α)
    (hs : xs.Pairwise (fun a b => lt b a = false)) (v : α) :
    (∃ k, Spec.PartPoint (fun x => lt x v) xs 0 xs.length k) ∧ (∃ k, Spec.PartPoint (fun x => !lt v x) xs 0 xs.length k) := by
  have key : ∀ P : α → Bool, (∀ i j (hj : j < xs.length) (hij : i < j), P xs[j] = true → P (xs[i]'(by omega)) = true) →
      ∃ k, Spec.PartPoint P xs 0 xs.length k := by
    intro P hP
    refine ⟨xs.findIdx (fun x => !P x), Nat.zero_le _, List.findIdx_le_length, ?_, ?_⟩
    · intro i x hx _ hi
      obtain ⟨hil, rfl⟩ := List.getElem?_eq_some_iff.1 hx
      have := List.not_of_lt_findIdx hi
      simpa using this
    · intro i x hx hk hi
      obtain ⟨hil, rfl⟩ := List.getElem?_eq_some_iff.1 hx
      have hlt' : xs.findIdx (fun x => !P x) < xs.length := by omega
      have h0 := List.findIdx_getElem (w := hlt')
      rcases Nat.lt_or_eq_of_le hk with h | h
      · cases hc : P xs[i] with
        | false => rfl
        | true => have := hP _ i hi h hc; simp_all
      · simp only [h] at h0; simpa using h0
  rw [List.pairwise_iff_getElem] at hs
  constructor
  · exact key _ (fun i j hj hij h => hlt.lt_of_le_of_lt (hs i j (by omega) hj hij) h)
  · refine key _ (fun i j hj hij h => ?_)
    simp only [Bool.not_eq_true'] at h ⊢
    exact hlt.le_trans (hs i j (by omega) hj hij) h

/-- non-vacuity: concrete partition points in a range with duplicates, inside a larger memory. -/
example : Spec.PartPoint (fun x : Nat => decide (x < 5)) [9, 1, 3, 5, 5, 7, 0] 1 6 3 ∧
    Spec.PartPoint (fun x : Nat => !decide (5 < x)) [9, 1, 3, 5, 5, 7, 0] 1 6 5 := by
  constructor <;> refine ⟨by decide, by decide, ?_, ?_⟩ <;> intro i x hx h1 h2 <;>
    (obtain ⟨hil, rfl⟩ := List.getElem?_eq_some_iff.1 hx
     have : i = 1 ∨ i = 2 ∨ i = 3 ∨ i = 4 ∨ i = 5 := by omega
     rcases this with rfl | rfl | rfl | rfl | rfl <;> simp_all)

end STL
