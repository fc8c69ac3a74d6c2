import Verif.VAlg.Find2
import Verif.VAlg.SearchN
import Verif.VAlg.Count
import Verif.VAlg.Mismatch

/-!
# C49: the vectorised algorithms give the result of the plain algorithms

For every range, every element size of 1, 2, 4 or 8 bytes and every CPU (with or without AVX2 and SSE4.2), `find`, `find_last`, `adjacent_find`,
`search_n`, `count` and `mismatch` end, do not read outside of the range (a read outside would be the result `none`) and return what the element
by element algorithm returns.

The results of the search functions are pointers, counted in bytes from the beginning of the range, so index `i` is `s * i`.
-/

namespace STL.VAlg.Spec

/-- `r` is the smallest index with `P`, or `n` if there is none below `n`. -/
def IsFirst (P : Nat → Prop) (n r : Nat) : Prop := (r < n ∧ P r ∧ ∀ i < r, ¬ P i) ∨ (r = n ∧ ∀ i < n, ¬ P i)

/-- `r` is the largest index below `n` with `P`, or `n` if there is none. -/
def IsLast (P : Nat → Prop) (n r : Nat) : Prop := (r < n ∧ P r ∧ ∀ i, r < i → i < n → ¬ P i) ∨ (r = n ∧ ∀ i < n, ¬ P i)

/-- `count` equal elements from `i` on. -/
def RunAt (a : List Nat) (count val i : Nat) : Prop := i + count ≤ a.length ∧ ∀ t < count, a[i + t]? = some val

end STL.VAlg.Spec

namespace STL.VAlg

open Spec

theorem Qf_iff {ne : Bool} {a : List Nat} {val i : Nat} : Qf ne a val i = true ↔ ∃ x, a[i]? = some x ∧ (if ne then x ≠ val else x = val) := by
  unfold Qf
  cases h : a[i]? with
  | none => simp
  | some x => cases ne <;> simp [hit]

theorem Qa_iff {a : List Nat} {i : Nat} : Qa a i = true ↔ ∃ x, a[i]? = some x ∧ a[i + 1]? = some x := by
  unfold Qa
  cases h : a[i]? with
  | none => simp
  | some x =>
    cases h' : a[i + 1]? with
    | none => simp
    | some y =>
      constructor
      · intro hxy
        exact ⟨x, rfl, by rw [eq_of_beq hxy]⟩
      · rintro ⟨z, h1, h2⟩
        simp only [Option.some.injEq] at h1 h2
        simp [h1, h2]

theorem Qf_length {ne : Bool} {a : List Nat} {val i : Nat} (h : Qf ne a val i = true) : i < a.length := by
  by_contra hc
  rw [Qf_none (by omega)] at h; cases h

/-- C49 (find, find_if of "not equal"): the first element that is equal to (`ne = false`) or different from (`ne = true`) the value. -/
theorem C49_find (c : Cpu) {s : Nat} (hs : s = 1 ∨ s = 2 ∨ s = 4 ∨ s = 8) (ne : Bool) (a : List Nat) (val : Nat) :
    ∃ i, find c s ne a val = some (s * i) ∧ IsFirst (fun i => ∃ x, a[i]? = some x ∧ (if ne then x ≠ val else x = val)) a.length i := by
  refine ⟨_, find_eq c hs ne a val, ?_⟩
  have hh : ∀ x, hit ne val x = true ↔ (if ne then x ≠ val else x = val) := by
    intro x; cases ne <;> simp [hit]
  by_cases hex : ∃ x ∈ a, hit ne val x = true
  · have hlt := List.findIdx_lt_length_of_exists hex
    refine Or.inl ⟨hlt, ⟨_, List.getElem?_eq_getElem hlt, (hh _).1 (List.findIdx_getElem (w := hlt))⟩, ?_⟩
    rintro i hi ⟨x, hx, hP⟩
    have := List.not_of_lt_findIdx hi
    rw [List.getElem?_eq_getElem (by omega : i < a.length), Option.some.injEq] at hx
    rw [hx, (hh x).2 hP] at this
    cases this
  · refine Or.inr ⟨?_, ?_⟩
    · rw [List.findIdx_eq_length]
      intro x hx
      by_contra hc
      exact hex ⟨x, hx, by simpa using hc⟩
    · rintro i hi ⟨x, hx, hP⟩
      exact hex ⟨x, List.mem_of_getElem? hx, (hh x).2 hP⟩

/-- C49 (find_last): the last element that is equal to (or different from) the value, the end of the range if there is none. -/
theorem C49_find_last (c : Cpu) {s : Nat} (hs : s = 1 ∨ s = 2 ∨ s = 4 ∨ s = 8) (ne : Bool) (a : List Nat) (val : Nat) :
    ∃ i, findLast c s ne a val = some (s * i) ∧ IsLast (fun i => ∃ x, a[i]? = some x ∧ (if ne then x ≠ val else x = val)) a.length i := by
  obtain ⟨j, e, h⟩ := findLast_spec c hs ne a val
  refine ⟨j, e, ?_⟩
  rcases h with ⟨h1, h2⟩ | ⟨h1, h2⟩
  · refine Or.inl ⟨Qf_length h1, Qf_iff.1 h1, ?_⟩
    intro i hi _ hP
    have := Qf_iff.2 hP
    rw [h2 i hi] at this; cases this
  · refine Or.inr ⟨h1, ?_⟩
    intro i _ hP
    have := Qf_iff.2 hP
    rw [h2 i] at this; cases this

/-- C49 (the position of the last, used by `basic_string::rfind` and `find_last_of`): `npos` exactly if there is none. -/
theorem C49_find_last_pos (c : Cpu) {s : Nat} (hs : s = 1 ∨ s = 2 ∨ s = 4 ∨ s = 8) (ne : Bool) (a : List Nat) (val : Nat) :
    ∃ r, findLastPos c s ne a val = some r ∧
      match r with
      | some i => (∃ x, a[i]? = some x ∧ (if ne then x ≠ val else x = val)) ∧ ∀ j, i < j → ¬ ∃ x, a[j]? = some x ∧ (if ne then x ≠ val else x = val)
      | none => ∀ x ∈ a, ¬ (if ne then x ≠ val else x = val) := by
  obtain ⟨j, e, h⟩ := C49_find_last c hs ne a val
  have hp : 1 ≤ s := by omega
  unfold findLastPos
  rw [e]
  simp only [Option.bind_eq_bind, Option.bind_some]
  rcases h with ⟨h1, h2, h3⟩ | ⟨rfl, h2⟩
  · have hne : s * j ≠ s * a.length := fun h => by have := Nat.eq_of_mul_eq_mul_left hp h; omega
    rw [if_neg hne, Nat.mul_div_cancel_left _ hp]
    refine ⟨_, rfl, h2, fun i hi hP => ?_⟩
    by_cases hia : i < a.length
    · exact h3 i hi hia hP
    · obtain ⟨x, hx, _⟩ := hP
      rw [List.getElem?_eq_none (by omega)] at hx; cases hx
  · rw [if_pos rfl]
    refine ⟨_, rfl, fun x hx hP => ?_⟩
    obtain ⟨i, hi, rfl⟩ := List.mem_iff_getElem.1 hx
    exact h2 i hi ⟨_, List.getElem?_eq_getElem hi, hP⟩

/-- C49 (adjacent_find): the first of two equal neighbours. -/
theorem C49_adjacent_find (c : Cpu) {s : Nat} (hs : s = 1 ∨ s = 2 ∨ s = 4 ∨ s = 8) (a : List Nat) :
    ∃ i, adjacentFind c s a = some (s * i) ∧ IsFirst (fun i => ∃ x, a[i]? = some x ∧ a[i + 1]? = some x) a.length i := by
  obtain ⟨j, e, h⟩ := adjacentFind_spec c hs a
  refine ⟨j, e, ?_⟩
  have hneg : ∀ i, Qa a i = false → ¬ ∃ x, a[i]? = some x ∧ a[i + 1]? = some x := by
    intro i hi hP
    rw [Qa_iff.2 hP] at hi; cases hi
  rcases h with ⟨h1, h2⟩ | ⟨h1, h2⟩
  · have hP := Qa_iff.1 h1
    obtain ⟨x, hx, _⟩ := id hP
    exact Or.inl ⟨(List.getElem?_eq_some_iff.1 hx).1, hP, fun i hi => hneg i (h2 i hi)⟩
  · exact Or.inr ⟨h1, fun i _ => hneg i (h2 i)⟩

/-- C49 (search_n): the first run of `count` elements equal to the value; for `count = 0` the beginning, also of an empty range. -/
theorem C49_search_n (c : Cpu) {s : Nat} (hs : s = 1 ∨ s = 2 ∨ s = 4 ∨ s = 8) (a : List Nat) (count val : Nat) :
    ∃ i, searchN c s a count val = some (s * i) ∧ ((RunAt a count val i ∧ ∀ j < i, ¬ RunAt a count val j) ∨ (i = a.length ∧ ∀ j, ¬ RunAt a count val j)) := by
  by_cases h0 : count = 0
  · subst h0
    exact ⟨0, by simp [searchN], Or.inl ⟨⟨by omega, fun t ht => by omega⟩, fun j hj => by omega⟩⟩
  · obtain ⟨j, e, h⟩ := searchN_spec c hs a count val
    have hiff : ∀ i, Run a val count i ↔ RunAt a count val i := by
      intro i
      have hev : ∀ i, Ev a val i = true ↔ a[i]? = some val := by
        intro i
        rw [Qf_iff]; simp
      constructor
      · intro hr
        exact ⟨hr.le (by omega), fun t ht => (hev _).1 (hr t ht)⟩
      · intro hr t ht
        exact (hev _).2 (hr.2 t ht)
    refine ⟨j, e, ?_⟩
    unfold SnAns at h
    simpa only [hiff] using h

/-- C49 (count): the number of elements equal to the value. The range fits into the address space. -/
theorem C49_count (c : Cpu) {s : Nat} (hs : s = 1 ∨ s = 2 ∨ s = 4 ∨ s = 8) (a : List Nat) (val : Nat) (hmem : s * a.length < 2 ^ 64) :
    count c s a val = some (a.count val) := count_eq c hs a val hmem

/-- C49 (mismatch, and with it lexicographical_compare): the first index below `n` where the ranges differ, else `n`. -/
theorem C49_mismatch (c : Cpu) {s : Nat} (hs : s = 1 ∨ s = 2 ∨ s = 4 ∨ s = 8) (a b : List Nat) (n : Nat) (ha : n ≤ a.length) (hb : n ≤ b.length)
    (hav : ∀ x ∈ a, x < 2 ^ (8 * s)) (hbv : ∀ x ∈ b, x < 2 ^ (8 * s)) :
    ∃ i, mismatch c s a b n = some i ∧ IsFirst (fun i => a[i]? ≠ b[i]?) n i := by
  obtain ⟨j, e, h⟩ := mismatch_spec c hs ha hb hav hbv
  refine ⟨j, e, ?_⟩
  rcases h with ⟨h1, h2⟩ | ⟨h1, h2⟩
  · simp only [Qm, Bool.and_eq_true, decide_eq_true_eq] at h1
    refine Or.inl ⟨h1.1, h1.2, fun i hi => ?_⟩
    have := h2 i hi
    simpa [Qm, show i < n by omega] using this
  · refine Or.inr ⟨h1, fun i hi => ?_⟩
    have := h2 i hi
    simpa [Qm, hi] using this

/-! ## The hypotheses are met -/

/-- 45 bytes: one AVX2 register, 12 bytes in the masked tail, one in the scalar loop. -/
def demo : List Nat := List.replicate 44 7 ++ [9]

example : find ⟨true, true⟩ 1 false demo 9 = some 44 := by decide
example : find ⟨false, true⟩ 1 true demo 7 = some 44 := by decide
example : find ⟨true, true⟩ 4 false (demo.drop 36) 9 = some 32 := by decide
example : findLast ⟨true, true⟩ 2 false (9 :: demo) 7 = some (2 * 44) := by decide
example : adjacentFind ⟨true, true⟩ 1 (List.range 40 ++ [39]) = some 39 := by decide
set_option maxRecDepth 4000 in
example : searchN ⟨true, true⟩ 1 (demo ++ demo) 3 9 = some 90 := by decide
set_option maxRecDepth 4000 in
example : searchN ⟨true, true⟩ 2 ([7, 7, 9] ++ List.replicate 12 0 ++ [9, 9, 9] ++ demo) 3 9 = some (2 * 15) := by decide
example : count ⟨true, true⟩ 1 demo 7 = some 44 := C49_count _ (Or.inl rfl) _ _ (by decide)
example : mismatch ⟨true, true⟩ 2 demo (List.replicate 44 7 ++ [9 + 256]) 45 = some 44 := by decide

end STL.VAlg
