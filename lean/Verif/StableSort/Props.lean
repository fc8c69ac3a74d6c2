import Verif.StableSort.Chunks
import Verif.Sort.Props

/-!
# Property C02: `stable_sort` and `inplace_merge` sort and are stable, whatever temporary buffer could be obtained
-/

namespace STL

namespace Spec

/-- For every element `k`, the elements equivalent to `k` appear in `ys` exactly as, and in the same order as, in `xs`. -/
def SameOrderOfEquivalents {α : Type} (lt : α → α → Bool) (xs ys : List α) : Prop :=
  ∀ k, ys.filter (fun x => !lt x k && !lt k x) = xs.filter (fun x => !lt x k && !lt k x)

end Spec

variable {α : Type}

/-- **C02 stable_sort.** `pre ++ xs ++ post` is the user's sequence and `buf` is the memory obtained for the temporary
buffer: any number of cells (including none), with any content. `stable_sort` on the sub-range `xs` terminates without
undefined behaviour, sorts it, is stable, leaves every element outside the range alone, and leaves no element
moved-from. -/
theorem C02_stable_sort {lt : α → α → Bool} (hlt : SWO lt) (pre xs post : List α) (buf : Mem α) :
    ∃ ys buf', stableSort lt (full (pre ++ xs ++ post) ++ buf) pre.length (pre.length + xs.length)
        (pre ++ xs ++ post).length buf.length = .ok (full (pre ++ ys ++ post) ++ buf') ∧
      buf'.length = buf.length ∧ ys.Perm xs ∧ Spec.SortedBy lt ys ∧ Spec.SameOrderOfEquivalents lt xs ys := by
  obtain ⟨m', Y, e, a, s, u⟩ := stableSort_spec hlt (full (pre ++ xs ++ post) ++ buf) pre.length (pre.length + xs.length)
    (pre ++ xs ++ post).length buf.length xs (at_full_append _ _ _ _) rfl (by simp) (by simp)
  obtain ⟨t', h1, h2⟩ := rebuild u (fun j hj => by unfold Seg at hj; simp at hj; omega) s.len a
  exact ⟨Y, t', by rw [e, h1], h2, s.perm, s.srt, fun k => s.stab k⟩

/-- **C02 inplace_merge.** Merging two consecutive sorted sub-ranges in place, with any temporary buffer, gives a sorted
permutation of both in which equivalent elements keep their order (in particular those of the first range come before
those of the second). -/
theorem C02_inplace_merge {lt : α → α → Bool} (hlt : SWO lt) (pre xs ys post : List α) (buf : Mem α)
    (hx : Spec.SortedBy lt xs) (hy : Spec.SortedBy lt ys) :
    ∃ zs buf', inplaceMerge lt (full (pre ++ (xs ++ ys) ++ post) ++ buf) pre.length (pre.length + xs.length)
        (pre.length + xs.length + ys.length) (pre ++ (xs ++ ys) ++ post).length buf.length = .ok (full (pre ++ zs ++ post) ++ buf') ∧
      buf'.length = buf.length ∧ zs.Perm (xs ++ ys) ∧ Spec.SortedBy lt zs ∧ Spec.SameOrderOfEquivalents lt (xs ++ ys) zs := by
  obtain ⟨m', Y, e, a, s, u⟩ := inplaceMerge_spec hlt (pre ++ (xs ++ ys) ++ post).length buf.length
    (full (pre ++ (xs ++ ys) ++ post) ++ buf) pre.length (pre.length + xs.length)
    (pre.length + xs.length + ys.length) xs ys (at_full_append _ _ _ _) rfl rfl (by simp; omega) (by simp) hx hy
  obtain ⟨t', h1, h2⟩ := rebuild u (fun j hj => by unfold Seg at hj; simp at hj ⊢; omega) s.len a
  exact ⟨Y, t', by rw [e, h1], h2, s.perm, s.srt, fun k => s.stab k⟩

/-- non-vacuity: pairs compared by first component only, and a buffer that is too small. -/
example : ∃ ys buf', stableSort (fun a b : Nat × String => decide (a.1 < b.1))
      (full ([] ++ [(2, "a"), (1, "b"), (2, "c"), (1, "d")] ++ [(0, "z")]) ++ [none]) 0 4 5 1
        = .ok (full ([] ++ ys ++ [(0, "z")]) ++ buf') ∧
      buf'.length = 1 ∧ ys.Perm [(2, "a"), (1, "b"), (2, "c"), (1, "d")] ∧
      Spec.SortedBy (fun a b : Nat × String => decide (a.1 < b.1)) ys ∧
      Spec.SameOrderOfEquivalents (fun a b : Nat × String => decide (a.1 < b.1)) [(2, "a"), (1, "b"), (2, "c"), (1, "d")] ys :=
  C02_stable_sort swo_fst [] _ [(0, "z")] [none]

example : Spec.SortedBy (fun a b : Nat × String => decide (a.1 < b.1)) [(1, "x"), (1, "a"), (3, "q")] := by
  simp [Spec.SortedBy]

end STL
