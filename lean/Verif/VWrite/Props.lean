import Verif.VWrite.Reverse
import Verif.VWrite.Unique
import Mathlib.Data.List.Destutter

/-!
# C50: the vectorised algorithms that write have exactly the effect of the plain algorithm

`Elem` is the list of the bytes of an element. The results do not depend on the CPU. A result that is not `none` means that nothing was read or written
outside of the ranges and that every loop ended.

The specification uses `List.filter`, `List.destutter`, `List.map`, `List.reverse`, `List.take` and `List.drop` only.
-/

namespace STL.VWrite

open STL.VAlg (Cpu)

theorem filter_ne (val : Elem) (a : List Elem) : a.filter (· != val) = a.filter (fun x => decide (x ≠ val)) := by
  apply List.filter_congr
  intro x _
  by_cases h : x = val <;> simp [h]

theorem uniq_destutter : ∀ a : List Elem, uniq a = a.destutter (· ≠ ·) := by
  have key : ∀ (l : List Elem) (x : Elem), x :: sel x l = l.destutter' (· ≠ ·) x := by
    intro l
    induction l with
    | nil => intro x; simp [sel]
    | cons y l ih =>
      intro x
      by_cases h : y = x
      · subst h; rw [sel, if_pos rfl, ih y, List.destutter'_cons, if_neg (by simp)]
      · rw [sel, if_neg h, ih y, List.destutter'_cons, if_pos (fun h' => h h'.symm)]
  intro a
  cases a with
  | nil => rfl
  | cons x l => simpa [uniq, List.destutter] using key l x

/-- C50 (remove): the elements different from `val` are moved to the front in their order; the pointer behind the last of them is returned. -/
theorem C50_remove (c : Cpu) {s : Nat} (hs : s = 1 ∨ s = 2 ∨ s = 4 ∨ s = 8) {a : List Elem} (he : ∀ x ∈ a, x.length = s) (val : Elem) :
    ∃ a', remove c s a val = some (a', s * (a.filter (fun x => decide (x ≠ val))).length) ∧ a'.length = a.length ∧
      a'.take (a.filter (fun x => decide (x ≠ val))).length = a.filter (fun x => decide (x ≠ val)) := by
  obtain ⟨a', e, hI⟩ := remove_spec c hs he val
  rw [filter_ne] at e hI
  exact ⟨a', e, hI.len, hI.tk⟩

/-- C50 (remove_copy): the elements different from `val` are copied; nothing behind them is written, even if the destination has exactly the room that is needed. -/
theorem C50_remove_copy (c : Cpu) {s : Nat} (hs : s = 1 ∨ s = 2 ∨ s = 4 ∨ s = 8) {a : List Elem} (he : ∀ x ∈ a, x.length = s) (val : Elem)
    {buf d : List Elem} (hbuf : s * buf.length = 512) (hd : (a.filter (fun x => decide (x ≠ val))).length ≤ d.length) :
    removeCopy c s buf a val d = some (a.filter (fun x => decide (x ≠ val)) ++ d.drop (a.filter (fun x => decide (x ≠ val))).length,
      s * (a.filter (fun x => decide (x ≠ val))).length) := by
  rw [← filter_ne] at hd ⊢
  exact removeCopy_spec c hs he val hbuf hd

/-- C50 (unique): of each run of equal elements one remains. -/
theorem C50_unique (c : Cpu) {s : Nat} (hs : s = 1 ∨ s = 2 ∨ s = 4 ∨ s = 8) {a : List Elem} (he : ∀ x ∈ a, x.length = s) (hb : ∀ x ∈ a, ∀ b ∈ x, b < 256) :
    ∃ a', unique c s a = some (a', s * (a.destutter (· ≠ ·)).length) ∧ a'.length = a.length ∧ a'.take (a.destutter (· ≠ ·)).length = a.destutter (· ≠ ·) := by
  obtain ⟨a', e, hI⟩ := unique_spec c hs he hb
  rw [uniq_destutter] at e hI
  exact ⟨a', e, hI.len, hI.tk⟩

/-- C50 (unique_copy) -/
theorem C50_unique_copy (c : Cpu) {s : Nat} (hs : s = 1 ∨ s = 2 ∨ s = 4 ∨ s = 8) {a : List Elem} (he : ∀ x ∈ a, x.length = s)
    {buf d : List Elem} (hbuf : s * buf.length = 512) (hd : (a.destutter (· ≠ ·)).length ≤ d.length) :
    uniqueCopy c s buf a d = some (a.destutter (· ≠ ·) ++ d.drop (a.destutter (· ≠ ·)).length, s * (a.destutter (· ≠ ·)).length) := by
  rw [← uniq_destutter] at hd ⊢
  exact uniqueCopy_spec c hs he hbuf hd

/-- C50 (replace): elements of four or eight bytes. -/
theorem C50_replace (c : Cpu) {s : Nat} (hs : s = 4 ∨ s = 8) (a : List Elem) (old new : Elem) :
    replace c s a old new = some (a.map fun x => if x = old then new else x) :=
  replace_spec c hs old new

/-- C50 (replace_copy): nothing behind the copy is written. -/
theorem C50_replace_copy (c : Cpu) {s : Nat} (hs : s = 1 ∨ s = 2 ∨ s = 4 ∨ s = 8) (a : List Elem) (old new : Elem) {d : List Elem} (hd : a.length ≤ d.length) :
    replaceCopy c s a old new d = some ((a.map fun x => if x = old then new else x) ++ d.drop a.length) :=
  replaceCopy_spec c hs old new hd

/-- C50 (reverse) -/
theorem C50_reverse (c : Cpu) {s : Nat} (hs : s = 1 ∨ s = 2 ∨ s = 4 ∨ s = 8) {a : List Elem} (he : ∀ x ∈ a, x.length = s) :
    reverse c s a = some a.reverse :=
  reverse_spec c hs he

/-- C50 (reverse_copy): nothing behind the copy is written. -/
theorem C50_reverse_copy (c : Cpu) {s : Nat} (hs : s = 1 ∨ s = 2 ∨ s = 4 ∨ s = 8) {a d : List Elem} (he : ∀ x ∈ a, x.length = s) (hd : a.length ≤ d.length) :
    reverseCopy c s a d = some (a.reverse ++ d.drop a.length) :=
  reverseCopy_spec c hs he hd

/-- C50 (swap_ranges): the first `n` bytes are exchanged, the others stay. -/
theorem C50_swap_ranges (c : Cpu) {n : Nat} {a b : List Elem} (ha : n ≤ a.length) (hb : n ≤ b.length) :
    swapRanges c n a b = some (b.take n ++ a.drop n, a.take n ++ b.drop n) :=
  swapRanges_spec c ha hb

/-! ## Cases that meet the hypotheses -/

/-- elements of two bytes -/
def exA : List Elem := (List.range 100).map fun i => [i % 3, i / 50]

theorem exA_len : ∀ x ∈ exA, x.length = 2 := by
  intro x hx
  obtain ⟨i, _, rfl⟩ := List.mem_map.1 hx
  rfl

theorem exA_byte : ∀ x ∈ exA, ∀ b ∈ x, b < 256 := by
  intro x hx b hb
  obtain ⟨i, hi, rfl⟩ := List.mem_map.1 hx
  have := List.mem_range.1 hi
  simp at hb; omega

example : ∃ a', remove ⟨true, true⟩ 2 exA [1, 0] = some (a', 2 * 83) ∧ a'.length = 100 := by
  obtain ⟨a', e, h, _⟩ := C50_remove ⟨true, true⟩ (by omega) exA_len [1, 0]
  have hc : (exA.filter (fun x => decide (x ≠ [1, 0]))).length = 83 := by decide
  rw [hc] at e
  exact ⟨a', e, by rw [h]; rfl⟩

/-- the destination has exactly the room that is needed -/
example : (removeCopy ⟨true, true⟩ 2 (List.replicate 256 [7, 7]) exA [1, 0] (List.replicate 83 [])).map Prod.snd = some 166 := by
  have hc : (exA.filter (fun x => decide (x ≠ [1, 0]))).length = 83 := by decide
  rw [C50_remove_copy ⟨true, true⟩ (by omega) exA_len [1, 0] (by rw [List.length_replicate]) (by rw [hc, List.length_replicate]), hc]; rfl

example : ∃ a', unique ⟨false, true⟩ 2 exA = some (a', 2 * 100) := by
  obtain ⟨a', e, _⟩ := C50_unique ⟨false, true⟩ (by omega) exA_len exA_byte
  have hc : (exA.destutter (· ≠ ·)).length = 100 := by decide
  rw [hc] at e
  exact ⟨a', e⟩

/-- runs -/
def exU : List Elem := (List.range 40).map fun i => [i / 3, 0, 0, 0]

example : (uniqueCopy ⟨true, true⟩ 4 (List.replicate 128 []) exU (List.replicate 14 [])).map Prod.snd = some 56 := by
  have hl : ∀ x ∈ exU, x.length = 4 := by
    intro x hx
    obtain ⟨i, _, rfl⟩ := List.mem_map.1 hx
    rfl
  have hc : (exU.destutter (· ≠ ·)).length = 14 := by decide
  rw [C50_unique_copy ⟨true, true⟩ (by omega) hl (by rw [List.length_replicate]) (by rw [hc, List.length_replicate]), hc]; rfl

example : replace ⟨true, true⟩ 4 exU [3, 0, 0, 0] [9, 9, 9, 9] = some (exU.map fun x => if x = [3, 0, 0, 0] then [9, 9, 9, 9] else x) :=
  C50_replace _ (by omega) _ _ _

example : reverse ⟨true, true⟩ 2 exA = some exA.reverse := C50_reverse _ (by omega) exA_len

example : reverseCopy ⟨true, true⟩ 2 exA (List.replicate 101 [5, 5]) = some (exA.reverse ++ [[5, 5]]) := by
  rw [C50_reverse_copy _ (by omega) exA_len (by simp [exA])]; rfl

example : swapRanges ⟨true, true⟩ 60 ((List.range 61).map fun i => [i]) ((List.range 70).map fun i => [i + 100]) =
    some ((List.range 60).map (fun i => [i + 100]) ++ [[60]], (List.range 60).map (fun i => [i]) ++ (List.range 10).map fun i => [i + 160]) := by
  rw [C50_swap_ranges _ (by simp) (by simp)]; decide

/-- The functions themselves, evaluated. -/
example : remove ⟨true, true⟩ 4 ((List.range 11).map fun i => [i % 3, 0, 0, 0]) [1, 0, 0, 0] =
    some ([0, 2, 0, 2, 0, 2, 0, 1, 2, 0, 1].map fun i => [i, 0, 0, 0], 28) := by decide

end STL.VWrite
