import Verif.Par.ScanProps
import Verif.Par.FindProps2

/-!
# Parallel scans into a destination of another type

`/repo/stl/inc/execution:4417-4423`, `:4578-4582`, `:3675-3682`, `:3693-3701`: when the value type of the destination is not the intermediate type, the local results are kept in a vector.
The chunks that must wait for their predecessor do not read back what was stored: the theorems show the defect, for every chunk. C40 is therefore stated for equal types.
-/

namespace STL.Par.ScanOther
open STL

variable {α : Type}

/-- `_Exclusive_scan_per_chunk`, `execution:4409-4425`: the vector (`emplace_back(_Val)` before each further element) and the sum. -/
def exclInter (op : α → α → α) : α → List α → List α × α
  | val, [] => ([], val)
  | val, x :: xs => (val :: (exclInter op (op val x) xs).1, (exclInter op (op val x) xs).2)

/-- `_Inclusive_scan_per_chunk`, `execution:4568-4583`: the vector (`emplace_back(_Val)` before each further element) and the sum. -/
def inclInter (op : α → α → α) : α → List α → List α × α
  | val, [] => ([], val)
  | val, x :: xs => (val :: (inclInter op (op val x) xs).1, (inclInter op (op val x) xs).2)

/-- `*_First2` in `_Intermediate_result.data()`: only constructed elements may be read. -/
def rdInter (data : List α) (j : Nat) : R α :=
  match data[j]? with
  | some d => .ok d
  | none => .error .ub

/-- The loop of `_Apply_exclusive_predecessor`, `execution:3675-3682`: `++_First2` comes before the read. -/
def applyExclLoop (op : α → α → α) (pre : α) (data : List α) : Nat → Nat → R (List α)
  | 0, _ => .ok []
  | m + 1, j => do
    let d ← rdInter data (j + 1)
    let rest ← applyExclLoop op pre data m (j + 1)
    .ok (op pre d :: rest)

/-- `_Apply_exclusive_predecessor` for a chunk of `m + 1` elements. -/
def applyExcl (op : α → α → α) (pre : α) (data : List α) (m : Nat) : R (List α) := do
  let rest ← applyExclLoop op pre data m 0
  .ok (pre :: rest)

/-- The loop of `_Apply_inclusive_predecessor`, `execution:3693-3701`. -/
def applyIncl (op : α → α → α) (pre : α) (data : List α) : Nat → Nat → R (List α)
  | 0, _ => .ok []
  | m + 1, j => do
    let d ← rdInter data j
    let rest ← applyIncl op pre data m (j + 1)
    .ok (op pre d :: rest)

theorem exclInter_length (op : α → α → α) : ∀ (xs : List α) (val : α), (exclInter op val xs).1.length = xs.length := by
  intro xs
  induction xs with
  | nil => intro val; rfl
  | cons x xs ih => intro val; simp [exclInter, ih]

theorem inclInter_length (op : α → α → α) : ∀ (xs : List α) (val : α), (inclInter op val xs).1.length = xs.length := by
  intro xs
  induction xs with
  | nil => intro val; rfl
  | cons x xs ih => intro val; simp [inclInter, ih]

theorem applyExclLoop_bad (op : α → α → α) (pre : α) (data : List α) : ∀ m j, 0 < m → data.length < j + 1 + m → applyExclLoop op pre data m j = .error .ub := by
  intro m
  induction m with
  | zero => intro j h; omega
  | succ m ih =>
    intro j _ hl
    unfold applyExclLoop rdInter
    by_cases h : j + 1 < data.length
    · rw [List.getElem?_eq_getElem h]
      simp only [R.ok_bind]
      rw [ih (j + 1) (by omega) (by omega)]
      rfl
    · rw [List.getElem?_eq_none (by omega)]
      rfl

theorem applyIncl_bad (op : α → α → α) (pre : α) (data : List α) : ∀ m j, 0 < m → data.length < j + m → applyIncl op pre data m j = .error .ub := by
  intro m
  induction m with
  | zero => intro j h; omega
  | succ m ih =>
    intro j _ hl
    unfold applyIncl rdInter
    by_cases h : j < data.length
    · rw [List.getElem?_eq_getElem h]
      simp only [R.ok_bind]
      rw [ih (j + 1) (by omega) (by omega)]
      rfl
    · rw [List.getElem?_eq_none (by omega)]
      rfl

/-- **C40** (defect): a chunk `x :: xs` of at least two elements of an exclusive scan into another type, when the predecessor's sum comes late: an element of the vector that was never constructed is read. -/
theorem C40_exclusive_other_type (op : α → α → α) (pre x : α) (xs : List α) (h : xs ≠ []) : applyExcl op pre (exclInter op x xs).1 xs.length = .error .ub := by
  unfold applyExcl
  rw [applyExclLoop_bad op pre _ xs.length 0 (List.length_pos_iff.2 h) (by rw [exclInter_length]; omega)]
  rfl

/-- **C40** (defect): the same for an inclusive scan and any chunk `x :: xs`. -/
theorem C40_inclusive_other_type (op : α → α → α) (pre x : α) (xs : List α) : applyIncl op pre (inclInter op x xs).1 (xs.length + 1) 0 = .error .ub :=
  applyIncl_bad op pre _ (xs.length + 1) 0 (by omega) (by rw [inclInter_length]; omega)

end STL.Par.ScanOther
