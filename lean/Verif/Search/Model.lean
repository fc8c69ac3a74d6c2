import Verif.Sort.Heap

/-!
# Model of the binary searches: `lower_bound`, `upper_bound`, `partition_point`, `equal_range`, `binary_search`

The comparator may be heterogeneous: `ltE e v` is `_Pred(*it, _Val)`, `ltV v e` is `_Pred(_Val, *it)`.
Positions are `Nat` offsets in the memory; counts are `Nat` (the code's difference type, which is never negative here).
Not modelled: iterator unwrapping, range verification, the debug-mode `_DEBUG_LT_PRED` double check.
-/

namespace STL
variable {α β : Type _}

/-- `lower_bound` loop, `xutility:7822-7831`, also `ranges::_Lower_bound_unchecked` with projection folded into `ltE`. -/
def lowerBoundLoop (ltE : α → β → Bool) (m : Mem α) (v : β) (first count : Nat) : R Nat :=
  if _h : 0 < count then do
    let count2 := count / 2
    let mid := first + count2
    let x ← rd m mid
    if ltE x v then lowerBoundLoop ltE m v (mid + 1) (count - (count2 + 1))
    else lowerBoundLoop ltE m v first count2
  else pure first
termination_by count
decreasing_by all_goals omega

/-- `lower_bound(first, last, val, pred)`, `xutility:7815-7835`. -/
def lowerBound (ltE : α → β → Bool) (m : Mem α) (first last : Nat) (v : β) : R Nat :=
  lowerBoundLoop ltE m v first (last - first)

/-- `upper_bound` loop, `xutility:7850-7859`. -/
def upperBoundLoop (ltV : β → α → Bool) (m : Mem α) (v : β) (first count : Nat) : R Nat :=
  if _h : 0 < count then do
    let count2 := count / 2
    let mid := first + count2
    let x ← rd m mid
    if ltV v x then upperBoundLoop ltV m v first count2
    else upperBoundLoop ltV m v (mid + 1) (count - (count2 + 1))
  else pure first
termination_by count
decreasing_by all_goals omega

/-- `upper_bound(first, last, val, pred)`, `xutility:7843-7863`. -/
def upperBound (ltV : β → α → Bool) (m : Mem α) (first last : Nat) (v : β) : R Nat :=
  upperBoundLoop ltV m v first (last - first)

/-- `partition_point` loop, `algorithm:2346-2357` (two-step decrement of `_Count`). -/
def partitionPointLoop (p : α → Bool) (m : Mem α) (first count : Nat) : R Nat :=
  if _h : 0 < count then do
    let count2 := count / 2
    let mid := first + count2
    let x ← rd m mid
    if p x then partitionPointLoop p m (mid + 1) (count - count2 - 1)
    else partitionPointLoop p m first count2
  else pure first
termination_by count
decreasing_by all_goals omega

/-- `partition_point(first, last, pred)`, `algorithm:2338-2361`. -/
def partitionPoint (p : α → Bool) (m : Mem α) (first last : Nat) : R Nat :=
  partitionPointLoop p m first (last - first)

/-- `equal_range` loop, `algorithm:7990-8014`. -/
def equalRangeLoop (ltE : α → β → Bool) (ltV : β → α → Bool) (m : Mem α) (v : β) (first count : Nat) : R (Nat × Nat) :=
  if _h : count ≤ 0 then pure (first, first)
  else do
    let count2 := count / 2
    let mid := first + count2
    let x ← rd m mid
    if ltE x v then equalRangeLoop ltE ltV m v (mid + 1) (count - (count2 + 1))
    else if ltV v x then equalRangeLoop ltE ltV m v first count2
    else do
      let first2 ← lowerBound ltE m first mid v
      let last2 ← upperBound ltV m (mid + 1) (first + count) v
      pure (first2, last2)
termination_by count
decreasing_by all_goals omega

/-- `equal_range(first, last, val, pred)`, `algorithm:7979-8017`. -/
def equalRange (ltE : α → β → Bool) (ltV : β → α → Bool) (m : Mem α) (first last : Nat) (v : β) : R (Nat × Nat) :=
  equalRangeLoop ltE ltV m v first (last - first)

/-- `ranges::_Equal_range_unchecked`, `algorithm:8055-8081`: same search, but the upper search gets
`_Count - (_Half + 1)` as its length. -/
def rangesEqualRangeLoop (ltE : α → β → Bool) (ltV : β → α → Bool) (m : Mem α) (v : β) (first count : Nat) :
    R (Nat × Nat) :=
  if _h : 0 < count then do
    let half := count / 2
    let mid := first + half
    let x ← rd m mid
    if ltE x v then rangesEqualRangeLoop ltE ltV m v (mid + 1) (count - (half + 1))
    else if ltV v x then rangesEqualRangeLoop ltE ltV m v first half
    else do
      let first2 ← lowerBoundLoop ltE m v first half
      let last2 ← upperBoundLoop ltV m v (mid + 1) (count - (half + 1))
      pure (first2, last2)
  else pure (first, first)
termination_by count
decreasing_by all_goals omega

/-- `binary_search(first, last, val, pred)`, `algorithm:8085-8093`. -/
def binarySearch (ltE : α → β → Bool) (ltV : β → α → Bool) (m : Mem α) (first last : Nat) (v : β) : R Bool := do
  let i ← lowerBound ltE m first last v
  if i ≠ last then do
    let x ← rd m i
    pure (!ltV v x)
  else pure false

end STL
