import Verif.Sort.Model

/-!
# Model of `partial_sort`, `nth_element`, `is_heap_until` and `priority_queue`

Source: `/repo/stl/inc/algorithm`, `/repo/stl/inc/queue`.
-/

namespace STL
variable {α : Type _}

/-- Loop of `partial_sort`, `algorithm:9806-9811`. -/
def partialSortLoop (lt : α → α → Bool) (m : Mem α) (first mid next last : Nat) : R (Mem α) :=
  if _h : next < last then do
    let x ← rd m next
    let t ← rd m first
    if lt x t then do
      let (val, m) ← mv m next
      let m ← popHeapHoleUnchecked lt m first mid next val
      partialSortLoop lt m first mid (next + 1) last
    else partialSortLoop lt m first mid (next + 1) last
  else pure m
termination_by last - next

/-- `partial_sort`, `algorithm:9791-9814`. -/
def partialSort (lt : α → α → Bool) (m : Mem α) (first mid last : Nat) : R (Mem α) :=
  if first = mid then pure m
  else do
    let m ← makeHeap lt m first mid
    let m ← partialSortLoop lt m first mid mid last
    sortHeap lt m first mid

/-- `_Swap_med5_unchecked`, `algorithm:10062-10094`. -/
def swapMed5 (lt : α → α → Bool) (m : Mem α) (first dest : Nat) : R (Mem α) := do
  let guess := first + 1
  let third := guess + 1
  let m ← med3 lt m first guess third
  let fourth := third + 1
  let fifth := fourth + 1
  let v5 ← rd m fifth
  let v4 ← rd m fourth
  let m ← swpIf (lt v5 v4) m fourth fifth
  let v1 ← rd m first
  let v2 ← rd m guess
  let v3 ← rd m third
  let v4 ← rd m fourth
  let v5 ← rd m fifth
  let guess :=
    if lt v5 v2 then
      if lt v1 v5 then fifth else first
    else if lt v2 v4 then
      if lt v3 v4 then third else fourth
    else guess
  swp m dest guess

/-- The median-collecting loop, `algorithm:10110-10113`. -/
def collectMedians (lt : α → α → Bool) (m : Mem α) (current dest last : Nat) : R (Mem α) :=
  if _h : dest < last then do
    let m ← swapMed5 lt m current dest
    collectMedians lt m (current + 5) (dest + 1) last
  else pure m
termination_by last - dest

/-- `_Swap_ranges_unchecked(first1, last1, first2)` (element-wise loop, `xutility`). -/
def swapRanges (m : Mem α) (first1 last1 first2 : Nat) : R (Mem α) :=
  if _h : first1 < last1 then do
    let m ← swp m first1 first2
    swapRanges m (first1 + 1) last1 (first2 + 1)
  else pure m
termination_by last1 - first1

/-- `_Nth_element_median_of_medians`, `algorithm:10096-10145`. -/
def nthElementMoM (lt : α → α → Bool) (fuel : Nat) (m : Mem α) (first nth last : Nat) : R (Mem α) :=
  match fuel with
  | 0 => .error .fuel
  | fuel + 1 =>
    let length := last - first
    if length ≤ isortMax then insertionSort lt m first last
    else do
      let medianCount := length / 5
      let medianLast := first + medianCount
      let m ← collectMedians lt m first first medianLast
      let medianMid := first + medianCount / 2
      let m ← nthElementMoM lt fuel m first medianMid medianLast
      let medianGreaterCount := (medianLast - medianMid) - 1
      let medianGreaterFirst := last - medianGreaterCount
      let m ← swapRanges m (medianMid + 1) medianLast medianGreaterFirst
      let middle := first + length / 2
      let m ← swp m medianMid middle
      let (m, mid1, mid2) ← partitionByPivot lt m medianMid middle medianGreaterFirst
      if mid2 ≤ nth then nthElementMoM lt fuel m mid2 nth last
      else if mid1 ≤ nth then pure m
      else nthElementMoM lt fuel m first nth mid1

/-- `_Nth_element_unchecked`, `algorithm:10147-10176`. -/
def nthElementUnchecked (lt : α → α → Bool) (fuel : Nat) (m : Mem α) (first nth last ideal : Nat) : R (Mem α) :=
  match fuel with
  | 0 => .error .fuel
  | fuel + 1 =>
    let length := last - first
    if length ≤ isortMax then insertionSort lt m first last
    else if ideal < length / 2 then nthElementMoM lt (last - first + 1) m first nth last
    else do
      let (m, mid1, mid2) ← partitionByMedianGuess lt m first last
      let ideal := ideal / 2 + ideal / 4
      if mid2 ≤ nth then nthElementUnchecked lt fuel m mid2 nth last ideal
      else if mid1 ≤ nth then pure m
      else nthElementUnchecked lt fuel m first nth mid1 ideal

/-- `nth_element` on the whole of `m`, `algorithm:10178-10190`. -/
def nthElement (lt : α → α → Bool) (m : Mem α) (nth : Nat) : R (Mem α) :=
  if nth = m.length then pure m
  else nthElementUnchecked lt (m.length + 1) m 0 nth m.length m.length

/-- `_Is_heap_until_unchecked`, `algorithm:7668-7679`, loop from `_Off`. -/
def isHeapUntilLoop (lt : α → α → Bool) (m : Mem α) (first size off : Nat) : R Nat :=
  if _h : off < size then do
    let p ← rd m (first + (off - 1) / 2)
    let x ← rd m (first + off)
    if lt p x then pure (first + off) else isHeapUntilLoop lt m first size (off + 1)
  else pure (first + size)
termination_by size - off

/-- `is_heap_until(first, last)`. -/
def isHeapUntil (lt : α → α → Bool) (m : Mem α) (first last : Nat) : R Nat :=
  isHeapUntilLoop lt m first (last - first) 1

/-- `is_heap`, `algorithm:7691-7697`. -/
def isHeap (lt : α → α → Bool) (m : Mem α) (first last : Nat) : R Bool := do
  let e ← isHeapUntil lt m first last
  pure (e == last)

/-! ### `priority_queue` (`queue:239-452`): the underlying container is modelled as its element sequence. -/

/-- Operations on a `priority_queue`. -/
inductive PqOp (α : Type _) where
  | push (x : α)
  | pop
  | pushRange (xs : List α)

/-- `push_range`'s incremental loop, `queue:413-415`; the last argument is `_End - _Heap_end`. -/
def pqPushLoop (lt : α → α → Bool) (m : Mem α) (heapEnd : Nat) : Nat → R (Mem α)
  | 0 => pure m
  | n + 1 => do
    let m ← pushHeap lt m 0 (heapEnd + 1)
    pqPushLoop lt m (heapEnd + 1) n

/-- `push` (`queue:386-394`), `pop` (`queue:428-431`; popping an empty container is UB), `push_range` (`queue:397-418`). -/
def pqStep (lt : α → α → Bool) (c : Mem α) : PqOp α → R (Mem α)
  | .push x => pushHeap lt (c ++ [some x]) 0 (c.length + 1)
  | .pop =>
    if c.length = 0 then .error .ub
    else do
      let m ← popHeap lt c 0 c.length
      pure m.dropLast
  | .pushRange xs =>
    let c' := c ++ full xs
    if c'.length / 2 > c.length then makeHeap lt c' 0 c'.length
    else pqPushLoop lt c' c.length (c'.length - c.length)

/-- `top()`, `queue:382-384`: `c.front()`, UB when empty. -/
def pqTop (c : Mem α) : R α := rd c 0

/-- A history of operations on an initially empty `priority_queue`. -/
def pqRun (lt : α → α → Bool) : Mem α → List (PqOp α) → R (Mem α)
  | c, [] => pure c
  | c, op :: ops => do
    let c ← pqStep lt c op
    pqRun lt c ops

end STL
