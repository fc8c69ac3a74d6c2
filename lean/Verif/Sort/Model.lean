import Verif.Base

/-!
# Model of `std::sort`, the heap algorithms and `_Insertion_sort_unchecked`

Source: `/repo/stl/inc/__msvc_heap_algorithms.hpp` and `/repo/stl/inc/algorithm`.
Iterators are positions in the memory `m`. `_DEBUG_LT_PRED` is the plain predicate call (release mode).
`_Iter_diff_t` arithmetic is on `Nat`: every value formed is a position or length of the range, so it cannot overflow.
Loops whose termination depends on the invariant take `fuel` and yield `Err.fuel` when it is used up.
-/

namespace STL
variable {α : Type _}

/-! ## heap algorithms -/

/-- `_Push_heap_by_index`, `__msvc_heap_algorithms.hpp:21-34`. `f` is `_First`.
`(_Hole - 1) >> 1` is computed before the test `_Top < _Hole`, but used only after it, so the natural-number
quotient (differing for `_Hole = 0`) is faithful. -/
def pushHeapByIndex (lt : α → α → Bool) (m : Mem α) (f hole top : Nat) (val : α) : R (Mem α) :=
  if _h : top < hole then do
    let p ← rd m (f + (hole - 1) / 2)
    if lt p val then do
      let m ← mvTo m (f + hole) (f + (hole - 1) / 2)
      pushHeapByIndex lt m f ((hole - 1) / 2) top val
    else wr m (f + hole) val
  else wr m (f + hole) val
termination_by hole

/-- `push_heap` on `[f, l)`, `__msvc_heap_algorithms.hpp:36-48`. -/
def pushHeap (lt : α → α → Bool) (m : Mem α) (f l : Nat) : R (Mem α) :=
  if 2 ≤ l - f then do
    let (val, m) ← mv m (l - 1)
    pushHeapByIndex lt m f (l - f - 1) 0 val
  else pure m

/-- The `while` loop of `_Pop_heap_hole_by_index`, `__msvc_heap_algorithms.hpp:68-75`.
In the loop `_Idx = _Hole` at every test, so one variable suffices. Returns memory and final hole. -/
def siftDown (lt : α → α → Bool) (m : Mem α) (f bottom hole : Nat) : R (Mem α × Nat) :=
  if _h : hole < (bottom - 1) / 2 then do
    let r ← rd m (f + (2 * hole + 2))
    let l ← rd m (f + (2 * hole + 2 - 1))
    if lt r l then do
      let m ← mvTo m (f + hole) (f + (2 * hole + 1))
      siftDown lt m f bottom (2 * hole + 1)
    else do
      let m ← mvTo m (f + hole) (f + (2 * hole + 2))
      siftDown lt m f bottom (2 * hole + 2)
  else pure (m, hole)
termination_by bottom - hole
decreasing_by all_goals omega

/-- `_Pop_heap_hole_by_index`, `__msvc_heap_algorithms.hpp:56-83` (`_Bottom > 0` is a stated precondition). -/
def popHeapHoleByIndex (lt : α → α → Bool) (m : Mem α) (f hole bottom : Nat) (val : α) : R (Mem α) := do
  let top := hole
  let (m, hole) ← siftDown lt m f bottom hole
  if hole = (bottom - 1) / 2 ∧ bottom % 2 = 0 then do
    let m ← mvTo m (f + hole) (f + (bottom - 1))
    pushHeapByIndex lt m f (bottom - 1) top val
  else pushHeapByIndex lt m f hole top val

/-- `_Pop_heap_hole_unchecked` (`:85-94`): `*dest = move(*first)`, then re-heap `[f, l)` with `val`. -/
def popHeapHoleUnchecked (lt : α → α → Bool) (m : Mem α) (f l dest : Nat) (val : α) : R (Mem α) := do
  let m ← mvTo m dest f
  popHeapHoleByIndex lt m f 0 (l - f) val

/-- `_Pop_heap_unchecked` on `[f, l)`, `__msvc_heap_algorithms.hpp:96-104`. -/
def popHeap (lt : α → α → Bool) (m : Mem α) (f l : Nat) : R (Mem α) :=
  if 2 ≤ l - f then do
    let l := l - 1
    let (val, m) ← mv m l
    popHeapHoleUnchecked lt m f l l val
  else pure m

/-- Loop of `_Make_heap_unchecked`, `__msvc_heap_algorithms.hpp:120-132`; the argument is `_Hole` at the loop test. -/
def makeHeapLoop (lt : α → α → Bool) (m : Mem α) (f bottom : Nat) : Nat → R (Mem α)
  | 0 => pure m
  | hole + 1 => do
    let (val, m) ← mv m (f + hole)
    let m ← popHeapHoleByIndex lt m f hole bottom val
    makeHeapLoop lt m f bottom hole

/-- `_Make_heap_unchecked` on `[f, l)`. -/
def makeHeap (lt : α → α → Bool) (m : Mem α) (f l : Nat) : R (Mem α) :=
  makeHeapLoop lt m f (l - f) ((l - f) / 2)

/-- `_Sort_heap_unchecked`, `algorithm:7813-7818`. -/
def sortHeap (lt : α → α → Bool) (m : Mem α) (f l : Nat) : R (Mem α) :=
  if _h : 2 ≤ l - f then do
    let m ← popHeap lt m f l
    sortHeap lt m f (l - 1)
  else pure m
termination_by l

/-! ## insertion sort -/

/-- `_Move_backward_unchecked(first, last, dest)` (general loop, `xutility`): `while (first != last) *--dest = move(*--last)`. -/
def moveBackward (m : Mem α) (first last dest : Nat) : R (Mem α) :=
  if _h : first < last then do
    let m ← mvTo m (dest - 1) (last - 1)
    moveBackward m first (last - 1) (dest - 1)
  else pure m
termination_by last

/-- Inner loop of `_Insertion_sort_unchecked`, `algorithm:8927-8929`; `_Prev = _Hole` at each test. No bounds test in the code:
decrementing past the start of memory is UB here. Returns the memory and the final hole. -/
def isortInner (lt : α → α → Bool) (m : Mem α) (val : α) : Nat → R (Mem α × Nat)
  | 0 => .error .ub
  | h + 1 => do
    let p ← rd m h
    if lt val p then do
      let m ← mvTo m (h + 1) h
      isortInner lt m val h
    else pure (m, h + 1)

/-- Body of the outer loop of `_Insertion_sort_unchecked` for one `_Mid`, `algorithm:8920-8932`. -/
def isortStep (lt : α → α → Bool) (m : Mem α) (first mid : Nat) : R (Mem α) := do
  let (val, m) ← mv m mid
  let p ← rd m first
  if lt val p then do
    let m ← moveBackward m first mid (mid + 1)
    wr m first val
  else do
    let (m, hole) ← isortInner lt m val mid
    wr m hole val

/-- Outer loop of `_Insertion_sort_unchecked`, with `_Mid` already incremented. -/
def isortLoop (lt : α → α → Bool) (m : Mem α) (first mid last : Nat) : R (Mem α) :=
  if _h : mid < last then do
    let m ← isortStep lt m first mid
    isortLoop lt m first (mid + 1) last
  else pure m
termination_by last - mid

/-- `_Insertion_sort_unchecked`, `algorithm:8915-8937`. -/
def insertionSort (lt : α → α → Bool) (m : Mem α) (first last : Nat) : R (Mem α) :=
  if first < last then isortLoop lt m first (first + 1) last else pure m

/-! ## median guess, partition, introsort -/

/-- `_Med3_unchecked`, `algorithm:8939-8953`. -/
def med3 (lt : α → α → Bool) (m : Mem α) (first mid last : Nat) : R (Mem α) := do
  let a ← rd m mid
  let b ← rd m first
  let m ← swpIf (lt a b) m mid first
  let c ← rd m last
  let a ← rd m mid
  if lt c a then do
    let m ← swp m last mid
    let a ← rd m mid
    let b ← rd m first
    if lt a b then swp m mid first else pure m
  else pure m

/-- `_Guess_median_unchecked` (inclusive `last`), `algorithm:8955-8970`. -/
def guessMedian (lt : α → α → Bool) (m : Mem α) (first mid last : Nat) : R (Mem α) :=
  let count := last - first
  if 40 < count then do
    let step := (count + 1) / 8
    let twoStep := step * 2
    let m ← med3 lt m first (first + step) (first + twoStep)
    let m ← med3 lt m (mid - step) mid (mid + step)
    let m ← med3 lt m (last - twoStep) (last - step) last
    med3 lt m (first + step) mid (last - step)
  else med3 lt m first mid last

/-- First `while` of `_Partition_by_pivot_unchecked`, `algorithm:8978-8981`. -/
def pivotDown (lt : α → α → Bool) (m : Mem α) (first pfirst : Nat) : R Nat :=
  if _h : first < pfirst then do
    let a ← rd m (pfirst - 1)
    let p ← rd m pfirst
    if lt a p then pure pfirst
    else if lt p a then pure pfirst
    else pivotDown lt m first (pfirst - 1)
  else pure pfirst
termination_by pfirst

/-- Second `while`, `algorithm:8983-8985`. -/
def pivotUp (lt : α → α → Bool) (m : Mem α) (pfirst plast last : Nat) : R Nat :=
  if _h : plast < last then do
    let a ← rd m plast
    let p ← rd m pfirst
    if lt a p then pure plast
    else if lt p a then pure plast
    else pivotUp lt m pfirst (plast + 1) last
  else pure plast
termination_by last - plast

/-- First inner `for` of the partition loop, `algorithm:8991-9002`. Returns memory, `_Plast`, `_Gfirst`. -/
def partUp (lt : α → α → Bool) (m : Mem α) (pfirst plast gfirst last : Nat) : R (Mem α × Nat × Nat) :=
  if _h : gfirst < last then do
    let p ← rd m pfirst
    let g ← rd m gfirst
    if lt p g then partUp lt m pfirst plast (gfirst + 1) last
    else if lt g p then pure (m, plast, gfirst)
    else if plast ≠ gfirst then do
      let m ← swp m plast gfirst
      partUp lt m pfirst (plast + 1) (gfirst + 1) last
    else partUp lt m pfirst (plast + 1) (gfirst + 1) last
  else pure (m, plast, gfirst)
termination_by last - gfirst

/-- Second inner `for`, `algorithm:9004-9013`. Returns memory, `_Pfirst`, `_Glast`. -/
def partDown (lt : α → α → Bool) (m : Mem α) (first pfirst glast : Nat) : R (Mem α × Nat × Nat) :=
  if _h : first < glast then do
    let g ← rd m (glast - 1)
    let p ← rd m pfirst
    if lt g p then partDown lt m first pfirst (glast - 1)
    else if lt p g then pure (m, pfirst, glast)
    else do
      let pfirst ← decIt pfirst
      if pfirst ≠ glast - 1 then do
        let m ← swp m pfirst (glast - 1)
        partDown lt m first pfirst (glast - 1)
      else partDown lt m first pfirst (glast - 1)
  else pure (m, pfirst, glast)
termination_by glast

/-- The `for (;;)` of `_Partition_by_pivot_unchecked`, `algorithm:8990-9037`. -/
def partLoop (lt : α → α → Bool) (fuel : Nat) (m : Mem α) (first last pfirst plast gfirst glast : Nat) :
    R (Mem α × Nat × Nat) :=
  match fuel with
  | 0 => .error .fuel
  | fuel + 1 => do
    let (m, plast, gfirst) ← partUp lt m pfirst plast gfirst last
    let (m, pfirst, glast) ← partDown lt m first pfirst glast
    if glast = first ∧ gfirst = last then pure (m, pfirst, plast)
    else if glast = first then do
      let m ← swpIf (plast ≠ gfirst) m pfirst plast
      let m ← swp m pfirst gfirst
      partLoop lt fuel m first last (pfirst + 1) (plast + 1) (gfirst + 1) glast
    else if gfirst = last then do
      let glast ← decIt glast
      let pfirst ← decIt pfirst
      let m ← swpIf (glast ≠ pfirst) m glast pfirst
      let plast ← decIt plast
      let m ← swp m pfirst plast
      partLoop lt fuel m first last pfirst plast gfirst glast
    else do
      let glast ← decIt glast
      let m ← swp m gfirst glast
      partLoop lt fuel m first last pfirst plast (gfirst + 1) glast

/-- `_Partition_by_pivot_unchecked`, `algorithm:8972-9038`. -/
def partitionByPivot (lt : α → α → Bool) (m : Mem α) (first pfirst last : Nat) : R (Mem α × Nat × Nat) := do
  let plast := pfirst + 1
  let pfirst ← pivotDown lt m first pfirst
  let plast ← pivotUp lt m pfirst plast last
  partLoop lt (last - first + 1) m first last pfirst plast plast pfirst

/-- `_Partition_by_median_guess_unchecked`, `algorithm:9041-9048`. -/
def partitionByMedianGuess (lt : α → α → Bool) (m : Mem α) (first last : Nat) : R (Mem α × Nat × Nat) := do
  let mid := first + (last - first) / 2
  let lastPrev ← decIt last
  let m ← guessMedian lt m first mid lastPrev
  partitionByPivot lt m first mid last

/-- `_ISORT_MAX`, `algorithm:566`. -/
def isortMax : Nat := 32

/-- `_Sort_unchecked`, `algorithm:9050-9078`. The `for (;;)` tail iteration is written as a recursive call. -/
def sortUnchecked (lt : α → α → Bool) (fuel : Nat) (m : Mem α) (first last ideal : Nat) : R (Mem α) :=
  match fuel with
  | 0 => .error .fuel
  | fuel + 1 =>
    if last - first ≤ isortMax then insertionSort lt m first last
    else if ideal ≤ 0 then do
      let m ← makeHeap lt m first last
      sortHeap lt m first last
    else do
      let (m, mid1, mid2) ← partitionByMedianGuess lt m first last
      let ideal := ideal / 2 + ideal / 4
      if mid1 - first < last - mid2 then do
        let m ← sortUnchecked lt fuel m first mid1 ideal
        sortUnchecked lt fuel m mid2 last ideal
      else do
        let m ← sortUnchecked lt fuel m mid2 last ideal
        sortUnchecked lt fuel m first mid1 ideal

/-- `sort(first, last, pred)`, `algorithm:9080-9086`, on the whole of `m`. -/
def sort (lt : α → α → Bool) (m : Mem α) : R (Mem α) :=
  sortUnchecked lt (m.length + 1) m 0 m.length m.length

end STL
