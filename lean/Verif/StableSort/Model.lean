import Verif.Sort.Model
import Verif.Search.Model
import Verif.Reorder.Model

/-!
# Model of `std::stable_sort` and `std::inplace_merge`

Source: `/repo/stl/inc/algorithm`. The temporary buffer (`_Optimistic_temporary_buffer2`) is a region of the same flat
memory, starting at position `tmp` with room for `cap` elements. Uninitialised storage is a moved-from cell, so reading
it before constructing into it is undefined behaviour, as in C++; constructing and assigning are the same operation
`mvTo`. Destruction of the buffer's (moved-from) elements on exit (`_Uninitialized_backout`) is not modelled, and neither
is a throwing predicate or move. `_Diff` arithmetic is on `Nat`; `_Chunk` never exceeds `2 * _Count`.
-/

namespace STL
variable {α : Type _}

/-- `_Rotate_one_right`, `algorithm:8319-8327`. -/
def rotateOneRight (m : Mem α) (first mid last : Nat) : R (Mem α) := do
  let (t, m) ← mv m mid
  let m ← moveBackward m first mid last
  wr m first t

/-- `_Rotate_one_left`, `algorithm:8329-8335`. -/
def rotateOneLeft (m : Mem α) (first mid last : Nat) : R (Mem α) := do
  let (t, m) ← mv m first
  let (m, d) ← moveFwd m mid last first
  wr m d t

/-- The loop of `_Inplace_merge_buffer_left`, `algorithm:8349-8370`. `lend` is `_Backout._Last`, `llast` is `_Left_last`. -/
def imbLeftLoop (lt : α → α → Bool) (fuel : Nat) (m : Mem α) (first mid last lf llast lend : Nat) : R (Mem α) :=
  match fuel with
  | 0 => .error .fuel
  | fuel + 1 => do
    let x ← rd m mid
    let y ← rd m lf
    if lt x y then do
      let m ← mvTo m first mid
      if mid + 1 = last then do
        let (m, _) ← moveFwd m lf lend (first + 1)
        pure m
      else imbLeftLoop lt fuel m (first + 1) (mid + 1) last lf llast lend
    else do
      let m ← mvTo m first lf
      if lf + 1 = llast then do
        let (m, d) ← moveFwd m mid last (first + 1)
        mvTo m d llast
      else imbLeftLoop lt fuel m (first + 1) mid last (lf + 1) llast lend

/-- `_Inplace_merge_buffer_left`, `algorithm:8337-8371`. -/
def imbLeft (lt : α → α → Bool) (m : Mem α) (first mid last tmp : Nat) : R (Mem α) := do
  let (m, lend) ← moveFwd m first mid tmp
  let m ← mvTo m first mid
  imbLeftLoop lt (last - first) m (first + 1) (mid + 1) last tmp (lend - 1) lend

/-- The loop of `_Inplace_merge_buffer_right`, `algorithm:8383-8405`. -/
def imbRightLoop (lt : α → α → Bool) (fuel : Nat) (m : Mem α) (first mid last rf rl : Nat) : R (Mem α) :=
  match fuel with
  | 0 => .error .fuel
  | fuel + 1 => do
    let x ← rd m rl
    let y ← rd m mid
    if lt x y then do
      let m ← mvTo m (last - 1) mid
      if first = mid then do
        let m ← mvTo m (last - 2) rl
        moveBackward m rf rl (last - 2)
      else do
        let mid ← decIt mid
        imbRightLoop lt fuel m first mid (last - 1) rf rl
    else do
      let m ← mvTo m (last - 1) rl
      let rl ← decIt rl
      if rf = rl then do
        let m ← mvTo m (last - 2) mid
        let m ← moveBackward m first mid (last - 2)
        mvTo m first rf
      else imbRightLoop lt fuel m first mid (last - 1) rf rl

/-- `_Inplace_merge_buffer_right`, `algorithm:8373-8406`. -/
def imbRight (lt : α → α → Bool) (m : Mem α) (first mid last tmp : Nat) : R (Mem α) := do
  let (m, rend) ← moveFwd m mid last tmp
  let m ← mvTo m (last - 1) (mid - 1)
  imbRightLoop lt (last - first) m first (mid - 2) (last - 1) tmp (rend - 1)

/-- The first trimming loop of `_Buffered_inplace_merge_unchecked` / `inplace_merge`, `algorithm:8469-8480, 8518-8528`:
the first position whose element is greater than `*_Mid`; `none` if `_Mid` is reached. -/
def trimLeft (lt : α → α → Bool) (m : Mem α) (first mid : Nat) : R (Option Nat) :=
  if _h : first < mid then do
    let x ← rd m mid
    let y ← rd m first
    if lt x y then pure (some first) else trimLeft lt m (first + 1) mid
  else pure none
termination_by mid - first

/-- The second trimming loop, `algorithm:8482-8493, 8530-8539`, already including the final `++_Last`; `none` when only
one right element remains (`_Mid == _Last` after the decrement). -/
def trimRight (lt : α → α → Bool) (m : Mem α) (mid last : Nat) : R (Option Nat) :=
  if _h : mid + 1 < last then do
    let x ← rd m (last - 1)
    let y ← rd m (mid - 1)
    if lt x y then pure (some last) else trimRight lt m mid (last - 1)
  else pure none
termination_by last

mutual
/-- `_Buffered_inplace_merge_unchecked_impl` with `_Buffered_inplace_merge_divide_and_conquer(2)`,
`algorithm:8408-8460`. -/
def bimImpl (lt : α → α → Bool) (fuel : Nat) (m : Mem α) (first mid last c1 c2 tmp cap : Nat) : R (Mem α) :=
  match fuel with
  | 0 => .error .fuel
  | fuel + 1 =>
    if c1 ≤ c2 ∧ c1 ≤ cap then imbLeft lt m first mid last tmp
    else if c2 ≤ cap then imbRight lt m first mid last tmp
    else if c1 ≤ c2 then do
      let c1n := c1 / 2
      let firstn := first + c1n
      let v ← rd m firstn
      let lastn ← lowerBound lt m mid last v
      let c2n := lastn - mid
      let (m, midn) ← bufferedRotate m firstn mid lastn (c1 - c1n) c2n tmp cap
      let m ← bufferedInplaceMerge lt fuel m first firstn midn c1n c2n tmp cap
      bufferedInplaceMerge lt fuel m midn lastn last (c1 - c1n) (c2 - c2n) tmp cap
    else do
      let c2n := c2 / 2
      let lastn := mid + c2n
      let v ← rd m lastn
      let firstn ← upperBound lt m first mid v
      let c1n := firstn - first
      let (m, midn) ← bufferedRotate m firstn mid lastn (c1 - c1n) c2n tmp cap
      let m ← bufferedInplaceMerge lt fuel m first firstn midn c1n c2n tmp cap
      bufferedInplaceMerge lt fuel m midn lastn last (c1 - c1n) (c2 - c2n) tmp cap

/-- `_Buffered_inplace_merge_unchecked`, `algorithm:8462-8503`. -/
def bufferedInplaceMerge (lt : α → α → Bool) (fuel : Nat) (m : Mem α) (first mid last c1 c2 tmp cap : Nat) :
    R (Mem α) :=
  match fuel with
  | 0 => .error .fuel
  | fuel + 1 =>
    if mid = last then pure m
    else do
      let r ← trimLeft lt m first mid
      match r with
      | none => pure m
      | some f => do
        let r ← trimRight lt m mid last
        match r with
        | none => rotateOneRight m f mid (mid + 1)
        | some l =>
          let c1 := c1 - (f - first)
          let c2 := c2 - (last - l)
          if c1 = 1 then rotateOneLeft m f mid l
          else bimImpl lt fuel m f mid l c1 c2 tmp cap
end

/-- `inplace_merge`, `algorithm:8505-8552`, given the capacity `cap` actually obtained for the temporary buffer
(`_Optimistic_temporary_buffer2` may obtain less than requested, even nothing). -/
def inplaceMerge (lt : α → α → Bool) (m : Mem α) (first mid last tmp cap : Nat) : R (Mem α) :=
  if mid = last then pure m
  else do
    let r ← trimLeft lt m first mid
    match r with
    | none => pure m
    | some f => do
      let r ← trimRight lt m mid last
      match r with
      | none => rotateOneRight m f mid (mid + 1)
      | some l =>
        let c1 := mid - f
        if c1 = 1 then rotateOneLeft m f mid l
        else bimImpl lt (2 * (last - first) + 1) m f mid l c1 (l - mid) tmp cap

/-- `_Merge_move_unchecked` (`algorithm:9350-9375`) and `_Uninitialized_merge_move` (`algorithm:9323-9348`). -/
def mergeMove (lt : α → α → Bool) (fuel : Nat) (m : Mem α) (first mid next last dest : Nat) : R (Mem α × Nat) :=
  match fuel with
  | 0 => .error .fuel
  | fuel + 1 => do
    let x ← rd m next
    let y ← rd m first
    if lt x y then do
      let m ← mvTo m dest next
      if next + 1 = last then moveFwd m first mid (dest + 1)
      else mergeMove lt fuel m first mid (next + 1) last (dest + 1)
    else do
      let m ← mvTo m dest first
      if first + 1 = mid then moveFwd m next last (dest + 1)
      else mergeMove lt fuel m (first + 1) mid next last (dest + 1)

/-- `_Chunked_merge_unchecked` (`algorithm:9398-9415`); with `chunk = 32` also
`_Uninitialized_chunked_merge_unchecked2` (`algorithm:9377-9396`), which has the same loop. -/
def chunkedMerge (lt : α → α → Bool) (m : Mem α) (first last dest chunk count : Nat) : R (Mem α) :=
  if _h : chunk < count ∧ 0 < chunk then do
    let mid1 := first + chunk
    let chunk2 := min chunk (count - chunk)
    let mid2 := mid1 + chunk2
    let (m, dest) ← mergeMove lt (chunk + chunk2) m first mid1 mid1 mid2 dest
    chunkedMerge lt m mid2 last dest chunk (count - chunk - chunk2)
  else do
    let (m, _) ← moveFwd m first last dest
    pure m
termination_by count
decreasing_by omega

/-- `_Insertion_sort_isort_max_chunks`, `algorithm:9417-9426` (`_Isort_max` is 32). -/
def isortChunks (lt : α → α → Bool) (m : Mem α) (first last count : Nat) : R (Mem α) :=
  if _h : 32 < count then do
    let m ← insertionSort lt m first (first + 32)
    isortChunks lt m (first + 32) last (count - 32)
  else insertionSort lt m first last
termination_by count
decreasing_by omega

/-- The merging loop of `_Buffered_merge_sort_unchecked`, `algorithm:9444-9472`. -/
def bmsLoop (lt : α → α → Bool) (fuel : Nat) (m : Mem α) (first last count tmp chunk : Nat) : R (Mem α) :=
  match fuel with
  | 0 => .error .fuel
  | fuel + 1 => do
    let chunk := chunk * 2
    let m ← chunkedMerge lt m tmp (tmp + count) first chunk count
    if (count - 1) / 2 < chunk then pure m
    else do
      let chunk := chunk * 2
      let m ← chunkedMerge lt m first last tmp chunk count
      bmsLoop lt fuel m first last count tmp chunk

/-- `_Buffered_merge_sort_unchecked`, `algorithm:9428-9473`. -/
def bufferedMergeSort (lt : α → α → Bool) (m : Mem α) (first last count tmp : Nat) : R (Mem α) := do
  let m ← isortChunks lt m first last count
  if count ≤ 32 then pure m
  else do
    let m ← chunkedMerge lt m first last tmp 32 count
    bmsLoop lt (count + 1) m first last count tmp 32

/-- `_Stable_sort_unchecked`, `algorithm:9475-9498`. -/
def stableSortUnchecked (lt : α → α → Bool) (fuel : Nat) (m : Mem α) (first last count tmp cap : Nat) : R (Mem α) :=
  match fuel with
  | 0 => .error .fuel
  | fuel + 1 =>
    if count ≤ 32 then insertionSort lt m first last
    else do
      let half := count / 2
      let halfCeil := count - half
      let mid := first + halfCeil
      let m ← (if halfCeil ≤ cap then do
          let m ← bufferedMergeSort lt m first mid halfCeil tmp
          bufferedMergeSort lt m mid last half tmp
        else do
          let m ← stableSortUnchecked lt fuel m first mid halfCeil tmp cap
          stableSortUnchecked lt fuel m mid last half tmp cap : R (Mem α))
      bufferedInplaceMerge lt (2 * count + 1) m first mid last halfCeil half tmp cap

/-- `stable_sort`, `algorithm:9500-9515`, given the capacity actually obtained for the temporary buffer. -/
def stableSort (lt : α → α → Bool) (m : Mem α) (first last tmp cap : Nat) : R (Mem α) :=
  let count := last - first
  if count ≤ 32 then insertionSort lt m first last
  else stableSortUnchecked lt (count + 1) m first last count tmp cap

end STL
