import Verif.Sort.Model

/-!
# Model of the in-place reordering algorithms

`reverse`, `rotate` (random-access, bidirectional and forward implementations), `remove_if`, `unique`, `shift_left`,
`shift_right`, `partition` (bidirectional and forward), `stable_partition`.

Loops of the form `while (it != end)` are written with `<`; the callers keep `it ≤ end`. Not modelled: vectorized code
paths, iterator unwrapping, range verification, exceptions thrown by user moves/predicates.
-/

namespace STL
variable {α : Type _}

/-- `reverse`, `xutility:6870-6872`: `for (; f != l && f != --l; ++f) swap(*f, *l)`. -/
def reverse (m : Mem α) (f l : Nat) : R (Mem α) :=
  if _h : f < l then
    if _h2 : f < l - 1 then do
      let m ← swp m f (l - 1)
      reverse m (f + 1) (l - 1)
    else pure m
  else pure m
termination_by l - f
decreasing_by all_goals omega

/-- `_Reverse_until_sentinel_unchecked`, `xutility:6885-6894`. -/
def reverseUntilSentinel (m : Mem α) (f s l : Nat) : R (Mem α × Nat × Nat) :=
  if _h : f < s ∧ s < l then do
    let m ← swp m f (l - 1)
    reverseUntilSentinel m (f + 1) s (l - 1)
  else pure (m, f, l)
termination_by l - f
decreasing_by all_goals omega

/-- `rotate`, random-access branch, `xutility:6904-6931`. Returns the memory and the returned position. -/
def rotateRA (m : Mem α) (first mid last : Nat) : R (Mem α × Nat) :=
  if first = mid then pure (m, last)
  else if mid = last then pure (m, first)
  else do
    let m ← reverse m first mid
    let m ← reverse m mid last
    let m ← reverse m first last
    pure (m, first + (last - mid))

/-- `rotate`, bidirectional branch, `xutility:6904-6912, 6932-6937`. -/
def rotateBidi (m : Mem α) (first mid last : Nat) : R (Mem α × Nat) :=
  if first = mid then pure (m, last)
  else if mid = last then pure (m, first)
  else do
    let m ← reverse m first mid
    let m ← reverse m mid last
    let (m, tf, tl) ← reverseUntilSentinel m first mid last
    let m ← reverse m tf tl
    pure (m, if mid ≠ tf then tf else tl)

/-- The inner `do … while` of forward `rotate`, `xutility:6940-6947`/`6950-6957`: returns memory, `_UFirst`, `_UMid`. -/
def rotCycle (m : Mem α) (first mid next last : Nat) : R (Mem α × Nat × Nat) := do
  let m ← swp m first next
  let mid' := if first + 1 = mid then next + 1 else mid
  if _h : next + 1 < last then rotCycle m (first + 1) mid' (next + 1) last
  else pure (m, first + 1, mid')
termination_by last - next

/-- The outer `while (_UMid != _ULast)` of forward `rotate`, `xutility:6949-6958`. -/
def rotOuter (fuel : Nat) (m : Mem α) (first mid last : Nat) : R (Mem α) :=
  match fuel with
  | 0 => .error .fuel
  | fuel + 1 =>
    if mid ≠ last then do
      let (m, first, mid) ← rotCycle m first mid mid last
      rotOuter fuel m first mid last
    else pure m

/-- `rotate`, forward branch, `xutility:6904-6912, 6938-6959`. -/
def rotateFwd (m : Mem α) (first mid last : Nat) : R (Mem α × Nat) :=
  if first = mid then pure (m, last)
  else if mid = last then pure (m, first)
  else do
    let (m, f, mid) ← rotCycle m first mid mid last
    let m ← rotOuter (last - first + 1) m f mid last
    pure (m, f)

/-- `_Move_unchecked(first, last, dest)` (general loop): `for (; first != last; ++dest, ++first) *dest = move(*first)`; returns
memory and the end of the destination. Also used for `_Uninitialized_move_unchecked` (construction into the
temporary buffer is modelled as assignment). -/
def moveFwd (m : Mem α) (first last dest : Nat) : R (Mem α × Nat) :=
  if _h : first < last then do
    let m ← mvTo m dest first
    moveFwd m (first + 1) last (dest + 1)
  else pure (m, dest)
termination_by last - first

/-- `find_if`, `xutility:6974-6986`. -/
def findIf (p : α → Bool) (m : Mem α) (first last : Nat) : R Nat :=
  if _h : first < last then do
    let x ← rd m first
    if p x then pure first else findIf p m (first + 1) last
  else pure first
termination_by last - first

/-- The `while (++_UFirst != _ULast)` loop of `remove_if`, `xmemory:2391-2396`, `first` already incremented. -/
def removeIfLoop (p : α → Bool) (m : Mem α) (first next last : Nat) : R (Mem α × Nat) :=
  if _h : first < last then do
    let x ← rd m first
    if p x then removeIfLoop p m (first + 1) next last
    else do
      let m ← mvTo m next first
      removeIfLoop p m (first + 1) (next + 1) last
  else pure (m, next)
termination_by last - first

/-- `remove_if`, `xmemory:2383-2401`. -/
def removeIf (p : α → Bool) (m : Mem α) (first last : Nat) : R (Mem α × Nat) := do
  let first ← findIf p m first last
  if first ≠ last then removeIfLoop p m (first + 1) first last
  else pure (m, first)

/-- The copy-down loop of `unique`, `algorithm:5410-5414`; `first` already incremented, `b` is `_UFirstb`. -/
def uniqueCopy (eq : α → α → Bool) (m : Mem α) (b first last : Nat) : R (Mem α × Nat) :=
  if _h : first < last then do
    let x ← rd m b
    let y ← rd m first
    if eq x y then uniqueCopy eq m b (first + 1) last
    else do
      let m ← mvTo m (b + 1) first
      uniqueCopy eq m (b + 1) (first + 1) last
  else pure (m, b + 1)
termination_by last - first

/-- The outer loop of `unique`, `algorithm:5408-5420`; `first` already incremented, `b` is `_UFirstb`. -/
def uniqueFind (eq : α → α → Bool) (m : Mem α) (b first last : Nat) : R (Mem α × Nat) :=
  if _h : first < last then do
    let x ← rd m b
    let y ← rd m first
    if eq x y then uniqueCopy eq m b (first + 1) last
    else uniqueFind eq m first (first + 1) last
  else pure (m, last)
termination_by last - first

/-- `unique`, `algorithm:5383-5425`. -/
def unique (eq : α → α → Bool) (m : Mem α) (first last : Nat) : R (Mem α × Nat) :=
  if first ≠ last then uniqueFind eq m first (first + 1) last
  else pure (m, last)

/-- `shift_left`, `algorithm:6591-6623` (the forward-iterator counting loop returns `first` in the same cases). -/
def shiftLeft (m : Mem α) (first last n : Nat) : R (Mem α × Nat) :=
  if n = 0 then pure (m, last)
  else if last - first ≤ n then pure (m, first)
  else moveFwd m (first + n) last first

/-- `shift_right`, bidirectional/random-access branch, `algorithm:6636-6668`. -/
def shiftRight (m : Mem α) (first last n : Nat) : R (Mem α × Nat) :=
  if n = 0 then pure (m, first)
  else if last - first ≤ n then pure (m, last)
  else do
    let m ← moveBackward m first (last - n) last
    pure (m, first + n)

/-- First loop of forward `shift_right`, `algorithm:6683-6689`; `none` when it falls through. -/
def shiftRightProbe (m : Mem α) (first result last trail lead : Nat) : R (Option (Mem α)) :=
  if _h : trail < result then
    if lead = last then do
      let (m, _) ← moveFwd m first trail result
      pure (some m)
    else shiftRightProbe m first result last (trail + 1) (lead + 1)
  else pure none
termination_by result - trail

/-- Swap loop of forward `shift_right`, `algorithm:6694-6706`; `mid` wraps around to `first` at `result`. -/
def shiftRightSwap (m : Mem α) (first result last mid trail lead : Nat) : R (Mem α) :=
  if _h : lead < last then do
    let m ← swp m mid trail
    shiftRightSwap m first result last (if mid + 1 = result then first else mid + 1) (trail + 1) (lead + 1)
  else do
    let (m, trail) ← moveFwd m mid result trail
    let (m, _) ← moveFwd m first mid trail
    pure m
termination_by last - lead

/-- `shift_right`, forward branch, `algorithm:6669-6708`. -/
def shiftRightFwd (m : Mem α) (first last n : Nat) : R (Mem α × Nat) :=
  if n = 0 then pure (m, first)
  else if last - first < n then pure (m, last)
  else do
    let result := first + n
    let r ← shiftRightProbe m first result last first result
    match r with
    | some m => pure (m, result)
    | none => do
      let m ← shiftRightSwap m first result last first result (result + n)
      pure (m, result)

/-- Inner skip loop at the beginning of bidirectional `partition`, `algorithm:6956-6967`: the first position not
satisfying `p`, or `last`. -/
def partSkip (p : α → Bool) (m : Mem α) (first last : Nat) : R Nat :=
  if _h : first < last then do
    let x ← rd m first
    if p x then partSkip p m (first + 1) last else pure first
  else pure first
termination_by last - first

/-- `do … while` skip loop at the end of bidirectional `partition`, `algorithm:6969-6975`: `none` means
`first == last` was hit. -/
def partSkipBack (p : α → Bool) (m : Mem α) (first last : Nat) : R (Option Nat) :=
  if _h : first + 1 < last then do
    let x ← rd m (last - 1)
    if p x then pure (some (last - 1)) else partSkipBack p m first (last - 1)
  else pure none
termination_by last

/-- `partition`, bidirectional branch, `algorithm:6953-6979`. -/
def partitionBidi (p : α → Bool) (fuel : Nat) (m : Mem α) (first last : Nat) : R (Mem α × Nat) :=
  match fuel with
  | 0 => .error .fuel
  | fuel + 1 => do
    let f ← partSkip p m first last
    if f = last then pure (m, f)
    else do
      let r ← partSkipBack p m f last
      match r with
      | none => pure (m, f)
      | some l => do
        let m ← swp m f l
        partitionBidi p fuel m (f + 1) l

/-- Second loop of forward `partition`, `algorithm:6993-6998`; `next` already incremented. -/
def partitionFwdLoop (p : α → Bool) (m : Mem α) (first next last : Nat) : R (Mem α × Nat) :=
  if _h : next < last then do
    let x ← rd m next
    if p x then do
      let m ← swp m first next
      partitionFwdLoop p m (first + 1) (next + 1) last
    else partitionFwdLoop p m first (next + 1) last
  else pure (m, first)
termination_by last - next

/-- `partition`, forward branch, `algorithm:6980-7003`. -/
def partitionFwd (p : α → Bool) (m : Mem α) (first last : Nat) : R (Mem α × Nat) := do
  let f ← partSkip p m first last
  if f = last then pure (m, f)
  else partitionFwdLoop p m f (f + 1) last

/-- `_Buffered_rotate_unchecked`, `algorithm:7092-7124`. The temporary buffer is the part of the memory starting at
`tmp`; it holds `cap` cells. `_Count1`, `_Count2` are passed as in the code. -/
def bufferedRotate (m : Mem α) (first mid last count1 count2 tmp cap : Nat) : R (Mem α × Nat) :=
  if count1 = 0 then pure (m, last)
  else if count2 = 0 then pure (m, first)
  else if count1 ≤ count2 ∧ count1 ≤ cap then do
    let (m, tl) ← moveFwd m first mid tmp
    let (m, newMid) ← moveFwd m mid last first
    let (m, _) ← moveFwd m tmp tl newMid
    pure (m, newMid)
  else if count2 ≤ cap then do
    let (m, tl) ← moveFwd m mid last tmp
    let m ← moveBackward m first mid last
    moveFwd m tmp tl first
  else rotateRA m first mid last

/-- The buffered pass of `_Stable_partition_unchecked1`, `algorithm:7140-7148`, `first` already incremented; `next` is
where the next true element goes, `bl` the end of the buffered false elements. -/
def spBufLoop (p : α → Bool) (m : Mem α) (first last next bl : Nat) : R (Mem α × Nat × Nat) :=
  if _h : first < last then do
    let x ← rd m first
    if p x then do
      let m ← mvTo m next first
      spBufLoop p m (first + 1) last (next + 1) bl
    else do
      let m ← mvTo m bl first
      spBufLoop p m (first + 1) last next (bl + 1)
  else pure (m, next, bl)
termination_by last - first

/-- The backward skip loop of `_Stable_partition_unchecked1`, `algorithm:7164-7180`: starting from `left = mid`
returns `(left, leftTrueCount, recurse)`. -/
def spLeft (p : α → Bool) (m : Mem α) (first left cnt : Nat) : R (Nat × Nat × Bool) :=
  if _h : first < left then
    if first = left - 1 then pure (left - 1, cnt - 1, false)
    else do
      let x ← rd m (left - 1)
      if p x then pure (left - 1, cnt, true)
      else spLeft p m first (left - 1) (cnt - 1)
  else .error .ub
termination_by left

/-- The forward skip loop, `algorithm:7185-7204`: returns `(right, rightTrueCount, recurse)`. -/
def spRight (p : α → Bool) (m : Mem α) (right last cnt : Nat) : R (Nat × Nat × Bool) :=
  if _h : right < last then do
    let x ← rd m right
    if !p x then pure (right, cnt, true)
    else spRight p m (right + 1) last (cnt + 1)
  else pure (right + 1, cnt + 1, false)
termination_by last - right

/-- `_Stable_partition_unchecked1` on the closed range `[first, last]`, `algorithm:7126-7209`; returns memory, the
partition point and the number of true elements. -/
def stablePartition1 (p : α → Bool) (fuel : Nat) (m : Mem α) (first last count tmp cap : Nat) :
    R (Mem α × Nat × Nat) :=
  match fuel with
  | 0 => .error .fuel
  | fuel + 1 =>
    if count - 1 ≤ cap then do
      let m ← mvTo m tmp first
      let (m, next, bl) ← spBufLoop p m (first + 1) last first (tmp + 1)
      let m ← mvTo m next last
      let (m, _) ← moveFwd m tmp bl (next + 1)
      pure (m, next + 1, count - (bl - tmp))
    else do
      let midOff := count / 2
      let mid := first + midOff
      let (left, ltc, recL) ← spLeft p m first mid midOff
      let (m, left, ltc) ← (if recL then stablePartition1 p fuel m first left ltc tmp cap else .ok (m, left, ltc) : R _)
      let (right, rtc, recR) ← spRight p m mid last 0
      let (m, right, hi) ← (if recR then stablePartition1 p fuel m right last (count - midOff - rtc) tmp cap
        else .ok (m, right, 0) : R _)
      let rtc := rtc + hi
      let (m, pp) ← bufferedRotate m left mid right (midOff - ltc) rtc tmp cap
      pure (m, pp, ltc + rtc)

/-- The trailing-false skip loop of `_Stable_partition_unchecked`, `algorithm:7225-7234`; `none`: already partitioned. -/
def spBack (p : α → Bool) (m : Mem α) (first last : Nat) : R (Option Nat) := partSkipBack p m first last

/-- `_Stable_partition_unchecked`, `algorithm:7211-7243`, with the temporary buffer of capacity `cap` at `tmp`. -/
def stablePartition (p : α → Bool) (m : Mem α) (first last tmp cap : Nat) : R (Mem α × Nat) := do
  let f ← partSkip p m first last
  if f = last then pure (m, f)
  else do
    let r ← spBack p m f last
    match r with
    | none => pure (m, f)
    | some l => do
      let (m, pp, _) ← stablePartition1 p (l - f + 1) m f l (l - f + 1) tmp cap
      pure (m, pp)

end STL
