import Verif.CInt

/-!
# Model of the partitioning of parallel algorithms

`/repo/stl/inc/execution:276-282`, `:795-1039`. `_Diff` and `_Target_diff` are 64-bit signed; an iterator is a position in `[0, len]`.
-/

namespace STL.Par
open STL

/-- `_Static_partition_team`, `execution:806-811`, without the counter `_Consumed_chunks`. -/
structure Team where
  chunks : Nat
  count : Int
  chunkSize : Int
  unchunked : Int

/-- The constructor, `execution:813-819`. -/
def mkTeam (count : Int) (chunks : Nat) : R Team :=
  if toS 64 chunks = 0 then .error .ub else .ok ⟨chunks, count, Int.tdiv count (toS 64 chunks), Int.tmod count (toS 64 chunks)⟩

/-- `_Static_partition_key`, `execution:795-803`. -/
structure Key where
  chunk : Nat
  startAt : Int
  size : Int
  deriving DecidableEq

/-- `_Get_chunk_key`, `execution:821-836`. -/
def getChunkKey (T : Team) (i : Nat) : R Key := do
  let d := toS 64 i
  let start ← chkL (d * T.chunkSize)
  if d < T.unchunked then do
    let start ← chkL (start + d)
    let size ← chkL (T.chunkSize + 1)
    .ok ⟨i, start, size⟩
  else do
    let start ← chkL (start + T.unchunked)
    .ok ⟨i, start, T.chunkSize⟩

/-- `_Get_chunk_offset`, `execution:838-841`. -/
def getChunkOffset (T : Team) (i : Nat) : R Int := do
  let d := toS 64 i
  let p ← chkL (d * T.chunkSize)
  chkL (p + min d T.unchunked)

/-- `_Get_chunked_work_chunk_count`, `execution:276-282`, with `_Oversubscription_multiplier` 32. -/
def chunkCount (hw count : Nat) : Nat := min (hw * 32 % 2 ^ 64) count

/-- `advance` in a sequence of `len` elements. -/
def advance (len p : Nat) (k : Int) : R Nat := if 0 ≤ (p : Int) + k ∧ (p : Int) + k ≤ len then .ok (p + k).toNat else .error .ub

/-- A loop that records division points, `execution:919-922`, `925-928`, `1022-1025`, `1028-1031`: `m` iterations. -/
def popLoop (len : Nat) (k : R Int) : Nat → Nat → List Nat → R (List Nat × Nat)
  | 0, p, pts => .ok (pts, p)
  | m + 1, p, pts => do
    let p ← advance len p (← k)
    popLoop len k m p (pts ++ [p])

/-- `_Static_partition_range<_FwdIt, _Diff, false>::_Populate(_Team, _First)`, `execution:908-931`: the division points and the position returned. -/
def populate (len : Nat) (T : Team) (first : Nat) : R (List Nat × Nat) := do
  let (pts, p) ← popLoop len (chkL (T.chunkSize + 1)) T.unchunked.toNat first [first]
  popLoop len (.ok T.chunkSize) (toS 64 T.chunks - T.unchunked).toNat p pts

/-- The inner loops, `execution:943-949`, `956-962`: `none` if `_Last` was reached. -/
def stepTo (last : Nat) : Nat → Nat → Option Nat
  | 0, p => some p
  | m + 1, p => if p = last then none else stepTo last m (p + 1)

/-- The outer loops, `execution:942-952`, `955-965`. -/
def popLoopTo (last : Nat) (k : R Int) : Nat → Nat → List Nat → R (Option (List Nat × Nat))
  | 0, p, pts => .ok (some (pts, p))
  | m + 1, p, pts => do
    let k' ← k
    match stepTo last k'.toNat p with
    | none => .ok none
    | some p => popLoopTo last k m p (pts ++ [p])

/-- `_Populate(_Team, _First, _Last)`, `execution:933-968`: whether the range ends at `_Last`, and then the division points. -/
def populateTo (T : Team) (first last : Nat) : R (Option (List Nat)) := do
  match ← popLoopTo last (chkL (T.chunkSize + 1)) T.unchunked.toNat first [first] with
  | none => .ok none
  | some (pts, p) =>
    match ← popLoopTo last (.ok T.chunkSize) (toS 64 T.chunks - T.unchunked).toNat p pts with
    | none => .ok none
    | some (pts, p) => .ok (if p = last then some pts else none)

/-- `_Static_partition_range_backward<_BidIt, _Diff, false>::_Populate`, `execution:1013-1032`. -/
def populateBack (len : Nat) (T : Team) (last : Nat) : R (List Nat) := do
  let n ← chkL (-T.chunkSize)
  let (pts, p) ← popLoop len (chkL (n - 1)) T.unchunked.toNat last [last]
  let (pts, _) ← popLoop len (.ok n) (toS 64 T.chunks - T.unchunked).toNat p pts
  .ok pts

/-- `_Get_chunk` of a range with division points, `execution:976-979`. -/
def chunkOf (pts : List Nat) (k : Key) : Option (Nat × Nat) := match pts[k.chunk]?, pts[k.chunk + 1]? with
  | some a, some b => some (a, b)
  | _, _ => none

/-- `_Get_chunk` of a random access range, `execution:892-897`: offsets are added to `_Start_at`. -/
def chunkRan (len start : Nat) (k : Key) : R (Nat × Nat) := do
  let a ← advance len start k.startAt
  let b ← advance len a k.size
  .ok (a, b)

/-- `_Get_chunk` of a random access range from the back, `execution:998-1003`. -/
def chunkRanBack (len last : Nat) (k : Key) : R (Nat × Nat) := do
  let n ← chkL (-k.startAt)
  let b ← advance len last n
  let m ← chkL (-k.size)
  let a ← advance len b m
  .ok (a, b)

end STL.Par
