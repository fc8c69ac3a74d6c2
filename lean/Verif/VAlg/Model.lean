import Mathlib.Data.List.Basic

/-!
# Model of the vectorised algorithms

`/repo/stl/src/vector_algorithms.cpp`, the x64 paths: `_Find_impl` (4872-4947), `_Find_last_impl` (4949-5024), `_Adjacent_find_impl` (5026-5112),
`_Search_n_tail` (5114-5151), `_Search_n_impl` (5228-5400), `_Find_last_pos_impl` (5402-5412), `_Count_impl` (5836-5932) with `_Count_traits_*`
(5648-5765), `_Mismatch_impl` (9504-9582), and `_Avx2_tail_mask_32` (48-54).

A range is the list of its elements, each `s` bytes wide (`s` = 1, 2, 4 or 8); a pointer is the number of bytes from the beginning of the range.
A vector register is the list of its lanes. Masks made by `movemask` are numbers, one bit per byte. Every load is checked: `none` is the result
of a read outside of the range, and of a loop that does not end.

The CPU is described by the answers of `_Use_avx2` and `_Use_sse42`. Not modelled: the ARM64 paths and 32-bit processes.
-/

namespace STL.VAlg

/-- `_Use_avx2()` and `_Use_sse42()`. -/
structure Cpu where
  avx2 : Bool
  sse42 : Bool

/-! ## Intrinsics -/

/-- Load `V` bytes at the pointer `p` (`_mm256_loadu_si256`, `_mm_loadu_si128`). -/
def ld (s : Nat) (a : List Nat) (p V : Nat) : Option (List Nat) :=
  if p % s = 0 ∧ p + V ≤ s * a.length then some ((a.drop (p / s)).take (V / s)) else none

/-- `_mm256_maskload_epi32` with `_Avx2_tail_mask_32(T)`: the first `T` bytes are read, the other lanes are zero. -/
def mld (s : Nat) (a : List Nat) (p T : Nat) : Option (List Nat) :=
  if p % s = 0 ∧ p + T ≤ s * a.length ∧ T ≤ 32 then some ((a.drop (p / s)).take (T / s) ++ List.replicate ((32 - T) / s) 0) else none

/-- `_Avx2_tail_mask_32(T)` as lanes of `s` bytes, `vector_algorithms.cpp:48-54`. -/
def tailMask (s T : Nat) : List Bool := (List.range (32 / s)).map fun i => decide (s * i < T)

/-- `_mm256_movemask_epi8` and `_mm_movemask_epi8` of a comparison: `s` equal bits for each lane. -/
def movemask (s : Nat) : List Bool → Nat
  | [] => 0
  | b :: bs => (if b then 2 ^ s - 1 else 0) + 2 ^ s * movemask s bs

/-- `_tzcnt_u32`, `_tzcnt_u64`, `_BitScanForward` of a nonzero number: the index of the lowest set bit. -/
def tz (m : Nat) : Nat := (List.range 64).findIdx fun i => m.testBit i

/-- `_lzcnt_u32`. -/
def lz32 (m : Nat) : Nat := if m = 0 then 32 else 31 - Nat.log2 m

/-! ## find -/

/-- Clears the low bits: `size & ~(V - 1)`. -/
def full (size V : Nat) : Nat := size / V * V

/-- The `do … while (_First != _Stop_at)` loop of `_Find_impl`, `vector_algorithms.cpp:4883-4900`, `4929-4947`; `V` is the size of the
register. The result is the pointer that is returned, or the pointer behind the loop. -/
def findLoop (s V : Nat) (ne : Bool) (a : List Nat) (val stop : Nat) : Nat → Nat → Option (Nat ⊕ Nat)
  | 0, _ => none
  | f + 1, p => do
    let d ← ld s a p V
    let bingo := movemask s (d.map (· == val))
    let bingo := if ne then bingo ^^^ (2 ^ V - 1) else bingo
    if bingo ≠ 0 then some (.inl (p + tz bingo))
    else
      let p := p + V
      if p ≠ stop then findLoop s V ne a val stop f p else some (.inr p)

/-- The AVX2 tail of `_Find_impl`, `vector_algorithms.cpp:4902-4920`. -/
def findTail (s : Nat) (ne : Bool) (a : List Nat) (val p : Nat) : Option (Nat ⊕ Nat) := do
  let tail := (s * a.length) &&& 0x1C
  if tail ≠ 0 then
    let d ← mld s a p tail
    let bingo := movemask s (List.zipWith (· && ·) (d.map (· == val)) (tailMask s tail))
    let bingo := if ne then bingo ^^^ (2 ^ tail - 1) else bingo
    if bingo ≠ 0 then some (.inl (p + tz bingo)) else some (.inr (p + tail))
  else some (.inr p)

/-- `_Find_scalar_tail`, `vector_algorithms.cpp:4546-4560`. -/
def findScalar (s : Nat) (ne : Bool) (a : List Nat) (val : Nat) : Nat → Nat → Option Nat
  | 0, _ => none
  | f + 1, p =>
    if p ≠ s * a.length then do
      let d ← ld s a p s
      if (d == [val]) == ne then findScalar s ne a val f (p + s) else some p
    else some p

/-- `_Find_impl`, `vector_algorithms.cpp:4872-4947`. `ne` is `_Pred == _Not_equal`. -/
def find (c : Cpu) (s : Nat) (ne : Bool) (a : List Nat) (val : Nat) : Option Nat := do
  let size := s * a.length
  if full size 32 ≠ 0 ∧ c.avx2 then
    match ← findLoop s 32 ne a val (full size 32) (size + 1) 0 with
    | .inl r => some r
    | .inr p =>
      match ← findTail s ne a val p with
      | .inl r => some r
      | .inr p => if 4 ≤ s then some p else findScalar s ne a val (size + 1) p
  else if full size 16 ≠ 0 ∧ c.sse42 then
    match ← findLoop s 16 ne a val (full size 16) (size + 1) 0 with
    | .inl r => some r
    | .inr p => findScalar s ne a val (size + 1) p
  else findScalar s ne a val (size + 1) 0

/-! ## find_last -/

/-- The loop of `_Find_last_impl`, `vector_algorithms.cpp:4962-4977`, `5006-5022`; `(31 - _Offset)` and `_BitScanReverse` are the index of the highest
set bit. -/
def findLastLoop (s V : Nat) (ne : Bool) (a : List Nat) (val stop : Nat) : Nat → Nat → Option (Nat ⊕ Nat)
  | 0, _ => none
  | f + 1, p =>
    if p < V then none
    else do
      let p := p - V
      let d ← ld s a p V
      let bingo := movemask s (d.map (· == val))
      let bingo := if ne then bingo ^^^ (2 ^ V - 1) else bingo
      if bingo ≠ 0 then some (.inl (p + (Nat.log2 bingo - (s - 1))))
      else if p ≠ stop then findLastLoop s V ne a val stop f p else some (.inr p)

/-- The AVX2 tail of `_Find_last_impl`, `vector_algorithms.cpp:4979-4995`. -/
def findLastTail (s : Nat) (ne : Bool) (a : List Nat) (val p : Nat) : Option (Nat ⊕ Nat) := do
  let tail := (s * a.length) &&& 0x1C
  if tail ≠ 0 then
    if p < tail then none
    else
      let p := p - tail
      let d ← mld s a p tail
      let bingo := movemask s (List.zipWith (· && ·) (d.map (· == val)) (tailMask s tail))
      let bingo := if ne then bingo ^^^ (2 ^ tail - 1) else bingo
      if bingo ≠ 0 then some (.inl (p + ((31 - lz32 bingo) - (s - 1)))) else some (.inr p)
  else some (.inr p)

/-- `_Find_last_scalar_tail`, `vector_algorithms.cpp:4562-4582`. -/
def findLastScalar (s : Nat) (ne : Bool) (a : List Nat) (val : Nat) : Nat → Nat → Option Nat
  | 0, _ => none
  | f + 1, p =>
    if p ≠ 0 then
      if p < s then none
      else do
        let p := p - s
        let d ← ld s a p s
        if (d == [val]) != ne then some p else findLastScalar s ne a val f p
    else some (s * a.length)

/-- `_Find_last_impl`, `vector_algorithms.cpp:4949-5024`. -/
def findLast (c : Cpu) (s : Nat) (ne : Bool) (a : List Nat) (val : Nat) : Option Nat := do
  let size := s * a.length
  if full size 32 ≠ 0 ∧ c.avx2 then
    match ← findLastLoop s 32 ne a val (size - full size 32) (size + 1) size with
    | .inl r => some r
    | .inr p =>
      match ← findLastTail s ne a val p with
      | .inl r => some r
      | .inr p => if 4 ≤ s then some size else findLastScalar s ne a val (size + 1) p
  else if full size 16 ≠ 0 ∧ c.sse42 then
    match ← findLastLoop s 16 ne a val (size - full size 16) (size + 1) size with
    | .inl r => some r
    | .inr p => findLastScalar s ne a val (size + 1) p
  else findLastScalar s ne a val (size + 1) size

/-- `_Find_last_pos_impl`, `vector_algorithms.cpp:5402-5412`; `none` inside is `size_t(-1)`. -/
def findLastPos (c : Cpu) (s : Nat) (ne : Bool) (a : List Nat) (val : Nat) : Option (Option Nat) := do
  let r ← findLast c s ne a val
  if r = s * a.length then some none else some (some (r / s))

/-! ## adjacent_find -/

/-- The loop of `_Adjacent_find_impl`, `vector_algorithms.cpp:5040-5056`, `5085-5102`. -/
def adjLoop (s V : Nat) (a : List Nat) (stop : Nat) : Nat → Nat → Option (Nat ⊕ Nat)
  | 0, _ => none
  | f + 1, p => do
    let d ← ld s a p V
    let e ← ld s a (p + s) V
    let bingo := movemask s (List.zipWith (· == ·) d e)
    if bingo ≠ 0 then some (.inl (p + tz bingo))
    else
      let p := p + V
      if p ≠ stop then adjLoop s V a stop f p else some (.inr p)

/-- The AVX2 tail of `_Adjacent_find_impl`, `vector_algorithms.cpp:5057-5075`. -/
def adjTail (s : Nat) (a : List Nat) (size p : Nat) : Option (Nat ⊕ Nat) := do
  let tail := size &&& 0x1C
  if tail ≠ 0 then
    let d ← mld s a p tail
    let e ← mld s a (p + s) tail
    let bingo := movemask s (List.zipWith (· && ·) (List.zipWith (· == ·) d e) (tailMask s tail))
    if bingo ≠ 0 then some (.inl (p + tz bingo)) else some (.inr (p + tail))
  else some (.inr p)

/-- The scalar loop of `_Adjacent_find_impl`, `vector_algorithms.cpp:5103-5112`. -/
def adjScalar (s : Nat) (a : List Nat) : Nat → Nat → Option Nat
  | 0, _ => none
  | f + 1, p =>
    if p + s ≠ s * a.length then do
      let d ← ld s a p s
      let e ← ld s a (p + s) s
      if d = e then some p else adjScalar s a f (p + s)
    else some (s * a.length)

/-- `_Adjacent_find_impl`, `vector_algorithms.cpp:5026-5112`. -/
def adjacentFind (c : Cpu) (s : Nat) (a : List Nat) : Option Nat := do
  if s * a.length = 0 then some (s * a.length)
  else
    let size := s * a.length - s
    if full size 32 ≠ 0 ∧ c.avx2 then
      match ← adjLoop s 32 a (full size 32) (size + 1) 0 with
      | .inl r => some r
      | .inr p =>
        match ← adjTail s a size p with
        | .inl r => some r
        | .inr p => if 4 ≤ s then some (s * a.length) else adjScalar s a (size + 1) p
    else if full size 16 ≠ 0 ∧ c.sse42 then
      match ← adjLoop s 16 a (full size 16) (size + 1) 0 with
      | .inl r => some r
      | .inr p => adjScalar s a (size + 1) p
    else adjScalar s a (size + 1) 0

/-! ## search_n -/

/-- `_Search_n_tail`, `vector_algorithms.cpp:5114-5151`, after the first test: `_Match_start`, `_Mid1`, `_Mid2`, `_Match_end` (in elements). -/
def snLoop (a : List Nat) (count val : Nat) : Nat → Nat → Nat → Nat → Nat → Option Nat
  | 0, _, _, _, _ => none
  | f + 1, start, mid1, mid2, endp =>
    if mid2 = 0 then none
    else
      let mid2 := mid2 - 1
      match a[mid2]? with
      | none => none
      | some x =>
        if x = val then
          if mid1 = mid2 then some start else snLoop a count val f start mid1 mid2 endp
        else
          let start := mid2 + 1
          if a.length - start < count then some a.length
          else snLoop a count val f start endp (start + count) (start + count)

/-- `_Search_n_tail`, `vector_algorithms.cpp:5114-5151`. The pointers are counted in bytes. -/
def snTail (s : Nat) (a : List Nat) (first count mid1 val : Nat) : Option Nat :=
  let start := first / s
  if a.length - start < count then some (s * a.length)
  else (snLoop a count val ((a.length + 1) * (a.length + 1)) start (mid1 / s) (start + count) (start + count)).map (s * ·)

/-- The shifts and ands of `_Search_n_impl`, `vector_algorithms.cpp:5242-5249`, `5264-5279`: a bit is left for each run of `count` elements. -/
def runMask (s count m : Nat) : Nat :=
  let bytes := count * s
  let sh1 := if s ≠ 1 then 0 else if bytes < 4 then bytes - 2 else 2
  let sh2 := if 4 ≤ s then 0 else if bytes < 4 then 0 else if bytes < 8 then bytes - 4 else 4
  let sh3 := if s = 8 then 0 else if bytes < 8 then 0 else bytes - 8
  let m := (m >>> s) &&& m
  let m := if s = 1 then (m >>> sh1) &&& m else m
  let m := if s < 4 then (m >>> sh2) &&& m else m
  if s < 8 then (m >>> sh3) &&& m else m

/-- The same for SSE4.2, where `count * s ≤ 8`, `vector_algorithms.cpp:5340-5345`, `5361-5369`. -/
def runMaskSse (s count m : Nat) : Nat :=
  let bytes := count * s
  let sh1 := if s ≠ 1 then 0 else if bytes < 4 then bytes - 2 else 2
  let sh2 := if 4 ≤ s then 0 else if bytes < 4 then 0 else if bytes < 8 then bytes - 4 else 4
  let m := (m >>> s) &&& m
  let m := if s = 1 then (m >>> sh1) &&& m else m
  if s < 4 then (m >>> sh2) &&& m else m

/-- The loop of `_Search_n_impl`, `vector_algorithms.cpp:5256-5298` (`V` = 32) and `5352-5380` (`V` = 16): the pointer that is returned, or the pointer
and `_Carry` behind the loop. A negative offset below the beginning of the range is `none`. -/
def snVecLoop (s V : Nat) (rm : Nat → Nat) (a : List Nat) (val stop : Nat) : Nat → Nat → Nat → Option (Nat ⊕ Nat × Nat)
  | 0, _, _ => none
  | f + 1, p, carry => do
    let d ← ld s a p V
    let mask := movemask s (d.map (val == ·))
    let mskX := rm (carry ||| (mask <<< V))
    if mskX ≠ 0 then if p + tz mskX < V then none else some (.inl (p + tz mskX - V))
    else
      let p := p + V
      if p ≠ stop then snVecLoop s V rm a val stop f p mask else some (.inr (p, mask))

/-- The AVX2 tail of `_Search_n_impl`, `vector_algorithms.cpp:5300-5335`. -/
def snVecTail (s : Nat) (rm : Nat → Nat) (a : List Nat) (val p carry : Nat) : Option (Nat ⊕ Nat × Nat) := do
  let tail := (s * a.length) &&& 0x1C
  if tail ≠ 0 then
    let d ← mld s a p tail
    let mask := movemask s (List.zipWith (· && ·) (d.map (val == ·)) (tailMask s tail))
    let m := carry ||| (mask <<< 32)
    let mskX := rm m
    if mskX ≠ 0 then if p + tz mskX < 32 then none else some (.inl (p + tz mskX - 32))
    else some (.inr (p + tail, (m >>> tail) % 2 ^ 32))
  else some (.inr (p, carry))

/-- `_Search_n_impl`, `vector_algorithms.cpp:5228-5400`. -/
def searchN (c : Cpu) (s : Nat) (a : List Nat) (count val : Nat) : Option Nat := do
  let size := s * a.length
  if count = 0 then some 0
  else if count = 1 then find c s false a val
  else if count ≤ 16 / s ∧ 32 ≤ size ∧ c.avx2 then
    match ← snVecLoop s 32 (runMask s count) a val (full size 32) (size + 1) 0 0 with
    | .inl r => some r
    | .inr (p, carry) =>
      match ← snVecTail s (runMask s count) a val p carry with
      | .inl r => some r
      | .inr (p, carry) =>
        let back := lz32 (carry ^^^ (2 ^ 32 - 1))
        if p < back then none else snTail s a (p - back) count p val
  else if s < 8 ∧ count ≤ 8 / s ∧ 16 ≤ size ∧ c.sse42 then
    match ← snVecLoop s 16 (runMaskSse s count) a val (full size 16) (size + 1) 0 0 with
    | .inl r => some r
    | .inr (p, carry) =>
      let back := 15 - Nat.log2 (carry ^^^ 0xFFFF)
      if carry ^^^ 0xFFFF = 0 then none
      else if p < back then none else snTail s a (p - back) count p val
  else snTail s a 0 count 0 val

/-! ## count -/

/-- `_Sub_avx` and `_Sub_sse` on one lane of `w` bits; the mask is all ones if the element is equal. -/
def subLane (w cnt : Nat) (m : Bool) : Nat := (cnt + 2 ^ w - (if m then 2 ^ w - 1 else 0)) % 2 ^ w

/-- `hadd` with zero as the second argument on one 128-bit lane: sums of neighbours, then zeros. -/
def hadd (w : Nat) : List Nat → List Nat
  | x :: y :: r => (x + y) % 2 ^ w :: hadd w r
  | _ => []

/-- `_mm_hadd_epi16/32(_Val, zero)`. -/
def haddSse (w : Nat) (v : List Nat) : List Nat := hadd w v ++ List.replicate (v.length - (hadd w v).length) 0

/-- `_mm256_hadd_epi16/32(_Val, zero)`: both 128-bit lanes. -/
def haddAvx (w : Nat) (v : List Nat) : List Nat := haddSse w (v.take (v.length / 2)) ++ haddSse w (v.drop (v.length / 2))

/-- `_mm256_permute4x64_epi64` with `_MM_SHUFFLE(3, 1, 2, 0)` on eight 32-bit elements. -/
def permute3120 (v : List Nat) : List Nat := v.take 2 ++ (v.drop 4).take 2 ++ (v.drop 2).take 2 ++ v.drop 6

/-- `_mm_sad_epu8(_Val, zero)`: the sum of each group of eight bytes. -/
def sad : Nat → List Nat → List Nat
  | 0, _ => []
  | n + 1, v => (v.take 8).sum :: sad n (v.drop 8)

/-- `_Count_traits_4::_Reduce_avx`, `vector_algorithms.cpp:5686-5693`. -/
def reduce4Avx (v : List Nat) : Nat := ((haddAvx 32 (haddAvx 32 (permute3120 (haddAvx 32 v)))).headD 0) % 2 ^ 32

/-- `_Count_traits_4::_Reduce_sse`, `vector_algorithms.cpp:5695-5699`. -/
def reduce4Sse (v : List Nat) : Nat := ((haddSse 32 (haddSse 32 v)).headD 0) % 2 ^ 32

/-- `_Reduce_avx`: `vector_algorithms.cpp:5657-5662` (8), `5686-5693` (4), `5716-5720` (2; `unpacklo` widens the low four elements of each
128-bit lane), `5755-5758` (1). -/
def reduceAvx (s : Nat) (v : List Nat) : Nat :=
  if s = 8 then v.sum % 2 ^ 64
  else if s = 4 then reduce4Avx v
  else if s = 2 then
    let r := haddAvx 16 v
    reduce4Avx (r.take 4 ++ (r.drop 8).take 4)
  else (sad 4 v).sum % 2 ^ 64

/-- `_Reduce_sse`: `vector_algorithms.cpp:5664-5671`, `5695-5699`, `5722-5726`, `5760-5763`. -/
def reduceSse (s : Nat) (v : List Nat) : Nat :=
  if s = 8 then v.sum % 2 ^ 64
  else if s = 4 then reduce4Sse v
  else if s = 2 then reduce4Sse ((haddSse 16 v).take 4)
  else (sad 2 v).sum % 2 ^ 64

/-- `_Max_count`: `vector_algorithms.cpp:5682`, `5704`, `5741`; unlimited for eight-byte elements. -/
def maxCount (s size : Nat) : Nat := if s = 1 then 0xFF else if s = 2 then 0x7FFF else if s = 4 then 0x1FFFFFFF else size

/-- The inner loop of `_Count_impl`, `vector_algorithms.cpp:5858-5863`, `5907-5912`. -/
def countInner (s V : Nat) (a : List Nat) (val stop : Nat) : Nat → Nat → List Nat → Option (Nat × List Nat)
  | 0, _, _ => none
  | f + 1, p, cv => do
    let d ← ld s a p V
    let cv := List.zipWith (subLane (8 * s)) cv (d.map (· == val))
    let p := p + V
    if p ≠ stop then countInner s V a val stop f p cv else some (p, cv)

/-- The outer loop of `_Count_impl`, `vector_algorithms.cpp:5847-5875`, `5896-5924`: the pointer, the bytes that are left, the result. -/
def countOuter (s V : Nat) (red : List Nat → Nat) (a : List Nat) (val : Nat) : Nat → Nat → Nat → Nat → Option (Nat × Nat)
  | 0, _, _, _ => none
  | f + 1, p, size, res => do
    let mx := maxCount s size * V
    let portion := if size < mx then size else mx
    let r ← countInner s V a val (p + portion) (portion + 1) p (List.replicate (V / s) 0)
    let res := (res + red r.2) % 2 ^ 64
    if size - portion = 0 then some (r.1, res) else countOuter s V red a val f r.1 (size - portion) res

/-- `__popcnt` -/
def popcnt (m : Nat) : Nat := (List.range 32).countP fun i => m.testBit i

/-- The AVX2 tail of `_Count_impl`, `vector_algorithms.cpp:5877-5885`. -/
def countTail (s : Nat) (a : List Nat) (val p res : Nat) : Option (Nat × Nat) := do
  let tail := (s * a.length) &&& 0x1C
  if tail ≠ 0 then
    let d ← mld s a p tail
    let bingo := movemask s (List.zipWith (· && ·) (d.map (· == val)) (tailMask s tail))
    some (p + tail, (res + popcnt bingo / s) % 2 ^ 64)
  else some (p, res)

/-- The scalar loop of `_Count_impl`, `vector_algorithms.cpp:5927-5931`. -/
def countScalar (s : Nat) (a : List Nat) (val : Nat) : Nat → Nat → Nat → Option Nat
  | 0, _, _ => none
  | f + 1, p, res =>
    if p ≠ s * a.length then do
      let d ← ld s a p s
      countScalar s a val f (p + s) (if d = [val] then (res + 1) % 2 ^ 64 else res)
    else some res

/-- `_Count_impl`, `vector_algorithms.cpp:5836-5932`. -/
def count (c : Cpu) (s : Nat) (a : List Nat) (val : Nat) : Option Nat := do
  let size := s * a.length
  if full size 32 ≠ 0 ∧ c.avx2 then
    let r ← countOuter s 32 (reduceAvx s) a val (size + 1) 0 (full size 32) 0
    let r ← countTail s a val r.1 r.2
    if 4 ≤ s then some r.2 else countScalar s a val (size + 1) r.1 r.2
  else if full size 16 ≠ 0 ∧ c.sse42 then
    let r ← countOuter s 16 (reduceSse s) a val (size + 1) 0 (full size 16) 0
    countScalar s a val (size + 1) r.1 r.2
  else countScalar s a val (size + 1) 0 0

/-! ## mismatch -/

/-- The bytes of an element, the lowest first. -/
def bytes : Nat → Nat → List Nat
  | 0, _ => []
  | s + 1, x => x % 256 :: bytes s (x / 256)

/-- The bytes of a register. -/
def toBytes (s : Nat) (v : List Nat) : List Nat := v.flatMap (bytes s)

/-- The loop of `_Mismatch_impl`, `vector_algorithms.cpp:9520-9528`, `9558-9569`: the offset of the first different byte, or the offset behind the loop. -/
def mmLoop (s V : Nat) (a b : List Nat) (stop : Nat) : Nat → Nat → Option (Nat ⊕ Nat)
  | 0, _ => none
  | f + 1, p =>
    if p ≠ stop then do
      let d ← ld s a p V
      let e ← ld s b p V
      let bingo := movemask 1 (List.zipWith (· == ·) (toBytes s d) (toBytes s e)) ^^^ (2 ^ V - 1)
      if bingo ≠ 0 then some (.inl ((p + tz bingo) / s)) else mmLoop s V a b stop f (p + V)
    else some (.inr p)

/-- The AVX2 tail of `_Mismatch_impl`, `vector_algorithms.cpp:9530-9547`. -/
def mmTail (s : Nat) (a b : List Nat) (size p : Nat) : Option (Nat ⊕ Nat) := do
  let tail := size &&& 0x1C
  if tail ≠ 0 then
    let d ← mld s a p tail
    let e ← mld s b p tail
    let bingo := movemask 1 (List.zipWith (· == ·) (toBytes s d) (toBytes s e)) ^^^ (2 ^ 32 - 1)
    if bingo ≠ 0 then some (.inl ((p + tz bingo) / s)) else some (.inr (p + tail))
  else some (.inr p)

/-- The scalar loop of `_Mismatch_impl`, `vector_algorithms.cpp:9574-9581`. -/
def mmScalar (a b : List Nat) (count : Nat) : Nat → Nat → Option Nat
  | 0, _ => none
  | f + 1, i =>
    if i ≠ count then
      match a[i]?, b[i]? with
      | some x, some y => if x ≠ y then some i else mmScalar a b count f (i + 1)
      | _, _ => none
    else some i

/-- `_Mismatch_impl`, `vector_algorithms.cpp:9504-9582`. -/
def mismatch (c : Cpu) (s : Nat) (a b : List Nat) (count : Nat) : Option Nat := do
  if c.avx2 then
    let size := count * s
    match ← mmLoop s 32 a b (full size 32) (size + 1) 0 with
    | .inl r => some r
    | .inr p =>
      match ← mmTail s a b size p with
      | .inl r => some r
      | .inr p => if 4 ≤ s then some (p / s) else mmScalar a b count (count + 1) (p / s)
  else if c.sse42 then
    match ← mmLoop s 16 a b (full (count * s) 16) (count * s + 1) 0 with
    | .inl r => some r
    | .inr p => mmScalar a b count (count + 1) (p / s)
  else mmScalar a b count (count + 1) 0

end STL.VAlg
