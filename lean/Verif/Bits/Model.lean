import Verif.CInt

/-!
# Model of `<bit>`

`/repo/stl/inc/bit`, `/repo/stl/inc/__msvc_bit_utils.hpp`. An unsigned integer of `w` bits is a natural number below `2 ^ w`. Operands of types narrower
than `int` are promoted to `int`; signed overflow and oversized shifts are undefined behaviour. Compiler intrinsics (`_BitScanReverse`, `__lzcnt`,
`_tzcnt_u32`, `__popcnt`, `_rotl` …) are given by their documented meaning: they are not code of this repository.
-/

namespace STL.Bits
open STL

/-- Value of an arithmetic expression on operands of an unsigned type of `w` bits, after integral promotion. -/
def arith (w : Nat) (v : Int) : R Int := if w < 32 then chkI v else .ok (toU w v : Int)

/-- `_Ty{1} << n`-style shift of a `w`-bit unsigned operand after promotion (C++20: wraps); an oversized shift count is undefined behaviour. -/
def shl (w : Nat) (v n : Nat) : R Int :=
  if w < 32 then if n < 32 then .ok (toS 32 (v * 2 ^ n : Nat)) else .error .ub
  else if n < w then .ok (toU w (v * 2 ^ n : Nat) : Int) else .error .ub

/-- `v >> n` -/
def shr (w : Nat) (v n : Nat) : R Nat := if n < max w 32 then .ok (v / 2 ^ n) else .error .ub

/-! ## Counting zeros -/

/-- The loop of `_Countl_zero_fallback`, `__msvc_bit_utils.hpp:46-53`. -/
def clzLoop (w : Nat) (cx val nx : Nat) : R (Nat × Nat) := do
  let yx ← shr w val cx
  let s : Nat × Nat := if toU w yx ≠ 0 then (toU w yx, toU 32 ((nx : Int) - cx)) else (val, nx)
  if h : cx / 2 ≠ 0 then clzLoop w (cx / 2) s.1 s.2 else .ok s
termination_by cx
decreasing_by omega

/-- `_Countl_zero_fallback`, `__msvc_bit_utils.hpp:41-55`. -/
def clzFallback (w val : Nat) : R Int := do
  let (v, nx) ← clzLoop w (w / 2) val w
  chkI (toS 32 nx - toS 32 v)

/-- `_Countr_zero_fallback`, `__msvc_bit_utils.hpp:149-153`. -/
def ctzFallback (w val : Nat) : R Int := do
  let m ← arith w ((val : Int) - 1)
  let c ← clzFallback w ((2 ^ w - 1 - val) &&& toU w m)
  chkI ((w : Int) - c)

/-- Intrinsic `_BitScanReverse`: index of the highest set bit, if any. -/
def bsr (v : Nat) : Option Nat := if v = 0 then none else some (Nat.log2 v)

/-- Index of the lowest set bit of `v ≠ 0`, searching `n` bits from `i`. -/
def lowest (v : Nat) : Nat → Nat → Nat
  | 0, i => i
  | n + 1, i => if v.testBit i then i else lowest v n (i + 1)

/-- Intrinsic `_BitScanForward` on a `w`-bit operand. -/
def bsf (w v : Nat) : Option Nat := if v = 0 then none else some (lowest v w 0)
/-- Intrinsics `__lzcnt16`, `__lzcnt`, `__lzcnt64`. -/
def lzcnt (w v : Nat) : Nat := match bsr v with
  | none => w
  | some k => w - 1 - k
/-- Intrinsics `_tzcnt_u32`, `_tzcnt_u64`. -/
def tzcnt (w v : Nat) : Nat := lowest v w 0

/-- `_Countl_zero_lzcnt`, `__msvc_bit_utils.hpp:65-86`; `x64` is `_WIN64`. -/
def clzLzcnt (x64 : Bool) (w v : Nat) : Int :=
  if w ≤ 16 then (lzcnt 16 v : Int) - (16 - w)
  else if w = 32 then lzcnt 32 v
  else if x64 then lzcnt 64 v
  else
    let high := v / 2 ^ 32
    let low := v % 2 ^ 32
    if high = 0 then 32 + (lzcnt 32 low : Int) else lzcnt 32 high

/-- `_Countl_zero_bsr`, `__msvc_bit_utils.hpp:88-115`. -/
def clzBsr (x64 : Bool) (w v : Nat) : Int :=
  if w ≤ 32 then match bsr v with
    | none => w
    | some r => (w : Int) - 1 - r
  else if x64 then match bsr v with
    | none => w
    | some r => (w : Int) - 1 - r
  else match bsr (v / 2 ^ 32) with
    | some r => 31 - (r : Int)
    | none => match bsr (v % 2 ^ 32) with
      | none => w
      | some r => (w : Int) - 1 - r

/-- `_Checked_arm64_countl_zero`, `__msvc_bit_utils.hpp:130-142`. -/
def clzArm (w v : Nat) : Int :=
  if v = 0 then w else if w ≤ 32 then (lzcnt 32 v : Int) - (32 - w) else lzcnt 64 v

/-- `static_cast<unsigned int>(~_Max | _Val)`: `_Max` and `_Val` are promoted to `int` when narrow. -/
def widen (w v : Nat) : Nat := (2 ^ 32 - 1 - (2 ^ w - 1)) ||| v

/-- `_Countr_zero_tzcnt`, `__msvc_bit_utils.hpp:197-220`. -/
def ctzTzcnt (x64 : Bool) (w v : Nat) : Int :=
  if w ≤ 32 then tzcnt 32 (widen w v)
  else if x64 then tzcnt 64 v
  else
    let low := v % 2 ^ 32
    if low = 0 then 32 + (tzcnt 32 (v / 2 ^ 32) : Int) else tzcnt 32 low

/-- `_Countr_zero_bsf`, `__msvc_bit_utils.hpp:225-258`. -/
def ctzBsf (x64 : Bool) (w v : Nat) : Int :=
  if w ≤ 32 then match bsf 32 (widen w v) with
    | none => w
    | some r => r
  else if x64 then match bsf 64 v with
    | none => w
    | some r => r
  else match bsf 32 (v % 2 ^ 32) with
    | some r => r
    | none => match bsf 32 (v / 2 ^ 32) with
      | none => w
      | some r => (r : Int) + 32

/-- How the library evaluates a bit function: the portable code (constant evaluation, old hardware) or an intrinsic. -/
inductive Path where
  | fallback
  | lzcnt (x64 : Bool)
  | bsr (x64 : Bool)
  | arm
  deriving DecidableEq

/-- `_Countl_zero`, `__msvc_bit_utils.hpp:349-365` and `_Checked_x86_x64_countl_zero`, `117-126`. -/
def countlZero (p : Path) (w v : Nat) : R Int := match p with
  | .fallback => clzFallback w v
  | .lzcnt x => .ok (clzLzcnt x w v)
  | .bsr x => .ok (clzBsr x w v)
  | .arm => .ok (clzArm w v)

/-- `_Countr_zero`, `__msvc_bit_utils.hpp:318-329` and `_Checked_x86_x64_countr_zero`, `260-269`. -/
def countrZero (p : Path) (w v : Nat) : R Int := match p with
  | .fallback => ctzFallback w v
  | .lzcnt x => .ok (ctzTzcnt x w v)
  | .bsr x => .ok (ctzBsf x w v)
  | .arm => ctzFallback w v

/-- `static_cast<_Ty>(~_Val)` -/
def compl (w v : Nat) : Nat := 2 ^ w - 1 - v

/-- `countl_one`, `bit:204-207`. -/
def countlOne (p : Path) (w v : Nat) : R Int := countlZero p w (compl w v)
/-- `countr_one`, `bit:214-217`. -/
def countrOne (p : Path) (w v : Nat) : R Int := countrZero p w (compl w v)

/-! ## `popcount` -/

/-- `static_cast<_Ty>(0x…ull)` -/
def trunc (w c : Nat) : Nat := c % 2 ^ w

/-- `_Popcount_fallback`, `__msvc_bit_utils.hpp:157-181`, the branch without splitting. -/
def popFallback (w val : Nat) : R Int := do
  let s1 ← shr w val 1
  let e1 ← arith w ((val : Int) - (s1 &&& trunc w 0x5555555555555555 : Nat))
  let v := toU w e1
  let s2 ← shr w v 2
  let e2 ← arith w (((v &&& trunc w 0x3333333333333333 : Nat) : Int) + (s2 &&& trunc w 0x3333333333333333 : Nat))
  let v := toU w e2
  let s4 ← shr w v 4
  let e4 ← arith w ((v : Int) + s4)
  let v := toU w e4 &&& trunc w 0x0F0F0F0F0F0F0F0F
  let em ← arith w ((v : Int) * trunc w 0x0101010101010101)
  let v := toU w em
  let r ← shr w v (w - 8)
  .ok (toS 32 r)

/-- `_Popcount_fallback` on 32-bit x86, which splits 64-bit operands, `__msvc_bit_utils.hpp:160-167`. -/
def popSplit (w val : Nat) : R Int :=
  if w = 64 then do
    let a ← popFallback 32 (val % 2 ^ 32)
    let b ← popFallback 32 (val / 2 ^ 32 % 2 ^ 32)
    chkI (a + b)
  else popFallback w val

/-- Number of set bits among the lowest `n`: intrinsics `__popcnt16`, `__popcnt`, `__popcnt64`. -/
def popBits : Nat → Nat → Nat
  | 0, _ => 0
  | n + 1, v => (v.testBit n).toNat + popBits n v

/-- `_Unchecked_popcount`, `__msvc_bit_utils.hpp:286-300`. -/
def popIntrinsic (x64 : Bool) (w v : Nat) : Int :=
  if w ≤ 16 then popBits 16 v
  else if w = 32 then popBits 32 v
  else if x64 then popBits 64 v
  else (popBits 32 (v / 2 ^ 32) : Int) + popBits 32 (v % 2 ^ 32)

/-- How `popcount` is evaluated. -/
inductive PopPath where
  | fallback
  | split
  | popcnt (x64 : Bool)
  deriving DecidableEq

/-- `_Popcount`, `__msvc_bit_utils.hpp:367-378`. -/
def popcount (p : PopPath) (w v : Nat) : R Int := match p with
  | .fallback => popFallback w v
  | .split => popSplit w v
  | .popcnt x => .ok (popIntrinsic x w v)

/-! ## Powers of two -/

/-- `has_single_bit`, `bit:85-94`, portable branch. -/
def hasSingleBit (w v : Nat) : R Bool := do
  let m ← arith w ((v : Int) - 1)
  if w < 32 then .ok (decide (m < toS 32 (toU 32 v ^^^ toU 32 m : Nat)))
  else .ok (decide (m < (v ^^^ toU w m : Nat)))

/-- `has_single_bit`, `bit:86-90`, with the popcount instruction. -/
def hasSingleBitPop (x64 : Bool) (w v : Nat) : Bool := popIntrinsic x64 w v == 1

/-- `bit_ceil`, `bit:98-123`. -/
def bitCeil (p : Path) (w v : Nat) : R Nat :=
  if v ≤ 1 then .ok 1
  else do
    let c ← countlZero p w (toU w ((v : Int) - 1))
    let num ← chkI ((w : Int) - c)
    let r ← shl w 1 num.toNat
    .ok (toU w r)

/-- `bit_floor`, `bit:126-133`. -/
def bitFloor (p : Path) (w v : Nat) : R Nat :=
  if v = 0 then .ok 0
  else do
    let c ← countlZero p w v
    let num ← chkI ((w : Int) - 1 - c)
    let r ← shl w 1 num.toNat
    .ok (toU w r)

/-- `bit_width`, `bit:135-138`. -/
def bitWidth (p : Path) (w v : Nat) : R Int := do
  let c ← countlZero p w v
  chkI ((w : Int) - c)

/-! ## Rotation -/

/-- The branch `_Remainder > 0` of `rotl`, `bit:160-163`. -/
def rotlPos (w v r : Nat) : R Nat := do
  let a ← shl w v r
  let b ← shr w v (w - r)
  .ok (toU w a ||| b)

/-- The branch `_Remainder > 0` of `rotr`, `bit:188-191`. -/
def rotrPos (w v r : Nat) : R Nat := do
  let a ← shr w v r
  let b ← shl w v (w - r)
  .ok (a ||| toU w b)

/-- `rotl`, `bit:143-169`, portable branch. `rotr` is called with a positive remainder and does not call back. -/
def rotl (w v : Nat) (rot : Int) : R Nat := do
  let rem := Int.tmod rot w
  if rem > 0 then rotlPos w v rem.toNat
  else if rem = 0 then .ok v
  else do
    let n ← chkI (-rem)
    let rem' := Int.tmod n w
    if rem' > 0 then rotrPos w v rem'.toNat else if rem' = 0 then .ok v else .error .fuel

/-- `rotr`, `bit:171-197`, portable branch. -/
def rotr (w v : Nat) (rot : Int) : R Nat := do
  let rem := Int.tmod rot w
  if rem > 0 then rotrPos w v rem.toNat
  else if rem = 0 then .ok v
  else do
    let n ← chkI (-rem)
    let rem' := Int.tmod n w
    if rem' > 0 then rotlPos w v rem'.toNat else if rem' = 0 then .ok v else .error .fuel

/-- Intrinsics `_rotl8`, `_rotl16`, `_rotl`, `_rotl64`: rotation left by the count modulo the width. -/
def rotlHw (w v : Nat) (n : Int) : Nat := (v * 2 ^ (n % w).toNat) % 2 ^ w ||| v / 2 ^ (w - (n % w).toNat)
/-- Intrinsics `_rotr8`, `_rotr16`, `_rotr`, `_rotr64`. -/
def rotrHw (w v : Nat) (n : Int) : Nat := v / 2 ^ (n % w).toNat ||| (v * 2 ^ (w - (n % w).toNat)) % 2 ^ w

/-- `rotl`, `bit:147-158`, run time; the count of the 8- and 16-bit intrinsics is an `unsigned char`. -/
def rotlRt (w v : Nat) (rot : Int) : Nat := rotlHw w v (if w ≤ 16 then toU 8 rot else rot)
/-- `rotr`, `bit:175-186`, run time. -/
def rotrRt (w v : Nat) (rot : Int) : Nat := rotrHw w v (if w ≤ 16 then toU 8 rot else rot)

/-! ## `byteswap` -/

/-- `_Byteswap_ushort`, `bit:36-42`, constant evaluation. -/
def bswap16 (v : Nat) : Nat := ((v <<< 8) ||| (v >>> 8)) % 2 ^ 16
/-- `_Byteswap_ulong`, `bit:44-50`, constant evaluation. -/
def bswap32 (v : Nat) : Nat :=
  (v <<< 24) % 2 ^ 32 ||| ((v <<< 8) % 2 ^ 32 &&& 0x00FF0000) ||| ((v >>> 8) &&& 0x0000FF00) ||| (v >>> 24)
/-- `_Byteswap_uint64`, `bit:52-60`, constant evaluation. -/
def bswap64 (v : Nat) : Nat :=
  (v <<< 56) % 2 ^ 64 ||| ((v <<< 40) % 2 ^ 64 &&& 0x00FF000000000000) ||| ((v <<< 24) % 2 ^ 64 &&& 0x0000FF0000000000)
    ||| ((v <<< 8) % 2 ^ 64 &&& 0x000000FF00000000) ||| ((v >>> 8) &&& 0x00000000FF000000)
    ||| ((v >>> 24) &&& 0x0000000000FF0000) ||| ((v >>> 40) &&& 0x000000000000FF00) ||| (v >>> 56)

/-- `byteswap`, `bit:62-76`. -/
def byteswap (w v : Nat) : R Nat :=
  if w = 8 then .ok v
  else if w = 16 then .ok (bswap16 v)
  else if w = 32 then .ok (bswap32 v)
  else if w = 64 then .ok (bswap64 v)
  else .error .ub

end STL.Bits
