import Verif.Int128.Digits

/-!
# Model of the 128-bit integer types

`/repo/stl/inc/__msvc_int128.hpp`. Words are `BitVec 64`, so that all arithmetic on them wraps as `uint64_t` does. The primitives are modelled by their portable code
(used in constant evaluation everywhere and always where there are no intrinsics); the intrinsics `_umul128`, `_udiv128`, `_addcarry_u64`, `_subborrow_u64`,
`__shiftleft128`, `__shiftright128` compute the same by documentation. `Cfg` selects between the code paths of the long division.
-/

namespace STL.Int128
open STL Digits

abbrev W := BitVec 64

/-- `_Base128`, `__msvc_int128.hpp:51-52`. -/
structure B128 where
  w0 : W
  w1 : W
  deriving DecidableEq

/-- Which code paths are compiled, `__msvc_int128.hpp:38-48`. -/
structure Cfg where
  /-- `_STL_128_INTRINSICS` -/
  intr : Bool
  /-- `_STL_128_DIV_INTRINSICS` -/
  divIntr : Bool

/-- `_Countl_zero` of a `w`-bit value (see `STL.Bits.countlZero_ok`, C15). -/
def clz (w v : Nat) : Nat := w - Nat.size v

/-- `_Left_shift`, `__msvc_int128.hpp:54-76`. -/
def leftShift (x : B128) (c : Nat) : B128 :=
  if c = 0 then x
  else if c ≥ 64 then ⟨0, x.w0 <<< (c % 64)⟩
  else ⟨x.w0 <<< c, (x.w1 <<< c) ||| (x.w0 >>> (64 - c))⟩

/-- `_Unsigned_right_shift`, `__msvc_int128.hpp:78-100`. -/
def rightShift (x : B128) (c : Nat) : B128 :=
  if c = 0 then x
  else if c ≥ 64 then ⟨x.w1 >>> (c % 64), 0⟩
  else ⟨(x.w0 >>> c) ||| (x.w1 <<< (64 - c)), x.w1 >>> c⟩

/-- `_AddCarry64`, `__msvc_int128.hpp:102-115`: sum and carry. -/
def addCarry64 (carry : Bool) (l r : W) : W × Bool :=
  let sum := l + r + (if carry then 1 else 0)
  (sum, if carry then decide (sum ≤ l) else decide (sum < l))

/-- `_SubBorrow64`, `__msvc_int128.hpp:117-130`: difference and borrow. -/
def subBorrow64 (carry : Bool) (l r : W) : W × Bool :=
  let diff := l - r - (if carry then 1 else 0)
  (diff, if carry then decide (diff ≥ l) else decide (diff > l))

/-- `static_cast<uint32_t>` of a 64-bit value, widened again. -/
def lo32 (x : W) : W := x &&& 0xFFFFFFFF#64

/-- `_UMul128`, `__msvc_int128.hpp:132-201`: low and high word of the product. -/
def uMul128 (l r : W) : W × W :=
  let aLo := lo32 l
  let aHi := lo32 (l >>> 32)
  let bLo := lo32 r
  let bHi := lo32 (r >>> 32)
  let b00 := aLo * bLo
  let b01 := aLo * bHi
  let b10 := aHi * bLo
  let b11 := aHi * bHi
  let b00Lo := lo32 b00
  let b00Hi := lo32 (b00 >>> 32)
  let mid1 := b10 + b00Hi
  let mid1Lo := lo32 mid1
  let mid1Hi := lo32 (mid1 >>> 32)
  let mid2 := b01 + mid1Lo
  let mid2Lo := lo32 mid2
  let mid2Hi := lo32 (mid2 >>> 32)
  let pHi := b11 + mid1Hi + mid2Hi
  let pLo := (mid2Lo <<< 32) ||| b00Lo
  (pLo, pHi)

/-- `static_cast<uint32_t>` to an element of a word array. -/
def u32 (x : W) : Nat := x.toNat % 2 ^ 32

/-- An array with the given elements. -/
def arr (l : List Nat) : Arr := ⟨l.length, fun i => l.getD i 0⟩

/-- The array `__u` made from a 128-bit value shifted left by `d < 32`, `__msvc_int128.hpp:276-286` and `522-540`. -/
def shifted5 (lo hi : W) (d : Nat) : Arr :=
  arr [u32 (lo <<< d), u32 (lo >>> (32 - d)), u32 (hi <<< d) ||| (if d ≠ 0 then u32 (lo >>> (64 - d)) else 0), u32 (hi >>> (32 - d)),
    0 ||| (if d ≠ 0 then u32 (hi >>> (64 - d)) else 0)]

/-- The array `__v` made from a 128-bit value shifted left by `d < 32`, `__msvc_int128.hpp:530-540`. -/
def shifted4 (lo hi : W) (d : Nat) : Arr :=
  arr [u32 (lo <<< d), u32 (lo >>> (32 - d)), u32 (hi <<< d) ||| (if d ≠ 0 then u32 (lo >>> (64 - d)) else 0), u32 (hi >>> (32 - d))]

/-- Division of `uint64_t` by a non-zero value; division by zero is undefined behaviour. -/
def wdiv (a b : W) : R W := if b = 0 then .error .ub else .ok (a / b)
/-- Remainder. -/
def wmod (a b : W) : R W := if b = 0 then .error .ub else .ok (a % b)

/-- Two words of an array as `uint64_t`. -/
def join (a : Arr) (i : Nat) : R W := do
  let l ← a.ld i
  let h ← a.ld (i + 1)
  .ok ((BitVec.ofNat 64 h <<< 32) ||| BitVec.ofNat 64 l)

/-- `_UDiv128(high, low, div, rem)`, `__msvc_int128.hpp:257-303`: quotient and remainder. Uninitialized array elements are 0 here; they are written before they are read. -/
def uDiv128 (high low div : W) : R (W × W) := do
  let d := clz 32 (u32 (div >>> 32))
  if d ≥ 32 then
    let den := lo32 div
    let rem := (high <<< 32) ||| (low >>> 32)
    let res ← wdiv rem den
    let rem := ((← wmod rem den) <<< 32) ||| lo32 low
    let res := (res <<< 32) ||| (← wdiv rem den)
    .ok (res, ← wmod rem den)
  else
    let u := shifted5 low high d
    let v := arr [u32 (div <<< d), u32 (div >>> (32 - d))]
    let (u, q) ← knuthD u 5 v 2 (arr [0, 0, 0])
    let u0 ← u.ld 0
    let u1 ← u.ld 1
    let rem := (BitVec.ofNat 64 u1 <<< (32 - d)) ||| BitVec.ofNat 64 (u0 >>> d)
    .ok (← join q 0, rem)

/-- `operator<` of `_Base128` and `_Unsigned128`, `__msvc_int128.hpp:344-353`, `886-906`. -/
def blt (x y : B128) : Bool :=
  if x.w1 < y.w1 then true
  else if x.w1 > y.w1 then false
  else decide (x.w0 < y.w0)

/-- `operator++`, `__msvc_int128.hpp:398-403`. -/
def inc (x : B128) : B128 :=
  let w0 := x.w0 + 1
  ⟨w0, if w0 = 0 then x.w1 + 1 else x.w1⟩

/-- `operator--`, `__msvc_int128.hpp:410-415`. -/
def dec (x : B128) : B128 := ⟨x.w0 - 1, if x.w0 = 0 then x.w1 - 1 else x.w1⟩

/-- `operator+`, `__msvc_int128.hpp:989-994`, `1329-1334`. -/
def add (x y : B128) : B128 :=
  let (r0, c) := addCarry64 false x.w0 y.w0
  ⟨r0, (addCarry64 c x.w1 y.w1).1⟩

/-- `operator-`, `__msvc_int128.hpp:1007-1012`, `1347-1352`. -/
def sub (x y : B128) : B128 :=
  let (r0, c) := subBorrow64 false x.w0 y.w0
  ⟨r0, (subBorrow64 c x.w1 y.w1).1⟩

/-- Unary `operator-`, `__msvc_int128.hpp:981-983`, `1321-1323`. -/
def neg (x : B128) : B128 := sub ⟨0, 0⟩ x

/-- `operator~`, `__msvc_int128.hpp:985-987`, `1325-1327`. -/
def compl (x : B128) : B128 := ⟨~~~x.w0, ~~~x.w1⟩

/-- `operator&`, `operator|`, `operator^`, `__msvc_int128.hpp:1112-1140`, `1506-1534`. -/
def band (x y : B128) : B128 := ⟨x.w0 &&& y.w0, x.w1 &&& y.w1⟩
/-- see `band` -/
def bor (x y : B128) : B128 := ⟨x.w0 ||| y.w0, x.w1 ||| y.w1⟩
/-- see `band` -/
def bxor (x y : B128) : B128 := ⟨x.w0 ^^^ y.w0, x.w1 ^^^ y.w1⟩

/-- `_Multiply`, `__msvc_int128.hpp:422-428`. -/
def multiply (x y : B128) : B128 :=
  let (p0, p1) := uMul128 x.w0 y.w0
  ⟨p0, p1 + x.w0 * y.w1 + x.w1 * y.w0⟩

/-! ## Division -/

/-- `_Divide(_Base128, uint32_t)` together with the last value of `_Rem % _Den`, `__msvc_int128.hpp:431-439` (and `_Modulo`, `557-562`, `_Div_ceil`, `689-701`). -/
def divMod32 (num : B128) (den : W) : R (B128 × W) := do
  let w1 ← wdiv num.w1 den
  let rem := ((← wmod num.w1 den) <<< 32) ||| (num.w0 >>> 32)
  let w0 := (← wdiv rem den) <<< 32
  let rem := ((← wmod rem den) <<< 32) ||| lo32 num.w0
  let w0 := w0 ||| lo32 (← wdiv rem den)
  .ok (⟨w0, w1⟩, ← wmod rem den)

/-- `_Divide(_Base128, uint64_t)` together with `_Rem`, `__msvc_int128.hpp:441-447` (and `_Modulo`, `564-568`, `_Div_ceil`, `704-714`). -/
def divMod64 (num : B128) (den : W) : R (B128 × W) := do
  let w1 ← wdiv num.w1 den
  let (q, r) ← uDiv128 (← wmod num.w1 den) num.w0 den
  .ok (⟨q, w1⟩, r)

/-- The loop correcting the trial quotient in base `2 ^ 64`, `__msvc_int128.hpp:486-503` (and `610-630`, `768-785`). -/
def qhatLoop64 (num0 : W) (den : B128) : Nat → B128 → W → R B128
  | 0, _, _ => .error .fuel
  | fuel + 1, qhat, rhat =>
    let next (qhat : B128) : R B128 :=
      let sum := rhat + den.w1
      if rhat > sum then .ok qhat else qhatLoop64 num0 den fuel qhat sum
    if qhat.w1 > 0 then next (dec qhat)
    else
      let (p0, p1) := uMul128 qhat.w0 den.w0
      if blt ⟨num0, rhat⟩ ⟨p0, p1⟩ then next ⟨qhat.w0 - 1, qhat.w1⟩ else .ok qhat

/-- The subtraction `[_High_digit | _Num] -= __qhat * _Den`, `__msvc_int128.hpp:506-514` (and `633-641`, `788-796`): the new low words and the borrow. -/
def subProd (qhat : W) (high : W) (num den : B128) : B128 × Bool :=
  let (plo, p0hi) := uMul128 qhat den.w0
  let (n0, borrow) := subBorrow64 false num.w0 plo
  let (plo, p1hi) := uMul128 qhat den.w1
  let (plo, c) := addCarry64 false plo p0hi
  let p1hi := p1hi + (if c then 1 else 0)
  let (n1, borrow) := subBorrow64 borrow num.w1 plo
  let (_, borrow) := subBorrow64 borrow high p1hi
  (⟨n0, n1⟩, borrow)

/-- The quotient of the trial division and the data of the subtraction, base `2 ^ 64`, for a divisor with a non-zero high word and a dividend with a larger one,
`__msvc_int128.hpp:470-518`, `595-645`, `752-802`: quotient, remainder shifted left by the last component. -/
def longDiv64 (num den : B128) : R (B128 × B128 × Nat) := do
  let d := clz 64 den.w1.toNat
  let den := leftShift den d
  let high := if d = 0 then 0 else num.w1 >>> (64 - d)
  let num := leftShift num d
  let qhi : W := if high ≥ den.w1 then 1 else 0
  let (qlo, rhat) ← uDiv128 (if high ≥ den.w1 then high - den.w1 else high) num.w1 den.w1
  let qhat ← qhatLoop64 num.w0 den 4 ⟨qlo, qhi⟩ rhat
  let (num, borrow) := subProd qhat.w0 high num den
  if borrow then
    let (n0, c) := addCarry64 false num.w0 den.w0
    let (n1, _) := addCarry64 c num.w1 den.w1
    .ok (⟨qhat.w0 - 1, qhat.w1⟩, ⟨n0, n1⟩, d)
  else .ok (qhat, num, d)

/-- The same in base `2 ^ 32`, `__msvc_int128.hpp:519-552`, `646-681`, `803-838`. -/
def longDiv32 (num den : B128) : R (B128 × B128 × Nat) := do
  let d := clz 64 den.w1.toNat
  let three := d ≥ 32
  let d := d &&& 31
  let u := shifted5 num.w0 num.w1 d
  let v := shifted4 den.w0 den.w1 d
  let (u, q) ← knuthD u 5 v (if three then 3 else 4) (arr [0, 0])
  -- `__q[1] = 0` if there is one quotient digit only
  .ok (⟨← join q 0, 0⟩, ⟨← join u 0, ← join u 2⟩, d)

/-- The long division, selected by the configuration. -/
def longDiv (cfg : Cfg) (num den : B128) : R (B128 × B128 × Nat) := if cfg.intr then longDiv64 num den else longDiv32 num den

/-- A divisor of one word: `__msvc_int128.hpp:458-468`. -/
def shortDiv (cfg : Cfg) (num : B128) (den : W) : R (B128 × W) :=
  if cfg.divIntr = false ∧ den < 0x100000000#64 then divMod32 num den else divMod64 num den

/-- `_Divide`, `__msvc_int128.hpp:448-554`. -/
def divide (cfg : Cfg) (num den : B128) : R B128 := do
  if den.w1 ≥ num.w1 then
    if den.w1 > num.w1 then .ok ⟨0, 0⟩
    else if num.w1 = 0 then .ok ⟨← wdiv num.w0 den.w0, 0⟩
    else .ok ⟨if num.w0 ≥ den.w0 then 1 else 0, 0⟩
  else if den.w1 = 0 then .ok (← shortDiv cfg num den.w0).1
  else .ok (← longDiv cfg num den).1

/-- `_Modulo`, `__msvc_int128.hpp:569-685`. The one-word versions, `557-568`, keep only the remainder. -/
def modulo (cfg : Cfg) (num den : B128) : R B128 := do
  if den.w1 ≥ num.w1 then
    if den.w1 > num.w1 then .ok num
    else if den.w0 ≤ num.w0 then
      if num.w1 = 0 then .ok ⟨← wmod num.w0 den.w0, 0⟩ else .ok ⟨num.w0 - den.w0, 0⟩
    else .ok num
  else if den.w1 = 0 then .ok ⟨(← shortDiv cfg num den.w0).2, 0⟩
  else
    let (_, r, d) ← longDiv cfg num den
    .ok (rightShift r d)

/-- `_Div_ceil`, `__msvc_int128.hpp:716-846`. -/
def divCeil (cfg : Cfg) (num den : B128) : R B128 := do
  if den.w1 ≥ num.w1 then
    if den.w1 > num.w1 then .ok ⟨if num ≠ ⟨0, 0⟩ then 1 else 0, 0⟩
    else if num.w1 = 0 then
      let q ← wdiv num.w0 den.w0
      let r ← wmod num.w0 den.w0
      .ok ⟨if r ≠ 0 then q + 1 else q, 0⟩
    else .ok ⟨if num.w0 > den.w0 then 2 else 1, 0⟩
  else if den.w1 = 0 then
    let (q, r) ← shortDiv cfg num den.w0
    .ok (if r ≠ 0 then inc q else q)
  else
    let (q, r, _) ← longDiv cfg num den
    .ok (if r ≠ ⟨0, 0⟩ then inc q else q)

/-! ## `_Signed128` -/

/-- The sign bit. -/
def isNeg (x : B128) : Bool := x.w1 &&& (1#64 <<< 63) ≠ 0

/-- `operator<` of `_Signed128`, `__msvc_int128.hpp:1213-1223` (C++20: `1203-1210`). -/
def slt (x y : B128) : Bool :=
  if x.w1.toInt < y.w1.toInt then true
  else if y.w1.toInt < x.w1.toInt then false
  else decide (x.w0 < y.w0)

/-- `_Signed_right_shift`, `__msvc_int128.hpp:1254-1275`. -/
def signedRightShift (x : B128) (c : Nat) : B128 :=
  if c = 0 then x
  else if c ≥ 64 then ⟨x.w1.sshiftRight (c % 64), if x.w1 &&& (1#64 <<< 63) = 0 then 0 else ~~~0#64⟩
  else ⟨(x.w0 >>> c) ||| (x.w1 <<< (64 - c)), x.w1.sshiftRight c⟩

/-- `_Strip_negative`, `__msvc_int128.hpp:1365-1370`. -/
def stripNegative (x : B128) (flip : Bool) : B128 × Bool := if isNeg x then (neg x, !flip) else (x, flip)

/-- `operator*` of `_Signed128`, `__msvc_int128.hpp:1372-1381`. -/
def smul (x y : B128) : B128 :=
  let (x, n) := stripNegative x false
  let (y, n) := stripNegative y n
  let r := multiply x y
  if n then neg r else r

/-- `operator/` of `_Signed128`, `__msvc_int128.hpp:1428-1437`. -/
def sdiv (cfg : Cfg) (x y : B128) : R B128 := do
  let (x, n) := stripNegative x false
  let (y, n) := stripNegative y n
  let r ← divide cfg x y
  .ok (if n then neg r else r)

/-- `operator%` of `_Signed128`, `__msvc_int128.hpp:1458-1472`. -/
def smod (cfg : Cfg) (x y : B128) : R B128 := do
  let (x, n) := stripNegative x false
  let y := if isNeg y then neg y else y
  let r ← modulo cfg x y
  .ok (if n then neg r else r)

/-- The constructor from a built-in integer of value `v` and at most 64 bits, `__msvc_int128.hpp:307-320`. -/
def ofBuiltin (v : Int) : B128 := ⟨BitVec.ofInt 64 v, if v < 0 then ~~~0#64 else 0⟩

/-- `operator/(_Signed128, _Ty)` with a built-in divisor of `bits` bits and value `den`, `__msvc_int128.hpp:1402-1427`. `_Den = -_Den` is computed in `int` if the type is
narrower, and converted back to the type; for `int` and wider types it overflows for the smallest value. -/
def sdivBuiltin (cfg : Cfg) (num : B128) (bits : Nat) (signed : Bool) (den : Int) : R B128 := do
  let (num, n) := stripNegative num false
  let flip : Bool := signed && decide (den < 0)
  let den ← (if flip then (if 32 ≤ bits ∧ -den ≥ 2 ^ (bits - 1) then .error .ub else .ok ((-den + 2 ^ (bits - 1)) % 2 ^ bits - 2 ^ (bits - 1))) else .ok den : R Int)
  let n := if flip then !n else n
  let r ← (if cfg.divIntr = false ∧ bits ≤ 32 then divMod32 num (lo32 (BitVec.ofInt 64 den)) else divMod64 num (BitVec.ofInt 64 den) : R (B128 × W))
  .ok (if n then neg r.1 else r.1)

end STL.Int128
