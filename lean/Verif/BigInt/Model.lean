import Verif.Int128.Digits

/-!
# Model of `_Big_integer_flt`

`/repo/stl/inc/charconv:433-972`: the multi-precision integers used by the floating-point `from_chars`.

Words are natural numbers below `2 ^ 32`. An object has room for 115 words, of which the first `used` are in use. Reading a word that is not in use (it may never
have been initialized) and writing outside the array are errors, and so are arithmetic exceptions.
-/

namespace STL.BigInt
open STL

/-- `_Element_count`, `charconv:471-475`: `ceil ((1074 + 2552 + 54) / 32)`. -/
def cap : Nat := (1074 + 2552 + 54 + 32 - 1) / 32

/-- `_Big_integer_flt`, `charconv:477-479`. -/
structure Big where
  used : Nat
  f : Nat → Nat

/-- Read `_Mydata[i]`. -/
def Big.ld (x : Big) (i : Nat) : R Nat := if i < x.used then .ok (x.f i) else .error .ub
/-- Write `_Mydata[i]`. -/
def Big.st (x : Big) (i v : Nat) : R Big := if i < cap then .ok ⟨x.used, fun k => if k = i then v else x.f k⟩ else .error .ub

/-- `_Make_big_integer_flt_one`, `charconv:481-486`. -/
def one : Big := ⟨1, fun _ => 1⟩

/-- The default constructor; the words are arbitrary. -/
def empty (g : Nat → Nat) : Big := ⟨0, g⟩

/-- The loop of `operator<`, `charconv:459-463`. -/
def ltLoop (x y : Big) : Nat → R Bool
  | 0 => .ok false
  | i + 1 => do
    let a ← x.ld i
    let b ← y.ld i
    if a ≠ b then .ok (decide (a < b)) else ltLoop x y i

/-- `operator<`, `charconv:454-466`. -/
def lt (x y : Big) : R Bool := if x.used ≠ y.used then .ok (decide (x.used < y.used)) else ltLoop x y x.used

/-- `_Bit_scan_reverse(uint32_t)`: one plus the position of the highest set bit, 0 for 0 (`__msvc_bit_utils.hpp`, C15). -/
def bsr (w : Nat) : Nat := Nat.size w

/-- `_Bit_scan_reverse(const _Big_integer_flt&)`, `charconv:488-503`. `_BitScanReverse` leaves its result uninitialized if the word is zero. -/
def bitScan (x : Big) : R Nat :=
  if x.used = 0 then .ok 0
  else do
    let bx := x.used - 1
    let w ← x.ld bx
    if w = 0 then .error .ub else .ok ((Nat.size w - 1) + 1 + bx * 32)

/-- The loop of `_Shift_left`, `charconv:544-566`: `k` destinations are left, the next is `unit + k - 1`. -/
def shlLoop (used unit msb : Nat) : Nat → Big → R Big
  | 0, x => .ok x
  | k + 1, x => do
    let dest := unit + k
    let upper := dest - unit
    let lower := (dest - unit + 2 ^ 32 - 1) % 2 ^ 32
    let u ← (if upper < used then x.ld upper else .ok 0 : R Nat)
    let l ← (if lower < used then x.ld lower else .ok 0 : R Nat)
    let lsb := 32 - msb
    let su := (u &&& (2 ^ lsb - 1)) <<< msb % 2 ^ 32
    let sl := (l &&& (2 ^ 32 - 1 - (2 ^ lsb - 1))) >>> lsb
    let x ← x.st dest (su ||| sl)
    shlLoop used unit msb k x

/-- `memset(_Mydata, 0, n * 4)`. -/
def zeroLow (x : Big) (n : Nat) : R Big := if n ≤ cap then .ok ⟨x.used, fun i => if i < n then 0 else x.f i⟩ else .error .ub

/-- `_Shift_left`, `charconv:507-574`. -/
def shiftLeft (x : Big) (n : Nat) : R (Big × Bool) := do
  if x.used = 0 then .ok (x, true)
  else
    let unit := n / 32
    let bit := n % 32
    if x.used + unit > cap then .ok (⟨0, x.f⟩, false)
    else if bit = 0 then
      let x : Big := ⟨x.used + unit, fun i => if unit ≤ i ∧ i < unit + x.used then x.f (i - unit) else x.f i⟩
      .ok (← zeroLow x unit, true)
    else
      let top ← x.ld (x.used - 1)
      let into := decide (bit > 32 - bsr top)
      let newUsed := x.used + unit + (if into then 1 else 0)
      if newUsed > cap then .ok (⟨0, x.f⟩, false)
      else
        let y ← shlLoop x.used unit bit (newUsed - unit) x
        .ok (← zeroLow ⟨newUsed, y.f⟩ unit, true)

/-- The loop of `_Add`, `charconv:584-588`. -/
def addLoop (x : Big) (carry : Nat) : Nat → Nat → R (Big × Nat)
  | 0, _ => .ok (x, carry)
  | todo + 1, i => do
    let result := ((← x.ld i) + carry) % 2 ^ 64
    let x ← x.st i (result % 2 ^ 32)
    addLoop x (result >>> 32 % 2 ^ 32) todo (i + 1)

/-- Append a non-zero carry, `charconv:590-598`, `645-653`. -/
def push (x : Big) (carry : Nat) : R (Big × Bool) := do
  if carry ≠ 0 then
    if x.used < cap then
      let x ← x.st x.used carry
      .ok (⟨x.used + 1, x.f⟩, true)
    else .ok (⟨0, x.f⟩, false)
  else .ok (x, true)

/-- `_Add`, `charconv:578-601`. -/
def add (x : Big) (v : Nat) : R (Big × Bool) := do
  if v = 0 then .ok (x, true)
  else
    let (x, carry) ← addLoop x v x.used 0
    push x carry

/-- `_Multiply_core`, `charconv:617-627`. -/
def mulCore (m : Nat) (x : Big) (carry : Nat) : Nat → Nat → R (Big × Nat)
  | 0, _ => .ok (x, carry)
  | todo + 1, i => do
    let result := ((← x.ld i) * m + carry) % 2 ^ 64
    let x ← x.st i (result % 2 ^ 32)
    mulCore m x (result >>> 32 % 2 ^ 32) todo (i + 1)

/-- `_Multiply` by a 32-bit number, `charconv:631-656`. -/
def mul32 (x : Big) (m : Nat) : R (Big × Bool) := do
  if m = 0 then .ok (⟨0, x.f⟩, true)
  else if m = 1 then .ok (x, true)
  else if x.used = 0 then .ok (x, true)
  else
    let (x, carry) ← mulCore m x 0 x.used 0
    push x carry

/-- `if (i == _Result._Myused) { _Result._Mydata[i] = 0; _Result._Myused = i + 1; }`, `charconv:693-698`, `704-707`. -/
def ensure (res : Big) (i : Nat) : R Big := do
  if i = res.used then
    let res ← res.st i 0
    .ok ⟨i + 1, res.f⟩
  else .ok res

/-- The inner loop of the multiplication, `charconv:694-701`. -/
def mulInner (cur : Nat) (y : Big) : Nat → Nat → Big → Nat → Nat → R (Big × Nat × Nat)
  | 0, _, res, carry, i => .ok (res, carry, i)
  | todo + 1, i2, res, carry, i =>
    if i = cap then .ok (res, carry, i)
    else do
      let res ← ensure res i
      -- `_Add_multiply_carry`, `charconv:609-615`
      let uu := (cur * (← y.ld i2) + (← res.ld i) + carry) % 2 ^ 64
      let res ← res.st i (uu % 2 ^ 32)
      mulInner cur y todo (i2 + 1) res (uu >>> 32 % 2 ^ 32) (i + 1)

/-- The carry loop, `charconv:703-710`. -/
def mulCarry : Nat → Big → Nat → Nat → R (Big × Nat)
  | 0, _, _, _ => .error .fuel
  | fuel + 1, res, carry, i =>
    if carry ≠ 0 ∧ i ≠ cap then do
      let res ← ensure res i
      -- `_Add_carry`, `charconv:603-607`
      let uu := ((← res.ld i) + 0 + carry) % 2 ^ 64
      let res ← res.st i (uu % 2 ^ 32)
      mulCarry fuel res (uu >>> 32 % 2 ^ 32) (i + 1)
    else .ok (res, i)

/-- The outer loop, `charconv:681-716`: `none` if the product does not fit. -/
def mulOuter (x y : Big) : Nat → Nat → Big → R (Option Big)
  | 0, _, res => .ok (some res)
  | todo + 1, i1, res => do
    let cur ← x.ld i1
    if cur = 0 then
      let res ← ensure res i1
      mulOuter x y todo (i1 + 1) res
    else
      let (res, carry, i) ← mulInner cur y y.used 0 res 0 i1
      let (res, i) ← mulCarry (cap + 1) res carry i
      if i = cap then .ok none
      else mulOuter x y todo (i1 + 1) res

/-- `_Multiply` by a `_Big_integer_flt`, `charconv:662-721`. The words of `_Result` are uninitialized (`g`). -/
def mul (g : Nat → Nat) (x m : Big) : R (Big × Bool) := do
  if x.used = 0 then .ok (x, true)
  else if m.used = 0 then .ok (⟨0, x.f⟩, true)
  else if m.used = 1 then mul32 x (← m.ld 0)
  else if x.used = 1 then
    let small ← x.ld 0
    mul32 m small
  else
    let shorter := decide (m.used < x.used)
    let a := if shorter then m else x
    let b := if shorter then x else m
    match ← mulOuter a b a.used 0 (empty g) with
    | none => .ok (⟨0, x.f⟩, false)
    | some res => .ok (res, true)

/-- `_Large_power_data`, `stl/src/charconv.cpp:10-74`. -/
def largePowerData : List Nat := [
    0x540be400, 0x00000002, 0x63100000, 0x6bc75e2d, 0x00000005, 0x40000000, 0x4674edea, 0x9f2c9cd0, 0x0000000c, 0xb9f56100, 0x5ca4bfab, 0x6329f1c3,
    0x0000001d, 0xb5640000, 0xc40534fd, 0x926687d2, 0x6c3b15f9, 0x00000044, 0x10000000, 0x946590d9, 0xd762422c, 0x9a224501, 0x4f272617, 0x0000009f,
    0x07950240, 0x245689c1, 0xc5faa71c, 0x73c86d67, 0xebad6ddc, 0x00000172, 0xcec10000, 0x63a22764, 0xefa418ca, 0xcdd17b25, 0x6bdfef70, 0x9dea3e1f,
    0x0000035f, 0xe4000000, 0xcdc3fe6e, 0x66bc0c6a, 0x2e391f32, 0x5a450203, 0x71d2f825, 0xc3c24a56, 0x000007da, 0xa82e8f10, 0xaab24308, 0x8e211a7c,
    0xf38ace40, 0x84c4ce0b, 0x7ceb0b27, 0xad2594c3, 0x00001249, 0xdd1a4000, 0xcc9f54da, 0xdc5961bf, 0xc75cabab, 0xf505440c, 0xd1bc1667, 0xfbb7af52,
    0x608f8d29, 0x00002a94, 0x21000000, 0x17bb8a0c, 0x56af8ea4, 0x06479fa9, 0x5d4bb236, 0x80dc5fe0, 0xf0feaa0a, 0xa88ed940, 0x6b1a80d0, 0x00006323,
    0x324c3864, 0x8357c796, 0xe44a42d5, 0xd9a92261, 0xbd3c103d, 0x91e5f372, 0xc0591574, 0xec1da60d, 0x102ad96c, 0x0000e6d3, 0x1e851000, 0x6e4f615b,
    0x187b2a69, 0x0450e21c, 0x2fdd342b, 0x635027ee, 0xa6c97199, 0x8e4ae916, 0x17082e28, 0x1a496e6f, 0x0002196e, 0x32400000, 0x04ad4026, 0xf91e7250,
    0x2994d1d5, 0x665bcdbb, 0xa23b2e96, 0x65fa7ddb, 0x77de53ac, 0xb020a29b, 0xc6bff953, 0x4b9425ab, 0x0004e34d, 0xfbc32d81, 0x5222d0f4, 0xb70f2850,
    0x5713f2f3, 0xdc421413, 0xd6395d7d, 0xf8591999, 0x0092381c, 0x86b314d6, 0x7aa577b9, 0x12b7fe61, 0x000b616a, 0x1d11e400, 0x56c3678d, 0x3a941f20,
    0x9b09368b, 0xbd706908, 0x207665be, 0x9b26c4eb, 0x1567e89d, 0x9d15096e, 0x7132f22b, 0xbe485113, 0x45e5a2ce, 0x001a7f52, 0xbb100000, 0x02f79478,
    0x8c1b74c0, 0xb0f05d00, 0xa9dbc675, 0xe2d9b914, 0x650f72df, 0x77284b4c, 0x6df6e016, 0x514391c2, 0x2795c9cf, 0xd6e2ab55, 0x9ca8e627, 0x003db1a6,
    0x40000000, 0xf4ecd04a, 0x7f2388f0, 0x580a6dc5, 0x43bf046f, 0xf82d5dc3, 0xee110848, 0xfaa0591c, 0xcdf4f028, 0x192ea53f, 0xbcd671a0, 0x7d694487,
    0x10f96e01, 0x791a569d, 0x008fa475, 0xb9b2e100, 0x8288753c, 0xcd3f1693, 0x89b43a6b, 0x089e87de, 0x684d4546, 0xfddba60c, 0xdf249391, 0x3068ec13,
    0x99b44427, 0xb68141ee, 0x5802cac3, 0xd96851f1, 0x7d7625a2, 0x014e718d, 0xfb640000, 0xf25a83e6, 0x9457ad0f, 0x0080b511, 0x2029b566, 0xd7c5d2cf,
    0xa53f6d7d, 0xcdb74d1c, 0xda9d70de, 0xb716413d, 0x71d0ca4e, 0xd7e41398, 0x4f403a90, 0xf9ab3fe2, 0x264d776f, 0x030aafe6, 0x10000000, 0x09ab5531,
    0xa60c58d2, 0x566126cb, 0x6a1c8387, 0x7587f4c1, 0x2c44e876, 0x41a047cf, 0xc908059e, 0xa0ba063e, 0xe7cfc8e8, 0xe1fac055, 0xef0144b2, 0x24207eb0,
    0xd1722573, 0xe4b8f981, 0x071505ae, 0x7a3b6240, 0xcea45d4f, 0x4fe24133, 0x210f6d6d, 0xe55633f2, 0x25c11356, 0x28ebd797, 0xd396eb84, 0x1e493b77,
    0x471f2dae, 0x96ad3820, 0x8afaced1, 0x4edecddb, 0x5568c086, 0xb2695da1, 0x24123c89, 0x107d4571, 0x1c410000, 0x6e174a27, 0xec62ae57, 0xef2289aa,
    0xb6a2fbdd, 0x17e1efe4, 0x3366bdf2, 0x37b48880, 0xbfb82c3e, 0x19acde91, 0xd4f46408, 0x35ff6a4e, 0x67566a0e, 0x40dbb914, 0x782a3bca, 0x6b329b68,
    0xf5afc5d9, 0x266469bc, 0xe4000000, 0xfb805ff4, 0xed55d1af, 0x9b4a20a8, 0xab9757f8, 0x01aefe0a, 0x4a2ca67b, 0x1ebf9569, 0xc7c41c29, 0xd8d5d2aa,
    0xd136c776, 0x93da550c, 0x9ac79d90, 0x254bcba8, 0x0df07618, 0xf7a88809, 0x3a1f1074, 0xe54811fc, 0x59638ead, 0x97cbe710, 0x26d769e8, 0xb4e4723e,
    0x5b90aa86, 0x9c333922, 0x4b7a0775, 0x2d47e991, 0x9a6ef977, 0x160b40e7, 0x0c92f8c4, 0xf25ff010, 0x25c36c11, 0xc9f98b42, 0x730b919d, 0x05ff7caf,
    0xb0432d85, 0x2d2b7569, 0xa657842c, 0xd01fef10, 0xc77a4000, 0xe8b862e5, 0x10d8886a, 0xc8cd98e5, 0x108955c5, 0xd059b655, 0x58fbbed4, 0x03b88231,
    0x034c4519, 0x194dc939, 0x1fc500ac, 0x794cc0e2, 0x3bc980a1, 0xe9b12dd1, 0x5e6d22f8, 0x7b38899a, 0xce7919d8, 0x78c67672, 0x79e5b99f, 0xe494034e,
    0x00000001, 0xa1000000, 0x6c5cd4e9, 0x9be47d6f, 0xf93bd9e7, 0x77626fa1, 0xc68b3451, 0xde2b59e8, 0xcf3cde58, 0x2246ff58, 0xa8577c15, 0x26e77559,
    0x17776753, 0xebe6b763, 0xe3fd0a5f, 0x33e83969, 0xa805a035, 0xf631b987, 0x211f0f43, 0xd85a43db, 0xab1bf596, 0x683f19a2, 0x00000004, 0xbe7dfe64,
    0x4bc9042f, 0xe1f5edb0, 0x8fa14eda, 0xe409db73, 0x674fee9c, 0xa9159f0d, 0xf6b5b5d6, 0x7338960e, 0xeb49c291, 0x5f2b97cc, 0x0f383f95, 0x2091b3f6,
    0xd1783714, 0xc1d142df, 0x153e22de, 0x8aafdf57, 0x77f5e55f, 0xa3e7ca8b, 0x032f525b, 0x42e74f3d, 0x0000000a, 0xf4dd1000, 0x5d450952, 0xaeb442e1,
    0xa3b3342e, 0x3fcda36f, 0xb4287a6e, 0x4bc177f7, 0x67d2c8d0, 0xaea8f8e0, 0xadc93b67, 0x6cc856b3, 0x959d9d0b, 0x5b48c100, 0x4abe8a3d, 0x52d936f4,
    0x71dbe84d, 0xf91c21c5, 0x4a458109, 0xd7aad86a, 0x08e14c7c, 0x759ba59c, 0xe43c8800, 0x00000017, 0x92400000, 0x04f110d4, 0x186472be, 0x8736c10c,
    0x1478abfb, 0xfc51af29, 0x25eb9739, 0x4c2b3015, 0xa1030e0b, 0x28fe3c3b, 0x7788fcba, 0xb89e4358, 0x733de4a4, 0x7c46f2c2, 0x8f746298, 0xdb19210f,
    0x2ea3b6ae, 0xaa5014b2, 0xea39ab8d, 0x97963442, 0x01dfdfa9, 0xd2f3d3fe, 0xa0790280, 0x00000037, 0x509c9b01, 0xc7dcadf1, 0x383dad2c, 0x73c64d37,
    0xea6d67d0, 0x519ba806, 0xc403f2f8, 0xa052e1a2, 0xd710233a, 0x448573a9, 0xcf12d9ba, 0x70871803, 0x52dc3a9b, 0xe5b252e8, 0x0717fb4e, 0xbe4da62f,
    0x0aabd7e1, 0x8c62ed4f, 0xceb9ec7b, 0xd4664021, 0xa1158300, 0xcce375e6, 0x842f29f2, 0x00000081, 0x7717e400, 0xd3f5fb64, 0xa0763d71, 0x7d142fe9,
    0x33f44c66, 0xf3b8f12e, 0x130f0d8e, 0x734c9469, 0x60260fa8, 0x3c011340, 0xcc71880a, 0x37a52d21, 0x8adac9ef, 0x42bb31b4, 0xd6f94c41, 0xc88b056c,
    0xe20501b8, 0x5297ed7c, 0x62c361c4, 0x87dad8aa, 0xb833eade, 0x94f06861, 0x13cc9abd, 0x8dc1d56a, 0x0000012d, 0x13100000, 0xc67a36e8, 0xf416299e,
    0xf3493f0a, 0x77a5a6cf, 0xa4be23a3, 0xcca25b82, 0x3510722f, 0xbe9d447f, 0xa8c213b8, 0xc94c324e, 0xbc9e33ad, 0x76acfeba, 0x2e4c2132, 0x3e13cd32,
    0x70fe91b4, 0xbb5cd936, 0x42149785, 0x46cc1afd, 0xe638ddf8, 0x690787d2, 0x1a02d117, 0x3eb5f1fe, 0xc3b9abae, 0x1c08ee6f, 0x000002be, 0x40000000,
    0x8140c2aa, 0x2cf877d9, 0x71e1d73d, 0xd5e72f98, 0x72516309, 0xafa819dd, 0xd62a5a46, 0x2a02dcce, 0xce46ddfe, 0x2713248d, 0xb723d2ad, 0xc404bb19,
    0xb706cc2b, 0x47b1ebca, 0x9d094bdc, 0xc5dc02ca, 0x31e6518e, 0x8ec35680, 0x342f58a8, 0x8b041e42, 0xfebfe514, 0x05fffc13, 0x6763790f, 0x66d536fd,
    0xb9e15076, 0x00000662, 0x67b06100, 0xd2010a1a, 0xd005e1c0, 0xdb12733b, 0xa39f2e3f, 0x61b29de2, 0x2a63dce2, 0x942604bc, 0x6170d59b, 0xc2e32596,
    0x140b75b9, 0x1f1d2c21, 0xb8136a60, 0x89d23ba2, 0x60f17d73, 0xc6cad7df, 0x0669df2b, 0x24b88737, 0x669306ed, 0x19496eeb, 0x938ddb6f, 0x5e748275,
    0xc56e9a36, 0x3690b731, 0xc82842c5, 0x24ae798e, 0x00000ede, 0x41640000, 0xd5889ac1, 0xd9432c99, 0xa280e71a, 0x6bf63d2e, 0x8249793d, 0x79e7a943,
    0x22fde64a, 0xe0d6709a, 0x05cacfef, 0xbd8da4d7, 0xe364006c, 0xa54edcb3, 0xa1a8086e, 0x748f459e, 0xfc8e54c8, 0xcc74c657, 0x42b8c3d4, 0x57d9636e,
    0x35b55bcc, 0x6c13fee9, 0x1ac45161, 0xb595badb, 0xa1f14e9d, 0xdcf9e750, 0x07637f71, 0xde2f9f2b, 0x0000229d, 0x10000000, 0x3c5ebd89, 0xe3773756,
    0x3dcba338, 0x81d29e4f, 0xa4f79e2c, 0xc3f9c774, 0x6a1ce797, 0xac5fe438, 0x07f38b9c, 0xd588ecfa, 0x3e5ac1ac, 0x85afccce, 0x9d1f3f70, 0xe82d6dd3,
    0x177d180c, 0x5e69946f, 0x648e2ce1, 0x95a13948, 0x340fe011, 0xb4173c58, 0x2748f694, 0x7c2657bd, 0x758bda2e, 0x3b8090a0, 0x2ddbb613, 0x6dcf4890,
    0x24e4047e, 0x00005099]

/-- `_Large_power_indices` (offset, zeroes, size), `charconv:744-750`. -/
def largePowerIndices : List (Nat × Nat × Nat) := [
    (0, 0, 2), (2, 0, 3), (5, 0, 4), (9, 1, 4), (13, 1, 5), (18, 1, 6), (24, 2, 6), (30, 2, 7), (37, 2, 8), (45, 3, 8), (53, 3, 9), (62, 3, 10), (72,
    4, 10), (82, 4, 11), (93, 4, 12), (105, 5, 12), (117, 5, 13), (130, 5, 14), (144, 5, 15), (159, 6, 15), (174, 6, 16), (190, 6, 17), (207, 7, 17),
    (224, 7, 18), (242, 7, 19), (261, 8, 19), (280, 8, 21), (301, 8, 22), (323, 9, 22), (345, 9, 23), (368, 9, 24), (392, 10, 24), (416, 10, 25),
    (441, 10, 26), (467, 10, 27), (494, 11, 27), (521, 11, 28), (549, 11, 29)]

/-- The number `_Multiplier` unpacked from the table, `charconv:755-763`. -/
def unpack (cur : Nat) : R Big :=
  match largePowerIndices[cur - 1]? with
  | none => .error .ub
  | some (off, z, sz) =>
    if off + sz ≤ 578 ∧ z + sz ≤ cap then .ok ⟨sz + z, fun i => if i < z then 0 else largePowerData.getD (off + (i - z)) 0⟩ else .error .ub

/-- The loop over the large powers, `charconv:752-770`. -/
def mulPowLoop (g : Nat → Nat) : Nat → Big → Nat → R (Big × Bool)
  | 0, _, _ => .error .fuel
  | fuel + 1, x, large =>
    if large ≠ 0 then do
      let cur := min large 38
      let m ← unpack cur
      let (x, ok) ← mul g x m
      if ok = false then .ok (x, false)
      else mulPowLoop g fuel x (large - cur)
    else .ok (x, true)

/-- `_Multiply_by_power_of_ten`, `charconv:727-782`. -/
def mulPow10 (g : Nat → Nat) (x : Big) (power : Nat) : R (Big × Bool) := do
  let (x, ok) ← mulPowLoop g (power / 10 + 1) x (power / 10)
  if ok = false then .ok (x, false)
  else
    let small := power % 10
    if small = 0 then .ok (x, true)
    else mul32 x ([10, 100, 1000, 10000, 100000, 1000000, 10000000, 100000000, 1000000000].getD (small - 1) 0)

/-! ## Division -/

/-- The loop for a one-word divisor, `charconv:830-834`; `i` words are left. -/
def divSmallLoop (x : Big) (d : Nat) : Nat → Nat → Nat → R (Nat × Nat)
  | 0, q, uu => .ok (q, uu)
  | i + 1, q, uu => do
    let uu := (uu <<< 32) % 2 ^ 64 ||| (← x.ld i)
    if d = 0 then .error .ub
    else divSmallLoop x d i (((q <<< 32) % 2 ^ 64 + uu / d % 2 ^ 32) % 2 ^ 64) (uu % d)

/-- A one-word divisor, `charconv:807-848`: the remainder and the low 64 bits of the quotient. -/
def divSmall (x : Big) (d : Nat) : R (Big × Nat) := do
  if x.used = 1 then
    let n ← x.ld 0
    if d = 1 then .ok (⟨0, x.f⟩, n)
    else if d = 0 then .error .ub
    else
      let x ← x.st 0 (n % d)
      let r ← x.ld 0
      .ok (⟨if r > 0 then 1 else 0, x.f⟩, n / d)
  else if d = 1 then
    let q ← x.ld 1
    let q := (q <<< 32) % 2 ^ 64 ||| (← x.ld 0)
    .ok (⟨0, x.f⟩, q)
  else
    let (q, uu) ← divSmallLoop x d x.used 0 0
    let x ← x.st 1 (uu >>> 32 % 2 ^ 32)
    let x ← x.st 0 (uu % 2 ^ 32)
    let r1 ← x.ld 1
    let r0 ← x.ld 0
    .ok (⟨if r1 > 0 then 2 else if r0 > 0 then 1 else 0, x.f⟩, q)

/-- Does the quotient have `diff + 1` digits, `charconv:860-873`; `i` words of the denominator are left. -/
def cmpTop (x d : Big) (diff : Nat) : Nat → R Bool
  | 0 => .ok true
  | i + 1 => do
    let a ← d.ld i
    let b ← x.ld (i + diff)
    if a ≠ b then .ok (decide (a < b)) else cmpTop x d diff i

/-- The correction of the trial quotient, `charconv:918-921`. -/
def quoLoop (den den2 num2 : Nat) : Nat → Nat → Nat → R (Nat × Nat)
  | 0, _, _ => .error .fuel
  | fuel + 1, quo, rem =>
    if rem ≤ 2 ^ 32 - 1 ∧ quo * den2 % 2 ^ 64 > ((rem <<< 32) % 2 ^ 64 ||| num2) then
      quoLoop den den2 num2 fuel ((quo + 2 ^ 64 - 1) % 2 ^ 64) ((rem + den) % 2 ^ 64)
    else .ok (quo, rem)

/-- Multiply and subtract, `charconv:928-938`. -/
def subLoop (quo : Nat) (d : Big) (iu : Nat) : Nat → Nat → Big → Nat → R (Big × Nat)
  | 0, _, x, borrow => .ok (x, borrow)
  | todo + 1, i, x, borrow => do
    let borrow := (borrow + quo * (← d.ld i)) % 2 ^ 64
    let sub := borrow % 2 ^ 32
    let borrow := borrow >>> 32
    let a ← x.ld (iu + i)
    let borrow := if a < sub then (borrow + 1) % 2 ^ 64 else borrow
    let x ← x.st (iu + i) ((a + 2 ^ 32 - sub) % 2 ^ 32)
    subLoop quo d iu todo (i + 1) x borrow

/-- Add back, `charconv:942-949`. -/
def addBack (d : Big) (iu : Nat) : Nat → Nat → Big → Nat → R Big
  | 0, _, x, _ => .ok x
  | todo + 1, i, x, carry => do
    let sum := ((← x.ld (iu + i)) + (← d.ld i) + carry) % 2 ^ 64
    let x ← x.st (iu + i) (sum % 2 ^ 32)
    addBack d iu todo (i + 1) x (sum >>> 32 % 2 ^ 32)

/-- One digit of the quotient, `charconv:894-957`: the numerator, `_Max_numerator_element_index` and the digit. -/
def divStep (d : Big) (den den2 sh : Nat) (x : Big) (mx iu : Nat) : R (Big × Nat × Nat) := do
  let n := d.used
  let hi ← (if iu + n ≤ mx then x.ld (iu + n) else .ok 0 : R Nat)
  let num := (hi <<< 32) % 2 ^ 64 ||| (← x.ld (iu + n - 1))
  let num2 ← x.ld (iu + n - 2)
  let (num, num2) ← (if sh > 0 then do
      let num := (num <<< sh) % 2 ^ 64 ||| (num2 >>> (32 - sh))
      let num2 := (num2 <<< sh) % 2 ^ 32
      if iu + n ≥ 3 then .ok (num, num2 ||| ((← x.ld (iu + n - 3)) >>> (32 - sh))) else .ok (num, num2)
    else .ok (num, num2) : R (Nat × Nat))
  if den = 0 then .error .ub
  else
    let quo := num / den
    let rem := num % den % 2 ^ 32
    let (quo, rem) := if quo > 2 ^ 32 - 1 then (2 ^ 32 - 1, (rem + den * (quo - (2 ^ 32 - 1))) % 2 ^ 64) else (quo, rem)
    let (quo, _) ← quoLoop den den2 num2 5 quo rem
    if quo > 0 then
      let (x, borrow) ← subLoop quo d iu n 0 x 0
      let (x, quo) ← (if hi < borrow then do .ok (← addBack d iu n 0 x 0, quo - 1) else .ok (x, quo) : R (Big × Nat))
      .ok (x, iu + n - 1, quo)
    else .ok (x, mx, quo)

/-- The loop over the digits of the quotient, `charconv:893-958`; `iu` digits are left. -/
def divLoop (d : Big) (den den2 sh : Nat) : Nat → Big → Nat → Nat → R (Big × Nat × Nat)
  | 0, x, mx, q => .ok (x, mx, q)
  | iu + 1, x, mx, q => do
    let (x, mx, quo) ← divStep d den den2 sh x mx iu
    divLoop d den den2 sh iu x mx (((q <<< 32) % 2 ^ 64 + quo % 2 ^ 32) % 2 ^ 64)

/-- Trim the remainder, `charconv:961-965`. -/
def trim (x : Big) : Nat → R Nat
  | 0 => .ok 0
  | u + 1 => do
    let w ← x.ld u
    if w = 0 then trim x u else .ok (u + 1)

/-- `_Divide`, `charconv:794-970`: the remainder and the low 64 bits of the quotient. -/
def divide (x d : Big) : R (Big × Nat) := do
  if x.used = 0 then .ok (x, 0)
  else if d.used = 0 then .error .ub
  else if d.used = 1 then divSmall x (← d.ld 0)
  else if d.used > x.used then .ok (x, 0)
  else
    let n := d.used
    let diff := x.used - n
    let more ← cmpTop x d diff n
    let cuQuo := diff + (if more then 1 else 0)
    if cuQuo = 0 then .ok (x, 0)
    else
      let den ← d.ld (n - 1)
      let den2 ← d.ld (n - 2)
      let sh := 32 - Nat.size den
      let (den, den2) ← (if sh > 0 then do
          let den := (den <<< sh) % 2 ^ 32 ||| (den2 >>> (32 - sh))
          let den2 := (den2 <<< sh) % 2 ^ 32
          if n > 2 then .ok (den, den2 ||| ((← d.ld (n - 3)) >>> (32 - sh))) else .ok (den, den2)
        else .ok (den, den2) : R (Nat × Nat))
      let (x, mx, q) ← divLoop d den den2 sh cuQuo x (x.used - 1) 0
      let used ← trim x (mx + 1)
      .ok (⟨used, x.f⟩, q)

end STL.BigInt
