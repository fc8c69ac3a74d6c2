import Verif.Searchers.Model

/-!
# Model of integer `to_chars`, `from_chars` and `to_string`

`/repo/stl/inc/charconv:34-365`, `/repo/stl/inc/xmemory:2786-2835`, `/repo/stl/inc/string:441-462`.
An unsigned type of `w` bits is modelled by naturals below `2^w`; `static_cast<_Unsigned>(e)` is `castU w e`. Characters are
byte values. The local digit buffer starts uninitialised (`none`); stepping below its start is undefined behaviour.
Both the 64-bit and the 32-bit (`!_WIN64`) code paths of base 10 are modelled (flag `win64`).
Not modelled: `constexpr` evaluation, `_STL_ASSERT` on the base, wide characters, the `bool` overload (deleted).
-/

namespace STL.Charconv
open STL

/-- `errc{}`, `errc::value_too_large`, `errc::invalid_argument`, `errc::result_out_of_range`. -/
inductive Errc where
  | none | valueTooLarge | invalidArgument | resultOutOfRange
  deriving DecidableEq, Repr

/-- `static_cast<_Unsigned>(e)` for a `w`-bit unsigned type ([conv.integral]/3). -/
def castU (w : Nat) (e : Int) : Nat := (e % 2 ^ w).toNat

/-- `static_cast<_RawTy>(v)`: reinterpret a `w`-bit unsigned value as the (signed or unsigned) target type. -/
def castRaw (signed : Bool) (w : Nat) (v : Nat) : Int :=
  if signed then (if v < 2 ^ (w - 1) then (v : Int) else (v : Int) - 2 ^ w) else (v : Int)

/-- `_Charconv_digits`, `charconv:34-35` (character codes). -/
def charconvDigits : List Nat := [48, 49, 50, 51, 52, 53, 54, 55, 56, 57, 97, 98, 99, 100, 101, 102, 103, 104, 105, 106, 107, 108, 109, 110, 111, 112, 113, 114, 115, 116, 117, 118, 119, 120, 121, 122]

/-- `_Digit_from_byte`, `charconv:245-259`. -/
def digitFromByte : List Nat := [
  255, 255, 255, 255, 255, 255, 255, 255, 255, 255, 255, 255, 255, 255, 255, 255,
  255, 255, 255, 255, 255, 255, 255, 255, 255, 255, 255, 255, 255, 255, 255, 255,
  255, 255, 255, 255, 255, 255, 255, 255, 255, 255, 255, 255, 255, 255, 255, 255,
  0, 1, 2, 3, 4, 5, 6, 7, 8, 9, 255, 255, 255, 255, 255, 255,
  255, 10, 11, 12, 13, 14, 15, 16, 17, 18, 19, 20, 21, 22, 23, 24,
  25, 26, 27, 28, 29, 30, 31, 32, 33, 34, 35, 255, 255, 255, 255, 255,
  255, 10, 11, 12, 13, 14, 15, 16, 17, 18, 19, 20, 21, 22, 23, 24,
  25, 26, 27, 28, 29, 30, 31, 32, 33, 34, 35, 255, 255, 255, 255, 255,
  255, 255, 255, 255, 255, 255, 255, 255, 255, 255, 255, 255, 255, 255, 255, 255,
  255, 255, 255, 255, 255, 255, 255, 255, 255, 255, 255, 255, 255, 255, 255, 255,
  255, 255, 255, 255, 255, 255, 255, 255, 255, 255, 255, 255, 255, 255, 255, 255,
  255, 255, 255, 255, 255, 255, 255, 255, 255, 255, 255, 255, 255, 255, 255, 255,
  255, 255, 255, 255, 255, 255, 255, 255, 255, 255, 255, 255, 255, 255, 255, 255,
  255, 255, 255, 255, 255, 255, 255, 255, 255, 255, 255, 255, 255, 255, 255, 255,
  255, 255, 255, 255, 255, 255, 255, 255, 255, 255, 255, 255, 255, 255, 255, 255,
  255, 255, 255, 255, 255, 255, 255, 255, 255, 255, 255, 255, 255, 255, 255, 255]

/-- `_Digit_pairs<char>._Data[i]`, `xutility:8008-8024`: the two decimal characters of `i < 100`. -/
def digitPair (i : Nat) : Nat × Nat := (48 + i / 10, 48 + i % 10)

/-! ## writing digits into the local buffer -/

/-- `*--rnext = c`. -/
def pushFront (buf : Mem Nat) (r : Nat) (c : Nat) : R (Mem Nat × Nat) :=
  if r = 0 then .error .ub else do
    let buf ← wr buf (r - 1) c
    .ok (buf, r - 1)

/-- `rnext -= 2; memcpy(rnext, _Digit_pairs[i], 2)`, `charconv:78-84`. -/
def pushPair (buf : Mem Nat) (r : Nat) (i : Nat) : R (Mem Nat × Nat) :=
  if r < 2 then .error .ub else if 100 ≤ i then .error .ub else do
    let buf ← wr buf (r - 2) (digitPair i).1
    let buf ← wr buf (r - 2 + 1) (digitPair i).2
    .ok (buf, r - 2)

/-- `do { *--rnext = dig(value); value = step(value); } while (value != 0);`, the loop of every base but 10,
`charconv:127-186`. -/
def digitLoop (dig : Nat → R Nat) (step : Nat → Nat) (buf : Mem Nat) (r value : Nat) : R (Mem Nat × Nat) :=
  if _h : r = 0 then .error .ub
  else do
    let c ← dig value
    let buf ← wr buf (r - 1) c
    if step value ≠ 0 then digitLoop dig step buf (r - 1) (step value) else .ok (buf, r - 1)
termination_by r
decreasing_by omega

/-- `charconv:106-118`, `xmemory:2820-2827`: `do { print pair } while (trunc >= 10);`. -/
def pairLoop (buf : Mem Nat) (r trunc : Nat) : R (Mem Nat × Nat × Nat) :=
  if _h : r < 2 then .error .ub
  else do
    let (buf, r') ← pushPair buf r (trunc % 100)
    if trunc / 100 ≥ 10 then pairLoop buf (r - 2) (trunc / 100) else .ok (buf, r', trunc / 100)
termination_by r
decreasing_by omega

/-- `charconv:72-95`, `xmemory:2795-2809`: 8 digits at a time while the value exceeds 32 bits (32-bit targets only). -/
def chunkLoop (buf : Mem Nat) (r value : Nat) : R (Mem Nat × Nat × Nat) :=
  if _h : value > 0xFFFFFFFF then do
    let chunk := value % 100000000
    let (buf, r) ← pushPair buf r (chunk % 100)
    let chunk := chunk / 100
    let (buf, r) ← pushPair buf r (chunk % 100)
    let chunk := chunk / 100
    let (buf, r) ← pushPair buf r (chunk % 100)
    let chunk := chunk / 100
    let (buf, r) ← pushPair buf r chunk
    chunkLoop buf r (value / 100000000)
  else .ok (buf, r, value)
termination_by value
decreasing_by omega

/-- `_UIntegral_to_buff`, `xmemory:2786-2835`, and the identical `case 10` of `_Integer_to_chars`, `charconv:65-125`. -/
def uintegralToBuff (win64 : Bool) (w : Nat) (buf : Mem Nat) (r value : Nat) : R (Mem Nat × Nat) := do
  let (buf, r, value) ← (if !win64 && decide (w > 32) then chunkLoop buf r value else .ok (buf, r, value) : R _)
  let trunc := if win64 then value else value % 2 ^ 32
  if trunc < 10 then pushFront buf r (48 + trunc)
  else do
    let (buf, r, trunc) ← pairLoop buf r trunc
    if trunc ≠ 0 then pushFront buf r (48 + trunc) else .ok (buf, r)

/-- The `switch (_Base)` of `_Integer_to_chars`, `charconv:63-187`. -/
def toBuff (win64 : Bool) (w base : Nat) (buf : Mem Nat) (r value : Nat) : R (Mem Nat × Nat) :=
  if base = 10 then uintegralToBuff win64 w buf r value
  else if base = 2 then digitLoop (fun v => .ok (48 + (v &&& 0b1))) (fun v => v >>> 1) buf r value
  else if base = 4 then digitLoop (fun v => .ok (48 + (v &&& 0b11))) (fun v => v >>> 2) buf r value
  else if base = 8 then digitLoop (fun v => .ok (48 + (v &&& 0b111))) (fun v => v >>> 3) buf r value
  else if base = 16 then digitLoop (fun v => rdc charconvDigits (v &&& 0b1111)) (fun v => v >>> 4) buf r value
  else if base = 32 then digitLoop (fun v => rdc charconvDigits (v &&& 0b11111)) (fun v => v >>> 5) buf r value
  else if base = 3 ∨ base = 5 ∨ base = 6 ∨ base = 7 ∨ base = 9 then
    digitLoop (fun v => .ok (48 + v % base)) (fun v => v / base) buf r value
  else digitLoop (fun v => rdc charconvDigits (v % base)) (fun v => v / base) buf r value

/-- `_Copy_n_unchecked4(src, n, dest)`, `xutility:5094-5110`, from the local buffer to the user's memory. -/
def copyN (buf : Mem Nat) (src : Nat) (m : Mem Nat) (dest : Nat) : Nat → R (Mem Nat)
  | 0 => .ok m
  | n + 1 => do
    let c ← rd buf src
    let m ← wr m dest c
    copyN buf (src + 1) m (dest + 1) n

/-- `_Integer_to_chars`, `charconv:38-199`. The caller's buffer is `[first, last)` in memory `m`; returns the memory and
`to_chars_result{ptr, ec}`. -/
def toChars (win64 signed : Bool) (w base : Nat) (m : Mem Nat) (first last : Nat) (raw : Int) : R (Mem Nat × Nat × Errc) := do
  let value := castU w raw
  if signed && decide (raw < 0) && first == last then .ok (m, last, .valueTooLarge)
  else do
    let (m, first, value) ← (if signed && decide (raw < 0) then do
        let m ← wr m first 45
        .ok (m, first + 1, castU w (0 - (value : Int)))
      else .ok (m, first, value) : R _)
    let (buf, r) ← toBuff win64 w base (List.replicate w none) w value
    let written := w - r
    if last - first < written then .ok (m, last, .valueTooLarge)
    else do
      let m ← copyN buf r m first written
      .ok (m, first + written, .none)

/-- `_Integral_to_string`, `string:441-462`: the local buffer has 21 characters; the result is `[rnext, end)`. -/
def integralToString (win64 signed : Bool) (w : Nat) (raw : Int) : R (List Nat) := do
  let uval := castU w raw
  let buf := List.replicate 21 none
  let (buf, r) ← (if signed && decide (raw < 0) then do
      let (buf, r) ← uintegralToBuff win64 w buf 21 (castU w (0 - (uval : Int)))
      pushFront buf r 45
    else uintegralToBuff win64 w buf 21 uval : R _)
  let out ← copyN buf r (List.replicate (21 - r) none) 0 (21 - r)
  .ok (out.filterMap id)

/-! ## parsing -/

/-- `_Digit_from_char`, `charconv:262-267`. -/
def digitFromChar (c : Nat) : R Nat := rdc digitFromByte c

/-- The digit loop of `_Integer_from_chars`, `charconv:317-331`. Returns `_Next`, `_Value`, `_Overflowed`. -/
def fromLoop (w base risky maxDigit : Nat) (xs : List Nat) (next value : Nat) (over : Bool) : R (Nat × Nat × Bool) :=
  if _h : next < xs.length then do
    let c ← rdc xs next
    let d ← digitFromChar c
    if d ≥ base then .ok (next, value, over)
    else if value < risky ∨ (value = risky ∧ d ≤ maxDigit) then
      fromLoop w base risky maxDigit xs (next + 1) (castU w ((value * base + d : Nat) : Int)) over
    else fromLoop w base risky maxDigit xs (next + 1) value true
  else .ok (next, value, over)
termination_by xs.length - next

/-- `_Integer_from_chars`, `charconv:269-352`. `xs` is `[first, last)`; returns `ptr - first`, `ec`, and the value stored in
`_Raw_value` if it is assigned. -/
def fromChars (signed : Bool) (w base : Nat) (xs : List Nat) : R (Nat × Errc × Option Int) := do
  let minus ← (if signed && decide (0 < xs.length) then do
      let c ← rdc xs 0
      .ok (c == 45)
    else .ok false : R Bool)
  let uintMax := castU w (-1)
  let intMax := uintMax >>> 1
  let absIntMin := castU w ((intMax + 1 : Nat) : Int)
  let limit := if signed then (if minus then absIntMin else intMax) else uintMax
  let risky := castU w ((limit / base : Nat) : Int)
  let maxDigit := castU w ((limit % base : Nat) : Int)
  let (next, value, over) ← fromLoop w base risky maxDigit xs (if minus then 1 else 0) 0 false
  if next = (if minus then 1 else 0) then .ok (0, .invalidArgument, none)
  else if over then .ok (next, .resultOutOfRange, none)
  else
    let value := if signed && minus then castU w (0 - (value : Int)) else value
    .ok (next, .none, some (castRaw signed w value))

end STL.Charconv
