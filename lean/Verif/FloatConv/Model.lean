import Verif.BigInt.Props
import Verif.Charconv.Props
import Verif.CInt

/-!
# Model of the floating-point `from_chars`

`/repo/stl/inc/charconv:972-1990`, `/repo/stl/inc/type_traits:2542-2591`.

A `float` or `double` is its bit pattern (`_Bit_cast` is the identity). Characters are byte values; a pointer into the input is the list of characters from it to `_Last`.
`int32_t` and `ptrdiff_t` (64 bits) arithmetic that overflows is undefined behaviour (`chkI`, `chkL`); unsigned arithmetic wraps.
The words of every `_Big_integer_flt` start uninitialized (`g`). The results of the "assumes no overflow" operations are ignored, as in the code.
`_STL_INTERNAL_CHECK` and `_STL_ASSERT` are not modelled, nor is the 32-bit `ptrdiff_t`.
-/

namespace STL.FloatConv
open STL STL.BigInt STL.Charconv

/-- `_Floating_type_traits`, `type_traits:2547-2556`. -/
structure Traits where
  mantissaBits : Nat
  exponentBits : Nat
  maxExp : Int
  minExp : Int
  bias : Int
  signShift : Nat
  exponentShift : Nat
  /-- the width of `_Uint_type` -/
  uintBits : Nat
  exponentMask : Nat
  normalMantissaMask : Nat
  specialNanMask : Nat
  shiftedSignMask : Nat
  shiftedExponentMask : Nat

/-- `_Floating_type_traits<float>`, `type_traits:2542-2564`. -/
def flt : Traits := ⟨24, 8, 127, -126, 127, 31, 23, 32, 0xFF, 0xFFFFFF, 0x400000, 0x80000000, 0x7F800000⟩
/-- `_Floating_type_traits<double>`, `type_traits:2566-2588`. -/
def dbl : Traits := ⟨53, 11, 1023, -1022, 1023, 63, 52, 64, 0x7FF, 0x1FFFFFFFFFFFFF, 0x8000000000000, 0x8000000000000000, 0x7FF0000000000000⟩

/-- The sign component of the result: `_Sign_component`, `charconv:1016-1017`. -/
def signComp (T : Traits) (neg : Bool) : Nat := (if neg then 1 else 0) * 2 ^ T.signShift % 2 ^ T.uintBits

/-- `_Assemble_floating_point_zero`, `charconv:1010-1020`. -/
def asmZero (T : Traits) (neg : Bool) : Nat := signComp T neg

/-- `_Assemble_floating_point_infinity`, `charconv:1022-1034`. -/
def asmInf (T : Traits) (neg : Bool) : Nat := signComp T neg ||| T.shiftedExponentMask

/-- `_Right_shift_with_rounding`, `charconv:1065-1125`. -/
def rshift (v s : Nat) (zt : Bool) : Nat :=
  if s ≥ 64 then
    if s = 64 then
      let round := decide (v &&& (1 <<< 63) ≠ 0)
      let tail := !zt || decide (v &&& ((1 <<< 63) - 1) ≠ 0)
      if round && tail then 1 else 0
    else 0
  else
    let lsb := v
    let round := (v <<< 1) % 2 ^ 64
    let hasTail := (round + 2 ^ 64 - (if zt then 1 else 0)) % 2 ^ 64
    let should := ((round &&& (hasTail ||| lsb)) >>> s) &&& 1
    (v >>> s) + should

/-- `_Assemble_floating_point_value_no_shift`, `charconv:1138-1171`. -/
def asmNoShift (T : Traits) (neg : Bool) (e : Int) (m : Nat) : R Nat := do
  let x ← chkI (e + (T.bias - 1))
  let ec := (toU 32 x % 2 ^ T.uintBits) <<< T.exponentShift % 2 ^ T.uintBits
  .ok (signComp T neg ||| ((ec + m) % 2 ^ T.uintBits))

/-- `_Assemble_floating_point_value`, `charconv:1186-1266`. -/
def assemble (T : Traits) (m0 : Nat) (e0 : Int) (neg zt : Bool) : R (Nat × Errc) := do
  let bits := bsr m0
  let nshift : Int := toS 32 ((T.mantissaBits : Int) - bits)
  let ne ← chkI (e0 - nshift)
  if ne > T.maxExp then .ok (asmInf T neg, .resultOutOfRange)
  else if ne < T.minExp then do
    let dshift ← chkI (e0 - T.minExp)
    if dshift < 0 then
      let m := rshift m0 (toU 32 (-dshift)) zt
      let r ← asmNoShift T neg T.minExp (m % 2 ^ T.uintBits)
      .ok (r, if m = 0 then .resultOutOfRange else .none)
    else
      let r ← asmNoShift T neg T.minExp ((m0 <<< dshift.toNat) % 2 ^ 64 % 2 ^ T.uintBits)
      .ok (r, .none)
  else
    if nshift < 0 then
      let m := rshift m0 (toU 32 (-nshift)) zt
      let r ← asmNoShift T neg ne (m % 2 ^ T.uintBits)
      .ok (r, if m > T.normalMantissaMask ∧ ne = T.maxExp then .resultOutOfRange else .none)
    else
      let r ← asmNoShift T neg ne ((m0 <<< nshift.toNat) % 2 ^ 64 % 2 ^ T.uintBits)
      .ok (r, .none)

/-- `for (_Ix = 0; _Has_zero_tail && _Ix != n; ++_Ix)`, `charconv:1305-1308`, `1332-1335`: `todo` words are left, the next is `i`. -/
def tailZero (x : Big) : Nat → Nat → Bool → R Bool
  | 0, _, zt => .ok zt
  | todo + 1, i, zt => if zt then do tailZero x todo (i + 1) (decide ((← x.ld i) = 0)) else .ok zt

/-- The two low words, `charconv:1285-1287`, `1500-1502`. -/
def low64 (x : Big) : R Nat := do
  let lo ← (if x.used > 0 then x.ld 0 else .ok 0 : R Nat)
  let hi ← (if x.used > 1 then x.ld 1 else .ok 0 : R Nat)
  .ok ((lo + (hi <<< 32) % 2 ^ 64) % 2 ^ 64)

/-- `_Assemble_floating_point_value_from_big_integer_flt`, `charconv:1268-1338`. -/
def asmBig (T : Traits) (x : Big) (bits : Nat) (neg nonzeroFrac : Bool) : R (Nat × Errc) := do
  let base : Int := (T.mantissaBits : Int) - 1
  if bits ≤ 64 then
    let m ← low64 x
    assemble T m base neg (!nonzeroFrac)
  else
    let topBits := bits % 32
    let topIx := bits / 32
    let midIx := topIx - 1
    let botIx := topIx - 2
    if topBits = 0 then
      let e : Int := toS 32 (base + (botIx * 32 : Nat))
      let m := ((← x.ld botIx) + ((← x.ld midIx) <<< 32) % 2 ^ 64) % 2 ^ 64
      let zt ← tailZero x botIx 0 (!nonzeroFrac)
      assemble T m e neg zt
    else
      let topMask := 2 ^ topBits - 1
      let topShift := 64 - topBits
      let midShift := topShift - 32
      let botBits := 32 - topBits
      let botMask := 2 ^ 32 - 1 - topMask
      let botShift := 32 - botBits
      let e : Int := toS 32 (base + (botIx * 32 : Nat) + (topBits : Nat))
      let top ← x.ld topIx
      let mid ← x.ld midIx
      let bot ← x.ld botIx
      let m := (((top &&& topMask) <<< topShift) % 2 ^ 64 + (mid <<< midShift) % 2 ^ 64 + ((bot &&& botMask) >>> botShift)) % 2 ^ 64
      let zt := !nonzeroFrac && decide (bot &&& topMask = 0)
      let zt ← tailZero x botIx 0 zt
      assemble T m e neg zt

/-- The loop of `_Accumulate_decimal_digits_into_big_integer_flt`, `charconv:1347-1361`. -/
def accLoop : List Nat → Nat → Nat → Big → R (Nat × Nat × Big)
  | [], a, c, r => .ok (a, c, r)
  | d :: t, a, c, r => do
    let (a, c, r) ← (if c = 9 then do
        let (r, _) ← mul32 r 1000000000
        let (r, _) ← add r a
        .ok (0, 0, r)
      else .ok (a, c, r) : R (Nat × Nat × Big))
    accLoop t ((a * 10 % 2 ^ 32 + d) % 2 ^ 32) (c + 1) r

/-- `_Accumulate_decimal_digits_into_big_integer_flt`, `charconv:1340-1370`. -/
def accumulate (g : Nat → Nat) (ds : List Nat) (r : Big) : R Big := do
  let (a, c, r) ← accLoop ds 0 0 r
  if c ≠ 0 then do
    let (r, _) ← mulPow10 g r c
    let (r, _) ← add r a
    .ok r
  else .ok r

/-- `_Floating_point_string`, `charconv:1003-1008`: the digits in the buffer. -/
structure FpString where
  neg : Bool
  exponent : Int
  mantissa : List Nat

/-- `_Convert_decimal_string_to_floating_type`, `charconv:1372-1527`. -/
def convertDecimal (T : Traits) (g : Nat → Nat) (d : FpString) (zt : Bool) : R (Nat × Errc) := do
  let required := T.mantissaBits + 1
  let positive := (max 0 d.exponent).toNat
  let intPresent := min positive d.mantissa.length
  let intMissing := positive - intPresent
  let intDigits := d.mantissa.take intPresent
  let fracDigits := d.mantissa.drop intPresent
  let fracPresent := fracDigits.length
  let iv ← accumulate g intDigits (empty g)
  let (iv, ok) ← (if intMissing > 0 then mulPow10 g iv intMissing else .ok (iv, true) : R (Big × Bool))
  if ok = false then .ok (asmInf T d.neg, .resultOutOfRange)
  else
    let intBits ← bitScan iv
    let zeroFrac := decide (fracPresent = 0) && zt
    if intBits ≥ required ∨ zeroFrac = true then asmBig T iv intBits d.neg (!zeroFrac)
    else
      let num ← accumulate g fracDigits (empty g)
      let denExp := if d.exponent < 0 then fracPresent + (-d.exponent).toNat else fracPresent
      let (den, ok) ← mulPow10 g one denExp
      if ok = false then .ok (asmZero T d.neg, .resultOutOfRange)
      else
        let numBits ← bitScan num
        let denBits ← bitScan den
        let shift := if denBits > numBits then denBits - numBits else 0
        let num ← (if shift > 0 then do let (n, _) ← shiftLeft num shift; .ok n else .ok num : R Big)
        let reqFrac := required - intBits
        if intBits > 0 ∧ shift > reqFrac then asmBig T iv intBits d.neg (decide (fracPresent ≠ 0) || !zt)
        else
          let remaining := if intBits > 0 then reqFrac - shift else reqFrac
          let less ← lt num den
          let fracExp := if less then shift + 1 else shift
          let (num, _) ← shiftLeft num remaining
          let (num, fm) ← divide num den
          let zt := zt && decide (num.used = 0)
          let fmBits := bsr fm
          let (fm, zt) := (if fmBits > reqFrac then
              let s := fmBits - reqFrac
              (fm >>> s, zt && decide (fm &&& (2 ^ s - 1) = 0))
            else (fm, zt))
          let im ← low64 iv
          let complete := ((im <<< reqFrac) % 2 ^ 64 + fm) % 2 ^ 64
          let fe : Int := if intBits > 0 then toS 32 ((intBits : Int) - 2) else -(fracExp : Int) - 1
          assemble T complete fe d.neg zt

/-- The first loop of the hexadecimal conversion, `charconv:1540-1544`: the mantissa, the exponent and the digits left. -/
def hexLoop (mask : Nat) : List Nat → Nat → Int → R (Nat × Int × List Nat)
  | [], m, e => .ok (m, e, [])
  | d :: t, m, e =>
    if m ≤ mask then do
      let e ← chkI (e - 4)
      hexLoop mask t ((m * 16 % 2 ^ 64 + d) % 2 ^ 64) e
    else .ok (m, e, d :: t)

/-- The second loop, `charconv:1546-1548`. -/
def hexTail : Bool → List Nat → Bool
  | zt, [] => zt
  | zt, d :: t => if zt then hexTail (decide (d = 0)) t else zt

/-- `_Convert_hexadecimal_string_to_floating_type`, `charconv:1529-1551`. -/
def convertHex (T : Traits) (d : FpString) (zt : Bool) : R (Nat × Errc) := do
  let e ← chkI (d.exponent + T.mantissaBits - 1)
  let (m, e, rest) ← hexLoop T.normalMantissaMask d.mantissa 0 e
  assemble T m e d.neg (hexTail zt rest)

/-- `chars_format`. -/
inductive Format where
  | scientific | fixed | general | hex
  deriving DecidableEq, Repr

/-- Skip zeroes, `charconv:1618-1619`, `1663-1664`. -/
def skipZeros : List Nat → List Nat
  | c :: t => if c = 48 then skipZeros t else c :: t
  | [] => []

/-- `_Digit_from_char`, `charconv:245-266` (C14), for a byte. -/
def digitOf (c : Nat) : R Nat := digitFromChar c

/-- The scanning loops, `charconv:1625-1637`, `1670-1682`: the buffer has room for 768 digits. -/
def scan (base : Nat) : List Nat → List Nat → Bool → R (List Nat × List Nat × Bool)
  | [], buf, zt => .ok ([], buf, zt)
  | c :: t, buf, zt => do
    let d ← digitOf c
    if d ≥ base then .ok (c :: t, buf, zt)
    else if buf.length ≠ 768 then scan base t (buf ++ [d]) zt
    else scan base t buf (zt && decide (d = 0))

/-- `PTRDIFF_MAX`. -/
def ptrdiffMax : Int := 2 ^ 63 - 1

/-- The loop over the digits of the exponent, `charconv:1712-1729`: `_Unread`, `_Next`, `_Exponent`, `_Exp_abs_too_large`. -/
def expLoop : List Nat → List Nat → Int → Bool → R (List Nat × Int × Bool)
  | [], next, e, big => .ok (next, e, big)
  | c :: t, next, e, big => do
    let d ← digitOf c
    if d ≥ 10 then .ok (next, e, big)
    else if e < ptrdiffMax / 10 ∨ (e = ptrdiffMax / 10 ∧ (d : Int) ≤ ptrdiffMax % 10) then do
      let e ← chkL (e * 10 + d)
      expLoop t t e big
    else expLoop t t e true

/-- The exponent part, `charconv:1695-1735`: `_Next`, `_Exponent`, `_Exp_abs_too_large`. -/
def expPart (fmt : Format) (next : List Nat) : R (List Nat × Int × Bool) :=
  let pre := if fmt = .hex then 112 else 101
  match next with
  | [] => .ok (next, 0, false)
  | c :: t =>
    if fmt ≠ .fixed ∧ (c ||| 0x20) = pre then do
      let (neg, t) := (match t with
        | [] => (false, [])
        | s :: u => if s = 43 ∨ s = 45 then (decide (s = 45), u) else (false, t))
      let (next, e, big) ← expLoop t next 0 false
      .ok (next, if neg then -e else e, big)
    else .ok (next, 0, false)

/-- `while (_Mantissa_it != _Mantissa_first && *(_Mantissa_it - 1) == 0) --_Mantissa_it;`, `charconv:1748-1750`. -/
def trimZeros (buf : List Nat) : List Nat := (buf.reverse.dropWhile (· == 0)).reverse

/-- The adjustments of `_Exponent` and `_Exponent_adjustment`, `charconv:1774-1796`. -/
def adjust (isHex : Bool) (e adj : Int) : R (Int × Int) := do
  if e > 0 ∧ adj < 0 then
    if isHex then
      let f := max (-((e - 1).tdiv 4 + 1)) adj
      .ok (← chkL (e + (← chkL (f * 4))), ← chkL (adj - f))
    else
      let f := max (-e) adj
      .ok (← chkL (e + f), ← chkL (adj - f))
  else if e < 0 ∧ adj > 0 then
    if isHex then
      let f := min ((-e - 1).tdiv 4 + 1) adj
      .ok (← chkL (e + (← chkL (f * 4))), ← chkL (adj - f))
    else
      let f := min (-e) adj
      .ok (← chkL (e + f), ← chkL (adj - f))
  else .ok (e, adj)

/-- `from_chars_result` and the value: how many characters were consumed (0 for `_First`), the error code, what was stored in `_Value` (`none`: nothing). -/
structure Result where
  consumed : Nat
  ec : Errc
  value : Option Nat

/-- The end of `_Ordinary_floating_from_chars`, `charconv:1766-1840`: `(bits, errc)`. -/
def finish (T : Traits) (g : Nat → Nat) (isHex neg : Bool) (buf : List Nat) (zt : Bool) (e adj : Int) (big : Bool) : R (Nat × Errc) := do
  if big = true then
    if e > 0 then .ok (asmInf T neg, .resultOutOfRange) else .ok (asmZero T neg, .resultOutOfRange)
  else
    let (e, adj) ← adjust isHex e adj
    let mult : Int := if isHex then 4 else 1
    if e > 5200 ∨ adj > (5200 : Int).tdiv mult then .ok (asmInf T neg, .resultOutOfRange)
    else if e < -5200 ∨ adj < (-5200 : Int).tdiv mult then .ok (asmZero T neg, .resultOutOfRange)
    else
      let e ← chkL (e + (← chkL (adj * mult)))
      if e > 5200 then .ok (asmInf T neg, .resultOutOfRange)
      else if e < -5200 then .ok (asmZero T neg, .resultOutOfRange)
      else if isHex then convertHex T ⟨neg, e, buf⟩ zt
      else convertDecimal T g ⟨neg, e, buf⟩ zt

/-- `_Ordinary_floating_from_chars`, `charconv:1594-1840`; `len` is `_Last - _First`, `next` the characters from `_Next` on. -/
def ordinary (T : Traits) (g : Nat → Nat) (len : Nat) (fmt : Format) (neg : Bool) (next : List Nat) : R Result := do
  let isHex := decide (fmt = .hex)
  let base := if isHex then 16 else 10
  let wholeBegin := next
  let next := skipZeros next
  let leadingZeroEnd := next
  let (next, buf, zt) ← scan base next [] true
  let wholeEnd := next
  let adj : Int := (leadingZeroEnd.length : Int) - wholeEnd.length
  let next := (match next with
    | c :: t => if c = 46 then t else c :: t
    | [] => [])
  let dotEnd := next
  let (next, adj) := (if adj = 0 then
      let n := skipZeros next
      (n, (n.length : Int) - dotEnd.length)
    else (next, adj))
  let (next, buf, zt) ← scan base next buf zt
  let fracEnd := next
  if wholeBegin.length = wholeEnd.length ∧ dotEnd.length = fracEnd.length then .ok ⟨0, .invalidArgument, none⟩
  else
    let (next, e, big) ← expPart fmt next
    if fmt = .scientific ∧ fracEnd.length = next.length then .ok ⟨0, .invalidArgument, none⟩
    else
      let buf := trimZeros buf
      if buf = [] then .ok ⟨len - next.length, .none, some (asmZero T neg)⟩
      else
        let (v, ec) ← finish T g isHex neg buf zt e adj big
        .ok ⟨len - next.length, ec, some v⟩

/-- `_Starts_with_case_insensitive`, `charconv:1842-1852`. -/
def startsWith : List Nat → List Nat → Bool
  | _, [] => true
  | [], _ :: _ => false
  | c :: s, l :: t => if (c ||| 0x20) ≠ l then false else startsWith s t

/-- `_Infinity_from_chars`, `charconv:1854-1872`; `next` starts at the `i`. -/
def infinity (T : Traits) (len : Nat) (neg : Bool) (next : List Nat) : Result :=
  if startsWith (next.drop 1) [110, 102] = false then ⟨0, .invalidArgument, none⟩
  else
    let next := next.drop 3
    let next := if startsWith next [105, 110, 105, 116, 121] then next.drop 5 else next
    ⟨len - next.length, .none, some (asmInf T neg)⟩

/-- The loop over the n-char-sequence, `charconv:1894-1915`: `seq` is the sequence so far (reversed). The characters after `)`, with the sequence. -/
def nanLoop : List Nat → List Nat → Option (List Nat × List Nat)
  | [], _ => none
  | c :: t, seq =>
    if c = 41 then some (t, seq.reverse)
    else if c = 95 ∨ (48 ≤ c ∧ c ≤ 57) ∨ (65 ≤ c ∧ c ≤ 90) ∨ (97 ≤ c ∧ c ≤ 122) then nanLoop t (c :: seq)
    else none

/-- The optional parenthesized sequence, `charconv:1888-1932`: `_Next`, `_Minus_sign`, `_Quiet`. -/
def nanTail (neg : Bool) (next : List Nat) : List Nat × Bool × Bool :=
  match next with
  | [] => (next, neg, true)
  | c :: t =>
    if c = 40 then
      match nanLoop t [] with
      | none => (next, neg, true)
      | some (rest, seq) =>
        if seq.length = 3 ∧ startsWith seq [105, 110, 100] = true then (rest, true, true)
        else if seq.length = 4 ∧ startsWith seq [115, 110, 97, 110] = true then (rest, neg, false)
        else (rest, neg, true)
    else (next, neg, true)

/-- The bits of a NaN, `charconv:1934-1943`. -/
def nanValue (T : Traits) (neg quiet : Bool) : Nat :=
  let v := T.shiftedExponentMask
  let v := if neg then v ||| T.shiftedSignMask else v
  if quiet then v ||| T.specialNanMask else v ||| 1

/-- `_Nan_from_chars`, `charconv:1874-1946`; `next` starts at the `n`. -/
def nan (T : Traits) (len : Nat) (neg : Bool) (next : List Nat) : Result :=
  if startsWith (next.drop 1) [97, 110] = false then ⟨0, .invalidArgument, none⟩
  else
    let r := nanTail neg (next.drop 3)
    ⟨len - r.1.length, .none, some (nanValue T r.2.1 r.2.2)⟩

/-- `_Floating_from_chars`, `charconv:1948-1990`. -/
def fromChars (T : Traits) (g : Nat → Nat) (s : List Nat) (fmt : Format) : R Result :=
  match s with
  | [] => .ok ⟨0, .invalidArgument, none⟩
  | c :: t =>
    let neg := decide (c = 45)
    let next := if c = 45 then t else s
    match next with
    | [] => .ok ⟨0, .invalidArgument, none⟩
    | d :: _ =>
      let folded := d ||| 0x20
      if folded ≤ 102 then ordinary T g s.length fmt neg next
      else if folded = 105 then .ok (infinity T s.length neg next)
      else if folded = 110 then .ok (nan T s.length neg next)
      else .ok ⟨0, .invalidArgument, none⟩

end STL.FloatConv
