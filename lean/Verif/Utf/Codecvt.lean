import Verif.Utf.Fs

/-!
# Model of the code conversion facets of `<codecvt>` (stl/inc/codecvt)

The input range `[_Mid1, _Last1)` is the list of its units; a pointer into it is the suffix starting there, so that
`_Last1 - _Mid1` is the length and `_First1 == _Mid1` is equality of lengths; reading the empty list is undefined
behaviour. The output `[_First2, _Mid2)` is the list of the units written; writing more than `_Last2 - _First2` units is
undefined behaviour. `unsigned long` has 32 bits, `char` is taken as its value as `unsigned char`, `_Elem` has `w` bits.

The loops of the six functions `do_in`, `do_out` have the same shape and share `cvtLoop`; what differs is the loop
condition and the body, given by the functions `…Cond` and `…Step` for each facet.
-/

namespace STL.Utf

/-- `codecvt_base::result`. -/
inductive Res where
  | ok | part | error | noconv
  deriving DecidableEq, Repr

/-- What a call of `do_in` or `do_out` leaves behind: its result, `[_Mid1, _Last1)`, `[_First2, _Mid2)` and the state. -/
structure CvtRes where
  /-- the value returned -/
  res : Res
  /-- the input not consumed -/
  mid1 : List Nat
  /-- the output written -/
  out : List Nat
  /-- the conversion state -/
  st : Nat
  deriving DecidableEq, Repr

/-- The parameters of a facet: the width of `_Elem`, `_Mymax` and the bits of `_Mymode`. -/
structure Cfg where
  /-- bits of `_Elem` -/
  w : Nat
  /-- `_Mymax` -/
  max : Nat
  /-- `consume_header` -/
  consume : Bool
  /-- `generate_header` -/
  gen : Bool
  /-- `little_endian` -/
  little : Bool

/-- How one pass through the body of a conversion loop ends. -/
inductive Step where
  /-- `break` -/
  | brk (mid first : List Nat) (st : Nat)
  /-- `return _Mybase::partial` -/
  | part (mid : List Nat) (st : Nat)
  /-- `return _Mybase::error` -/
  | err (mid : List Nat) (st : Nat)
  /-- the units are written and the loop goes on -/
  | emit (xs mid first : List Nat) (st : Nat)
  /-- `do_in(_State, _Mid1, _Last1, _Mid1, _First2, _Last2, _Mid2)` after a header, and the roll back -/
  | hdr (mid : List Nat) (st : Nat)

/-- `return _First1 == _Mid1 ? _Mybase::partial : _Mybase::ok;` (codecvt:119, 183, 317, 399, 568, 645). -/
def fin (first mid out : List Nat) (st : Nat) : CvtRes :=
  ⟨if first.length = mid.length then .part else .ok, mid, out, st⟩

/-- The conversion loop. `total` is `_Last2 - _First2`. The header case models the recursive call and "roll back header
determination" (codecvt:98-109, 276-286, 551-562). -/
def cvtLoop (cond : List Nat → Nat → Bool) (step : Nat → Nat → List Nat → List Nat → R Step) (total : Nat) :
    Nat → List Nat → List Nat → List Nat → Nat → R CvtRes
  | 0, _, _, _, _ => .error .fuel
  | f + 1, first, mid, out, st =>
    if cond mid (total - out.length) then
      match step (total - out.length) st first mid with
      | .error e => .error e
      | .ok (.brk mid first st) => .ok (fin first mid out st)
      | .ok (.part mid st) => .ok ⟨.part, mid, out, st⟩
      | .ok (.err mid st) => .ok ⟨.error, mid, out, st⟩
      | .ok (.emit xs mid first st) =>
        if total < out.length + xs.length then .error .ub
        else cvtLoop cond step total f first mid (out ++ xs) st
      | .ok (.hdr mid st) =>
        match cvtLoop cond step total f mid mid [] st with
        | .error e => .error e
        | .ok r => .ok (if r.res = .part then { r with st := 0, mid1 := first } else r)
    else .ok (fin first mid out st)

/-- `_Mid1 != _Last1 && _Mid2 != _Last2` (codecvt:56, 129, 464, 578). -/
def condNE (mid : List Nat) (room : Nat) : Bool := decide (mid.length ≠ 0 ∧ room ≠ 0)

/-- `*_Mid1`. -/
def rdHead : List Nat → R Nat
  | [] => .error .ub
  | b :: _ => .ok b

/-- The first byte of a sequence: `_Ch` and `_Nextra`, or nothing for 0x80-0xbf (codecvt:61-80, 482-501). -/
def inLead (b : Nat) : Option (Nat × Nat) :=
  if b < 0x80 then some (b, 0)
  else if b < 0xc0 then none
  else if b < 0xe0 then some (b &&& 0x1f, 1)
  else if b < 0xf0 then some (b &&& 0x0f, 2)
  else if b < 0xf8 then some (b &&& 0x07, 3)
  else some (b &&& 0x03, if b < 0xfc then 4 else 5)

/-- The loop over the continuation bytes (codecvt:87-93, 511-517): whether all were good, `_Mid1` and `_Ch`. -/
def inCont : Nat → List Nat → Nat → R (Bool × List Nat × Nat)
  | 0, mid, ch => .ok (true, mid, ch)
  | n + 1, mid, ch => do
    let b ← rdHead mid
    if b < 0x80 ∨ 0xc0 ≤ b then return (false, mid, ch)
    else inCont n (mid.drop 1) (u32 (ch <<< 6) ||| (b &&& 0x3f))

/-- The body of the loop of `codecvt_utf8::do_in` (codecvt:56-117). -/
def in8Step (C : Cfg) (_room st : Nat) (first mid : List Nat) : R Step := do
  let b ← rdHead mid
  match inLead b with
  | none => return .err (mid.drop 1) st
  | some (ch, n) =>
    if n ≠ 0 ∧ mid.length < n + 1 then return .brk mid first st
    else do
      let (good, mid, ch) ← inCont n (mid.drop 1) ch
      if !good then return .err mid st
      else if st = 0 ∧ C.consume ∧ ch = 0xfeff then return .hdr mid 1
      else if C.max < ch then return .err mid (if st = 0 then 1 else st)
      else return .emit [ch % 2 ^ C.w] mid first (if st = 0 then 1 else st)

/-- `codecvt_utf8::do_in` (codecvt:49-120). -/
def in8 (C : Cfg) (st : Nat) (s : List Nat) (room : Nat) : R CvtRes :=
  cvtLoop condNE (in8Step C) room (s.length + 1) s s [] st

/-- The first byte and the number of further bytes of a code (codecvt:138-156). -/
def outLead (ch : Nat) : Nat × Nat :=
  if ch < 0x80 then (ch % 256, 0)
  else if ch < 0x800 then ((0xc0 ||| ch >>> 6) % 256, 1)
  else if ch < 0x10000 then ((0xe0 ||| ch >>> 12) % 256, 2)
  else if ch < 0x200000 then ((0xf0 ||| ch >>> 18) % 256, 3)
  else if ch < 0x4000000 then ((0xf8 ||| ch >>> 24) % 256, 4)
  else ((0xfc ||| (ch >>> 30 &&& 3)) % 256, 5)

/-- `*_Mid2++ = static_cast<_Byte>((_Ch >> 6 * --_Nextra & 0x3f) | 0x80);` while `0 < _Nextra` (codecvt:178-180). -/
def trail (ch : Nat) : Nat → List Nat
  | 0 => []
  | n + 1 => ((ch >>> (6 * n) &&& 0x3f) ||| 0x80) % 256 :: trail ch n

/-- The header (codecvt:166-169). -/
def bom8 : List Nat := [0xef, 0xbb, 0xbf]

/-- The body of the loop of `codecvt_utf8::do_out` (codecvt:129-181). `room` is `_Last2 - _Mid2`. -/
def out8Step (C : Cfg) (room st : Nat) (first mid : List Nat) : R Step := do
  let ch ← rdHead mid
  if C.max < ch then return .err mid st
  else
    let (b, n) := outLead ch
    if st = 0 ∧ C.gen then
      if room < 3 + 1 + n then return .part mid 1
      else return .emit (bom8 ++ b :: trail ch n) (mid.drop 1) first 1
    else
      let st := if st = 0 then 1 else st
      if room < 1 + n then return .brk mid first st
      else return .emit (b :: trail ch n) (mid.drop 1) first st

/-- `codecvt_utf8::do_out` (codecvt:122-184). -/
def out8 (C : Cfg) (st : Nat) (s : List Nat) (room : Nat) : R CvtRes :=
  cvtLoop condNE (out8Step C) room (s.length + 1) s s [] st

end STL.Utf
