import Verif.Utf.Spec

/-!
# Model of the decoders of `<format>` (stl/inc/format)

A text `[_First, _Last)` is a list of code units, positions are offsets from `_First`; reading outside the text is
undefined behaviour. `char32_t` arithmetic is modulo 2^32.
-/

namespace STL.Utf

/-- `_First[i]`. -/
def rdu (s : List Nat) (i : Nat) : R Nat :=
  match s[i]? with
  | some c => .ok c
  | none => .error .ub

/-- `char32_t`/`unsigned long` arithmetic. -/
abbrev u32 (x : Nat) : Nat := x % 2 ^ 32

/-- `_Decode_result` (format:141-146) and the out-parameter `_Val`; `next` is `_Next_ptr - _First`. -/
structure Dec where
  /-- `_Next_ptr - _First` -/
  next : Nat
  /-- `_Is_unicode_scalar_value` -/
  usv : Bool
  /-- `_Val` -/
  val : Nat
  deriving DecidableEq, Repr

/-- `_Decode_utf` for `wchar_t` (format:149-179). -/
def decode16 (s : List Nat) : R Dec := do
  let v ← rdu s 0
  if v < 0xD800 then return ⟨1, true, v⟩
  else if v ≤ 0xDBFF then do
    if 1 = s.length then return ⟨s.length, false, 0xFFFD⟩
    let t ← rdu s 1
    if t < 0xDC00 ∨ t > 0xDFFF then return ⟨1, false, 0xFFFD⟩
    let v := u32 ((v - 0xD800) <<< 10)
    let v := u32 (v + (t - 0xDC00))
    let v := u32 (v + 0x10000)
    return ⟨2, true, v⟩
  else if v ≤ 0xDFFF then return ⟨1, false, 0xFFFD⟩
  else return ⟨1, true, v⟩

/-- `_Num_bytes` (format:197-211); 0 stands for "definitely not valid", 1 for a one-byte sequence. -/
def numBytes (v : Nat) : Nat :=
  if v ≤ 0x7F then 1
  else if v ≥ 0xC2 ∧ v ≤ 0xDF then 2
  else if v ≥ 0xE0 ∧ v ≤ 0xEF then 3
  else if v ≥ 0xF0 ∧ v ≤ 0xF4 then 4
  else 0

/-- The `switch (_Val)` on overlong forms, surrogates and values above U+10FFFF (format:220-253): true if the second byte
`b` is not possible after the first byte `v`. -/
def badSecond (v b : Nat) : Bool :=
  if v = 0xE0 then decide (b < 0xA0)
  else if v = 0xED then decide (b > 0x9F)
  else if v = 0xF0 then decide (b < 0x90)
  else if v = 0xF4 then decide (b > 0x8F)
  else false

/-- Masking of the leading byte (format:259-272). -/
def maskLead (n v : Nat) : Nat :=
  if n = 2 then v &&& 0b11111 else if n = 3 then v &&& 0b1111 else v &&& 0b111

/-- The loop over the continuation bytes (format:274-284). -/
def contLoop (s : List Nat) (num : Nat) : Nat → Nat → Nat → R Dec
  | 0, _, _ => .error .fuel
  | f + 1, idx, v =>
    if idx < num then
      if idx ≥ s.length then .ok ⟨idx, false, 0xFFFD⟩
      else do
        let b ← rdu s idx
        if b < 0x80 ∨ b > 0xBF then return ⟨idx, false, 0xFFFD⟩
        contLoop s num f (idx + 1) (u32 (v <<< 6) ||| (b &&& 0b111111))
    else .ok ⟨num, true, v⟩

/-- `_Decode_utf` for `char` (format:181-285). -/
def decode8 (s : List Nat) : R Dec := do
  let v ← rdu s 0
  let num := numBytes v
  if num = 1 then return ⟨1, true, v⟩
  else if num = 0 then return ⟨1, false, 0xFFFD⟩
  else if 1 = s.length then return ⟨s.length, false, 0xFFFD⟩
  else do
    let b ← rdu s 1
    if badSecond v b then return ⟨1, false, 0xFFFD⟩
    else contLoop s num num 1 (maskLead num v)

/-- `_Decode_utf` for `char32_t` (format:287-295). -/
def decode32 (s : List Nat) : R Dec := do
  let v ← rdu s 0
  return ⟨1, decide (v < 0xD800) || (decide (v > 0xDFFF) && decide (v ≤ 0x10FFFF)), v⟩

/-- `_Unicode_codepoint_iterator` (format:297-347) run from `begin` to `default_sentinel`: the values of `operator*`. The
constructor and `operator++` decode at `_First` if it is not `_Last`; the end test is `_First == _Last`. A `_Next_ptr`
past `_Last` is undefined behaviour. -/
def codepoints (dec : List Nat → R Dec) : Nat → List Nat → R (List Nat)
  | 0, _ => .error .fuel
  | f + 1, s =>
    if s.length = 0 then .ok []
    else do
      let d ← dec s
      if d.next > s.length then .error .ub
      else do
        let r ← codepoints dec f (s.drop d.next)
        return d.val :: r

end STL.Utf
