import Verif.Base
import Verif.Tac

/-!
# Specification of the Unicode encoding forms

Code units are natural numbers; `Units w s` says that all fit in `w` bits.
-/

namespace STL.Utf

/-- All code units of `s` fit in `w` bits (`w` = 8 for `char`, 16 for `wchar_t` and `char16_t`, 32 for `char32_t`). -/
def Units (w : Nat) (s : List Nat) : Prop := ∀ b ∈ s, b < 2 ^ w

namespace Spec

/-- Unicode scalar values: U+0000..U+D7FF and U+E000..U+10FFFF. -/
def Scalar (c : Nat) : Prop := c < 0xD800 ∨ (0xE000 ≤ c ∧ c < 0x110000)

instance (c : Nat) : Decidable (Scalar c) := by unfold Scalar; infer_instance

/-- UTF-8 (Unicode, Table 3-6), extended to 5 and 6 bytes for larger values (as in RFC 2279). -/
def enc8 (c : Nat) : List Nat :=
  if c < 0x80 then [c]
  else if c < 0x800 then [0xC0 + c / 64, 0x80 + c % 64]
  else if c < 0x10000 then [0xE0 + c / 4096, 0x80 + c / 64 % 64, 0x80 + c % 64]
  else if c < 0x200000 then [0xF0 + c / 262144, 0x80 + c / 4096 % 64, 0x80 + c / 64 % 64, 0x80 + c % 64]
  else if c < 0x4000000 then
    [0xF8 + c / 16777216, 0x80 + c / 262144 % 64, 0x80 + c / 4096 % 64, 0x80 + c / 64 % 64, 0x80 + c % 64]
  else [0xFC + c / 1073741824, 0x80 + c / 16777216 % 64, 0x80 + c / 262144 % 64, 0x80 + c / 4096 % 64,
    0x80 + c / 64 % 64, 0x80 + c % 64]

/-- UTF-16 (Unicode, Table 3-5). -/
def enc16 (c : Nat) : List Nat :=
  if c < 0x10000 then [c] else [0xD800 + (c - 0x10000) / 1024, 0xDC00 + (c - 0x10000) % 1024]

/-- `s` starts with the code unit sequence of some scalar value. -/
def StartsWell (enc : Nat → List Nat) (s : List Nat) : Prop := ∃ c, Scalar c ∧ enc c <+: s

/-- The first `n` units of `s` are an initial part of the code unit sequence of some scalar value. -/
def Subpart (enc : Nat → List Nat) (s : List Nat) (n : Nat) : Prop := n ≤ s.length ∧ ∃ c, Scalar c ∧ s.take n <+: enc c

/-- Unicode, 3.9 "U+FFFD Substitution of Maximal Subparts": `n` is the length of the maximal subpart of the ill-formed
text `s`: the longest initial part of a well-formed sequence, or one unit if there is none. -/
def MaximalSubpart (enc : Nat → List Nat) (s : List Nat) (n : Nat) : Prop :=
  ∃ m, Subpart enc s m ∧ (∀ k, Subpart enc s k → k ≤ m) ∧ n = max m 1

/-- What a decoder has to deliver for the text `s`: the scalar values of its well-formed sequences, and U+FFFD for each
maximal subpart of an ill-formed one. -/
inductive Decodes (enc : Nat → List Nat) : List Nat → List Nat → Prop
  | nil : Decodes enc [] []
  | good {c s v} : Scalar c → Decodes enc s v → Decodes enc (enc c ++ s) (c :: v)
  | bad {s v n} : ¬ StartsWell enc s → s ≠ [] → MaximalSubpart enc s n → Decodes enc (s.drop n) v →
      Decodes enc s (0xFFFD :: v)

/-! ## What the facets of `<codecvt>` accept

They also accept sequences that are longer than necessary, codes of surrogates, and sequences of up to six bytes. -/

/-- The range of first bytes of a sequence with `n` continuation bytes. -/
def lead8 : Nat → Nat × Nat
  | 0 => (0, 0x80)
  | 1 => (0xC0, 0xE0)
  | 2 => (0xE0, 0xF0)
  | 3 => (0xF0, 0xF8)
  | 4 => (0xF8, 0xFC)
  | 5 => (0xFC, 0x100)
  | _ => (0, 0)

/-- A continuation byte. -/
def Trail (b : Nat) : Prop := 0x80 ≤ b ∧ b < 0xC0

instance (b : Nat) : Decidable (Trail b) := by unfold Trail; infer_instance

/-- `v` followed by six bits from each byte of `bs`. -/
def contVal (v : Nat) (bs : List Nat) : Nat := bs.foldl (fun v b => v * 64 + (b - 0x80)) v

/-- `b` is a (possibly overlong) byte sequence of the code `c`. -/
def Seq8 (c : Nat) (b : List Nat) : Prop :=
  ∃ b0 bs, b = b0 :: bs ∧ (lead8 bs.length).1 ≤ b0 ∧ b0 < (lead8 bs.length).2 ∧ (∀ x ∈ bs, Trail x) ∧
    c = contVal (b0 - (lead8 bs.length).1) bs

/-- `s` starts with a first byte that announces more bytes than there are. -/
def Trunc8 (s : List Nat) : Prop :=
  ∃ b0 t n, s = b0 :: t ∧ (lead8 n).1 ≤ b0 ∧ b0 < (lead8 n).2 ∧ t.length < n

end Spec

end STL.Utf
