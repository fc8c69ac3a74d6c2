import Verif.FloatConv.Model
import Mathlib.Data.Rat.Floor
import Mathlib.Algebra.Order.Field.Power
import Mathlib.Tactic.Linarith
import Mathlib.Tactic.Positivity
import Mathlib.Tactic.FieldSimp
import Mathlib.Tactic.Ring

/-!
# Floating-point `from_chars`: specification

IEEE 754 binary formats with `p` bits of precision and `w` bits of exponent, as bit patterns without the sign. `inf p w` is the pattern of infinity;
for rounding it stands for the first power of two that is too large ([IEEE 754-2019] 4.3.1: round as if the exponent were unbounded, then overflow).
-/

namespace STL.FloatConv.Spec

/-- The pattern of infinity: the exponent field all ones, the mantissa field zero. -/
def inf (p w : Nat) : Nat := (2 ^ w - 1) * 2 ^ (p - 1)

/-- The bias of the exponent. -/
def bias (w : Nat) : Int := 2 ^ (w - 1) - 1

/-- The magnitude denoted by a pattern: `0.f * 2^(1 - bias)` if the exponent field is zero, otherwise `1.f * 2^(E - bias)`. -/
def mag (p w b : Nat) : ℚ :=
  let E := b / 2 ^ (p - 1)
  let f := b % 2 ^ (p - 1)
  if E = 0 then (f / 2 ^ (p - 1) : ℚ) * 2 ^ (1 - bias w) else (1 + f / 2 ^ (p - 1) : ℚ) * 2 ^ ((E : Int) - bias w)

/-- `b` is the pattern nearest to `x ≥ 0`, and the even one if two patterns are equally near. -/
def Nearest (p w b : Nat) (x : ℚ) : Prop :=
  b ≤ inf p w ∧ ∀ c, c ≤ inf p w → c ≠ b → |mag p w b - x| < |mag p w c - x| ∨ (|mag p w b - x| = |mag p w c - x| ∧ b % 2 = 0)

/-- The number with the given digits, most significant first. -/
def numOf (base : Nat) (ds : List Nat) : Nat := ds.foldl (fun a d => a * base + d) 0

/-! ## The pattern: [charconv.from.chars]/6-7, the subject sequence of `strtod` without `+`, without `0x` -/

/-- The base of the digits. -/
def base (fmt : Format) : Nat := if fmt = .hex then 16 else 10
/-- The base of the exponent. -/
def expBase (fmt : Format) : Nat := if fmt = .hex then 2 else 10
/-- `e` or `E`, for hexadecimal `p` or `P`. -/
def isLetter (fmt : Format) (c : Nat) : Bool := if fmt = .hex then c == 112 || c == 80 else c == 101 || c == 69

/-- An exponent part: the letter, the sign character if there is one, the digit characters. -/
structure Exp where
  letter : Nat
  sign : Option Nat
  digits : List Nat

/-- A numeric literal in characters: `-` or nothing, digits, `.` or nothing, digits, an exponent part or nothing. -/
structure Lit where
  neg : Bool
  whole : List Nat
  dot : Bool
  frac : List Nat
  exp : Option Exp

def Exp.render (x : Exp) : List Nat := x.letter :: (x.sign.toList ++ x.digits)

/-- The characters of a literal without the sign. -/
def Lit.body (L : Lit) : List Nat := L.whole ++ ((if L.dot then [46] else []) ++ (L.frac ++ (match L.exp with | none => [] | some x => x.render)))

/-- The characters of a literal. -/
def Lit.render (L : Lit) : List Nat := (if L.neg then [45] else []) ++ L.body

structure Exp.Valid (fmt : Format) (x : Exp) : Prop where
  letter : isLetter fmt x.letter = true
  sign : x.sign = none ∨ x.sign = some 43 ∨ x.sign = some 45
  digits : ∀ c ∈ x.digits, Charconv.Spec.isDigit 10 c = true
  some : x.digits ≠ []

/-- The literal has the form that `fmt` asks for. -/
structure Lit.Valid (fmt : Format) (L : Lit) : Prop where
  whole : ∀ c ∈ L.whole, Charconv.Spec.isDigit (base fmt) c = true
  frac : ∀ c ∈ L.frac, Charconv.Spec.isDigit (base fmt) c = true
  noFrac : L.dot = false → L.frac = []
  some : L.whole ≠ [] ∨ L.frac ≠ []
  exp : ∀ x, L.exp = Option.some x → x.Valid fmt
  sci : fmt = .scientific → L.exp ≠ none
  fixed : fmt = .fixed → L.exp = none

/-- The values of digit characters. -/
def digits (cs : List Nat) : List Nat := cs.map fun c => (Charconv.Spec.digitVal c).getD 0

def Exp.value (x : Exp) : Int := if x.sign = some 45 then -(numOf 10 (Spec.digits x.digits) : Int) else numOf 10 (Spec.digits x.digits)

def Lit.expValue (L : Lit) : Int := match L.exp with | none => 0 | some x => x.value

/-- The magnitude that a literal denotes. -/
def Lit.value (fmt : Format) (L : Lit) : ℚ := (numOf (base fmt) (digits (L.whole ++ L.frac)) : ℚ) / (base fmt : ℚ) ^ L.frac.length * (expBase fmt : ℚ) ^ L.expValue

/-- `L` is the longest literal of the required form at the start of `s`. -/
def Longest (fmt : Format) (s : List Nat) (L : Lit) : Prop := L.Valid fmt ∧ L.render <+: s ∧ ∀ L' : Lit, L'.Valid fmt → L'.render <+: s → L'.render.length ≤ L.render.length

/-- Whether there is a minus sign, and what follows it. -/
def hasMinus (s : List Nat) : Bool := decide (s.head? = some 45)
def afterSign (s : List Nat) : List Nat := if hasMinus s then s.tail else s

/-! ## Names -/

/-- ASCII lower case. -/
def lower (c : Nat) : Nat := if 65 ≤ c ∧ c ≤ 90 then c + 32 else c

/-- `s` starts with `name`, whatever the case. -/
def Starts (name s : List Nat) : Prop := (s.take name.length).map lower = name

instance (name s : List Nat) : Decidable (Starts name s) := by unfold Starts; infer_instance

/-- `inf`, `infinity`, `nan`. -/
def sInf : List Nat := [105, 110, 102]
def sInfinity : List Nat := [105, 110, 102, 105, 110, 105, 116, 121]
def sNan : List Nat := [110, 97, 110]

/-- A digit, a letter or `_`: a character of the n-char-sequence in `nan(...)`. -/
def isNchar (c : Nat) : Prop := (48 ≤ c ∧ c ≤ 57) ∨ (65 ≤ c ∧ c ≤ 90) ∨ (97 ≤ c ∧ c ≤ 122) ∨ c = 95

/-- `s` is `(` an n-char-sequence `)` and more. -/
def Paren (s seq rest : List Nat) : Prop := (∀ c ∈ seq, isNchar c) ∧ s = 40 :: (seq ++ 41 :: rest)

/-- The bits of a NaN: sign, all exponent bits, quiet bit or the lowest bit. -/
def nanBits (p w : Nat) (neg quiet : Bool) : Nat := (if neg then 2 ^ (p + w - 1) else 0) + inf p w + (if quiet then 2 ^ (p - 2) else 1)

end STL.FloatConv.Spec
