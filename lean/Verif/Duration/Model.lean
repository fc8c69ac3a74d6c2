import Verif.CInt

/-!
# Model of `chrono::duration` conversions and of the ratio arithmetic behind them

`/repo/stl/inc/__msvc_chrono.hpp:295-540`, `/repo/stl/inc/ratio:54-168`. A duration type is a signed representation of `w`
bits and a period (a positive reduced ratio); a duration value is its count.
Simplifications: representation types are signed integers of 32 to 64 bits (so `common_type_t<_ToRep, _Rep, intmax_t>` is
the 64-bit `intmax_t`, and there is no integral promotion); floating-point representations are not modelled. Overflow in
the compile-time ratio arithmetic is a compilation error in the source (`static_assert`), so the model uses unbounded
numbers there. Run-time multiplication, addition, subtraction and negation are checked: overflow is undefined behaviour.
-/

namespace STL.Duration
open STL

/-- A `duration<_Rep, _Period>` type: bits of `_Rep`, `_Period::num`, `_Period::den`. -/
structure Ty where
  w : Nat
  num : Nat
  den : Nat

/-- `_Gcd`, `ratio:54-70`, on the non-negative arguments used here. -/
def gcdLoop (a b : Nat) : Nat := if h : b = 0 then a else gcdLoop b (a % b)
termination_by b
decreasing_by exact Nat.mod_lt _ (by omega)

@[inherit_doc gcdLoop]
def gcd (a b : Nat) : Nat := if a = 0 ∧ b = 0 then 1 else gcdLoop a b

/-- `_Lcm`, `__msvc_chrono.hpp:295-297`. -/
def lcm (a b : Nat) : Nat := a / gcd a b * b

/-- `ratio<_Nx, _Dx>::num` and `::den`, `ratio:78-79`. -/
def mkRatio (n d : Nat) : Nat × Nat := (n / gcd n d, d / gcd n d)

/-- `ratio_multiply`, `ratio:119-149`. -/
def ratioMul (x y : Nat × Nat) : Nat × Nat :=
  let gx := gcd x.1 y.2
  let gy := gcd y.1 x.2
  mkRatio (x.1 / gx * (y.1 / gy)) (x.2 / gy * (y.2 / gx))

/-- `ratio_divide`, `ratio:153-168`. -/
def ratioDiv (x y : Nat × Nat) : Nat × Nat := ratioMul x (mkRatio y.2 y.1)

/-- `common_type` of two duration types, `__msvc_chrono.hpp:299-303` (`common_type` of the representations is the wider). -/
def common (p q : Ty) : Ty :=
  let r := mkRatio (gcd p.num q.num) (lcm p.den q.den)
  ⟨max p.w q.w, r.1, r.2⟩

/-- `duration_cast<_To>`, `__msvc_chrono.hpp:452-479`. -/
def cast (p q : Ty) (c : Int) : R Int :=
  let cf := ratioDiv (p.num, p.den) (q.num, q.den)
  if cf.2 = 1 then
    if cf.1 = 1 then .ok (toS q.w c)
    else do
      let v ← chkL (c * cf.1)
      .ok (toS q.w v)
  else
    if cf.1 = 1 then .ok (toS q.w (cdiv c cf.2))
    else do
      let v ← chkL (c * cf.1)
      .ok (toS q.w (cdiv v cf.2))

/-- `operator<` on durations, `__msvc_chrono.hpp:421-426`; `a > b` is `b < a`. -/
def less (p q : Ty) (a b : Int) : R Bool := do
  let x ← cast p (common p q) a
  let y ← cast q (common p q) b
  .ok (decide (x < y))

/-- `operator==` on durations, `__msvc_chrono.hpp:403-409`. -/
def equal (p q : Ty) (a b : Int) : R Bool := do
  let x ← cast p (common p q) a
  let y ← cast q (common p q) b
  .ok (decide (x = y))

/-- `operator+` on durations, `__msvc_chrono.hpp:312-318`: a duration of type `common p q`. -/
def plus (p q : Ty) (a b : Int) : R Int := do
  let x ← cast p (common p q) a
  let y ← cast q (common p q) b
  chkS (common p q).w (x + y)

/-- `operator-` on durations, `__msvc_chrono.hpp:320-326`. -/
def minus (p q : Ty) (a b : Int) : R Int := do
  let x ← cast p (common p q) a
  let y ← cast q (common p q) b
  chkS (common p q).w (x - y)

/-- `floor<_To>`, `__msvc_chrono.hpp:481-492`. -/
def floor (p q : Ty) (c : Int) : R Int := do
  let casted ← cast p q c
  let g ← less p q c casted
  if g then chkS q.w (casted - 1) else .ok casted

/-- `ceil<_To>`, `__msvc_chrono.hpp:494-505`. -/
def ceil (p q : Ty) (c : Int) : R Int := do
  let casted ← cast p q c
  let l ← less q p casted c
  if l then chkS q.w (casted + 1) else .ok casted

/-- `round<_To>`, `__msvc_chrono.hpp:513-528`. `_Is_even` is `%` with truncation. -/
def round (p q : Ty) (c : Int) : R Int := do
  let floored ← floor p q c
  let ceiled ← plus q q floored 1
  let fa ← minus p q c floored
  let ca ← minus q p ceiled c
  let l ← less (common p q) (common q p) fa ca
  let e ← equal (common p q) (common q p) fa ca
  if l || (e && Int.tmod floored 2 == 0) then .ok floored else .ok ceiled

/-- `abs`, `__msvc_chrono.hpp:530-539`. -/
def abs (p : Ty) (c : Int) : R Int := do
  let l ← less p p c 0
  if l then chkS p.w (-c) else .ok c

end STL.Duration
