import Verif.Mdspan.Model
import Verif.Bits.Model

/-!
# Model of the integer functions of `<numeric>` and `<utility>`: `gcd`, `lcm`, `midpoint`, `cmp_equal` …, `in_range`

`/repo/stl/inc/numeric:644-822`, `/repo/stl/inc/utility:851-1010`. Integer types are `STL.Mds.IT` (signedness and width). Operands narrower than `int` are
promoted to `int`, mixed operands undergo the usual arithmetic conversions, signed overflow is undefined behaviour, conversions wrap.
-/

namespace STL.Num
open STL
open STL.Mds (IT)

/-- `int` -/
def int : IT := ⟨true, 32⟩

/-- Integral promotion ([conv.prom]). -/
def promote (t : IT) : IT := if t.w < 32 then int else t

/-- The usual arithmetic conversions ([expr.arith.conv]): the wider operand decides; at equal width unsigned wins. -/
def usual (a b : IT) : IT :=
  let pa := promote a
  let pb := promote b
  if pa.w = pb.w then ⟨pa.sg && pb.sg, pa.w⟩ else if pa.w < pb.w then pb else pa

/-- `c` is `common_type_t<a, b>`: the type itself for equal types, else the type of a conditional expression. (Distinct types of equal width and
signedness, such as `int` and `long`, are not distinguished; for those narrower than `int`, such as `char` and `signed char`, both cases are allowed.) -/
def IsCommon (a b c : IT) : Prop := c = usual a b ∨ (a = b ∧ c = a)

/-- `x == y` -/
def eqI (a : IT) (x : Int) (b : IT) (y : Int) : Bool := (usual a b).conv x = (usual a b).conv y
/-- `x < y` -/
def ltI (a : IT) (x : Int) (b : IT) (y : Int) : Bool := (usual a b).conv x < (usual a b).conv y

/-! ## `<utility>` -/

/-- `_Cmp_equal`, `utility:851-861`. -/
def cmpEqual (a b : IT) (x y : Int) : Bool :=
  if a.sg = b.sg then eqI a x b y
  else if b.sg then eqI a x b.uns (b.uns.conv y) && !ltI b y int 0
  else eqI a.uns (a.uns.conv x) b y && !ltI a x int 0

/-- `_Cmp_not_equal`, `utility:863-866`. -/
def cmpNotEqual (a b : IT) (x y : Int) : Bool := !cmpEqual a b x y

/-- `_Cmp_less`, `utility:868-878`. -/
def cmpLess (a b : IT) (x y : Int) : Bool :=
  if a.sg = b.sg then ltI a x b y
  else if b.sg then ltI int 0 b y && ltI a x b.uns (b.uns.conv y)
  else ltI a x int 0 || ltI a.uns (a.uns.conv x) b y

/-- `_Cmp_greater`, `utility:880-883`. -/
def cmpGreater (a b : IT) (x y : Int) : Bool := cmpLess b a y x
/-- `_Cmp_less_equal`, `utility:885-888`. -/
def cmpLessEqual (a b : IT) (x y : Int) : Bool := !cmpLess b a y x
/-- `_Cmp_greater_equal`, `utility:890-893`. -/
def cmpGreaterEqual (a b : IT) (x y : Int) : Bool := !cmpLess a b x y

/-- `_Min_limit`, `utility:895-904`. -/
def minLimit (t : IT) : Int := if t.sg then t.conv (t.uns.conv (-1) / 2 + 1) else 0
/-- `_Max_limit`, `utility:906-915`. -/
def maxLimit (t : IT) : Int := if t.sg then t.conv (t.uns.conv (-1) / 2) else t.conv (-1)

/-- `_In_range<_Rx>(_Ty)`, `utility:917-940`; `r` is `_Rx`, `t` is `_Ty`. -/
def inRange (r t : IT) (v : Int) : Bool :=
  if cmpLess t r (minLimit t) (minLimit r) && ltI t v t (t.conv (minLimit r)) then false
  else if cmpGreater t r (maxLimit t) (maxLimit r) && ltI t (t.conv (maxLimit r)) t v then false
  else true

/-! ## `<numeric>` -/

/-- `_Abs_u`, `numeric:645-662`. -/
def absU (t : IT) (v : Int) : R Int :=
  if t.sg then
    if ltI t v int 0 then do
      let d ← t.uns.arith (0 - t.uns.conv v)
      .ok (t.uns.conv d)
    else .ok (t.uns.conv v)
  else .ok v

/-- The loop of `gcd`, `numeric:698-712`, in a common type of `w` bits; `cf` is `_Common_factors_of_2`, `nz` is `_Nx_trailing_zeroes`. -/
def gcdLoop (p : Bits.Path) (w cf : Nat) : Nat → Nat → Nat → Nat → R Int
  | 0, _, _, _ => .error .fuel
  | fuel + 1, mx, nx, nz => do
    let nx ← Bits.shr w nx nz
    let s : Nat × Nat := if mx > nx then (nx, mx) else (mx, nx)
    let nx := toU w ((s.2 : Int) - s.1)
    if nx = 0 then Bits.shl w s.1 cf
    else do
      let z ← Bits.countrZero p w nx
      gcdLoop p w cf fuel s.1 nx (toU 32 z)

/-- `gcd`, `numeric:684-713`, without the check of the preconditions. -/
def gcd (p : Bits.Path) (a b c : IT) (m n : Int) : R Int := do
  let ma ← absU a m
  let na ← absU b n
  let mx := toU c.w ma
  let nx := toU c.w na
  if mx = 0 then .ok (c.conv nx)
  else if nx = 0 then .ok (c.conv mx)
  else do
    let mz ← Bits.countrZero p c.w mx
    let nz ← Bits.countrZero p c.w nx
    let mx ← Bits.shr c.w mx (toU 32 mz)
    let r ← gcdLoop p c.w (min (toU 32 mz) (toU 32 nz)) (mx + nx + 1) mx nx (toU 32 nz)
    .ok (c.conv r)

/-- `gcd` in debug mode or constant evaluation, `numeric:673-682`: `none` is a failed `_STL_VERIFY`. -/
def gcdChecked (p : Bits.Path) (a b c : IT) (m n : Int) : R (Option Int) :=
  if c.sg && (eqI a m c (minLimit c) || eqI b n c (minLimit c)) then .ok none
  else do
    let r ← gcd p a b c m n
    .ok (some r)

/-- `lcm` in release mode, `numeric:717-732`. -/
def lcm (p : Bits.Path) (a b c : IT) (m n : Int) : R Int := do
  let ma ← absU a m
  let na ← absU b n
  let mx := c.uns.conv ma
  let nx := c.uns.conv na
  if mx = 0 ∨ nx = 0 then .ok 0
  else do
    let g ← gcd p c.uns c.uns c.uns mx nx
    if g = 0 then .error .ub
    else do
      let v ← c.uns.arith (mx / g * nx)
      .ok (c.conv v)

/-- `_Mul_overflow` for unsigned types, `xutility:7959-7965`: `none` if the product overflows. -/
def mulOverflowU (t : IT) (x y : Int) : R (Option Int) :=
  if x ≠ 0 ∧ y > maxLimit t / x then .ok none
  else do
    let v ← t.arith (x * y)
    .ok (some (t.conv v))

/-- `lcm` in debug mode or constant evaluation, `numeric:717-743`: `none` is a failed `_STL_VERIFY`. -/
def lcmChecked (p : Bits.Path) (a b c : IT) (m n : Int) : R (Option Int) := do
  let ma ← absU a m
  let na ← absU b n
  let mx := c.uns.conv ma
  let nx := c.uns.conv na
  if mx = 0 ∨ nx = 0 then .ok (some 0)
  else do
    let g ← gcd p c.uns c.uns c.uns mx nx
    if g = 0 then .error .ub
    else do
      let o ← mulOverflowU c.uns (c.uns.conv (mx / g)) nx
      match o with
      | none => .ok none
      | some r => if inRange c c.uns r then .ok (some (c.conv r)) else .ok none

/-- `midpoint` of integers, `numeric:801-810`. -/
def midpoint (t : IT) (x y : Int) : R Int :=
  let xu := t.uns.conv x
  let yu := t.uns.conv y
  if ltI t y t x then do
    let d ← t.uns.arith (xu - yu)
    let r ← t.arith (x - t.conv (t.uns.conv d / 2))
    .ok (t.conv r)
  else do
    let d ← t.uns.arith (yu - xu)
    let r ← t.arith (x + t.conv (t.uns.conv d / 2))
    .ok (t.conv r)

/-- `p + n` for a pointer to position `p` of an array of `len` elements ([expr.add]). -/
def ptrAdd (len : Nat) (p : Nat) (n : Int) : R Nat := if 0 ≤ (p : Int) + n ∧ (p : Int) + n ≤ len then .ok ((p : Int) + n).toNat else .error .ub

/-- `midpoint` of pointers into an array of `len` elements, `numeric:815-821`; `ptrdiff_t` has 64 bits. -/
def midpointPtr (len x y : Nat) : R Nat :=
  if x > y then do
    let d ← chkL ((x : Int) - y)
    ptrAdd len x (-(sar d 1))
  else do
    let d ← chkL ((y : Int) - x)
    ptrAdd len x (sar d 1)

end STL.Num
