import Verif.CInt

/-!
# Model of `extents` and the layout mappings of `<mdspan>`

`/repo/stl/inc/mdspan`. The index type is any signed or unsigned integer type; arithmetic on types narrower than `int` is done in `int`
([conv.prom]) and signed overflow is undefined behaviour. The parameter packs `_Indices...`, `_Seq...` are lists. The mapping functions take the
list of the values `extent(0), extent(1), …`, which are those of the modelled `extents` object (`extent`, theorem `extent_spec`).
`ranges::sort` on pairs (a total order) is modelled by `List.mergeSort`.
-/

namespace STL.Mds
open STL

/-- An integer type. -/
structure IT where
  sg : Bool
  w : Nat

/-- Value of an arithmetic expression whose operands have type `t`. -/
def IT.arith (t : IT) (v : Int) : R Int := if t.w < 32 then chkI v else if t.sg then chkS t.w v else .ok (toU t.w v)
/-- Conversion to `t`. -/
def IT.conv (t : IT) (v : Int) : Int := if t.sg then toS t.w v else toU t.w v
/-- `make_unsigned_t`. -/
def IT.uns (t : IT) : IT := ⟨false, t.w⟩

/-! ## `extents` -/

/-- `extents`, `mdspan:51-244`: `stat` are the template arguments (`none` is `dynamic_extent`), `dyn` is the stored array. -/
structure Ext where
  stat : List (Option Int)
  dyn : List Int

/-- `_Make_dynamic_indices`, `mdspan:67-78`: the number of dynamic extents before each position. -/
def dynIndices : List (Option Int) → Nat → List Nat
  | [], c => [c]
  | s :: ss, c => c :: dynIndices ss (if s = none then c + 1 else c)

/-- `_Make_dynamic_indices_inv`, `mdspan:82-93`. -/
def dynIndicesInv : List (Option Int) → Nat → List Nat
  | [], _ => []
  | s :: ss, i => if s = none then i :: dynIndicesInv ss (i + 1) else dynIndicesInv ss (i + 1)

/-- `_Calculate_rank_dynamic`, `mdspan:41-42`. -/
def rankDynamic (stat : List (Option Int)) : Nat := stat.countP fun s => s = none

/-- `extent`, `mdspan:195-211`. -/
def Ext.extent (e : Ext) (r : Nat) : R Int :=
  match e.stat[r]? with
  | none => .error .ub
  | some (some s) => .ok s
  | some none => match (dynIndices e.stat 0)[r]? with
    | none => .error .ub
    | some k => match e.dyn[k]? with
      | none => .error .ub
      | some v => .ok v

/-- `at i` of the argument tuple; compile-time indices, so always in range. -/
def gets (args : List Int) : List Nat → R (List Int)
  | [] => .ok []
  | i :: is => match args[i]? with
    | none => .error .ub
    | some v => do
      let vs ← gets args is
      .ok (v :: vs)

/-- The constructors from values, `mdspan:123-131`, `mdspan:144-168`, `mdspan:222-258`: either one value for each dynamic extent or one value for each
extent. -/
def Ext.make (stat : List (Option Int)) (args : List Int) : R Ext :=
  if args.length = rankDynamic stat then .ok ⟨stat, args⟩
  else if args.length = stat.length then do
    let d ← gets args (dynIndicesInv stat 0)
    .ok ⟨stat, d⟩
  else .error .ub  -- rejected by the constraints

/-! ## `layout_left` and `layout_right` -/

/-- `_Fwd_prod_of_extents::_Calculate`, `mdspan:352-364` (`_Result` has the unsigned type); `exts` are the first `_Idx` extents. -/
def fwdLoop (t : IT) : List Int → Int → R Int
  | [], r => .ok r
  | e :: es, r => do
    let v ← t.uns.arith (r * t.uns.conv e)
    fwdLoop t es (t.uns.conv v)

/-- `_Fwd_prod_of_extents::_Calculate`, `mdspan:352-364`. -/
def fwdProd (t : IT) (exts : List Int) (idx : Nat) : R Int := do
  let r ← fwdLoop t (exts.take idx) 1
  .ok (t.conv r)

/-- `_Fwd_prod_of_extents` for fully static extents, `mdspan:374-389`: multiplication in `size_t`. -/
def fwdStatic (t : IT) : List Int → Int → Int
  | [], r => r
  | e :: es, r => fwdStatic t es (t.conv (toU 64 (toU 64 r * e)))

/-- `_Rev_prod_of_extents::_Calculate`, `mdspan:398-405`. -/
def revLoop (t : IT) : List Int → Int → R Int
  | [], r => .ok r
  | e :: es, r => do
    let v ← t.arith (r * e)
    revLoop t es (t.conv v)

/-- `_Rev_prod_of_extents::_Calculate`, `mdspan:398-405`. -/
def revProd (t : IT) (exts : List Int) (idx : Nat) : R Int := revLoop t (exts.drop (idx + 1)) 1

/-- `layout_left::mapping::_Index_impl`, `mdspan:630-633`. -/
def leftLoop (t : IT) : List Int → List Int → Int → Int → R Int
  | e :: es, i :: is, stride, result => do
    let p ← t.arith (i * stride)
    let r ← t.arith (result + p)
    let s ← t.arith (stride * e)
    leftLoop t es is (t.conv s) (t.conv r)
  | _, _, _, result => .ok result

/-- `layout_left::mapping::operator()`, `mdspan:574-577`. -/
def leftIndex (t : IT) (exts idx : List Int) : R Int := leftLoop t exts idx 1 0

/-- `layout_right::mapping::_Index_impl`, `mdspan:786-788`. -/
def rightLoop (t : IT) : List Int → List Int → Int → R Int
  | e :: es, i :: is, result => do
    let p ← t.arith (e * result)
    let r ← t.arith (i + p)
    rightLoop t es is (t.conv r)
  | _, _, result => .ok result

/-- `layout_right::mapping::operator()`, `mdspan:730-733`. -/
def rightIndex (t : IT) (exts idx : List Int) : R Int := rightLoop t exts idx 0

/-- `required_span_size` of `layout_left` and `layout_right`, `mdspan:566-568`, `mdspan:722-724`. -/
def spanSize (t : IT) (exts : List Int) : R Int := fwdProd t exts exts.length

/-- `layout_left::mapping::stride`, `mdspan:603-611`. -/
def leftStride (t : IT) (exts : List Int) (r : Nat) : R Int := fwdProd t exts r

/-- `layout_right::mapping::stride`, `mdspan:759-767`. -/
def rightStride (t : IT) (exts : List Int) (r : Nat) : R Int := revProd t exts r

/-! ## `layout_stride` -/

/-- `layout_stride::mapping::_Index_impl`, `mdspan:1089`: the fold `((i * s) + ... + 0)`, before the final conversion. -/
def strideFold (t : IT) : List Int → List Int → R Int
  | s :: ss, i :: is => do
    let p ← t.arith (i * s)
    let r ← strideFold t ss is
    t.arith (p + r)
  | _, _ => .ok 0

/-- `layout_stride::mapping::operator()`, `mdspan:975-983`, `mdspan:1080-1090`. -/
def strideIndex (t : IT) (strides idx : List Int) : R Int := do
  let r ← strideFold t strides idx
  .ok (t.conv r)

/-- The loop of `layout_stride::mapping::required_span_size`, `mdspan:961-971`. -/
def reqLoop (t : IT) : List Int → List Int → Int → R Int
  | e :: es, s :: ss, result =>
    if e = 0 then .ok 0 else do
      let d ← t.arith (e - 1)
      let p ← t.arith (d * s)
      let r ← t.arith (result + p)
      reqLoop t es ss (t.conv r)
  | _, _, result => .ok result

/-- `layout_stride::mapping::required_span_size`, `mdspan:957-973`. -/
def strideSpan (t : IT) (exts strides : List Int) : R Int := reqLoop t exts strides 1

/-- Order of `pair<index_type, index_type>`. -/
def pairLe (a b : Int × Int) : Bool := a.1 < b.1 || (a.1 == b.1 && a.2 ≤ b.2)

/-- The comparison loop of `_Is_exhaustive_special_case`, `mdspan:1113-1117`. -/
def exhLoop (t : IT) : Int × Int → List (Int × Int) → R Bool
  | _, [] => .ok true
  | a, b :: l => do
    let p ← t.arith (a.1 * a.2)
    if b.1 ≠ p then .ok false else exhLoop t b l

/-- `_Is_exhaustive_special_case`, `mdspan:1097-1120`. -/
def exhSpecial (t : IT) (exts strides : List Int) : R Bool :=
  if exts.any (· == 0) then .ok true
  else match (strides.zip exts).mergeSort pairLe with
    | [] => .error .ub
    | a :: l => if a.1 ≠ 1 then .ok false else exhLoop t a l

/-- `_Is_exhaustive_common_case`, `mdspan:1092-1095`. -/
def exhCommon (t : IT) (exts strides : List Int) : R Bool := do
  let prod ← fwdProd t exts exts.length
  let req ← strideSpan t exts strides
  .ok (prod == req || prod == 0)

/-- `layout_stride::mapping::is_exhaustive`, `mdspan:1000-1024`; `stat` are the static extents. -/
def isExhaustive (t : IT) (stat : List (Option Int)) (exts strides : List Int) : R Bool :=
  if stat = [] ∨ stat.any (· == some 0) then .ok true
  else match exts, strides with
    | [e0], [s0] => .ok (s0 == 1 || e0 == 0)
    | [e0, e1], [s0, s1] => .ok ((s0 == 1 && s1 == e0) || (s1 == 1 && s0 == e1) || e0 == 0 || e1 == 0)
    | _, _ => if exts.any (· == 1) then exhSpecial t exts strides else exhCommon t exts strides

/-- The comparison loop of the debug check, `mdspan:885-893`. -/
def chainLoop (t : IT) : Int × Int → List (Int × Int) → R Bool
  | _, [] => .ok true
  | a, b :: l => do
    let p ← t.arith (a.1 * a.2)
    if b.1 ≥ p then chainLoop t b l else .ok false

/-- The debug check of the order of the strides, `mdspan:883-893`. -/
def chainCheck (t : IT) (exts strides : List Int) : R Bool :=
  if exts.any (· == 0) then .ok true
  else match (strides.zip exts).mergeSort pairLe with
    | [] => .ok true
    | a :: l => chainLoop t a l

end STL.Mds
