import Verif.Base

/-!
# Model of `merge`, `includes` and the sorted-set algorithms

Source: `/repo/stl/inc/algorithm`. The two inputs are memories `m1`, `m2` with ends `n1`, `n2` and current positions
`i`, `j`; the output iterator is the list `out` of the values assigned through it so far. `_DEBUG_LT_PRED` is the plain
predicate call. Projections are folded into `lt`. Not modelled: the vectorised `_Includes_vectorized` path
(separately compiled), iterator unwrapping, debug-mode order checks.
-/

namespace STL
variable {α : Type}

/-- `_Copy_unchecked(first, last, dest)`, general loop, `xutility:5126-5152`. -/
def copyTo (m : Mem α) (i n : Nat) (out : List α) : R (List α) :=
  if _h : i < n then do
    let x ← rd m i
    copyTo m (i + 1) n (out ++ [x])
  else pure out
termination_by n - i

/-- The `for (;;)` of `merge`, `algorithm:8163-8183`; returns the final positions and the output. Entered only with
both ranges non-empty. -/
def mergeLoop (lt : α → α → Bool) (m1 m2 : Mem α) (n1 n2 i j : Nat) (out : List α) : R (Nat × Nat × List α) :=
  if _h : i < n1 ∧ j < n2 then do
    let y ← rd m2 j
    let x ← rd m1 i
    if lt y x then
      if j + 1 = n2 then pure (i, j + 1, out ++ [y]) else mergeLoop lt m1 m2 n1 n2 i (j + 1) (out ++ [y])
    else
      if i + 1 = n1 then pure (i + 1, j, out ++ [x]) else mergeLoop lt m1 m2 n1 n2 (i + 1) j (out ++ [x])
  else .error .ub
termination_by (n1 - i) + (n2 - j)
decreasing_by all_goals omega

/-- `merge`, `algorithm:8149-8188`. -/
def merge (lt : α → α → Bool) (m1 m2 : Mem α) (n1 n2 : Nat) : R (List α) := do
  let (i, j, out) ← (if 0 ≠ n1 ∧ 0 ≠ n2 then mergeLoop lt m1 m2 n1 n2 0 0 [] else .ok (0, 0, []) : R _)
  let out ← copyTo m1 i n1 out
  copyTo m2 j n2 out

/-- `ranges::_Merge_unchecked`, `algorithm:8272-8303`. -/
def rangesMergeLoop (lt : α → α → Bool) (m1 m2 : Mem α) (n1 n2 i j : Nat) (out : List α) : R (List α) :=
  if _h1 : i < n1 then
    if _h2 : j < n2 then do
      let y ← rd m2 j
      let x ← rd m1 i
      if lt y x then rangesMergeLoop lt m1 m2 n1 n2 i (j + 1) (out ++ [y])
      else rangesMergeLoop lt m1 m2 n1 n2 (i + 1) j (out ++ [x])
    else copyTo m1 i n1 out
  else copyTo m2 j n2 out
termination_by (n1 - i) + (n2 - j)

/-- The loop of `includes`, `algorithm:10417-10434` (also `ranges::_Includes_unchecked`, `algorithm:10519-10537`). -/
def includesLoop (lt : α → α → Bool) (m1 m2 : Mem α) (n1 n2 i j : Nat) : R Bool :=
  if _h : i < n1 ∧ j < n2 then do
    let x ← rd m1 i
    let y ← rd m2 j
    if lt x y then
      if i + 1 = n1 then pure false else includesLoop lt m1 m2 n1 n2 (i + 1) j
    else if lt y x then pure false
    else if j + 1 = n2 then pure true
    else if i + 1 = n1 then pure false
    else includesLoop lt m1 m2 n1 n2 (i + 1) (j + 1)
  else .error .ub
termination_by (n1 - i) + (n2 - j)
decreasing_by all_goals omega

/-- `includes`, `algorithm:10389-10435`. -/
def includes (lt : α → α → Bool) (m1 m2 : Mem α) (n1 n2 : Nat) : R Bool :=
  if 0 = n2 then pure true
  else if 0 = n1 then pure false
  else includesLoop lt m1 m2 n1 n2 0 0

/-- `set_union`, `algorithm:10545-10573`. -/
def setUnionLoop (lt : α → α → Bool) (m1 m2 : Mem α) (n1 n2 i j : Nat) (out : List α) : R (List α) :=
  if _h : i < n1 ∧ j < n2 then do
    let x ← rd m1 i
    let y ← rd m2 j
    if lt x y then setUnionLoop lt m1 m2 n1 n2 (i + 1) j (out ++ [x])
    else if lt y x then setUnionLoop lt m1 m2 n1 n2 i (j + 1) (out ++ [y])
    else setUnionLoop lt m1 m2 n1 n2 (i + 1) (j + 1) (out ++ [x])
  else do
    let out ← copyTo m1 i n1 out
    copyTo m2 j n2 out
termination_by (n1 - i) + (n2 - j)
decreasing_by all_goals omega

/-- `ranges::_Set_union_unchecked`, `algorithm:10648-10674`. -/
def rangesSetUnionLoop (lt : α → α → Bool) (m1 m2 : Mem α) (n1 n2 i j : Nat) (out : List α) : R (List α) :=
  if _h : i < n1 ∧ j < n2 then do
    let y ← rd m2 j
    let x ← rd m1 i
    if lt y x then rangesSetUnionLoop lt m1 m2 n1 n2 i (j + 1) (out ++ [y])
    else if !lt x y then rangesSetUnionLoop lt m1 m2 n1 n2 (i + 1) (j + 1) (out ++ [x])
    else rangesSetUnionLoop lt m1 m2 n1 n2 (i + 1) j (out ++ [x])
  else do
    let out ← copyTo m1 i n1 out
    copyTo m2 j n2 out
termination_by (n1 - i) + (n2 - j)
decreasing_by all_goals omega

/-- `set_intersection`, `algorithm:10683-10711` (same loop in `ranges::_Set_intersection_unchecked`, `10787-10808`). -/
def setIntersectionLoop (lt : α → α → Bool) (m1 m2 : Mem α) (n1 n2 i j : Nat) (out : List α) : R (List α) :=
  if _h : i < n1 ∧ j < n2 then do
    let x ← rd m1 i
    let y ← rd m2 j
    if lt x y then setIntersectionLoop lt m1 m2 n1 n2 (i + 1) j out
    else if lt y x then setIntersectionLoop lt m1 m2 n1 n2 i (j + 1) out
    else setIntersectionLoop lt m1 m2 n1 n2 (i + 1) (j + 1) (out ++ [x])
  else pure out
termination_by (n1 - i) + (n2 - j)
decreasing_by all_goals omega

/-- `set_difference`, `algorithm:10816-10845` (same loop in `ranges::_Set_difference_unchecked`, `10916-10936`). -/
def setDifferenceLoop (lt : α → α → Bool) (m1 m2 : Mem α) (n1 n2 i j : Nat) (out : List α) : R (List α) :=
  if _h : i < n1 ∧ j < n2 then do
    let x ← rd m1 i
    let y ← rd m2 j
    if lt x y then setDifferenceLoop lt m1 m2 n1 n2 (i + 1) j (out ++ [x])
    else if !lt y x then setDifferenceLoop lt m1 m2 n1 n2 (i + 1) (j + 1) out
    else setDifferenceLoop lt m1 m2 n1 n2 i (j + 1) out
  else copyTo m1 i n1 out
termination_by (n1 - i) + (n2 - j)
decreasing_by all_goals omega

/-- `set_symmetric_difference`, `algorithm:10944-10976` (the ranges version, `11063-11087`, copies the one remaining
tail, which is the same). -/
def setSymmetricDifferenceLoop (lt : α → α → Bool) (m1 m2 : Mem α) (n1 n2 i j : Nat) (out : List α) : R (List α) :=
  if _h : i < n1 ∧ j < n2 then do
    let x ← rd m1 i
    let y ← rd m2 j
    if lt x y then setSymmetricDifferenceLoop lt m1 m2 n1 n2 (i + 1) j (out ++ [x])
    else if lt y x then setSymmetricDifferenceLoop lt m1 m2 n1 n2 i (j + 1) (out ++ [y])
    else setSymmetricDifferenceLoop lt m1 m2 n1 n2 (i + 1) (j + 1) out
  else do
    let out ← copyTo m1 i n1 out
    copyTo m2 j n2 out
termination_by (n1 - i) + (n2 - j)
decreasing_by all_goals omega

/-- `set_union(first1, last1, first2, last2, dest, pred)` from the beginning of both ranges. -/
def setUnion (lt : α → α → Bool) (m1 m2 : Mem α) : R (List α) := setUnionLoop lt m1 m2 m1.length m2.length 0 0 []
/-- `ranges::set_union`. -/
def rangesSetUnion (lt : α → α → Bool) (m1 m2 : Mem α) : R (List α) := rangesSetUnionLoop lt m1 m2 m1.length m2.length 0 0 []
/-- `set_intersection`. -/
def setIntersection (lt : α → α → Bool) (m1 m2 : Mem α) : R (List α) :=
  setIntersectionLoop lt m1 m2 m1.length m2.length 0 0 []
/-- `set_difference`. -/
def setDifference (lt : α → α → Bool) (m1 m2 : Mem α) : R (List α) := setDifferenceLoop lt m1 m2 m1.length m2.length 0 0 []
/-- `set_symmetric_difference`. -/
def setSymmetricDifference (lt : α → α → Bool) (m1 m2 : Mem α) : R (List α) :=
  setSymmetricDifferenceLoop lt m1 m2 m1.length m2.length 0 0 []
/-- `ranges::merge`. -/
def rangesMerge (lt : α → α → Bool) (m1 m2 : Mem α) : R (List α) := rangesMergeLoop lt m1 m2 m1.length m2.length 0 0 []

end STL
