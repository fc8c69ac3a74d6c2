import Verif.Path.Parse

/-!
# Model of `path::iterator`, `path::compare` and `hash_value` (stl/inc/filesystem)
-/

namespace STL.Path

/-- `_Path_iterator` (filesystem:1426-1618): `_Position` as an offset and `_Element`. Equality compares `_Position` only (1572-1574). -/
structure It where
  pos : Nat
  elem : Text
  deriving DecidableEq

/-- `path::begin` (filesystem:1755-1773). -/
def begin (s : Text) : R It := do
  let e ← findRootNameEnd s
  if 0 = e then do
    let d ← findIf (fun c => !isSlash c) s e
    if 0 = d then do
      let f ← findIf isSlash s d
      return ⟨0, sub s 0 f⟩
    else return ⟨0, sub s 0 d⟩
  else return ⟨0, sub s 0 e⟩

/-- `path::end` (filesystem:1775-1777). -/
def endIt (s : Text) : It := ⟨s.length, []⟩

/-- The loop of `operator++` that looks for the next filename (filesystem:1500-1509). -/
def nextLoop (s : Text) : Nat → Nat → R It
  | 0, _ => .error .ub
  | fuel + 1, pos => do
    let c ← rdc s pos
    if isSlash c then
      if pos + 1 = s.length then return ⟨pos, []⟩ else nextLoop s fuel (pos + 1)
    else do
      let f ← findIf isSlash s pos
      return ⟨pos, sub s pos f⟩

/-- The part of `operator++` after `_Position` has been advanced over the element (filesystem:1493-1509). -/
def nextRel (s : Text) (pos : Nat) : R It :=
  if s.length < pos then .error .ub
  else if pos = s.length then return ⟨pos, []⟩
  else nextLoop s (s.length + 1) pos

/-- `operator++` (filesystem:1462-1510). -/
def next (s : Text) (it : It) : R It :=
  if it.pos = 0 then do
    let e ← findRootNameEnd s
    let d ← findIf (fun c => !isSlash c) s e
    if 0 ≠ e ∧ e ≠ d then return ⟨it.elem.length, sub s e d⟩ else nextRel s it.elem.length
  else do
    let c ← rdc s it.pos
    if isSlash c then
      if it.elem.length = 0 then return ⟨it.pos + 1, it.elem⟩ else nextRel s (it.pos + it.elem.length)
    else nextRel s (it.pos + it.elem.length)

/-- The end of `operator--` (filesystem:1553-1563): the filename before `_Position`. -/
def prevName (s : Text) (d pos : Nat) : R It := do
  let p1 ← backWhile isSlash s d pos
  let p2 ← backWhile (fun c => !isSlash c) s d p1
  return ⟨p2, sub s p2 p1⟩

/-- `operator--` (filesystem:1518-1564). -/
def prev (s : Text) (it : It) : R It := do
  let e ← findRootNameEnd s
  let d ← findIf (fun c => !isSlash c) s e
  if e ≠ d ∧ it.pos = d then return ⟨e, sub s e d⟩
  else if 0 ≠ e ∧ it.pos = e then return ⟨0, sub s 0 e⟩
  else if it.pos = s.length then
    if it.pos = 0 then .error .ub
    else do
      let c ← rdc s (it.pos - 1)
      if isSlash c then return ⟨it.pos - 1, []⟩ else prevName s d it.pos
  else prevName s d it.pos

/-- `char_traits<wchar_t>::compare` (xstring: `_WChar_traits::compare`, `wmemcmp`): the sign of the first difference. -/
def wmemcmp : Text → Text → Nat → Int
  | a :: l, b :: m, n + 1 => if a < b then -1 else if b < a then 1 else wmemcmp l m n
  | _, _, _ => 0

/-- `_Range_compare` (filesystem:555-560) by `_Traits_compare` (__msvc_string_view.hpp:709-727). -/
def rangeCompare (a b : Text) : Int :=
  let ans := wmemcmp a b (min a.length b.length)
  if ans ≠ 0 then ans else if a.length < b.length then -1 else if b.length < a.length then 1 else 0

/-- A `bool` as an `int`. -/
def b2i (b : Bool) : Int := if b then 1 else 0

/-- The loop of `path::compare` (filesystem:1044-1071). -/
def cmpLoop (s t : Text) : Nat → Nat → Nat → R Int
  | 0, _, _ => .error .ub
  | fuel + 1, i, j => do
    let me := decide (i = s.length)
    let oe := decide (j = t.length)
    if me = true ∨ b2i oe - b2i me ≠ 0 then return b2i oe - b2i me
    else do
      let a ← rdc s i
      let b ← rdc t j
      if b2i (isSlash b) - b2i (isSlash a) ≠ 0 then return b2i (isSlash b) - b2i (isSlash a)
      else if isSlash a then do
        let i' ← findIf (fun c => !isSlash c) s (i + 1)
        let j' ← findIf (fun c => !isSlash c) t (j + 1)
        cmpLoop s t fuel i' j'
      else if (a.toNat : Int) - b.toNat ≠ 0 then return (a.toNat : Int) - b.toNat
      else cmpLoop s t fuel (i + 1) (j + 1)

/-- `path::compare` (filesystem:1019-1072). -/
def compare (s t : Text) : R Int := do
  let e ← findRootNameEnd s
  let f ← findRootNameEnd t
  if rangeCompare (sub s 0 e) (sub t 0 f) ≠ 0 then return rangeCompare (sub s 0 e) (sub t 0 f)
  else do
    let i ← findIf (fun c => !isSlash c) s e
    let j ← findIf (fun c => !isSlash c) t f
    if b2i (decide (e ≠ i)) - b2i (decide (f ≠ j)) ≠ 0 then return b2i (decide (e ≠ i)) - b2i (decide (f ≠ j))
    else cmpLoop s t (s.length + 1) i j

/-- `_Fnv1a_append_bytes` for the two bytes of a `wchar_t` (type_traits:2400-2408), on a 64-bit machine. -/
def fnvAppend (v : UInt64) (c : WChar) : UInt64 :=
  let v := (v ^^^ (c.toUInt64 &&& 255)) * 1099511628211
  (v ^^^ (c.toUInt64 >>> 8)) * 1099511628211

/-- The loop of `hash_value` (filesystem:1643-1657). -/
def hashLoop (s : Text) : Nat → Nat → Bool → UInt64 → R UInt64
  | 0, _, _, _ => .error .ub
  | fuel + 1, i, ins, v =>
    if i = s.length then return v
    else do
      let c ← rdc s i
      if isSlash c then
        if !ins then hashLoop s fuel (i + 1) true (fnvAppend v 92) else hashLoop s fuel (i + 1) ins v
      else hashLoop s fuel (i + 1) false (fnvAppend v c)

/-- `hash_value` (filesystem:1622-1660). -/
def hashValue (s : Text) : R UInt64 := do
  let e ← findRootNameEnd s
  hashLoop s (s.length + 1) e false ((sub s 0 e).foldl fnvAppend 14695981039346656037)

end STL.Path
