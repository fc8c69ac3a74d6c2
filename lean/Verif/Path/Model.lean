import Verif.Base
import Verif.Tac

/-!
# Model of `std::filesystem::path` text handling (stl/inc/filesystem)

A path is its native text `path::_Text`, a sequence of 16-bit `wchar_t` code units. Pointers into the text are offsets
from `_First` (`_First` = 0, `_Last` = the length of the text). Every read `*p` goes through `rdc`, which fails with
`Err.ub` outside the text, so that "never reads outside the text" is a consequence of the theorems.
-/

namespace STL.Path

/-- `wchar_t` on Windows: a 16-bit code unit. -/
abbrev WChar := UInt16
/-- `path::_Text` (filesystem:1406): a `wstring`. -/
abbrev Text := List WChar

/-- `*(_First + i)` for a pointer into the text; reading outside it is undefined behaviour. -/
def rdc (s : Text) (i : Nat) : R WChar :=
  match s[i]? with
  | some c => .ok c
  | none => .error .ub

/-- `_Is_slash_oper::operator()` (filesystem:346-350). 92 = `\`, 47 = `/`. -/
def isSlash (c : WChar) : Bool := c == 92 || c == 47

/-- `_Is_drive_prefix` (filesystem:355-364): the `memcpy` of two `wchar_t` into an `unsigned int` on a little-endian
machine, the mask, the subtraction (modulo 2^32) and the comparison. 58 = `:`, 65 = `A`. -/
def isDrivePrefix (s : Text) (f : Nat) : R Bool := do
  let c0 ← rdc s f
  let c1 ← rdc s (f + 1)
  let v : UInt32 := c0.toUInt32 ||| (c1.toUInt32 <<< 16)
  let v := v &&& 0xFFFFFFDF
  let v := v - (((58 : UInt32) <<< 16) ||| 65)
  return decide (v < 26)

/-- `_Has_drive_letter_prefix` (filesystem:366-369). -/
def hasDriveLetterPrefix (s : Text) : R Bool :=
  if s.length ≥ 2 then isDrivePrefix s 0 else .ok false

/-- The loop of `std::find_if` over `[i, i + n)`. -/
def findIfGo (p : WChar → Bool) (s : Text) : Nat → Nat → R Nat
  | 0, i => .ok i
  | n + 1, i => do
    let c ← rdc s i
    if p c then .ok i else findIfGo p s n (i + 1)

/-- `std::find_if(_First + i, _Last, p)`; `i` past the end is not a valid range. `find_if_not` is `findIf` of the
negated predicate. -/
def findIf (p : WChar → Bool) (s : Text) (i : Nat) : R Nat :=
  if s.length < i then .error .ub else findIfGo p s (s.length - i) i

/-- `while (_Root != _Last && p(_Last[-1])) { --_Last; }` — the loops of `_Parse_parent_path` (filesystem:471-478) and
`_Find_filename` (filesystem:486-488). Running below the start of the text is undefined behaviour. -/
def backWhile (p : WChar → Bool) (s : Text) (root : Nat) : Nat → R Nat
  | 0 => if root = 0 then .ok 0 else .error .ub
  | last + 1 =>
    if root = last + 1 then .ok (last + 1)
    else do
      let c ← rdc s last
      if p c then backWhile p s root last else .ok (last + 1)

/-- The condition for `\\?\$`, `\\.\$` and `\??\$` (filesystem:411-414), evaluated left to right with `&&`, `||`
short-circuiting as in the source. 63 = `?`, 46 = `.`. -/
def devicePrefix (s : Text) : R Bool :=
  if s.length ≥ 4 then do
    let c3 ← rdc s 3
    if isSlash c3 then do
      let c4ok ← (if s.length = 4 then .ok true else do return !isSlash (← rdc s 4) : R Bool)
      if c4ok then do
        let c1 ← rdc s 1
        let c2 ← rdc s 2
        return (isSlash c1 && (c2 == 63 || c2 == 46)) || (c1 == 63 && c2 == 63)
      else return false
    else return false
  else return false

/-- The condition for `\\server` (filesystem:418). -/
def serverPrefix (s : Text) : R Bool :=
  if s.length ≥ 3 then do
    let c1 ← rdc s 1
    if isSlash c1 then do
      let c2 ← rdc s 2
      return !isSlash c2
    else return false
  else return false

/-- `_Find_root_name_end` (filesystem:371-423). -/
def findRootNameEnd (s : Text) : R Nat := do
  if s.length < 2 then return 0
  if ← hasDriveLetterPrefix s then return 2
  let c0 ← rdc s 0
  if !isSlash c0 then return 0
  if ← devicePrefix s then return 3
  if ← serverPrefix s then findIf isSlash s 3
  else return 0

/-- `wstring_view(_First + i, _First + j)`. -/
def sub (s : Text) (i j : Nat) : Text := (s.take j).drop i

/-- `_Parse_root_name` (filesystem:425-430); `path::root_name` (1081-1084). -/
def rootName (s : Text) : R Text := do
  let e ← findRootNameEnd s
  return sub s 0 e

/-- `_Find_relative_path` (filesystem:432-435). -/
def findRelativePath (s : Text) : R Nat := do
  let e ← findRootNameEnd s
  findIf (fun c => !isSlash c) s e

/-- `_Parse_root_directory` (filesystem:437-444); `path::root_directory`. -/
def rootDirectory (s : Text) : R Text := do
  let e ← findRootNameEnd s
  let r ← findIf (fun c => !isSlash c) s e
  return sub s e r

/-- `_Parse_root_path` (filesystem:446-451); `path::root_path`. -/
def rootPath (s : Text) : R Text := do
  let r ← findRelativePath s
  return sub s 0 r

/-- `_Parse_relative_path` (filesystem:453-459); `path::relative_path`. -/
def relativePath (s : Text) : R Text := do
  let r ← findRelativePath s
  return sub s r s.length

/-- `_Parse_parent_path` (filesystem:461-481); `path::parent_path`. -/
def parentPath (s : Text) : R Text := do
  let r ← findRelativePath s
  let l ← backWhile (fun c => !isSlash c) s r s.length
  let l ← backWhile isSlash s r l
  return sub s 0 l

/-- `_Find_filename` (filesystem:483-491). -/
def findFilename (s : Text) : R Nat := do
  let r ← findRelativePath s
  backWhile (fun c => !isSlash c) s r s.length

/-- `_Parse_filename` (filesystem:493-499); `path::filename`. -/
def filename (s : Text) : R Text := do
  let f ← findFilename s
  return sub s f s.length

/-- `while (_Filename != --_Extension) { if (*_Extension == L'.') return _Extension; } return _Ads;`
(filesystem:522-530), entered with `_Extension = e`. -/
def extLoop (s : Text) (file ads : Nat) : Nat → R Nat
  | 0 => .error .ub
  | e + 1 =>
    if file = e then .ok ads
    else do
      let c ← rdc s e
      if c == 46 then .ok e else extLoop s file ads e

/-- `_Find_extension` (filesystem:501-531). -/
def findExtension (s : Text) (file ads : Nat) : R Nat := do
  if file = ads then return ads
  let e ← decIt ads
  if file = e then return ads
  let c ← rdc s e
  if c == 46 then
    if file + 1 = e then do
      let c' ← rdc s (e - 1)
      if c' == 46 then return ads else return e
    else return e
  else extLoop s file ads e

/-- The positions `_Filename`, `_Extension`, `_Ads` computed by `_Parse_stem`, `_Parse_extension` and
`replace_extension` (filesystem:535-540, 546-551, 886-890). -/
def stemParts (s : Text) : R (Nat × Nat × Nat) := do
  let f ← findFilename s
  let ads ← findIf (fun c => c == 58) s f
  let e ← findExtension s f ads
  return (f, e, ads)

/-- `_Parse_stem` (filesystem:533-542); `path::stem`. -/
def stem (s : Text) : R Text := do
  let (f, e, _) ← stemParts s
  return sub s f e

/-- `_Parse_extension` (filesystem:544-553); `path::extension`. -/
def extension (s : Text) : R Text := do
  let (_, e, ads) ← stemParts s
  return sub s e ads

/-- `path::is_absolute` (filesystem:1165-1179). -/
def isAbsolute (s : Text) : R Bool := do
  if ← hasDriveLetterPrefix s then
    if s.length ≥ 3 then return isSlash (← rdc s 2) else return false
  else do
    let e ← findRootNameEnd s
    return e != 0

/-- `path::remove_filename` (filesystem:848-856). -/
def removeFilename (s : Text) : R Text := do
  let f ← findFilename s
  return s.take f

/-- `path::replace_extension()` without argument (filesystem:884-894). -/
def removeExtension (s : Text) : R Text := do
  let (_, e, _) ← stemParts s
  return s.take e

/-- `path::replace_extension(const path&)` (filesystem:896-905). -/
def replaceExtension (s r : Text) : R Text := do
  let t ← removeExtension s
  if r ≠ [] then do
    let c ← rdc r 0
    if c != 46 then return t ++ [46] ++ r else return t ++ r
  else return t ++ r

/-- `path::operator/=(const path&)` (filesystem:705-767). `_Range_compare(...) != 0` is inequality of the two
root-names. -/
def append (s o : Text) : R Text := do
  if ← isAbsolute o then return o
  let me ← findRootNameEnd s
  let oe ← findRootNameEnd o
  if oe ≠ 0 ∧ sub s 0 me ≠ sub o 0 oe then return o
  let slashed ← (if oe ≠ o.length then do return isSlash (← rdc o oe) else .ok false : R Bool)
  let t ← (if slashed then .ok (s.take me)
    else if me = s.length then
      (if me ≥ 3 then .ok (s ++ [92]) else .ok s)
    else do
      let i ← decIt s.length
      let c ← rdc s i
      if !isSlash c then return s ++ [92] else return s : R Text)
  return t ++ o.drop oe

/-- `operator/(const path&, const path&)` (filesystem:1370-1401): the fast path for a right operand without root-name
and root-directory, otherwise `/=`. -/
def slashOp (l r : Text) : R Text := do
  let common ← (if r.length ≠ 0 then do
      if ← hasDriveLetterPrefix r then return false
      return !isSlash (← rdc r 0)
    else .ok false : R Bool)
  if common then do
    let justDrive ← (if l.length = 2 then isDrivePrefix l 0 else .ok false : R Bool)
    let needed ← (if l.length ≠ 0 ∧ !justDrive then do return !isSlash (← rdc l (l.length - 1)) else .ok false : R Bool)
    return l ++ (if needed then [92] else []) ++ r
  else append l r

/-- `path::replace_filename` (filesystem:879-882). -/
def replaceFilename (s r : Text) : R Text := do
  let t ← removeFilename s
  append t r

/-- `path::make_preferred` (filesystem:841-846) and the `replace` of `lexically_normal` (filesystem:1203). -/
def makePreferred (s : Text) : Text := s.map (fun c => if c = 47 then 92 else c)

/-- `L"."sv`, `L".."sv` (filesystem:1187-1188). -/
def dot : Text := [46]
/-- See `dot`. -/
def dotDot : Text := [46, 46]

/-- `_Vec.empty() || !_Vec.back().empty()` (filesystem:1225). -/
def needSep (vec : List Text) : Bool :=
  match vec.getLast? with
  | none => true
  | some b => decide (b ≠ [])

/-- The loop splitting the rest of the text into filenames and separators (filesystem:1222-1235). `vec` is `_Vec`; the
empty view stands for a separator. -/
def normSplit (s : Text) : Nat → Nat → List Text → R (List Text)
  | 0, _, _ => .error .fuel
  | n + 1, ptr, vec =>
    if ptr = s.length then .ok vec
    else do
      let c ← rdc s ptr
      if isSlash c then
        normSplit s n (ptr + 1) (if needSep vec then vec ++ [[]] else vec)
      else do
        let fe ← findIf isSlash s (ptr + 1)
        normSplit s n fe (vec ++ [sub s ptr fe])

/-- `_Vec[i]`. -/
def vget (v : List Text) (i : Nat) : R Text :=
  match v[i]? with
  | some x => .ok x
  | none => .error .ub

/-- `_Vec[i] = x`. -/
def vset (v : List Text) (i : Nat) (x : Text) : R (List Text) :=
  if i < v.length then .ok (v.set i x) else .error .ub

/-- The compaction loop of `lexically_normal` (filesystem:1243-1282), in place in `_Vec`; `ne` is `_New_end`, `pos` is
`_Pos`. Returns `_Vec` and `_New_end`. -/
def normLoop (rooted : Bool) : Nat → List Text → Nat → Nat → R (List Text × Nat)
  | 0, _, _, _ => .error .fuel
  | n + 1, vec, ne, pos =>
    if pos = vec.length then .ok (vec, ne)
    else do
      let elem ← vget vec pos
      let pos := pos + 1
      if elem = dot then
        if pos = vec.length then .ok (vec, ne)
        else normLoop rooted n vec ne (pos + 1)
      else if elem ≠ dotDot then do
        let vec ← vset vec ne elem
        let ne := ne + 1
        if pos = vec.length then .ok (vec, ne)
        else normLoop rooted n vec (ne + 1) (pos + 1)
      else do
        let back ← (if ne ≠ 0 then do
            if ne < 2 then .error .ub
            else return decide ((← vget vec (ne - 2)) ≠ dotDot)
          else .ok false : R Bool)
        if back then
          if pos = vec.length then .ok (vec, ne - 2)
          else normLoop rooted n vec (ne - 2) (pos + 1)
        else if !rooted then do
          let vec ← vset vec ne dotDot
          let ne := ne + 1
          if pos = vec.length then .ok (vec, ne)
          else normLoop rooted n vec (ne + 1) (pos + 1)
        else
          if pos = vec.length then .ok (vec, ne)
          else normLoop rooted n vec ne (pos + 1)

/-- "If the last filename is dot-dot, remove any trailing directory-separator" (filesystem:1284-1287). -/
def normPop (vec : List Text) : R (List Text) :=
  if vec.length ≥ 2 then do
    let b ← vget vec (vec.length - 1)
    if b = [] then do
      let c ← vget vec (vec.length - 2)
      if c = dotDot then return vec.dropLast else return vec
    else return vec
  else return vec

/-- Appending the views to `_Normalized` (filesystem:1289-1296). -/
def normFlat (vec : List Text) : Text := vec.flatMap (fun e => if e = [] then [92] else e)

/-- `path::lexically_normal` (filesystem:1186-1305). The skipping of further slashes of the root-directory
(filesystem:1218-1220) is a `find_if_not`. -/
def lexicallyNormal (s : Text) : R Text :=
  if s = [] then .ok []
  else do
    let e ← findRootNameEnd s
    let norm := makePreferred (sub s 0 e)
    let rooted ← (if e ≠ s.length then do return isSlash (← rdc s e) else .ok false : R Bool)
    let ptr ← (if rooted then findIf (fun c => !isSlash c) s (e + 1) else .ok e : R Nat)
    let norm := if rooted then norm ++ [92] else norm
    let vec ← normSplit s (s.length + 1) ptr []
    let (vec, ne) ← normLoop rooted (vec.length + 1) vec 0 0
    let vec ← (if ne ≤ vec.length then .ok (vec.take ne) else .error .ub : R (List Text))
    let vec ← normPop vec
    let norm := norm ++ normFlat vec
    if norm = [] then return dot else return norm

end STL.Path
