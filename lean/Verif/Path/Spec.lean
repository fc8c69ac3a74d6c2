import Verif.Path.Model
import Mathlib.Logic.Relation

/-!
# Specification of path decomposition

Written on the text as a whole, in terms of "longest prefix of slashes" etc., without positions or loops.
-/

namespace STL.Path.Spec

/-- A directory separator character: `\` or `/`. -/
def slash (c : WChar) : Bool := c == 92 || c == 47
/-- Any other character. -/
def plain (c : WChar) : Bool := !slash c
/-- An ASCII letter. -/
def letter (c : WChar) : Prop := (65 ≤ c.toNat ∧ c.toNat ≤ 90) ∨ (97 ≤ c.toNat ∧ c.toNat ≤ 122)

instance (c : WChar) : Decidable (letter c) := by unfold letter; infer_instance

/-- The text starts with a drive: a letter and a colon. -/
def Drive : Text → Prop
  | c :: d :: _ => letter c ∧ d = 58
  | _ => False

/-- The text starts with one of the device prefixes `\\?\`, `\\.\`, `\??\`, not followed by a further slash. -/
def Device : Text → Prop
  | a :: b :: c :: d :: rest => slash a ∧ slash d ∧ (∀ e ∈ rest.head?, ¬ slash e) ∧
      ((slash b ∧ (c = 63 ∨ c = 46)) ∨ (b = 63 ∧ c = 63))
  | _ => False

/-- The text starts with exactly two slashes and something else: `\\server`. -/
def Server : Text → Prop
  | a :: b :: c :: _ => slash a ∧ slash b ∧ ¬ slash c
  | _ => False

instance (s : Text) : Decidable (Drive s) := by unfold Drive; split <;> infer_instance
instance (s : Text) : Decidable (Device s) := by unfold Device; split <;> infer_instance
instance (s : Text) : Decidable (Server s) := by unfold Server; split <;> infer_instance

/-- The root-name of a Windows path: a drive, a device prefix without its last separator, a server name, or nothing. -/
def rootName (s : Text) : Text :=
  if Drive s then s.take 2
  else if Device s then s.take 3
  else if Server s then s.take 2 ++ (s.drop 2).takeWhile plain
  else []

/-- What follows the root-name. -/
def afterName (s : Text) : Text := s.drop (rootName s).length
/-- The root-directory: the slashes directly after the root-name. -/
def rootDir (s : Text) : Text := (afterName s).takeWhile slash
/-- The relative-path: everything after root-name and root-directory. -/
def relative (s : Text) : Text := (afterName s).dropWhile slash

/-- The part of a text after its last slash. -/
def lastName (s : Text) : Text := (s.reverse.takeWhile plain).reverse
/-- The text without its last name. -/
def dropName (s : Text) : Text := (s.reverse.dropWhile plain).reverse
/-- The text without trailing slashes. -/
def dropSlashes (s : Text) : Text := (s.reverse.dropWhile slash).reverse

/-- The filename of a path. -/
def fileName (s : Text) : Text := lastName (relative s)

/-- The filename without an alternate data stream reference (`:` and what follows). -/
def noAds (n : Text) : Text := n.takeWhile (fun c => c != 58)

/-- Position of the last dot of `n`, if it has one. -/
def lastDot (n : Text) : Option Nat :=
  if (n.reverse.takeWhile (fun c => c != 46)).length < n.length
  then some (n.length - 1 - (n.reverse.takeWhile (fun c => c != 46)).length)
  else none

/-- Length of the stem: up to the last dot, except that `.`, `..` and names whose only dot is leading are all stem. -/
def stemLen (n : Text) : Nat :=
  match lastDot n with
  | none => n.length
  | some 0 => n.length
  | some k => if n = [46, 46] then n.length else k

/-- [fs.path.query] `is_absolute` for this implementation: a root-name other than a drive, or a drive with a
root-directory. -/
def Absolute (s : Text) : Prop := rootName s ≠ [] ∧ (Drive s → rootDir s ≠ [])

instance (s : Text) : Decidable (Absolute s) := by unfold Absolute; infer_instance

/-- [fs.path.append]/2-5, `operator/=`. -/
def append (s o : Text) : Text :=
  if Absolute o ∨ (rootName o ≠ [] ∧ rootName o ≠ rootName s) then o
  else if rootDir o ≠ [] then rootName s ++ afterName o
  else if fileName s ≠ [] ∨ (rootDir s = [] ∧ Absolute s) then s ++ [92] ++ afterName o
  else s ++ afterName o

/-! ## Normalization, [fs.path.generic]/6

A generic-format relative path is read as a list of tokens: a filename, or a directory-separator (one or more slashes).
The empty text stands for a directory-separator (filenames are not empty). -/

/-- The token of a directory-separator. -/
abbrev sep : Text := []
/-- The filename `.`. -/
abbrev dot : Text := [46]
/-- The filename `..`. -/
abbrev dotdot : Text := [46, 46]

/-- The tokens of a text: a slash joins a directory-separator directly after it, another character joins a filename
directly after it. -/
def tokens : Text → List Text
  | [] => []
  | c :: r =>
    if slash c then
      match tokens r with
      | [] :: ts => sep :: ts
      | ts => sep :: ts
    else
      match tokens r with
      | (d :: n) :: ts => (c :: d :: n) :: ts
      | ts => [c] :: ts

/-- The text of a list of tokens, with preferred separators. -/
def untokens (ts : List Text) : Text := ts.flatMap (fun e => if e = sep then [92] else e)

/-- "4. Remove each dot filename and any immediately following directory-separator." -/
inductive Rule4 : List Text → List Text → Prop
  | mid (a b : List Text) : Rule4 (a ++ [dot, sep] ++ b) (a ++ b)
  | last (a : List Text) : Rule4 (a ++ [dot]) a

/-- "5. As long as any appear, remove a non-dot-dot filename immediately followed by a directory-separator and a dot-dot
filename, along with any immediately following directory-separator." -/
inductive Rule5 : List Text → List Text → Prop
  | mid (a b : List Text) (x : Text) (hx : x ≠ sep ∧ x ≠ dotdot) : Rule5 (a ++ [x, sep, dotdot, sep] ++ b) (a ++ b)
  | last (a : List Text) (x : Text) (hx : x ≠ sep ∧ x ≠ dotdot) : Rule5 (a ++ [x, sep, dotdot]) a

/-- "6. If there is a root-directory, remove all dot-dot filenames and any directory-separators immediately following
them." -/
inductive Rule6 : List Text → List Text → Prop
  | mid (a b : List Text) : Rule6 (a ++ [dotdot, sep] ++ b) (a ++ b)
  | last (a : List Text) : Rule6 (a ++ [dotdot]) a

/-- `t` results from `s` by applying a rule until it no longer applies. -/
def Exhaust (rule : List Text → List Text → Prop) (s t : List Text) : Prop :=
  Relation.ReflTransGen rule s t ∧ ∀ u, ¬ rule t u

/-- "7. If the last filename is dot-dot, remove any trailing directory-separator." -/
inductive Rule7 : List Text → List Text → Prop
  | drop (a : List Text) : Rule7 (a ++ [dotdot, sep]) (a ++ [dotdot])
  | keep (a : List Text) (h : ¬ [dotdot, sep] <:+ a) : Rule7 a a

/-- Steps 3 to 7 on the tokens of the relative path. -/
def NormalTokens (rooted : Bool) (s t : List Text) : Prop :=
  ∃ t4 t5 t6, Exhaust Rule4 s t4 ∧ Exhaust Rule5 t4 t5 ∧ (if rooted then Exhaust Rule6 t5 t6 else t6 = t5) ∧ Rule7 t6 t

/-- Steps 1 to 8: `t` is a normalization of the path text `s`. -/
def Normalizes (s t : Text) : Prop :=
  if s = [] then t = []
  else ∃ ts, NormalTokens (decide (rootDir s ≠ [])) (tokens (relative s)) ts ∧
    ∃ root, root = (rootName s).map (fun c => if c = 47 then 92 else c) ++ (if rootDir s ≠ [] then [92] else []) ∧
    t = if root ++ untokens ts = [] then dot else root ++ untokens ts

end STL.Path.Spec
