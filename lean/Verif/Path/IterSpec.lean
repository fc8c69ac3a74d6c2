import Verif.Path.Spec

/-!
# The elements of a path, and the order of paths ([fs.path.itr], [fs.path.compare])
-/

namespace STL.Path.Spec

/-- The elements of a relative path: the filenames, and an empty one at the end if the text ends with a directory-separator. -/
def names (r : Text) : List Text :=
  if r = [] then []
  else r.takeWhile plain ::
    if r.dropWhile plain = [] then []
    else if (r.dropWhile plain).dropWhile slash = [] then [[]]
    else names ((r.dropWhile plain).dropWhile slash)
termination_by r.length
decreasing_by
  next h1 h2 h3 =>
  have e1 : (r.dropWhile plain).length ≤ r.length := (List.dropWhile_suffix _).length_le
  have e2 : ((r.dropWhile plain).dropWhile slash).length < (r.dropWhile plain).length := by
    cases h : r.dropWhile plain with
    | nil => exact absurd h h2
    | cons c q =>
      have hc : slash c = true := by
        have := List.head_dropWhile_not plain (l := r) h2
        simp only [h, List.head_cons, plain, Bool.not_eq_false'] at this
        simpa using this
      rw [List.dropWhile_cons_of_pos hc]
      exact Nat.lt_succ_of_le (List.dropWhile_suffix _).length_le
  omega

/-- [fs.path.itr]/4: the root-name if there is one, the root-directory if there is one, the elements of the relative path. -/
def elements (s : Text) : List Text :=
  (if rootName s = [] then [] else [rootName s]) ++ (if rootDir s = [] then [] else [rootDir s]) ++ names (relative s)

/-- Lexicographic comparison. -/
def lex {α : Type} (cmp : α → α → Ordering) : List α → List α → Ordering
  | [], [] => .eq
  | [], _ :: _ => .lt
  | _ :: _, [] => .gt
  | a :: l, b :: m => (cmp a b).then (lex cmp l m)

/-- Texts by their code units. -/
def cmpText : Text → Text → Ordering := lex fun a b => compare a.toNat b.toNat

/-- [fs.path.compare]: first the root-names, then a path with a root-directory is greater than one without, then the elements of the relative
paths, lexicographically. -/
def cmpPath (s t : Text) : Ordering :=
  (cmpText (rootName s) (rootName t)).then
    ((compare (if rootDir s = [] then 0 else 1) (if rootDir t = [] then 0 else 1)).then
      (lex cmpText (names (relative s)) (names (relative t))))

end STL.Path.Spec
