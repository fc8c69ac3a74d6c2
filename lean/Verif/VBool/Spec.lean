import Mathlib.Data.List.Basic

/-!
The reference: a sequence of Booleans as a list, with a largest size `mx`.
-/

namespace STL.VBool.Spec

/-- What a user may do to a `vector<bool>`. -/
inductive Op where
  | insertN (off count : Nat) (val : Bool)
  | insertRange (off : Nat) (l : List Bool)
  | erase (a b : Nat)
  | eraseAt (off : Nat)
  | resize (size : Nat) (val : Bool)
  | clear
  | flip
  | assignN (count : Nat) (val : Bool)
  | set (i : Nat) (b : Bool)

/-- Preconditions on positions. -/
def Op.valid (l : List Bool) : Op → Prop
  | .insertN off _ _ => off ≤ l.length
  | .insertRange off _ => off ≤ l.length
  | .erase a b => a ≤ b ∧ b ≤ l.length
  | .eraseAt off => off < l.length
  | .set i _ => i < l.length
  | _ => True

/-- The sequence after the operation, and whether `length_error` was thrown. -/
def Op.step (mx : Nat) (l : List Bool) : Op → List Bool × Bool
  | .insertN off count val =>
    if l.length + count ≤ mx then (l.take off ++ List.replicate count val ++ l.drop off, false) else (l, true)
  | .insertRange off r => if l.length + r.length ≤ mx then (l.take off ++ r ++ l.drop off, false) else (l, true)
  | .erase a b => (l.take a ++ l.drop b, false)
  | .eraseAt off => (l.take off ++ l.drop (off + 1), false)
  | .resize size val =>
    if size ≤ mx then (l.take size ++ List.replicate (size - l.length) val, false) else (l, true)
  | .clear => ([], false)
  | .flip => (l.map (fun b => !b), false)
  | .assignN count val => if count ≤ mx then (List.replicate count val, false) else ([], true)
  | .set i b => (l.set i b, false)

/-- A history from `l` with what it ends in and the throws seen; `none` where a precondition is violated. -/
inductive Run (mx : Nat) : List Bool → List Op → List Bool → List Bool → Prop where
  | nil (l) : Run mx l [] l []
  | cons {l op ops l' thr} : op.valid l → Run mx (op.step mx l).1 ops l' thr →
      Run mx l (op :: ops) l' ((op.step mx l).2 :: thr)

/-- Lexicographic order, `false` before `true`. -/
def lexCmp : List Bool → List Bool → Ordering
  | [], [] => .eq
  | [], _ :: _ => .lt
  | _ :: _, [] => .gt
  | a :: l, b :: r => if a = b then lexCmp l r else if b then .lt else .gt

end STL.VBool.Spec
