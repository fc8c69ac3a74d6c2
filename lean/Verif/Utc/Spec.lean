import Mathlib.Algebra.BigOperators.Group.Finset.Basic

/-!
The reference for UTC: a list of leap seconds (system time at which the changed count takes effect, and whether a second
was inserted or removed).
-/

namespace STL.Utc.Spec

variable (raw : List (Int × Bool))

/-- Date and sign of entry `k`. -/
def date (k : Nat) : Int := (raw.getD k (0, true)).1
def pos (k : Nat) : Bool := (raw.getD k (0, true)).2
def sgn (k : Nat) : Int := if pos raw k then 1 else -1

/-- Net number of seconds inserted by the first `k` entries. -/
def net (k : Nat) : Int := ∑ j ∈ Finset.range k, sgn raw j

/-- UTC second at which entry `k` starts to count: an inserted second is the one after the last second before the date;
after a removed second the date itself comes one earlier. -/
def start (k : Nat) : Int := date raw k + (if pos raw k then net raw k else net raw (k + 1))

/-- Sum of all leap seconds that have begun at UTC second `t`. -/
def elapsed (t : Int) : Int := ∑ k ∈ Finset.range raw.length, if start raw k ≤ t then sgn raw k else 0

/-- `t` is an inserted second. -/
def IsLeap (t : Int) : Prop := ∃ k < raw.length, pos raw k = true ∧ start raw k = t

/-- Sum of all leap seconds that took effect at system second `s`. -/
def offset (s : Int) : Int := ∑ k ∈ Finset.range raw.length, if date raw k ≤ s then sgn raw k else 0

/-- Leap seconds are further apart than there are leap seconds (they are months apart). -/
def Separated : Prop := ∀ k, k + 1 < raw.length → date raw k + raw.length + 3 ≤ date raw (k + 1)

end STL.Utc.Spec
