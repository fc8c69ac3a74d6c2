import Verif.Random.Model

/-!
# Model of `sample`

`/repo/stl/inc/algorithm`, `_Sample_reservoir_unchecked` (6279-6305), `_Sample_selection_unchecked` (6307-6322), `sample` (6324-6355) and
`ranges::sample` (6366-6471). The population is the list of its elements; the output is the list of the elements written to
`[_Dest, result)`. Simplification: the sizes are mathematical integers (the casts between difference types keep the values under the
preconditions that are stated in the comments of the code).
-/

namespace STL.Rnd
open STL

/-- The loop of `_Sample_selection_unchecked`, `algorithm:6313-6320`: `_Pop_size`, the rest of the population, what was written, `_Count`. -/
def selLoop {α : Type} (E : Eng) : Nat → List α → List α → Nat → List Nat → G (List α × List Nat)
  | 0, _, d, _, l => .ok (d, l)
  | _ + 1, [], _, _, _ => .error .ub
  | p + 1, x :: a, d, c, l => do
    let r ← gen E (p + 1) l
    if r.1 < c then selLoop E p a (d ++ [x]) (c - 1) r.2 else selLoop E p a d c r.2

/-- The first loop of `_Sample_reservoir_unchecked`, `algorithm:6287-6297`: the rest of the population, `_Pop_size`, what was written. The result
is the output if the population ended, else the state at the start of the second loop. -/
def resFill {α : Type} (c : Nat) : List α → Nat → List α → List α × Nat × List α
  | [], pop, d => ([], pop, d)
  | x :: a, pop, d => if pop < c then resFill c a (pop + 1) (d ++ [x]) else (x :: a, pop, d)

/-- The second loop of `_Sample_reservoir_unchecked`, `algorithm:6298-6303`. -/
def resLoop {α : Type} (E : Eng) (c : Nat) : List α → Nat → List α → List Nat → G (List α × List Nat)
  | [], _, d, l => .ok (d, l)
  | x :: a, pop, d, l => do
    let r ← gen E (pop + 1) l
    if r.1 < c then
      if r.1 < d.length then resLoop E c a (pop + 1) (d.set r.1 x) r.2 else .error .ub
    else resLoop E c a (pop + 1) d r.2

/-- `sample` for forward iterators, `algorithm:6324-6355`. -/
def sample {α : Type} (E : Eng) (a : List α) (count : Int) (l : List Nat) : G (List α × List Nat) :=
  if 0 < count then
    let c := if count > (a.length : Int) then a.length else count.toNat
    selLoop E a.length a [] c l
  else .ok ([], l)

/-- `sample` for input iterators, `algorithm:6346-6351`; also `ranges::sample` with `_Reservoir_sample`, `algorithm:6438-6467`, which
is the same code. -/
def sampleInput {α : Type} (E : Eng) (a : List α) (count : Int) (l : List Nat) : G (List α × List Nat) :=
  if 0 < count then
    let r := resFill count.toNat a 0 []
    resLoop E count.toNat r.1 r.2.1 r.2.2 l
  else .ok ([], l)

/-- The loop of `ranges::_Sample_fn::_Selection_sample`, `algorithm:6422-6430`: it stops when `_Count` reaches zero. -/
def rselLoop {α : Type} (E : Eng) : Nat → List α → List α → Nat → List Nat → G (List α × List Nat)
  | 0, _, d, _, l => .ok (d, l)
  | _ + 1, [], _, _, _ => .error .ub
  | p + 1, x :: a, d, c, l => do
    let r ← gen E (p + 1) l
    if r.1 < c then
      if c - 1 = 0 then .ok (d ++ [x], r.2) else rselLoop E p a (d ++ [x]) (c - 1) r.2
    else rselLoop E p a d c r.2

/-- `ranges::sample` for forward iterators, `algorithm:6371-6386`, `algorithm:6408-6436`. -/
def rsample {α : Type} (E : Eng) (a : List α) (count : Int) (l : List Nat) : G (List α × List Nat) :=
  if count ≤ 0 then .ok ([], l)
  else
    let c := if count > (a.length : Int) then a.length else count.toNat
    rselLoop E a.length a [] c l

end STL.Rnd
