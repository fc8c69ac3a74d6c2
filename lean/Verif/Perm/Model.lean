import Verif.Reorder.Model

/-!
# Model of `next_permutation` and `prev_permutation`

Not modelled: iterator unwrapping and range verification, exceptions thrown by the user's swap or predicate. The ranges
versions (`algorithm:11605-11637, 11708-11741`) have the same loop with a projection composed into the predicate.
-/

namespace STL
variable {α : Type}

/-- `algorithm:11555-11558`: `do { --mid; } while (!pred(*next, *mid));`. -/
def nextPermMid (lt : α → α → Bool) (m : Mem α) (next mid : Nat) : R Nat :=
  if _h : mid = 0 then .error .ub
  else do
    let x ← rd m next
    let y ← rd m (mid - 1)
    if lt x y then .ok (mid - 1) else nextPermMid lt m next (mid - 1)
termination_by mid
decreasing_by omega

/-- `algorithm:11552-11569`: the `for (;;)` loop, at a point where the iterator `_UNext` is `next`. -/
def nextPermLoop (lt : α → α → Bool) (m : Mem α) (first next last : Nat) : R (Mem α × Bool) :=
  if _h : next = 0 then .error .ub
  else do
    let x ← rd m (next - 1)
    let y ← rd m next
    if lt x y then do
      let mid ← nextPermMid lt m (next - 1) last
      let m ← swp m (next - 1) mid
      let m ← reverse m next last
      .ok (m, true)
    else if next - 1 = first then do
      let m ← reverse m first last
      .ok (m, false)
    else nextPermLoop lt m first (next - 1) last
termination_by next
decreasing_by omega

/-- `next_permutation`, `algorithm:11541-11570`. -/
def nextPermutation (lt : α → α → Bool) (m : Mem α) (first last : Nat) : R (Mem α × Bool) :=
  if first = last then .ok (m, false)
  else if first = last - 1 then .ok (m, false)
  else nextPermLoop lt m first (last - 1) last

/-- `algorithm:11659-11662`: `do { --mid; } while (!pred(*mid, *next));`. -/
def prevPermMid (lt : α → α → Bool) (m : Mem α) (next mid : Nat) : R Nat :=
  if _h : mid = 0 then .error .ub
  else do
    let y ← rd m (mid - 1)
    let x ← rd m next
    if lt y x then .ok (mid - 1) else prevPermMid lt m next (mid - 1)
termination_by mid
decreasing_by omega

/-- `algorithm:11656-11674`: the `for (;;)` loop of `prev_permutation`. -/
def prevPermLoop (lt : α → α → Bool) (m : Mem α) (first next last : Nat) : R (Mem α × Bool) :=
  if _h : next = 0 then .error .ub
  else do
    let y ← rd m next
    let x ← rd m (next - 1)
    if lt y x then do
      let mid ← prevPermMid lt m (next - 1) last
      let m ← swp m (next - 1) mid
      let m ← reverse m next last
      .ok (m, true)
    else if next - 1 = first then do
      let m ← reverse m first last
      .ok (m, false)
    else prevPermLoop lt m first (next - 1) last
termination_by next
decreasing_by omega

/-- `prev_permutation`, `algorithm:11645-11675`. -/
def prevPermutation (lt : α → α → Bool) (m : Mem α) (first last : Nat) : R (Mem α × Bool) :=
  if first = last then .ok (m, false)
  else if first = last - 1 then .ok (m, false)
  else prevPermLoop lt m first (last - 1) last

end STL
