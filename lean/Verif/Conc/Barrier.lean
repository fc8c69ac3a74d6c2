import Verif.Conc.Base

/-!
# Model of `barrier`

`/repo/stl/inc/barrier:40-181`. One transition is one operation on an atomic object, one call of the completion function, one sleep. `atomic::wait(expected)` is the loop of `_Atomic_wait_direct`
(`/repo/stl/inc/atomic:411-436`): load, return if different from `expected`, otherwise `__std_atomic_wait_direct`, which sleeps if the value still equals `expected`.

Ghost fields, written but never read by the code: `exp0` (the argument of the constructor), `phase` (number of completed phases), `expc` (expected count of this phase), `arrived` (arrivals in this phase), `resv` (calls of `arrive_and_drop` between their two steps),
`drops` (calls of `arrive_and_drop`), `dropsThis` (in this phase), `runs` (calls of the completion function), the phase of a token or of a waiting thread.

The preconditions of the standard are checked on the ghost fields: a call that would violate one is not made (the state does not change). A failed `_STL_VERIFY` is `none`.
-/

namespace STL.Barrier
open STL STL.Conc

/-- Which function runs. -/
inductive Kind where
  | arrive | wait | arriveAndWait | drop
  deriving DecidableEq

inductive Pc where
  | idle
  /-- `arrive_and_drop`, between line 155 and line 159 -/
  | drop1
  /-- `_Completion`, before the load (line 164) -/
  | cLoad
  /-- before the call of the completion function (line 168) -/
  | cFn
  /-- before the store (line 171) -/
  | cStore
  /-- before `notify_all` (line 172) -/
  | cNotify
  /-- before the load of lines 120, 144 -/
  | wLoad
  /-- `_Current.wait(c)` (lines 126, 142), before its load -/
  | aLoad
  /-- `_Current.wait(c)`, before `__std_atomic_wait_direct` -/
  | aBlock
  | asleep
  deriving DecidableEq

/-- A token: the bit in it, ghost: its phase. (The address of the barrier in it is not modelled.) -/
structure Tok where
  bit : Nat
  ph : Nat

/-- The local variables: `_Current`, `_Arrival_value` (`bit`), `_Rem_count`. Ghost: the phase of the arrival. -/
structure Loc where
  pc : Pc := .idle
  kind : Kind := .arrive
  cur : Int := 0
  bit : Nat := 0
  rem : Int := 0
  ph : Nat := 0

structure St (ι : Type) where
  cur : Int
  total : Int
  toks : List Tok
  exp0 : Nat
  phase : Nat
  expc : Nat
  arrived : Nat
  resv : Nat
  drops : Nat
  dropsThis : Nat
  runs : Nat
  l : ι → Loc

inductive Act where
  | arrive (u : Nat)
  /-- `wait` with one of the tokens -/
  | wait (i : Nat)
  | arriveAndWait
  | arriveAndDrop
  | adv
  /-- spurious wake-up -/
  | spurious

variable {ι : Type} [DecidableEq ι]

/-- `x & _Barrier_arrival_token_mask`, line 40. -/
def bitOf (c : Int) : Nat := (c % 2).toNat

/-- `x & _Barrier_value_mask`, line 41. -/
def valOf (c : Int) : Int := c - c % 2

/-- Lines 96-109: `arrive`, after the test of its argument; also 132-139 for `arrive_and_wait`. `reserved`: the call belongs to an `arrive_and_drop`. -/
def arriveStep (s : St ι) (t : ι) (k : Kind) (u : Nat) (reserved : Bool) : Option (St ι) :=
  let c := s.cur - 2 * (u : Int)
  if c < 0 then none
  else
    let x : Loc := { pc := .idle, kind := k, cur := c, bit := bitOf c, rem := 0, ph := s.phase }
    let s' := { s with cur := c, arrived := s.arrived + u, resv := if reserved then s.resv - 1 else s.resv }
    if valOf c = 0 then some { s' with l := upd s.l t { x with pc := .cLoad } }
    else match k with
      | .arriveAndWait => some { s' with l := upd s.l t { x with pc := .aLoad } }
      | .arrive => some { s' with toks := s.toks ++ [⟨bitOf c, s.phase⟩], l := upd s.l t x }
      | _ => some { s' with l := upd s.l t x }

/-- The thread wakes. -/
def wake (x : Loc) : Loc := if x.pc = .asleep then { x with pc := .aLoad } else x

/-- A step of a call. -/
def advStep (s : St ι) (t : ι) : Option (St ι) :=
  let x := s.l t
  match x.pc with
  | .idle => some s
  -- line 159
  | .drop1 => arriveStep s t .drop 1 true
  -- lines 164-167
  | .cLoad => if s.total < 0 then none else some { s with l := upd s.l t { x with pc := .cFn, rem := s.total } }
  | .cFn => some { s with runs := s.runs + 1, l := upd s.l t { x with pc := .cStore } }
  -- lines 169-171 (`_Rem_count` is even)
  | .cStore =>
    some { s with cur := x.rem + (bitOf (x.cur + 1) : Int), phase := s.phase + 1, expc := s.exp0 - s.drops, arrived := 0, dropsThis := 0, l := upd s.l t { x with pc := .cNotify } }
  -- line 172, and the return of the token (line 109)
  | .cNotify =>
    let s' := { s with l := upd (fun u => wake (s.l u)) t { x with pc := .idle } }
    some (if x.kind = .arrive then { s' with toks := s.toks ++ [⟨x.bit, x.ph⟩] } else s')
  -- lines 120-126, 144-149
  | .wLoad =>
    if s.cur < 0 then none
    else some { s with l := upd s.l t (if bitOf s.cur ≠ x.bit then { x with pc := .idle } else { x with pc := .aLoad, cur := s.cur }) }
  | .aLoad => some { s with l := upd s.l t { x with pc := if s.cur = x.cur then .aBlock else .wLoad } }
  | .aBlock => some { s with l := upd s.l t { x with pc := if s.cur = x.cur then .asleep else .aLoad } }
  | .asleep => some s

/-- A transition of thread `t`. -/
def step (s : St ι) (t : ι) : Act → Option (St ι)
  | .adv => advStep s t
  | .spurious => some (if (s.l t).pc = .asleep then { s with l := upd s.l t { s.l t with pc := .aLoad } } else s)
  | .arrive u => if (s.l t).pc = .idle ∧ 0 < u ∧ s.arrived + s.resv + u ≤ s.expc then arriveStep s t .arrive u false else some s
  | .arriveAndWait => if (s.l t).pc = .idle ∧ s.arrived + s.resv + 1 ≤ s.expc then arriveStep s t .arriveAndWait 1 false else some s
  -- lines 153-158
  | .arriveAndDrop =>
    if (s.l t).pc = .idle ∧ s.arrived + s.resv + 1 ≤ s.expc then
      if s.total - 2 < 0 then none
      else some { s with total := s.total - 2, resv := s.resv + 1, drops := s.drops + 1, dropsThis := s.dropsThis + 1, l := upd s.l t { s.l t with pc := .drop1, kind := .drop } }
    else some s
  -- lines 112-117
  | .wait i =>
    match s.toks[i]? with
    | some k => if (s.l t).pc = .idle ∧ (k.ph = s.phase ∨ k.ph + 1 = s.phase) then
        some { s with toks := s.toks.eraseIdx i, l := upd s.l t { pc := .wLoad, kind := .wait, bit := k.bit, ph := k.ph } } else some s
    | none => some s

/-- Lines 80-85, 176. -/
def init (expected : Nat) : St ι := ⟨2 * expected, 2 * expected, [], expected, 0, expected, 0, 0, 0, 0, 0, fun _ => {}⟩

/-- Every interleaving. -/
inductive Reach (expected : Nat) : Option (St ι) → Prop
  | init : Reach expected (some (init expected))
  | step {s} (t : ι) (c : Act) : Reach expected (some s) → Reach expected (step s t c)

end STL.Barrier
