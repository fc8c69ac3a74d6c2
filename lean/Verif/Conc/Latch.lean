import Verif.Conc.Base

/-!
# Models of `latch` and `binary_semaphore`

`/repo/stl/inc/latch:31-89` and `/repo/stl/inc/semaphore:204-290`. Conventions as in `Verif.Conc.Semaphore`.
`atomic::wait(expected)` is the loop of `_Atomic_wait_direct` (`/repo/stl/inc/atomic:411-436`): load, return if different
from `expected`, otherwise `__std_atomic_wait_direct`, which sleeps if the value still equals `expected`.
-/

namespace STL.Latch
open STL STL.Conc

inductive PC where
  | idle
  /-- before `notify_all` (lines 51, 84); `aw`: this is `arrive_and_wait`, which then returns -/
  | notify (aw : Bool)
  /-- `wait`, before the load (line 66) -/
  | load
  /-- `_Counter.wait(c)` (lines 72, 87), before its load -/
  | wLoad (c : Nat)
  /-- `_Counter.wait(c)`, before `__std_atomic_wait_direct` -/
  | wBlock (c : Nat)
  | asleep (c : Nat)
  deriving DecidableEq

/-- `res = some true`: the last operation was a `wait` / `arrive_and_wait` that returned, or a `try_wait` that returned
`true`; `some false`: a `try_wait` that returned `false`. -/
structure Loc where
  pc : PC
  res : Option Bool

/-- `_Counter`, never negative since `count_down` is called within its precondition; the total counted down. -/
structure Shared where
  counter : Nat
  counted : Nat

structure State (ι : Type) where
  b : Shared
  l : ι → Loc

inductive Act where
  | countDown (u : Nat) | tryWait | wait | arriveAndWait (u : Nat)
  | adv
  /-- spurious wake-up -/
  | alt

def isAsleep (x : Loc) : Bool := match x.pc with | .asleep _ => true | _ => false
/-- Wake the thread if it sleeps. -/
def wakeL (x : Loc) : Loc := match x.pc with | .asleep c => { x with pc := .wLoad c } | _ => x

/-- A transition that changes only the latch and the acting thread. -/
def local_ (b : Shared) (me : Loc) (a : Act) : Option (Shared × Loc) :=
  let goto (pc : PC) : Option (Shared × Loc) := some (b, { me with pc := pc })
  match me.pc, a with
  -- count_down, lines 45-55
  | .idle, .countDown u =>
    if u ≤ b.counter then
      some (⟨b.counter - u, b.counted + u⟩, ⟨if b.counter - u = 0 then .notify false else .idle, none⟩)
    else none
  -- try_wait, lines 57-60
  | .idle, .tryWait => some (b, ⟨.idle, some (b.counter == 0)⟩)
  -- wait, lines 62-75
  | .idle, .wait => some (b, ⟨.load, none⟩)
  | .load, .adv => if b.counter = 0 then some (b, ⟨.idle, some true⟩) else goto (.wLoad b.counter)
  | .wLoad c, .adv => if b.counter = c then goto (.wBlock c) else goto .load
  | .wBlock c, .adv => if b.counter = c then goto (.asleep c) else goto (.wLoad c)
  | .asleep c, .alt => goto (.wLoad c)
  -- arrive_and_wait, lines 77-90
  | .idle, .arriveAndWait u =>
    if u ≤ b.counter then
      some (⟨b.counter - u, b.counted + u⟩, ⟨if b.counter - u = 0 then .notify true else .wLoad (b.counter - u), none⟩)
    else none
  | _, _ => none

variable {ι : Type} [DecidableEq ι]

/-- One transition of thread `t`. -/
def step (σ : State ι) (t : ι) (a : Act) : Option (State ι) :=
  match (σ.l t).pc, a with
  -- notify_all, lines 51, 84
  | .notify aw, .adv => some ⟨σ.b, upd (fun u => wakeL (σ.l u)) t ⟨.idle, if aw then some true else none⟩⟩
  | _, _ => (local_ σ.b (σ.l t) a).map (fun r => ⟨r.1, upd σ.l t r.2⟩)

/-- `latch(_Expected)`, lines 38-40. -/
def init (expected : Nat) : State ι := ⟨⟨expected, 0⟩, fun _ => ⟨.idle, none⟩⟩

end STL.Latch

namespace STL.BinSem
open STL STL.Conc

inductive PC where
  | idle
  /-- `release`, before `notify_one` (line 229) -/
  | notify
  /-- acquire loops, before `_Counter.exchange(0)` (lines 236, 260, 280) -/
  | xchg (tm : Bool)
  /-- `try_acquire_for` / `_until`: exchange saw 0, before the timeout test (lines 266, 287) -/
  | timeTest
  /-- `_Counter.wait(0)` (line 242), before its load -/
  | wLoad
  /-- before `__std_atomic_wait_direct` with expected value 0 -/
  | wBlock (tm : Bool)
  | asleep (tm : Bool)
  deriving DecidableEq

/-- Result of the last operation: `none` while it runs, and for `release`. -/
structure Loc where
  pc : PC
  res : Option Bool

/-- `_Counter` (an `unsigned char`); tokens released and acquired; whether an `_STL_VERIFY` of an acquire failed. -/
structure Shared where
  counter : Nat
  released : Nat
  acquired : Nat
  aborted : Bool

structure State (ι : Type) where
  b : Shared
  l : ι → Loc

inductive Act (ι : Type) where
  | release | acquire | tryAcquire | tryAcquireFor
  | adv
  /-- timeout, or spurious wake-up -/
  | alt
  /-- `notify_one` that wakes the sleeping thread `u` -/
  | wake (u : ι)

def isAsleep (x : Loc) : Bool := match x.pc with | .asleep _ => true | _ => false
/-- Wake the thread if it sleeps. -/
def wakeL (x : Loc) : Loc := match x.pc with | .asleep tm => { x with pc := if tm then .xchg true else .wLoad } | _ => x

/-- `_Prev = _Counter.exchange(0)` with the checks `_Prev == 1` / `_STL_VERIFY(_Prev == 0)`. -/
def xchg0 (b : Shared) : Shared :=
  ⟨0, b.released, if b.counter = 1 then b.acquired + 1 else b.acquired, b.aborted || decide (1 < b.counter)⟩

/-- A transition that changes only the semaphore and the acting thread. `release` is called within its precondition
`update <= max() - counter`. -/
def local_ {ι : Type} (b : Shared) (me : Loc) (a : Act ι) : Option (Shared × Loc) :=
  match me.pc, a with
  -- release, lines 221-230
  | .idle, .release => if b.counter = 0 then some ({ b with counter := 1, released := b.released + 1 }, ⟨.notify, none⟩) else none
  | .idle, .acquire => some (b, ⟨.xchg false, none⟩)
  | .idle, .tryAcquireFor => some (b, ⟨.xchg true, none⟩)
  -- try_acquire, lines 246-252
  | .idle, .tryAcquire => some (xchg0 b, ⟨.idle, some (b.counter == 1)⟩)
  -- acquire, lines 232-244; try_acquire_for, lines 254-272
  | .xchg tm, .adv =>
    if b.counter = 1 then some (xchg0 b, ⟨.idle, some true⟩)
    else some (xchg0 b, { me with pc := if tm then .timeTest else .wLoad })
  | .timeTest, .adv => some (b, { me with pc := .wBlock true })
  | .timeTest, .alt => some (b, ⟨.idle, some false⟩)
  -- _Atomic_wait_direct, atomic:415-435
  | .wLoad, .adv => some (b, { me with pc := if b.counter = 0 then .wBlock false else .xchg false })
  | .wBlock tm, .adv => some (b, { me with pc := if b.counter = 0 then .asleep tm else if tm then .xchg true else .wLoad })
  | .asleep _, .alt => some (b, wakeL me)
  | _, _ => none

variable {ι : Type} [DecidableEq ι] [Fintype ι]

/-- One transition of thread `t`. -/
def step (σ : State ι) (t : ι) (a : Act ι) : Option (State ι) :=
  match (σ.l t).pc, a with
  -- notify_one, line 229: wakes some sleeping thread, if there is one
  | .notify, .wake u =>
    if isAsleep (σ.l u) then some ⟨σ.b, upd (upd σ.l u (wakeL (σ.l u))) t ⟨.idle, none⟩⟩ else none
  | .notify, .adv => if ∀ u, isAsleep (σ.l u) = false then some ⟨σ.b, upd σ.l t ⟨.idle, none⟩⟩ else none
  | _, _ => (local_ σ.b (σ.l t) a).map (fun r => ⟨r.1, upd σ.l t r.2⟩)

/-- `counting_semaphore<1>(_Desired)`, lines 211-215. -/
def init (desired : Nat) : State ι := ⟨⟨desired, 0, 0, false⟩, fun _ => ⟨.idle, none⟩⟩

end STL.BinSem
