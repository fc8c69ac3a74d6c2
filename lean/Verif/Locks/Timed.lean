import Mathlib.Tactic.ClearExcept
import Verif.Conc.Base

/-!
# Model of `timed_mutex` and `recursive_timed_mutex`

`/repo/stl/inc/mutex:628-686` and `688-795`; the condition variable: `/repo/stl/inc/mutex:520-592`, `/repo/stl/src/cond.cpp:53-100`.

One mutex object, any finite set of threads. Each transition is one lock or unlock of the inner `mutex`, one test with the following stores (they happen with the inner
mutex held), one sleep, one wake-up or one notification; the interleavings are sequentially consistent. Trusted: the inner `mutex` excludes (`AcquireSRWLockExclusive`), a
sleep gives it up atomically, `notify_one` wakes one sleeping thread if there is one, and there may be spurious wake-ups.

The clock is not modelled: a timed sleep may end at any time (`timer`), and then `wait_until` either finds the time passed, or sleeps again without testing the predicate
(`mutex:573-585`, the loop in `wait_until`).
-/

namespace STL.Locks.Timed
open STL STL.Conc

/-- The operations: `lock`, `try_lock`, `try_lock_until`/`try_lock_for`, `unlock`. -/
inductive Op where
  | lock
  | tryLock
  | until
  | unlock
  deriving DecidableEq

/-- What an operation gives: success (`true` or normal return), `false`, the exception `resource_unavailable_try_again`. -/
inductive Out where
  | yes
  | no
  | again
  deriving DecidableEq

inductive PC where
  | idle
  /-- before the lock of the inner mutex -/
  | acq
  /-- locked, before the first test -/
  | crit
  /-- locked, at the test of `_My_locked`; `fin`: the time has passed -/
  | loop (fin : Bool)
  /-- asleep -/
  | slp
  /-- woken by a notification (or spuriously), before the lock -/
  | reN
  /-- woken by the timer, before the lock -/
  | reT
  /-- locked, before the look at the clock -/
  | critT
  /-- before the unlock; `nt`: `notify_one` follows -/
  | unl (o : Out) (nt : Bool)
  /-- before `notify_one` -/
  | ntf (o : Out)
  deriving DecidableEq

/-- Local state; ghost: how often the thread owns the mutex, and its completed operations. -/
structure Loc where
  pc : PC
  op : Op
  cnt : Nat
  done : List (Op × Out)

/-- The object: the owner of `_My_mutex`, `_My_locked`, `_My_owner`. -/
structure St (ι : Type) where
  own : Option ι
  locked : Nat
  owner : Option ι
  l : ι → Loc

variable {ι : Type} [DecidableEq ι]

def St.goto (s : St ι) (t : ι) (p : PC) : St ι := { s with l := upd s.l t { s.l t with pc := p } }

def St.ret (s : St ι) (t : ι) (o : Out) : St ι := { s with l := upd s.l t { s.l t with pc := .idle, done := (s.l t).done ++ [((s.l t).op, o)] } }

def St.addCnt (s : St ι) (t : ι) (n : Nat) : St ι := { s with l := upd s.l t { s.l t with cnt := n } }

/-- `UINT_MAX` -/
def uintMax : Nat := 4294967295

/-- The mutex is free, and is taken: `mutex:641`, `649`, `678`; `713`, `733`, `782`. -/
def take (rc : Bool) (s : St ι) (t : ι) : St ι :=
  (if rc then { s with locked := 1, owner := some t } else { s with locked := uintMax }).addCnt t 1

/-- The first test with the lock: `mutex:637`, `646`, `658`, `674`; `700-706`, `723-731`, `744-749`, `771-777`. -/
def critStep (rc : Bool) (s : St ι) (t : ι) : St ι :=
  match (s.l t).op with
  | .unlock =>
    if rc then
      if s.locked - 1 = 0 then ({ s with locked := 0, owner := none }.addCnt t ((s.l t).cnt - 1)).goto t (.unl .yes true)
      else ({ s with locked := s.locked - 1 }.addCnt t ((s.l t).cnt - 1)).goto t (.unl .yes false)
    else ({ s with locked := 0 }.addCnt t ((s.l t).cnt - 1)).goto t (.unl .yes true)
  | .tryLock =>
    if rc = true ∧ s.owner = some t then
      if s.locked < uintMax then ({ s with locked := s.locked + 1 }.addCnt t ((s.l t).cnt + 1)).goto t (.unl .yes false) else s.goto t (.unl .no false)
    else if s.locked ≠ 0 then s.goto t (.unl .no false) else (take rc s t).goto t (.unl .yes false)
  | o =>
    if rc = true ∧ s.owner = some t then
      if s.locked < uintMax then ({ s with locked := s.locked + 1 }.addCnt t ((s.l t).cnt + 1)).goto t (.unl .yes false)
      else s.goto t (.unl (if o = .lock then .again else .no) false)
    else s.goto t (.loop false)

/-- The test of `_My_locked`, `mutex:637`, `709`, and in `wait_until` with a predicate, `mutex:589-600`. -/
def loopStep (rc : Bool) (s : St ι) (t : ι) (fin : Bool) : St ι :=
  if s.locked = 0 then (take rc s t).goto t (.unl .yes false)
  else if fin then s.goto t (.unl .no false)
  else if (s.l t).op = .lock then { s with own := none }.goto t .slp
  else s.goto t .critT

/-- A notification, for one thread that sleeps on `_My_cond`. -/
def wake (s : St ι) (u : ι) : St ι := s.goto u .reN

/-- What `notify_one` may do: wake one sleeping thread, or nothing if there is none. -/
def notify [Fintype ι] (s : St ι) (c : Option ι) : Option (St ι) :=
  match c with
  | some u => if (s.l u).pc = .slp then some (wake s u) else none
  | none => if ∀ u, (s.l u).pc ≠ .slp then some s else none

/-- The next step of thread `t`; `b`: the time has passed; `c`: who is notified. -/
def advStep [Fintype ι] (rc : Bool) (s : St ι) (t : ι) (b : Bool) (c : Option ι) : Option (St ι) :=
  match (s.l t).pc with
  | .idle | .slp => none
  | .acq => if s.own = none then some ({ s with own := some t }.goto t .crit) else none
  | .crit => some (critStep rc s t)
  | .loop fin => some (loopStep rc s t fin)
  | .reN => if s.own = none then some ({ s with own := some t }.goto t (.loop false)) else none
  | .reT => if s.own = none then some ({ s with own := some t }.goto t .critT) else none
  -- `mutex:573-585`
  | .critT => some (if b then s.goto t (.loop true) else { s with own := none }.goto t .slp)
  | .unl o nt => some (if nt then { s with own := none }.goto t (.ntf o) else { s with own := none }.ret t o)
  | .ntf o => (notify s c).map fun s' => s'.ret t o

/-- What a thread can do. -/
inductive Act (ι : Type) where
  | start (o : Op)
  | adv (b : Bool) (c : Option ι)
  /-- a spurious wake-up -/
  | spur
  /-- the end of a timed sleep -/
  | timer

/-- A thread unlocks only a mutex that it owns. It locks `timed_mutex` only if it does not own it. -/
def step [Fintype ι] (rc : Bool) (s : St ι) (t : ι) : Act ι → Option (St ι)
  | .start o =>
    if (s.l t).pc = .idle ∧ (o = .unlock → 0 < (s.l t).cnt) ∧ (rc = false → o ≠ .unlock → (s.l t).cnt = 0) then
      some { s with l := upd s.l t { s.l t with pc := .acq, op := o } }
    else none
  | .adv b c => advStep rc s t b c
  | .spur => if (s.l t).pc = .slp then some (s.goto t .reN) else none
  | .timer => if (s.l t).pc = .slp ∧ (s.l t).op = .until then some (s.goto t .reT) else none

def init : St ι := { own := none, locked := 0, owner := none, l := fun _ => { pc := .idle, op := .lock, cnt := 0, done := [] } }

/-- The executions. -/
inductive Reach [Fintype ι] (rc : Bool) : St ι → Prop
  | init : Reach rc init
  | step {s s' : St ι} (t : ι) (a : Act ι) : Reach rc s → step rc s t a = some s' → Reach rc s'

end STL.Locks.Timed
