import Mathlib.Tactic.ClearExcept
import Verif.Conc.Base

/-!
# Model of `shared_timed_mutex`

`/repo/stl/inc/shared_mutex:67-205`; the condition variables: `/repo/stl/inc/mutex:520-592`.

One mutex object, any finite set of threads, with the steps and the trusted parts of `Verif.Locks.Timed`. `M` is `_Max_readers`, `UINT_MAX` in the code.
-/

namespace STL.Locks.Shared
open STL STL.Conc

/-- The operations: `lock`, `try_lock`, `try_lock_until`/`_for`, `unlock`, and the same for shared ownership. -/
inductive Op where
  | lock
  | tryLock
  | lockUntil
  | unlock
  | lockSh
  | trySh
  | shUntil
  | unlockSh
  deriving DecidableEq

/-- What is notified after the unlock of the inner mutex. -/
inductive Ntf where
  | non
  /-- `_Write_queue.notify_all()` -/
  | wAll
  /-- `_Read_queue.notify_one()` -/
  | rOne
  deriving DecidableEq

inductive PC where
  | idle
  /-- before the lock of the inner mutex -/
  | acq
  | crit
  /-- at the test for the sleep in `_Write_queue`; `fin`: the time has passed -/
  | wTest (fin : Bool)
  /-- asleep in `_Write_queue` -/
  | wSlp
  /-- woken by a notification (or spuriously), before the lock -/
  | wN
  /-- woken by the timer, before the lock -/
  | wT
  /-- before the look at the clock -/
  | wClk
  /-- the same for `_Read_queue`: the thread has set `_Writing` and waits for the readers to go -/
  | rTest (fin : Bool)
  | rSlp
  | rN
  | rT
  | rClk
  /-- before the unlock; the result; what follows -/
  | unl (o : Bool) (n : Ntf)
  /-- before the notification -/
  | ntf (o : Bool) (n : Ntf)
  deriving DecidableEq

/-- What the thread owns. -/
inductive Hold where
  | non
  | excl
  | shar
  deriving DecidableEq

/-- Local state; ghost: what the thread owns, and its completed operations. -/
structure Loc where
  pc : PC
  op : Op
  hold : Hold
  done : List (Op × Bool)

/-- The object: the owner of `_Mymtx`, `_Readers`, `_Writing`; ghost: the thread that has set `_Writing`. -/
structure St (ι : Type) where
  own : Option ι
  readers : Nat
  writing : Bool
  wr : Option ι
  l : ι → Loc

variable {ι : Type} [DecidableEq ι]

def St.goto (s : St ι) (t : ι) (p : PC) : St ι := { s with l := upd s.l t { s.l t with pc := p } }

def St.gotoH (s : St ι) (t : ι) (p : PC) (h : Hold) : St ι := { s with l := upd s.l t { s.l t with pc := p, hold := h } }

def St.ret (s : St ι) (t : ι) (o : Bool) : St ι := { s with l := upd s.l t { s.l t with pc := .idle, done := (s.l t).done ++ [((s.l t).op, o)] } }

/-- The first step with the lock: `shared_mutex:91-99` (`try_lock`), `131-139` (`unlock`), `150-158` (`try_lock_shared`), `182-198` (`unlock_shared`); the others go to their loops. -/
def critStep (M : Nat) (s : St ι) (t : ι) : St ι :=
  match (s.l t).op with
  | .tryLock =>
    if s.writing = true ∨ 0 < s.readers then s.goto t (.unl false .non) else { s with writing := true, wr := some t }.gotoH t (.unl true .non) .excl
  | .unlock => { s with writing := false, wr := none }.gotoH t (.unl true .wAll) .non
  | .trySh => if s.writing = true ∨ s.readers = M then s.goto t (.unl false .non) else { s with readers := s.readers + 1 }.gotoH t (.unl true .non) .shar
  | .unlockSh =>
    { s with readers := s.readers - 1 }.gotoH t
      (.unl true (if s.writing = true ∧ s.readers - 1 = 0 then .rOne else if s.writing = false ∧ s.readers - 1 = M - 1 then .wAll else .non)) .non
  | _ => s.goto t (.wTest false)

/-- The tests before the sleep in `_Write_queue`: `shared_mutex:81-85`, `115-119`, `143-147`, `174-179`. -/
def wTestStep (M : Nat) (s : St ι) (t : ι) (fin : Bool) : St ι :=
  let shared := decide ((s.l t).op = .lockSh ∨ (s.l t).op = .shUntil)
  let timed := decide ((s.l t).op = .lockUntil ∨ (s.l t).op = .shUntil)
  if s.writing = false ∧ (shared = true → s.readers ≠ M) then
    if shared then { s with readers := s.readers + 1 }.gotoH t (.unl true .non) .shar
    else { s with writing := true, wr := some t }.goto t (.rTest false)
  else if fin then s.goto t (.unl false .non)
  else if timed then s.goto t .wClk
  else { s with own := none }.goto t .wSlp

/-- The tests before the sleep in `_Read_queue`: `shared_mutex:86-88`, `121-128`. -/
def rTestStep (s : St ι) (t : ι) (fin : Bool) : St ι :=
  if s.readers = 0 then s.gotoH t (.unl true .non) .excl
  else if fin then { s with writing := false, wr := none }.goto t (.unl false .wAll)
  else if (s.l t).op = .lockUntil then s.goto t .rClk
  else { s with own := none }.goto t .rSlp

/-- `_Write_queue.notify_all()`. -/
def wakeAll (s : St ι) : St ι := { s with l := fun u => if (s.l u).pc = .wSlp then { s.l u with pc := .wN } else s.l u }

/-- `_Read_queue.notify_one()` wakes one sleeping thread, or does nothing if there is none. -/
def wakeOne [Fintype ι] (s : St ι) (c : Option ι) : Option (St ι) :=
  match c with
  | some u => if (s.l u).pc = .rSlp then some (s.goto u .rN) else none
  | none => if ∀ u, (s.l u).pc ≠ .rSlp then some s else none

/-- The next step of thread `t`; `b`: the time has passed; `c`: who is notified. -/
def advStep [Fintype ι] (M : Nat) (s : St ι) (t : ι) (b : Bool) (c : Option ι) : Option (St ι) :=
  match (s.l t).pc with
  | .idle | .wSlp | .rSlp => none
  | .acq => if s.own = none then some ({ s with own := some t }.goto t .crit) else none
  | .crit => some (critStep M s t)
  | .wTest fin => some (wTestStep M s t fin)
  | .wN => if s.own = none then some ({ s with own := some t }.goto t (.wTest false)) else none
  | .wT => if s.own = none then some ({ s with own := some t }.goto t .wClk) else none
  -- `mutex:563-578`
  | .wClk => some (if b then s.goto t (.wTest true) else { s with own := none }.goto t .wSlp)
  | .rTest fin => some (rTestStep s t fin)
  | .rN => if s.own = none then some ({ s with own := some t }.goto t (.rTest false)) else none
  | .rT => if s.own = none then some ({ s with own := some t }.goto t .rClk) else none
  | .rClk => some (if b then s.goto t (.rTest true) else { s with own := none }.goto t .rSlp)
  | .unl o n => some (if n = .non then { s with own := none }.ret t o else { s with own := none }.goto t (.ntf o n))
  | .ntf o .wAll => some ((wakeAll s).ret t o)
  | .ntf o .rOne => (wakeOne s c).map fun s' => s'.ret t o
  | .ntf o .non => some (s.ret t o)

/-- What a thread can do. -/
inductive Act (ι : Type) where
  | start (o : Op)
  | adv (b : Bool) (c : Option ι)
  /-- a spurious wake-up -/
  | spur
  /-- the end of a timed sleep -/
  | timer

/-- What a thread must own to start an operation. -/
def Op.needs : Op → Hold
  | .unlock => .excl
  | .unlockSh => .shar
  | _ => .non

def step [Fintype ι] (M : Nat) (s : St ι) (t : ι) : Act ι → Option (St ι)
  | .start o => if (s.l t).pc = .idle ∧ (s.l t).hold = o.needs then some { s with l := upd s.l t { s.l t with pc := .acq, op := o } } else none
  | .adv b c => advStep M s t b c
  | .spur => if (s.l t).pc = .wSlp then some (s.goto t .wN) else if (s.l t).pc = .rSlp then some (s.goto t .rN) else none
  | .timer =>
    if (s.l t).pc = .wSlp ∧ ((s.l t).op = .lockUntil ∨ (s.l t).op = .shUntil) then some (s.goto t .wT)
    else if (s.l t).pc = .rSlp ∧ (s.l t).op = .lockUntil then some (s.goto t .rT) else none

def init : St ι := { own := none, readers := 0, writing := false, wr := none, l := fun _ => { pc := .idle, op := .lock, hold := .non, done := [] } }

/-- The executions. -/
inductive Reach [Fintype ι] (M : Nat) : St ι → Prop
  | init : Reach M init
  | step {s s' : St ι} (t : ι) (a : Act ι) : Reach M s → step M s t a = some s' → Reach M s'

end STL.Locks.Shared
