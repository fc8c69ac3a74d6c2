import Mathlib.Data.Fintype.Basic
import Verif.Conc.Base

/-!
# Model of `std::lock`, `std::try_lock` and `scoped_lock`

`/repo/stl/inc/mutex:268-420` and `scoped_lock`, `452-512`.

Any set `κ` of mutexes, each with an owner; any set of threads. A step is one call of `lock`, `try_lock` or `unlock` of one mutex. The mutexes exclude; `lock` blocks while
the mutex is owned; `lock` and `try_lock` may throw, and then do not take the mutex; `try_lock` may also fail without a reason, as the standard permits.

The functions for two locks (`_Lock_attempt_small`, and `try_lock` with two arguments) make the same calls in the same order as the general ones with two locks, so
one model stands for both: the lock that failed is the next one to be locked, and of two locks that is the other one.
-/

namespace STL.Locks.Multi
open STL STL.Conc

/-- The result of a call: normal return (for `try_lock`: `-1`), the index `try_lock` gives, an exception. -/
inductive Res where
  | ok
  | fail (k : Nat)
  | threw
  deriving DecidableEq

/-- What follows when all locks are given back. -/
inductive Next where
  | again (k : Nat)
  | ret (r : Res)
  deriving DecidableEq

inductive PC where
  | idle
  /-- before `lock` of the lock with index `h`, `mutex:270` -/
  | hard (h : Nat)
  /-- before `try_lock` of the lock with index `k`; `h`: the one that was locked first (`none`: this is `std::try_lock`), `mutex:334` -/
  | tr (h : Option Nat) (k : Nat)
  /-- the locks that are still to be unlocked -/
  | undo (us : List Nat) (n : Next)
  /-- all locks are held, before the return -/
  | fin
  deriving DecidableEq

/-- Local state: the function (`try_lock` or `lock`) and its arguments; ghost: the mutexes that the thread owns otherwise, and the last call with its result. -/
structure Loc (κ : Type) where
  pc : PC
  isTry : Bool
  ms : List κ
  pre : List κ
  last : Option (List κ × Bool × Res)

structure St (ι κ : Type) where
  owner : κ → Option ι
  l : ι → Loc κ

variable {ι κ : Type} [DecidableEq ι] [DecidableEq κ]

/-- `_Unlock_locks(first, last)`, `mutex:286-294`. -/
def unlockRange (first last : Nat) : List Nat := (List.range last).filter fun i => decide (first ≤ i)

/-- What the guards unlock when `try_lock` of the lock `k` fails or throws: `_Try_lock_range` unlocks what it has got, `mutex:331`, and `_Lock_attempt` from `_Backout_start` to the
first lock, `mutex:372-375`, `378`. -/
def backout (h : Option Nat) (k : Nat) : List Nat :=
  match h with
  | none => unlockRange 0 k
  | some h => if k < h then unlockRange 0 k ++ unlockRange h (h + 1) else unlockRange (h + 1) k ++ unlockRange 0 (h + 1)

/-- The position after `k` locks have been tried or passed by: `mutex:333`, `377-380`. -/
def nextPC (h : Option Nat) (k n : Nat) : PC :=
  let k' := if h = some k then k + 1 else k
  if k' < n then .tr h k' else .fin

def setPC (s : St ι κ) (t : ι) (p : PC) : St ι κ := { s with l := upd s.l t { s.l t with pc := p } }

/-- The end of a call. -/
def retStep (s : St ι κ) (t : ι) (r : Res) : St ι κ :=
  { s with l := upd s.l t { s.l t with pc := .idle, pre := if r = .ok then (s.l t).ms ++ (s.l t).pre else (s.l t).pre, last := some ((s.l t).ms, (s.l t).isTry, r) } }

/-- What happens in a call of a member of one lock. -/
inductive Env where
  | fine
  | throws
  /-- `try_lock` fails without a reason -/
  | spurious
  deriving DecidableEq

def take (s : St ι κ) (t : ι) (m : κ) : St ι κ := { s with owner := upd s.owner m (some t) }

def give (s : St ι κ) (m : κ) : St ι κ := { s with owner := upd s.owner m none }

/-- The next step of a thread in a call. -/
def advStep (s : St ι κ) (t : ι) (e : Env) : Option (St ι κ) :=
  let x := s.l t
  match x.pc with
  | .idle => none
  | .hard h =>
    (x.ms[h]?).bind fun m =>
      match e with
      | .throws => some (retStep s t .threw)
      | .spurious => none
      | .fine => if s.owner m = none then some (setPC (take s t m) t (nextPC (some h) 0 x.ms.length)) else none
  | .tr h k =>
    (x.ms[k]?).bind fun m =>
      match e with
      | .throws => some (setPC s t (.undo (backout h k) (.ret .threw)))
      | .spurious => some (setPC s t (.undo (backout h k) (if h.isSome then .again k else .ret (.fail k))))
      | .fine =>
        if s.owner m = none then some (setPC (take s t m) t (nextPC h (k + 1) x.ms.length))
        else some (setPC s t (.undo (backout h k) (if h.isSome then .again k else .ret (.fail k))))
  | .undo (u :: us) n => (x.ms[u]?).map fun m => setPC (give s m) t (.undo us n)
  | .undo [] (.again k) => some (setPC s t (.hard k))
  | .undo [] (.ret r) => some (retStep s t r)
  | .fin => some (retStep s t .ok)

/-- What a thread can do: start `lock(ms...)` or `try_lock(ms...)`, unlock a mutex it owns, go on. -/
inductive Act (κ : Type) where
  | lock (ms : List κ)
  | tryLock (ms : List κ)
  | unlock (m : κ)
  | adv (e : Env)

def step (s : St ι κ) (t : ι) : Act κ → Option (St ι κ)
  | .lock ms =>
    if (s.l t).pc = .idle ∧ ms.Nodup ∧ ms ≠ [] ∧ ∀ m ∈ ms, s.owner m ≠ some t then some { s with l := upd s.l t { s.l t with pc := .hard 0, isTry := false, ms := ms } } else none
  | .tryLock ms =>
    if (s.l t).pc = .idle ∧ ms.Nodup ∧ ms ≠ [] ∧ ∀ m ∈ ms, s.owner m ≠ some t then some { s with l := upd s.l t { s.l t with pc := .tr none 0, isTry := true, ms := ms } } else none
  | .unlock m =>
    if (s.l t).pc = .idle ∧ s.owner m = some t then
      some { owner := upd s.owner m none, l := upd s.l t { s.l t with pre := (s.l t).pre.filter fun x => decide (x ≠ m), last := none } }
    else none
  | .adv e => advStep s t e

def init : St ι κ := { owner := fun _ => none, l := fun _ => { pc := .idle, isTry := false, ms := [], pre := [], last := none } }

/-- The executions. -/
inductive Reach : St ι κ → Prop
  | init : Reach init
  | step {s s' : St ι κ} (t : ι) (a : Act κ) : Reach s → step s t a = some s' → Reach s'

end STL.Locks.Multi
