import Verif.Base
import Verif.Conc.Base

/-!
# Model of `atomic::wait`, `notify_one`, `notify_all` for the types that cannot use `WaitOnAddress`

`/repo/stl/src/atomic_wait.cpp` (wait table, wait lists, contexts on the stacks of the waiting threads) and the loops of `/repo/stl/inc/atomic` (lines 597-632, 1231-1259).

A transition system: one transition is one access to shared memory, one acquisition or release of a lock, one sleep. The comparison `_Are_equal` is one access
(`_Atomic_wait_compare_16_bytes` is one instruction, `_Atomic_wait_compare_non_lock_free` runs under the lock of the object). A condition variable may wake spuriously. Padding bits are not
modelled. Access to a context that has been destroyed, or through a null pointer, is undefined behaviour.

Ghost field: `ord`, written but never read.
-/

namespace STL.AWait
open STL.Conc

/-- A `_Wait_context`: the head of the list of an entry of the table, or the context in the frame of a waiting thread. -/
inductive Ptr (ι : Type) where
  | head (e : Nat)
  | ctx (t : ι)
  deriving DecidableEq

/-- `_Wait_context` (atomic_wait.cpp:23-28). The condition variable is the set of the threads that sleep on it: the owner of the context, or nobody. -/
structure Ctx (ι : Type) where
  storage : Option Nat
  next : Option (Ptr ι)
  prev : Option (Ptr ι)
  live : Bool

/-- `_Atomic_wait_table_entry` (atomic_wait.cpp:79-85): the index in the table. -/
def entryOf (a : Nat) : Nat :=
  let i := a ^^^ (a >>> 16)
  let i := i ^^^ (i >>> 8)
  i &&& 255

inductive Pc where
  | idle
  /-- `wait`, before the comparison (atomic:603, :1238) -/
  | load
  /-- `__std_atomic_wait_indirect`, before the acquisition of the lock (atomic_wait.cpp:155) -/
  | wLock
  /-- before the lines 157-160 -/
  | wInit
  /-- the constructor of the context: before line 32 -/
  | wLink0
  /-- before line 33 -/
  | wLink1
  /-- before line 34 -/
  | wLink2
  /-- before `_Are_equal`, line 164 -/
  | cmp
  /-- before `SleepConditionVariableSRW`, line 168 -/
  | wSleep
  | asleep
  /-- in `SleepConditionVariableSRW`, woken, before it acquires the lock again -/
  | wRelock
  /-- the destructor of the context: before line 40 -/
  | wUnlink0
  /-- before line 41 -/
  | wUnlink1
  /-- before the release of the lock -/
  | wUnlock
  /-- `__std_atomic_notify_one_indirect`, `__std_atomic_notify_all_indirect`: before the acquisition of the lock (lines 118, 136) -/
  | nLock
  /-- before lines 119, 137 -/
  | nHead
  /-- before the test of the loop and of the address (lines 125-126, 143-144) -/
  | nTest
  /-- before `WakeAllConditionVariable` (lines 128, 146) -/
  | nWake
  /-- before `_Context = _Context->_Next` -/
  | nNext
  /-- before the release of the lock -/
  | nUnlock
  deriving DecidableEq

/-- A thread: the address and the expected value; `all`: it is `notify_all`; `_Context` of the loop. -/
structure Th (ι : Type) where
  pc : Pc
  a : Nat := 0
  v : Nat := 0
  all : Bool := false
  cur : Option (Ptr ι) := none

/-- The values of the atomic objects, the locks of the entries, the contexts. Ghost: the threads whose context is in the list of an entry, in this order. -/
structure St (ι : Type) where
  val : Nat → Nat
  lock : Nat → Option ι
  mem : Ptr ι → Ctx ι
  l : ι → Th ι
  ord : Nat → List ι

/-- What a thread does next. -/
inductive Act where
  | wait (a v : Nat)
  | store (a v : Nat)
  | notify (all : Bool) (a : Nat)
  | adv
  /-- spurious wake-up -/
  | spurious

variable {ι : Type} [DecidableEq ι]

/-- Read a context. -/
def rdc (m : Ptr ι → Ctx ι) : Option (Ptr ι) → R (Ctx ι)
  | none => .error .ub
  | some p => if (m p).live = true then .ok (m p) else .error .ub

/-- `_P->_Next = _Q`. -/
def setNext (m : Ptr ι → Ctx ι) (p q : Option (Ptr ι)) : R (Ptr ι → Ctx ι) :=
  match p with
  | none => .error .ub
  | some p => if (m p).live = true then .ok (upd m p { m p with next := q }) else .error .ub

/-- `_P->_Prev = _Q`. -/
def setPrev (m : Ptr ι → Ctx ι) (p q : Option (Ptr ι)) : R (Ptr ι → Ctx ι) :=
  match p with
  | none => .error .ub
  | some p => if (m p).live = true then .ok (upd m p { m p with prev := q }) else .error .ub

/-- Thread `t` goes to a program point. -/
def goto (s : St ι) (t : ι) (pc : Pc) : St ι := { s with l := upd s.l t { s.l t with pc := pc } }

/-- `AcquireSRWLockExclusive`; a thread that has to wait stays where it is. -/
def acquire (s : St ι) (t : ι) (e : Nat) (pc : Pc) : St ι :=
  if s.lock e = none then { s with lock := upd s.lock e (some t), l := upd s.l t { s.l t with pc := pc } } else s

/-- `ReleaseSRWLockExclusive`. -/
def releaseTo (s : St ι) (t : ι) (e : Nat) (pc : Pc) : St ι := { s with lock := upd s.lock e none, l := upd s.l t { s.l t with pc := pc } }

/-- `WakeAllConditionVariable`. -/
def wake (x : Th ι) : Th ι := if x.pc = .asleep then { x with pc := .wRelock } else x

/-- A step of thread `t` in a call (atomic_wait.cpp:116-178). -/
def advStep (s : St ι) (t : ι) : R (St ι) :=
  let x := s.l t
  let e := entryOf x.a
  match x.pc with
  | .load => .ok (goto s t (if s.val x.a = x.v then .wLock else .idle))
  | .wLock => .ok (acquire s t e .wInit)
  | .wInit =>
    .ok { goto s t .wLink0 with
      mem := if (s.mem (.head e)).next = none then upd s.mem (.head e) { s.mem (.head e) with next := some (.head e), prev := some (.head e) } else s.mem }
  | .wLink0 => .ok { goto s t .wLink1 with mem := upd s.mem (.ctx t) ⟨some x.a, some (.head e), (s.mem (.head e)).prev, true⟩ }
  | .wLink1 => do
    let m ← setNext s.mem (s.mem (.ctx t)).prev (some (.ctx t))
    return { goto s t .wLink2 with mem := m }
  | .wLink2 => do
    let m ← setPrev s.mem (s.mem (.ctx t)).next (some (.ctx t))
    return { goto s t .cmp with mem := m, ord := upd s.ord e (s.ord e ++ [t]) }
  | .cmp => .ok (goto s t (if s.val x.a = x.v then .wSleep else .wUnlink0))
  | .wSleep => .ok (releaseTo s t e .asleep)
  | .asleep => .ok s
  | .wRelock => .ok (acquire s t e .cmp)
  | .wUnlink0 => do
    let m ← setPrev s.mem (s.mem (.ctx t)).next (s.mem (.ctx t)).prev
    return { goto s t .wUnlink1 with mem := m }
  | .wUnlink1 => do
    let m ← setNext s.mem (s.mem (.ctx t)).prev (s.mem (.ctx t)).next
    return { goto s t .wUnlock with mem := upd m (.ctx t) { m (.ctx t) with live := false }, ord := upd s.ord e ((s.ord e).erase t) }
  | .wUnlock => .ok (releaseTo s t e .load)
  | .nLock => .ok (acquire s t e .nHead)
  | .nHead =>
    let c := (s.mem (.head e)).next
    .ok { s with l := upd s.l t { x with pc := if c = none then .nUnlock else .nTest, cur := c } }
  | .nTest =>
    if x.cur = some (.head e) then .ok (goto s t .nUnlock)
    else do
      let c ← rdc s.mem x.cur
      return goto s t (if c.storage = some x.a then .nWake else .nNext)
  | .nWake =>
    match x.cur with
    | some (.ctx u) =>
      if (s.mem (.ctx u)).live = true then
        .ok { s with l := upd (upd s.l u (wake (s.l u))) t { x with pc := if x.all = true then .nNext else .nUnlock } }
      else .error .ub
    | _ => .error .ub
  | .nNext => do
    let c ← rdc s.mem x.cur
    return { s with l := upd s.l t { x with pc := .nTest, cur := c.next } }
  | .nUnlock => .ok (releaseTo s t e .idle)
  | .idle => .ok s

/-- A transition of thread `t`. An action that is not possible changes nothing. -/
def step (s : St ι) (t : ι) : Act → R (St ι)
  | .wait a v => .ok (if (s.l t).pc = .idle then { s with l := upd s.l t { pc := .load, a := a, v := v } } else s)
  | .store a v => .ok (if (s.l t).pc = .idle then { s with val := upd s.val a v } else s)
  | .notify all a => .ok (if (s.l t).pc = .idle then { s with l := upd s.l t { pc := .nLock, a := a, all := all } } else s)
  | .adv => advStep s t
  | .spurious => .ok (if (s.l t).pc = .asleep then goto s t .wRelock else s)

/-- The table is zero-initialised (atomic_wait.cpp:66-76). -/
def init (val : Nat → Nat) : St ι :=
  ⟨val, fun _ => none, fun p => match p with | .head _ => ⟨none, none, none, true⟩ | .ctx _ => ⟨none, none, none, false⟩, fun _ => { pc := .idle }, fun _ => []⟩

/-- Every interleaving. -/
inductive Reach (val : Nat → Nat) : Option (St ι) → Prop
  | init : Reach val (some (init val))
  | step {s} (t : ι) (c : Act) : Reach val (some s) → Reach val (step s t c).toOption

/-- A part of an execution along which a condition on the state holds. -/
inductive Path (P : St ι → Prop) : St ι → St ι → Prop
  | refl {s} : P s → Path P s s
  | step {s s' s''} (t : ι) (c : Act) : Path P s s' → step s' t c = .ok s'' → P s'' → Path P s s''

end STL.AWait
