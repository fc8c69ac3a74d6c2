import Verif.Conc.Base

/-!
# Model of `promise`, `packaged_task`, `future`, `shared_future` and `async(launch::deferred, ..)`

`/repo/stl/inc/future:217-468` (`_Associated_state`), `507-560` (`_Packaged_state`), `622-645` (`_Deferred_async_state`), `682-840` (`_State_manager`),
`865-990` (`future`, `shared_future`), `994-1114` (`_Promise`, `promise`), `1233-1299` (`packaged_task`); `/repo/stl/src/xnotify.cpp:31-103` (functions called at
thread exit); `/repo/stl/src/mutex.cpp:89-142, 149-162`, `/repo/stl/inc/mutex:51-55` (the mutex).

One associated state, any finite set of threads, any number of `shared_future` objects. Each transition is one access to the shared state, one lock or unlock,
one notification, one change of the reference count, or one call of the user's function. The interleavings are sequentially consistent.

The result type is default constructible (`_Has_stored_result` is set by `_Do_notify`, in the same transition here as the store of the result: both happen with
the mutex held, the only reader without the mutex is the destructor). Simplified: the reference count does not wrap; the allocator and the deleter, `reset`,
and moves and swaps of the provider are left out (a provider object may be used by all threads; futures are moved between threads with `give`); copying the
result does not throw; memory allocation does not fail; the block list of `xnotify.cpp` holds the one entry of this state.
-/

namespace STL.Future
open STL STL.Conc

/-- A result: a value, an exception, or the exception `future_error(broken_promise)`. -/
inductive Res where
  | val (n : Nat)
  | exc (n : Nat)
  | broken
  deriving DecidableEq

def Res.isExc : Res → Bool
  | .val _ => false
  | _ => true

/-- Who provides the result: a `promise`, a `packaged_task`, or a deferred function of `async`. -/
inductive Kind where
  | prom
  | task
  | dfr
  deriving DecidableEq

/-- The operations: `set_value`/`set_exception` (`ex`: `.._at_thread_exit`), the call of a `packaged_task` (`ex`: `make_ready_at_thread_exit`), destruction of
the provider; `future::get`, `shared_future::get`, `wait`, `wait_for`/`wait_until` (`sh`: of a `shared_future`), destruction of a `future` or `shared_future`. -/
inductive Op where
  | set (r : Res) (ex : Bool)
  | call (ex : Bool)
  | drop
  | get
  | sget
  | wait (sh : Bool)
  | waitFor (sh : Bool)
  | dropFut
  | dropSh
  deriving DecidableEq

/-- What an operation gives: the provider has stored a result, `promise_already_satisfied`, nothing in particular, the result, `ready`/`timeout`/`deferred`,
`future_already_retrieved`, `no_state`, or the exception `system_error(resource_deadlock_would_occur)`. -/
inductive Out where
  | okv (r : Res)
  | satisfied
  | unit
  | res (r : Res)
  | ready
  | timeout
  | deferred
  | already
  | nostate
  | deadlock
  deriving DecidableEq

/-- Where a thread is. -/
inductive PC where
  | idle
  /-- before the test of `_Ready` in `~promise` or `packaged_task::operator()` -/
  | chk
  /-- before the test at `future:1293` -/
  | chk2
  /-- before the call of the user's function -/
  | run
  /-- before the lock in `_Set_value`, `_Set_exception` or `_Abandon` -/
  | sLock (r : Res)
  /-- locked, before the test of `_Already_has_stored_result()` -/
  | sCrit (r : Res)
  /-- locked, the result has been stored -/
  | sRdy (r : Res)
  /-- locked, before `notify_all` -/
  | sNtf (r : Res)
  /-- before the unlock -/
  | sUnl (r : Res) (o : Out)
  /-- before the lock in `_Wait`, `_Wait_for` or `_Get_value` -/
  | wLock
  /-- locked, at the first test -/
  | wCrit
  /-- locked, before the unlock at `future:641` -/
  | wDef
  /-- before the lock at `future:643`, or woken up in `_Cond.wait`; `tm`: because of the timeout -/
  | wRelock (tm : Bool)
  /-- locked, at the test of `_Ready` -/
  | wLoop (tm : Bool)
  /-- asleep in `_Cond.wait` -/
  | wSleep
  /-- before the unlock -/
  | wUnl (o : Out)
  /-- before `_Release` -/
  | rel (o : Out)
  /-- in the destructor of the state, before the test at `future:230` -/
  | del (o : Out)
  /-- before `_Unregister` -/
  | del2 (o : Out)
  /-- before the memory is freed -/
  | del3 (o : Out)
  /-- in `_Cnd_do_broadcast_at_thread_exit`, before the store at `xnotify.cpp:92` -/
  | x1
  /-- before `_Cnd_broadcast` -/
  | x2
  /-- before `_Mtx_unlock` -/
  | x3
  /-- the thread has ended -/
  | exited
  deriving DecidableEq

/-- Local state: the number of `future` and `shared_future` objects of the thread, its position, the operation in progress; ghost: the operations it has
completed. -/
structure Loc where
  fut : Nat
  sh : Nat
  pc : PC
  op : Op
  done : List (Op × Out)

/-- The whole state: the owner of `_Mtx`, the stored result (`_Result`, `_Exception`, `_Has_stored_result`), `_Ready`, `_Retrieved`,
`_Running`, `_Refs`, how often the state was deleted, the thread registered for notification at its exit, the owner of `_Thread_exit_data_mutex`, whether the
provider object exists, its `_Future_retrieved`; `bad`: the state was used after it was freed; `term`: `terminate` was called. Ghost: how often the deferred
function was called, the provider operations that have stored a result, and the calls of the user's function with their results. -/
structure St (ι : Type) where
  own : Option ι
  stored : Option Res
  ready : Bool
  retrieved : Bool
  running : Bool
  refs : Nat
  freed : Nat
  reg : Option ι
  xm : Option ι
  prov : Bool
  frd : Bool
  bad : Bool
  term : Bool
  runs : Nat
  log : List (ι × Op)
  calls : List (ι × Res)
  l : ι → Loc

variable {ι : Type} [DecidableEq ι]

/-- The thread goes to `p`; the step uses the memory of the associated state. -/
def St.goto (s : St ι) (t : ι) (p : PC) : St ι := { s with bad := s.bad || decide (0 < s.freed), l := upd s.l t { s.l t with pc := p } }

/-- The operation is over. -/
def St.ret (s : St ι) (t : ι) (o : Out) : St ι :=
  { s with l := upd s.l t { s.l t with pc := .idle, done := (s.l t).done ++ [((s.l t).op, o)] } }

/-- `lock` of a mutex that the thread owns throws, `mutex:54`, `mutex.cpp:124-128`: in a destructor, this calls `terminate`; in `_Call_immediate` and
`_Call_deferred` (`r` is a value) it is caught at `future:533`, `551`; `get` destroys its local `future`. -/
def lockErr (s : St ι) (t : ι) (r : Res) : St ι :=
  match (s.l t).op with
  | .drop => { s with term := true }
  | .get => s.goto t (.rel .deadlock)
  | .call _ => if r.isExc then (s.goto t .idle).ret t .deadlock else s.goto t (.sLock (.exc 0))
  | _ => (s.goto t .idle).ret t .deadlock

/-- `lock`: it waits until the mutex is free. -/
def St.lock (s : St ι) (t : ι) (r : Res) (p : PC) : Option (St ι) :=
  if s.own = none then some ({ s with own := some t }.goto t p) else if s.own = some t then some (lockErr s t r) else none

/-- `_Mtx_unlock`, `mutex.cpp:149-162`. -/
def St.unlock (s : St ι) : St ι := { s with own := none }

/-- `notify_all`: the threads asleep on `_Cond` wake up. -/
def wake (x : Loc) : Loc :=
  match x.pc with
  | .wSleep => { x with pc := .wRelock false }
  | _ => x

/-- Is it an operation that waits? -/
def Op.waits : Op → Bool
  | .get | .sget | .wait _ | .waitFor _ => true
  | _ => false

/-- `.._at_thread_exit` -/
def Op.atExit : Op → Bool
  | .set _ ex | .call ex => ex
  | _ => false

/-- In `_Set_value_raw`, `_Set_exception_raw`, `_Abandon` with the lock, `future:345`, `365`, `381`, `407`: test and store. A throw in `~promise` calls
`terminate`, `future:1069`. -/
def critStep (k : Kind) (s : St ι) (t : ι) (r : Res) : St ι :=
  if s.stored.isSome then
    match (s.l t).op with
    | .drop => if k = .prom then { s with term := true } else s.goto t (.sUnl r .unit)
    | _ => s.goto t (.sUnl r .satisfied)
  else
    { s with stored := some r, log := if (s.l t).op.waits then s.log else s.log ++ [(t, (s.l t).op)] }.goto t (.sRdy r)

/-- After the unlock in `_Set_value`, `_Set_exception`, `_Abandon`. In `_Call_immediate` and `_Call_deferred`, `future:533`, `551`, the exception
`promise_already_satisfied` thrown by `_Set_value` is caught and stored in turn, which throws it again. -/
def afterSet (s : St ι) (t : ι) (r : Res) (o : Out) : St ι :=
  match (s.l t).op with
  | .call _ => if o = .satisfied ∧ r.isExc = false then s.goto t (.sLock (.exc 0)) else (s.goto t .idle).ret t o
  | .drop => s.goto t (.rel o)
  | .set _ _ => (s.goto t .idle).ret t o
  | _ => s.goto t (.wRelock false)

/-- `_Maybe_run_deferred_function`, `future:415-420`, and the overrides of `_Run_deferred_function`. -/
def maybeRun (k : Kind) (s : St ι) (t : ι) : St ι :=
  if s.running then s.goto t (.wLoop false)
  else if k = .dfr then { s with running := true }.goto t .wDef
  else { s with running := true }.goto t (.wLoop false)

/-- The stored exception, if any. -/
def excOf : Option Res → Option Res
  | some (.val _) => none
  | o => o

/-- The first tests with the lock: `_Wait` (`future:258`), `_Wait_for` (`276`), `_Get_value` (`303-315`). -/
def firstStep (k : Kind) (s : St ι) (t : ι) : St ι :=
  match (s.l t).op with
  | .waitFor _ => if k = .dfr ∧ s.running = false then s.goto t (.wUnl .deferred) else s.goto t (.wLoop false)
  | .get =>
    if s.retrieved then s.goto t (.wUnl .already)
    else match excOf s.stored with
      | some r => s.goto t (.wUnl (.res r))
      | none => maybeRun k { s with retrieved := true } t
  | .sget =>
    match excOf s.stored with
      | some r => s.goto t (.wUnl (.res r))
      | none => maybeRun k { s with retrieved := true } t
  | _ => maybeRun k s t

/-- What the operation gives when the state is ready: `future:280`, `320-330`. -/
def outOf (o : Op) (r : Option Res) : Out :=
  match o with
  | .get | .sget => .res (r.getD (.val 0))
  | _ => .ready

/-- The next step of thread `t`; `r`: the result of the user's function. -/
def advStep (k : Kind) (s : St ι) (t : ι) (r : Res) : Option (St ι) :=
  match (s.l t).pc with
  | .idle | .wSleep | .exited => none
  -- `future:1070`, `1278`, `1288`
  | .chk =>
    match (s.l t).op with
    | .drop => some (if s.ready then s.goto t (.rel .unit) else s.goto t (.sLock .broken))
    | .call ex => some (if s.ready then (s.goto t .idle).ret t .satisfied else s.goto t (if ex then .chk2 else .run))
    | _ => none
  -- `future:1293`
  | .chk2 => some (if s.stored.isSome then (s.goto t .idle).ret t .satisfied else s.goto t .run)
  | .run => if r = .broken then none else some ({ s with runs := if (s.l t).op.waits then s.runs + 1 else s.runs, calls := s.calls ++ [(t, r)] }.goto t (.sLock r))
  | .sLock r => s.lock t r (.sCrit r)
  | .sCrit r => some (critStep k s t r)
  -- `future:447-452`, `mutex:604`, `xnotify.cpp:31-61`
  | .sRdy r =>
    if (s.l t).op.atExit then
      if s.xm = none then some (({ s with reg := some t }.goto t .idle).ret t (.okv r)) else none
    else some ({ s with ready := true }.goto t (.sNtf r))
  | .sNtf r => some ({ s with l := fun u => wake (s.l u) }.goto t (.sUnl r (.okv r)))
  | .sUnl r o => some (afterSet s.unlock t r o)
  | .wLock => s.lock t (.exc 0) .wCrit
  | .wCrit => some (firstStep k s t)
  | .wDef => some (s.unlock.goto t .run)
  | .wRelock tm => s.lock t (.exc 0) (.wLoop tm)
  -- `future:259`, `280`, `317`; `cond.cpp:44-61`
  | .wLoop tm =>
    if s.ready then some (s.goto t (.wUnl (outOf (s.l t).op s.stored)))
    else if tm then some (s.goto t (.wUnl .timeout))
    else some ({ s with own := none }.goto t .wSleep)
  | .wUnl o =>
    match (s.l t).op with
    | .get => some (s.unlock.goto t (.rel o))
    | _ => some ((s.unlock.goto t .idle).ret t o)
  -- `future:244`
  | .rel o => some (if s.refs = 1 then { s with refs := 0 }.goto t (.del o) else ({ s with refs := s.refs - 1 }.goto t .idle).ret t o)
  -- `future:230`
  | .del o => some (s.goto t (if s.stored.isSome ∧ s.ready = false then .del2 o else .del3 o))
  -- `xnotify.cpp:63-80`
  | .del2 o => if s.xm = none then some ({ s with reg := none }.goto t (.del3 o)) else none
  | .del3 o => some { (s.goto t .idle).ret t o with freed := s.freed + 1 }
  -- `xnotify.cpp:91-98`
  | .x1 => some ({ s with ready := true }.goto t .x2)
  | .x2 => some ({ s with l := fun u => wake (s.l u) }.goto t .x3)
  | .x3 => some ({ s.unlock with reg := none, xm := none }.goto t .exited)

/-- Where an operation begins. `future:744-783`: a `future` (not a `shared_future`) is not valid if `_Retrieved` is set. -/
def startPC (k : Kind) (retrieved : Bool) : Op → PC × Option Out
  | .set r _ => (.sLock r, none)
  | .call _ => (.chk, none)
  | .drop => (if k = .prom then .chk else .sLock .broken, none)
  | .get => if retrieved then (.rel .nostate, none) else (.wLock, none)
  | .sget => (.wLock, none)
  | .wait sh | .waitFor sh => if sh = false ∧ retrieved then (.idle, some .nostate) else (.wLock, none)
  | .dropFut | .dropSh => (.rel .unit, none)

/-- May the thread call the operation: the provider exists, or the thread has the `future` or `shared_future`. -/
def canStart (k : Kind) (s : St ι) (x : Loc) : Op → Bool
  | .set r _ => s.prov && decide (k = .prom) && decide (r ≠ .broken)
  | .call _ => s.prov && decide (k = .task)
  | .drop => s.prov
  | .get | .dropFut => decide (0 < x.fut)
  | .sget | .dropSh => decide (0 < x.sh)
  | .wait sh | .waitFor sh => if sh then decide (0 < x.sh) else decide (0 < x.fut)

/-- The objects after the call: `get` (`future:885`) moves from the `future`. -/
def takes (x : Loc) : Op → Loc
  | .get | .dropFut => { x with fut := x.fut - 1 }
  | .dropSh => { x with sh := x.sh - 1 }
  | _ => x

/-- Does the operation end the life of the provider? -/
def Op.isDrop : Op → Bool
  | .drop => true
  | _ => false

/-- Call of an operation. -/
def startStep (k : Kind) (s : St ι) (t : ι) (o : Op) : St ι :=
  let s' : St ι := { s with prov := s.prov && !o.isDrop, l := upd s.l t { takes (s.l t) o with op := o } }
  match startPC k s.retrieved o with
  | (p, none) => s'.goto t p
  | (p, some out) => (s'.goto t p).ret t out

/-- What a thread can do. -/
inductive Act (ι : Type) where
  | start (o : Op)
  | adv (r : Res)
  /-- a spurious wake-up, or the timeout of `wait_for` -/
  | wakeup (tm : Bool)
  /-- `get_future`, `future:1081`, `1022-1033`; the `future` goes to `u` -/
  | getFuture (u : ι)
  /-- `share`, `future:889` -/
  | share
  /-- copy of a `shared_future` -/
  | copy
  /-- move of a `future` or `shared_future` to thread `u` -/
  | giveFut (u : ι)
  | giveSh (u : ι)
  /-- the end of the thread -/
  | exit

def step (k : Kind) (s : St ι) (t : ι) : Act ι → Option (St ι)
  | .start o => if (s.l t).pc = .idle ∧ canStart k s (s.l t) o then some (startStep k s t o) else none
  | .adv r => advStep k s t r
  | .wakeup tm =>
    if (s.l t).pc = .wSleep ∧ (tm = true → ∃ b, (s.l t).op = .waitFor b) then some (s.goto t (.wRelock tm)) else none
  | .getFuture u =>
    if (s.l t).pc = .idle ∧ s.prov ∧ s.frd = false then
      some ({ s with frd := true, refs := s.refs + 1, l := upd s.l u { s.l u with fut := (s.l u).fut + 1 } }.goto t .idle)
    else none
  | .share =>
    if (s.l t).pc = .idle ∧ 0 < (s.l t).fut then some { s with l := upd s.l t { s.l t with fut := (s.l t).fut - 1, sh := (s.l t).sh + 1 } } else none
  | .copy =>
    if (s.l t).pc = .idle ∧ 0 < (s.l t).sh then
      some ({ s with refs := s.refs + 1, l := upd s.l t { s.l t with sh := (s.l t).sh + 1 } }.goto t .idle)
    else none
  | .giveFut u =>
    if (s.l t).pc = .idle ∧ 0 < (s.l t).fut then
      let l1 := upd s.l t { s.l t with fut := (s.l t).fut - 1 }
      some { s with l := upd l1 u { l1 u with fut := (l1 u).fut + 1 } }
    else none
  | .giveSh u =>
    if (s.l t).pc = .idle ∧ 0 < (s.l t).sh then
      let l1 := upd s.l t { s.l t with sh := (s.l t).sh - 1 }
      some { s with l := upd l1 u { l1 u with sh := (l1 u).sh + 1 } }
    else none
  -- `thread:61`, `xnotify.cpp:82-103`
  | .exit =>
    if (s.l t).pc = .idle ∧ s.xm = none then
      if s.reg = some t then some { s with xm := some t, l := upd s.l t { s.l t with pc := .x1 } }
      else some { s with l := upd s.l t { s.l t with pc := .exited } }
    else none

/-- A new state, and the object that holds the only reference to it: a provider (`future:1057`, `1245`), or the `future` returned by `async` to thread `t0`. -/
def init (k : Kind) (t0 : ι) : St ι :=
  { own := none, stored := none, ready := false, retrieved := false, running := false, refs := 1, freed := 0, reg := none, xm := none,
    prov := decide (k ≠ .dfr), frd := decide (k = .dfr), bad := false, term := false, runs := 0, log := [], calls := [],
    l := fun u => { fut := if k = .dfr ∧ u = t0 then 1 else 0, sh := 0, pc := .idle, op := .drop, done := [] } }

end STL.Future
