import Verif.Conc.Base

/-!
# Model of `stop_source::request_stop` and `stop_callback`

`/repo/stl/inc/stop_token:67-114` (`_Stop_state::_Request_stop`), `:247-296` (`_Do_attach`), `:306-353` (`_Detach`),
`:355-388` (`stop_callback`). One stop state, any finite set of threads `ι`, any type of callback objects `κ` (each object is
constructed at most once; an address is not reused). Each transition is one atomic operation, or one access section protected
by the lock `_Callbacks` (`_Locked_pointer`, taken as a lock: `_Lock_and_load` and `_Store_and_unlock` are single
transitions). The intrusive doubly linked list of callbacks is modelled with its `_Next` and `_Prev` pointers. The code of a
callback may call `request_stop`, construct and destroy callbacks, also the one that is running; the local state of a thread
therefore is a call stack. Simplifications: sequentially consistent interleavings; a `stop_source` exists throughout, so stop
is possible; the lifetime of the stop state (`_Stop_tokens`) is not modelled. A situation the representation of call stacks
cannot express sets the flag `bad`, like a failed `_STL_INTERNAL_CHECK` or an access to a callback outside its lifetime; the
flag is proved never to be set.
-/

namespace STL.StopToken
open STL STL.Conc

/-- Lifetime of a callback object. -/
inductive Life where
  | unborn | ctor | alive | dtor | dead
  deriving DecidableEq

/-- Position inside the loop of `_Request_stop`; `running k`: in the call `_Head->_Fn(_Head)`. -/
inductive Rs (κ : Type) where
  | off
  /-- before `_Stopping_thread = _Thrd_id()` -/
  | set
  /-- before `_Lock_and_load` -/
  | lock
  /-- before `_Current_callback.store(_Head)` -/
  | store
  /-- before `_Current_callback.notify_all()` -/
  | notify
  /-- before taking the head off the list and `_Store_and_unlock` -/
  | pop
  | running (k : κ)
  deriving DecidableEq

/-- Frames above it. -/
inductive Fr (κ : Type) where
  /-- `_Do_attach`, before the first load of `_Stop_sources` -/
  | atFast (k : κ)
  /-- before `_Lock_and_load` -/
  | atLock (k : κ)
  /-- holding the lock, before the second load of `_Stop_sources` -/
  | atLoad (k : κ)
  /-- holding the lock, stop seen requested: unlock and call -/
  | atCall (k : κ)
  /-- holding the lock, stop seen not requested: insert and unlock -/
  | atInsert (k : κ)
  /-- the callback is running, called by `_Do_attach` -/
  | crun (k : κ)
  /-- `_Detach`, before `_Lock_and_load` -/
  | dtLock (k : κ)
  /-- holding the lock -/
  | dtBody (k : κ)
  /-- `_Current_callback.wait(this)`, before its load -/
  | dtWait (k : κ)
  /-- before `__std_atomic_wait_direct` -/
  | dtBlock (k : κ)
  | asleep (k : κ)
  deriving DecidableEq

structure Loc (κ : Type) where
  rs : Rs κ
  stk : List (Fr κ)

/-- The stop state, the callbacks, and what happened. `won`: which thread's `request_stop` set the bit; `trueRet`, `falseRet`:
how many `request_stop` calls returned `true` / `false`; `runs`: how often a callback was called; `by_`: which thread
constructs / destroys a callback. -/
structure Sh (ι κ : Type) where
  stop : Bool
  lock : Option ι
  head : Option κ
  next : κ → Option κ
  prev : κ → Option κ
  parent : κ → Bool
  cur : Option κ
  stopper : Option ι
  life : κ → Life
  won : Option ι
  trueRet : Nat
  falseRet : Nat
  runs : κ → Nat
  by_ : κ → Option ι
  bad : Bool

structure State (ι κ : Type) where
  b : Sh ι κ
  l : ι → Loc κ

inductive Act (κ : Type) where
  | requestStop | construct (k : κ) | destroy (k : κ)
  /-- the running callback returns -/
  | ret
  | adv
  /-- spurious wake-up -/
  | alt

variable {ι κ : Type} [DecidableEq ι] [DecidableEq κ]

/-- Is the object within its lifetime? -/
def live (x : Life) : Bool := match x with | .ctor => true | .alive => true | .dtor => true | _ => false

def Sh.check (b : Sh ι κ) (ok : Bool) : Sh ι κ := { b with bad := b.bad || !ok }

/-- Is the thread in user code? -/
def user (x : Loc κ) : Bool :=
  match x.stk with
  | [] => match x.rs with | .off => true | .running _ => true | _ => false
  | .crun _ :: _ => true
  | _ => false

/-- Is the thread asleep in `_Current_callback.wait`? -/
def wakeL (x : Loc κ) : Loc κ := match x.stk with | .asleep k :: r => ⟨x.rs, .dtWait k :: r⟩ | _ => x

/-- `_Request_stop`, taking the head off the list and unlocking (lines 102-108). -/
def popHead (b : Sh ι κ) (k : κ) : Sh ι κ :=
  let n := b.next k
  let b := b.check (live (b.life k) && (b.prev k).isNone)
  let b := { b with next := upd b.next k none }
  let b := match n with | none => b | some m => { b.check (live (b.life m)) with prev := upd b.prev m none }
  { b with head := n, lock := none, runs := upd b.runs k (b.runs k + 1) }

/-- `_Do_attach`, the insertion (lines 278-295). -/
def insertCb (b : Sh ι κ) (k : κ) : Sh ι κ :=
  let b := { b with parent := upd b.parent k true, next := upd b.next k b.head }
  let b := match b.head with | none => b | some m => { b.check (live (b.life m)) with prev := upd b.prev m (some k) }
  { b with head := some k, lock := none, life := upd b.life k .alive }

/-- `_Detach`, removal of the head (lines 314-324). -/
def removeHead (b : Sh ι κ) (k : κ) : Sh ι κ :=
  let b := match b.next k with | none => b | some m => { b.check (live (b.life m)) with prev := upd b.prev m none }
  let b := b.check (b.prev k).isNone
  { b with head := b.next k, lock := none }

/-- `_Detach`, removal of a later element (lines 326-338). -/
def removeMid (b : Sh ι κ) (k p : κ) : Sh ι κ :=
  let b := match b.next k with | none => b | some m => { b.check (live (b.life m)) with prev := upd b.prev m (some p) }
  let b := b.check (live (b.life p))
  { b with next := upd b.next p (b.next k), lock := none }

/-- The destructor returns. -/
def Sh.die (b : Sh ι κ) (k : κ) : Sh ι κ := { b with life := upd b.life k .dead }

/-- A transition that changes only shared data and the acting thread `t`. -/
def local_ (t : ι) (b : Sh ι κ) (me : Loc κ) (a : Act κ) : Option (Sh ι κ × Loc κ) :=
  match me.stk, a with
  | .atFast k :: r, .adv => -- lines 255-265
    if b.stop then some ({ b with runs := upd b.runs k (b.runs k + 1) }, ⟨me.rs, .crun k :: r⟩) else some (b, ⟨me.rs, .atLock k :: r⟩)
  | .atLock k :: r, .adv => if b.lock.isNone then some ({ b with lock := some t }, ⟨me.rs, .atLoad k :: r⟩) else none -- line 268
  | .atLoad k :: r, .adv => some (b, ⟨me.rs, (if b.stop then .atCall k else .atInsert k) :: r⟩) -- lines 270-278
  | .atCall k :: r, .adv => -- lines 273-274
    some ({ b with lock := none, runs := upd b.runs k (b.runs k + 1) }, ⟨me.rs, .crun k :: r⟩)
  | .atInsert k :: r, .adv => some (insertCb b k, ⟨me.rs, r⟩)
  | .crun k :: r, .ret => some ({ b with life := upd b.life k .alive }, ⟨me.rs, r⟩)
  | .dtLock k :: r, .adv => if b.lock.isNone then some ({ b with lock := some t }, ⟨me.rs, .dtBody k :: r⟩) else none -- line 313
  | .dtBody k :: r, .adv =>
    if b.head = some k then some ((removeHead b k).die k, ⟨me.rs, r⟩)
    else match b.prev k with
      | some p => some ((removeMid b k p).die k, ⟨me.rs, r⟩)
      | none => -- lines 340-351
        let b := b.check b.stop
        if b.cur ≠ some k ∨ b.stopper = some t then some ({ b with lock := none }.die k, ⟨me.rs, r⟩)
        else some ({ b with lock := none }, ⟨me.rs, .dtWait k :: r⟩)
  | .dtWait k :: r, .adv => -- line 352; atomic:415-435
    if b.cur = some k then some (b, ⟨me.rs, .dtBlock k :: r⟩) else some (b.die k, ⟨me.rs, r⟩)
  | .dtBlock k :: r, .adv => if b.cur = some k then some (b, ⟨me.rs, .asleep k :: r⟩) else some (b, ⟨me.rs, .dtWait k :: r⟩)
  | .asleep k :: r, .alt => some (b, ⟨me.rs, .dtWait k :: r⟩)
  | [], .adv =>
    match me.rs with
    | .set => some ({ b with stopper := some t }, ⟨.lock, []⟩) -- line 92
    | .lock => if b.lock.isNone then some ({ b with lock := some t }, ⟨.store, []⟩) else none -- line 94
    | .store => some ({ b with cur := b.head }, ⟨.notify, []⟩) -- line 95
    | .pop => -- lines 97-111
      match b.head with
      | none => some ({ b with lock := none, trueRet := b.trueRet + 1 }, ⟨.off, []⟩)
      | some k => some (popHead b k, ⟨.running k, []⟩)
    | _ => none
  | [], .ret => match me.rs with | .running _ => some (b, ⟨.lock, []⟩) | _ => none
  | _, _ => none

/-- The operations user code can start. -/
def call (t : ι) (b : Sh ι κ) (me : Loc κ) (a : Act κ) : Option (Sh ι κ × Loc κ) :=
  match a with
  | .requestStop => -- lines 87-90
    if b.stop then some ({ b with falseRet := b.falseRet + 1 }, me)
    else some (({ b with stop := true, won := some t }).check (decide (me.rs = Rs.off) && me.stk.isEmpty), ⟨.set, []⟩)
  | .construct k => -- stop_callback constructor, lines 358-374
    if b.life k = .unborn then some ({ b with life := upd b.life k .ctor, by_ := upd b.by_ k (some t) }, ⟨me.rs, .atFast k :: me.stk⟩) else none
  | .destroy k => -- ~stop_callback, lines 376-378; _Detach, lines 307-311
    if b.life k = .alive then
      if b.parent k then some ({ b with life := upd b.life k .dtor, by_ := upd b.by_ k (some t) }, ⟨me.rs, .dtLock k :: me.stk⟩)
      else some ({ b with life := upd b.life k .dead, by_ := upd b.by_ k (some t) }, me)
    else none
  | _ => none

/-- One transition of thread `t`. -/
def step (σ : State ι κ) (t : ι) (a : Act κ) : Option (State ι κ) :=
  match (σ.l t).stk, (σ.l t).rs, a with
  -- _Current_callback.notify_all(), line 96
  | [], .notify, .adv => some ⟨σ.b, upd (fun u => wakeL (σ.l u)) t ⟨.pop, []⟩⟩
  | _, _, _ =>
    ((if user (σ.l t) then call t σ.b (σ.l t) a else none).or (local_ t σ.b (σ.l t) a)).map (fun r => ⟨r.1, upd σ.l t r.2⟩)

/-- A fresh `stop_source`. -/
def init : State ι κ :=
  ⟨⟨false, none, none, fun _ => none, fun _ => none, fun _ => false, none, none, fun _ => .unborn, none, 0, 0, fun _ => 0, fun _ => none, false⟩,
   fun _ => ⟨.off, []⟩⟩

end STL.StopToken
