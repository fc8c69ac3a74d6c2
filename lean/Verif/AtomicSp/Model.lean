import Verif.Conc.Base

/-!
# Model of `atomic<shared_ptr<T>>`

`/repo/stl/inc/atomic:2939-3001` (`_Locked_pointer`), `411-436` (`_Atomic_wait_direct`); `/repo/stl/inc/memory:4060-4217` (`_Atomic_ptr_base`,
`atomic<shared_ptr<_Ty>>`). One atomic object, any finite set of threads, any number of control blocks. Each transition is one access to `_Storage` or `_Ptr`,
one change of a reference count, one notification or one wait of the operating system. The interleavings are sequentially consistent.

A control block is its address (a multiple of four, 0: none), and the lock is the two low bits of the word that holds it, as in the code. Simplified: the
reference count does not wrap, and the decrement that reaches zero destroys the object and frees the block in the same transition (C17 has the single steps);
weak references are not modelled. Addresses of freed blocks may be used again. `_YIELD_PROCESSOR` has no effect. `notify_one` and `notify_all` of the atomic
object are not modelled as transitions, since a sleep in `wait` may end at any time (it has a timeout).
-/

namespace STL.AtomicSp
open STL STL.Conc

/-- A `shared_ptr`: `_Ptr` and `_Rep`. -/
structure Val where
  p : Nat
  r : Nat
  deriving DecidableEq

/-- The operations, with the arguments: `store(v)`, `load()`, `exchange(v)`, `compare_exchange_strong(e, d)` (and `_weak`, `memory:4147-4160`), `wait(old)`. -/
inductive Op where
  | store (v : Val)
  | load
  | xchg (v : Val)
  | cas (e d : Val)
  | wait (old : Val)
  deriving DecidableEq

/-- What an operation returns: nothing, a value, `true`, or `false` together with the new value of the argument `_Expected`. -/
inductive Ret where
  | unit
  | val (v : Val)
  | yes
  | no (v : Val)
  deriving DecidableEq

/-- Local variables after the lock has been taken: `_Rep`, the value loaded from `_Ptr`, and the result of the comparison in `compare_exchange_strong` or
`_Wait`. -/
structure Cs where
  rep : Nat
  q : Nat
  ok : Bool
  deriving DecidableEq

/-- Where a thread is. -/
inductive PC where
  | idle
  /-- before the load at `atomic:2956` or `2977` -/
  | lLoad
  /-- at the `switch`, `atomic:2958` -/
  | lTry (rep : Nat)
  /-- in `_Storage.wait`, before the load at `atomic:416` -/
  | lWait (rep : Nat)
  /-- before the call at `atomic:434` -/
  | lSlp (rep : Nat)
  /-- asleep in that call -/
  | lAsleep (rep : Nat)
  /-- the lock is held, before the first load of `_Ptr` -/
  | c1 (rep : Nat)
  /-- after the first load of `_Ptr` -/
  | c2 (c : Cs)
  /-- `compare_exchange_strong` after the second load of `_Ptr` -/
  | c3 (c : Cs)
  /-- before the exchange at `atomic:2988` -/
  | unl (c : Cs)
  /-- before `notify_all` at `atomic:2991` -/
  | ntf (c : Cs)
  /-- after `_Store_and_unlock` -/
  | fin (c : Cs)
  /-- `compare_exchange_strong` that has failed, before the destructor of `_Desired` -/
  | fin2 (c : Cs)
  /-- `_Wait`, before the call at `memory:4078` -/
  | pSlp
  /-- asleep in that call -/
  | pAsleep
  deriving DecidableEq

/-- Local state: the `shared_ptr` objects of the thread, its position, the operation in progress; ghost: the operations it has completed. -/
structure Loc where
  hs : List Val
  pc : PC
  op : Op
  done : List (Op × Ret)

/-- Shared memory: `_Repptr._Storage`, `_Ptr`, the use counts by control block; `bad`: undefined behaviour has happened or `_STL_REPORT_ERROR` was called;
`gone`: the atomic object has been destroyed. Ghost: how often an object was created with, and destroyed through, the control block at an address. -/
structure Mem where
  word : Nat
  ptr : Nat
  uses : Nat → Nat
  ctor : Nat → Nat
  dtor : Nat → Nat
  bad : Bool
  gone : Bool

/-- The whole state. Ghost: the value that the atomic object has for its users, and the operations in the order in which they took effect. -/
structure St (ι : Type) where
  m : Mem
  reg : Val
  log : List (ι × Op × Ret)
  l : ι → Loc

/-- The control block in a word, `_Rep & _Ptr_value_mask`. -/
def addr (w : Nat) : Nat := w - w % 4

/-- A function with one value changed. -/
def fset (f : Nat → Nat) (a v : Nat) : Nat → Nat := fun x => if x = a then v else f x

/-- `_Incref`, `memory:1401-1405`, `1173-1175`. -/
def Mem.incref (m : Mem) (r : Nat) : Mem :=
  if r = 0 then m else { m with uses := fset m.uses r (m.uses r + 1), bad := m.bad || decide (m.uses r = 0) }

/-- `_Decref`, `memory:1407-1411`, `1181-1186`. -/
def Mem.decref (m : Mem) (r : Nat) : Mem :=
  if r = 0 then m
  else { m with uses := fset m.uses r (m.uses r - 1), bad := m.bad || decide (m.uses r = 0), dtor := if m.uses r = 1 then fset m.dtor r (m.dtor r + 1) else m.dtor }

/-- `make_shared` and the like: a new control block at an address that is not in use. -/
def Mem.create (m : Mem) (r : Nat) : Mem := { m with uses := fset m.uses r 1, ctor := fset m.ctor r (m.ctor r + 1) }

/-- After the first load of `_Ptr`: `memory:4114`, `4124`, `4139`, `4166` (with the comparison), `4073` (with the comparison). -/
def afterLoad (o : Op) (rep q : Nat) : PC :=
  match o with
  | .store _ | .load | .xchg _ => .c2 ⟨rep, q, true⟩
  | .cas e _ => .c2 ⟨rep, q, decide (q = e.p ∧ rep = e.r)⟩
  | .wait old => .unl ⟨rep, q, decide (q = old.p ∧ rep = old.r)⟩

/-- The word stored by `_Store_and_unlock`: `memory:4116`, `4127`, `4141`, `4170-4171`, `4178`, `4074`. -/
def newRep (o : Op) (c : Cs) : Nat :=
  match o with
  | .store v | .xchg v => v.r
  | .cas _ d => if c.ok then d.r else c.rep
  | .load | .wait _ => c.rep

/-- Ghost: the value after the operation. -/
def newReg (o : Op) (c : Cs) (v : Val) : Val :=
  match o with
  | .store w | .xchg w => w
  | .cas _ d => if c.ok then d else v
  | .load | .wait _ => v

/-- What the operation returns: `memory:4128`, `4144`, `4172`, `4182`. -/
def retOf (o : Op) (c : Cs) : Ret :=
  match o with
  | .store _ | .wait _ => .unit
  | .load | .xchg _ => .val ⟨c.q, c.rep⟩
  | .cas _ _ => if c.ok then .yes else .no ⟨c.q, c.rep⟩

/-- Ghost: the operation takes effect (a check in `_Wait` that finds the old value does not count). -/
def logs (o : Op) (c : Cs) : Bool :=
  match o with
  | .wait _ => !c.ok
  | _ => true

/-- `notify_all`: threads asleep on `_Storage` wake up. -/
def wake (x : Loc) : Loc :=
  match x.pc with
  | .lAsleep r => { x with pc := .lWait r }
  | _ => x

/-- The operation is over. -/
def Loc.ret (x : Loc) (c : Cs) (hs : List Val) : Loc := { x with hs := hs, pc := .idle, done := x.done ++ [(x.op, retOf x.op c)] }

variable {ι : Type} [DecidableEq ι]

/-- `_Lock_and_load` at the `switch`, `atomic:2958-2983`; `spur`: `compare_exchange_weak` fails spuriously. -/
def tryStep (s : St ι) (t : ι) (rep : Nat) (spur : Bool) : St ι :=
  let x := s.l t
  if rep % 4 = 0 then
    if s.m.word = rep ∧ spur = false then { s with m := { s.m with word := rep + 1 }, l := upd s.l t { x with pc := .c1 rep } }
    else { s with l := upd s.l t { x with pc := .lTry s.m.word } }
  else if rep % 4 = 1 then
    if s.m.word = rep ∧ spur = false then { s with m := { s.m with word := addr rep + 2 }, l := upd s.l t { x with pc := .lWait (addr rep + 2) } }
    else { s with l := upd s.l t { x with pc := .lTry s.m.word } }
  else if rep % 4 = 2 then { s with l := upd s.l t { x with pc := .lWait rep } }
  else { s with m := { s.m with bad := true } }

/-- Inside the critical section, before the lock is released. -/
def critStep (s : St ι) (t : ι) (c : Cs) (third : Bool) : St ι :=
  let x := s.l t
  match x.op with
  -- `memory:4115`, `4140`
  | .store v | .xchg v => { s with m := { s.m with ptr := v.p }, l := upd s.l t { x with pc := .unl c } }
  -- `memory:4126`
  | .load => { s with m := s.m.incref c.rep, l := upd s.l t { x with pc := .unl c } }
  | .cas _ d =>
    -- `memory:4168`, `4175`
    if third = false then { s with l := upd s.l t { x with pc := .c3 ⟨c.rep, s.m.ptr, c.ok⟩ } }
    -- `memory:4169`
    else if c.ok then { s with m := { s.m with ptr := d.p }, l := upd s.l t { x with pc := .unl c } }
    -- `memory:4177`
    else { s with m := s.m.incref c.rep, l := upd s.l t { x with pc := .unl c } }
  | .wait _ => s

/-- `_Store_and_unlock`, `atomic:2988-2989`. -/
def unlockStep (s : St ι) (t : ι) (c : Cs) : St ι :=
  let x := s.l t
  ⟨{ s.m with word := newRep x.op c }, newReg x.op c s.reg, if logs x.op c then s.log ++ [(t, x.op, retOf x.op c)] else s.log,
    upd s.l t { x with pc := if s.m.word % 4 = 2 then .ntf c else .fin c }⟩

/-- After `_Store_and_unlock`. -/
def finStep (s : St ι) (t : ι) (c : Cs) : St ι :=
  let x := s.l t
  match x.op with
  -- the destructor of `_Value`, which has been given the old value, `memory:4114-4118`
  | .store _ => { s with m := s.m.decref c.rep, l := upd s.l t (x.ret c x.hs) }
  | .load | .xchg _ => { s with l := upd s.l t (x.ret c (⟨c.q, c.rep⟩ :: x.hs)) }
  | .cas e _ =>
    -- the destructor of `_Desired`, which has been given the old value, `memory:4168-4172`
    if c.ok then { s with m := s.m.decref c.rep, l := upd s.l t (x.ret c (e :: x.hs)) }
    -- `memory:4174-4180`
    else { s with m := s.m.decref e.r, l := upd s.l t { x with pc := .fin2 c } }
  | .wait old =>
    -- `memory:4075-4080`
    if c.ok then { s with l := upd s.l t { x with pc := .pSlp } }
    -- the destructor of `_Old`
    else { s with m := s.m.decref old.r, l := upd s.l t (x.ret c x.hs) }

/-- The destructor of `_Desired` after a failed comparison; `_Expected` has the value found. -/
def fin2Step (s : St ι) (t : ι) (c : Cs) : St ι :=
  let x := s.l t
  match x.op with
  | .cas _ d => { s with m := s.m.decref d.r, l := upd s.l t (x.ret c (⟨c.q, c.rep⟩ :: x.hs)) }
  | _ => s

/-- The next transition of the operation in progress. -/
def advStep (s : St ι) (t : ι) (spur : Bool) : Option (St ι) :=
  let x := s.l t
  match x.pc with
  | .idle => none
  | .lLoad => some { s with l := upd s.l t { x with pc := .lTry s.m.word } }
  | .lTry rep => some (tryStep s t rep spur)
  | .lWait rep => some { s with l := upd s.l t { x with pc := if s.m.word = rep then .lSlp rep else .lLoad } }
  -- the operating system compares and sleeps atomically; otherwise back to `atomic:416`
  | .lSlp rep => some { s with l := upd s.l t { x with pc := if s.m.word = rep then .lAsleep rep else .lWait rep } }
  | .lAsleep _ => none
  | .c1 rep => some { s with l := upd s.l t { x with pc := afterLoad x.op rep s.m.ptr } }
  | .c2 c => some (critStep s t c false)
  | .c3 c => some (critStep s t c true)
  | .unl c => some (unlockStep s t c)
  | .ntf c => some { s with l := upd (fun u => wake (s.l u)) t { x with pc := .fin c } }
  | .fin c => some (finStep s t c)
  | .fin2 c => some (fin2Step s t c)
  -- `__std_atomic_wait_direct` on `_Ptr`
  | .pSlp => match x.op with
    | .wait old => some { s with l := upd s.l t { x with pc := if s.m.ptr = old.p then .pAsleep else .lLoad } }
    | _ => none
  | .pAsleep => none

/-- What a thread can do: create an object and a `shared_ptr` to it; make a `shared_ptr` without control block; copy a `shared_ptr` of any
thread (with another pointer: the aliasing constructor); destroy one; call an operation (its arguments are `shared_ptr` objects of the thread); go on with it; wake
up spuriously or by a timeout; destroy the atomic object. -/
inductive Act (ι : Type) where
  | make (p r : Nat) | null (p : Nat) | copy (u : ι) (v : Val) (p : Nat) | drop (v : Val)
  | call (o : Op) | adv (spur : Bool) | wakeUp | destroy

/-- The arguments of an operation are taken out of the `shared_ptr` objects of the thread. -/
def takeArgs (o : Op) (hs : List Val) : Option (List Val) :=
  match o with
  | .store v | .xchg v | .wait v => if v ∈ hs then some (hs.erase v) else none
  | .load => some hs
  | .cas e d => if e ∈ hs ∧ d ∈ hs.erase e then some ((hs.erase e).erase d) else none

/-- One transition of thread `t`; `none` if it cannot do `a` now. -/
def step (s : St ι) (t : ι) (a : Act ι) : Option (St ι) :=
  let x := s.l t
  match a with
  | .make p r => if x.pc = .idle ∧ r ≠ 0 ∧ r % 4 = 0 ∧ s.m.uses r = 0 then some { s with m := s.m.create r, l := upd s.l t { x with hs := ⟨p, r⟩ :: x.hs } } else none
  | .null p => if x.pc = .idle then some { s with l := upd s.l t { x with hs := ⟨p, 0⟩ :: x.hs } } else none
  | .copy u v p => if x.pc = .idle ∧ v ∈ (s.l u).hs then some { s with m := s.m.incref v.r, l := upd s.l t { x with hs := ⟨p, v.r⟩ :: x.hs } } else none
  | .drop v => if x.pc = .idle ∧ v ∈ x.hs then some { s with m := s.m.decref v.r, l := upd s.l t { x with hs := x.hs.erase v } } else none
  | .call o =>
    if x.pc = .idle ∧ s.m.gone = false then
      (takeArgs o x.hs).map fun hs => { s with l := upd s.l t { x with hs := hs, op := o, pc := .lLoad } }
    else none
  | .adv spur => advStep s t spur
  | .wakeUp =>
    match x.pc with
    | .lAsleep rep => some { s with l := upd s.l t { x with pc := .lWait rep } }
    | .pAsleep => some { s with l := upd s.l t { x with pc := .lLoad } }
    | _ => none
  -- `memory:4211-4216`; `_Unsafe_load_relaxed` gives the word with its lock bits
  | .destroy => if x.pc = .idle ∧ s.m.gone = false then some { s with m := { s.m.decref s.m.word with gone := true } } else none

/-- The atomic object constructed with the value `v` (`memory:4192-4198`), of which it is the only owner. -/
def init (v : Val) : St ι :=
  ⟨⟨v.r, v.p, fset (fun _ => 0) v.r (if v.r = 0 then 0 else 1), fset (fun _ => 0) v.r (if v.r = 0 then 0 else 1), fun _ => 0, false, false⟩, v, [],
    fun _ => ⟨[], .idle, .load, []⟩⟩

end STL.AtomicSp
