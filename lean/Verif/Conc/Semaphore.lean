import Verif.Conc.Base

/-!
# Model of `counting_semaphore`

`/repo/stl/inc/semaphore:51-202`. Any finite set of threads; each transition is one atomic operation on `_Counter` or
`_Waiting`, one `notify_one` / `notify_all`, or one effect of `__std_atomic_wait_direct`, which atomically compares the
counter with the expected value and goes to sleep if they are equal; a sleeping thread is woken by a notification, by a
timeout or spuriously. Simplifications: sequentially consistent interleavings; the clock is not modelled: a timed wait may
time out at any moment. `try_acquire_for` and `try_acquire_until` are the same loop.
-/

namespace STL.Semaphore
open STL STL.Conc

/-- Where a thread is. `tm` tells a timed acquire from an untimed one. -/
inductive PC where
  | idle
  /-- `release`, before `_Waiting.load()` (line 93), with `_Update = u` -/
  | relLoad (u : Nat)
  /-- `release`, before `notify_all` (line 99) -/
  | relAll (u : Nat)
  /-- `release`, `k` calls of `notify_one` left (lines 104-106) -/
  | relOne (k : Nat)
  /-- `try_acquire`, before the compare-exchange (line 137) -/
  | tryCas (c : Int)
  /-- acquire loops, before loading the counter (lines 111, 115, 143, 151) -/
  | acqLoad (tm : Bool)
  /-- acquire loops, holding `_Current = c` (lines 113, 145) -/
  | acqTest (tm : Bool) (c : Int)
  /-- `_Wait`, before `_Waiting.fetch_add(1)` (line 191) -/
  | waitInc (tm : Bool)
  /-- `_Wait`, before `_Counter.load()` (line 192) -/
  | waitLoad (tm : Bool)
  /-- `_Wait`, before `__std_atomic_wait_direct` (line 194) with expected value `c` -/
  | waitBlock (tm : Bool) (c : Int)
  | asleep (tm : Bool)
  /-- `_Wait`, before `_Waiting.fetch_sub(1)` (line 196) -/
  | waitDec (tm : Bool)
  deriving DecidableEq

/-- Local state: position and the result of the last operation (`none` while it runs, and for `release`). -/
structure Loc where
  pc : PC
  res : Option Bool

/-- `_Counter`, `_Waiting`; how many tokens were released and acquired; whether an `_STL_VERIFY` of an acquire failed. -/
structure Sem where
  counter : Int
  waiting : Int
  released : Nat
  acquired : Nat
  aborted : Bool

structure State (ι : Type) where
  b : Sem
  l : ι → Loc

inductive Act (ι : Type) where
  | release (u : Nat) | acquire | tryAcquire | tryAcquireFor
  /-- continue the operation in progress -/
  | adv
  /-- continue, with a spurious failure of `compare_exchange_weak`, or returning at a timeout -/
  | alt
  /-- `notify_one` that wakes the sleeping thread `u` -/
  | wake (u : ι)

/-- Does the thread sleep? -/
def isAsleep (x : Loc) : Bool := match x.pc with | .asleep _ => true | _ => false

/-- Wake the thread if it sleeps. -/
def wakeL (x : Loc) : Loc := match x.pc with | .asleep tm => { x with pc := .waitDec tm } | _ => x

/-- `_STL_VERIFY(_Current > 0 && _Current <= _Least_max_value)`, lines 117, 133, 153. -/
def verify (max : Int) (b : Sem) (c : Int) : Sem := { b with aborted := b.aborted || !(decide (0 < c) && decide (c ≤ max)) }

/-- A successful `compare_exchange(_Current, _Current - 1)`. -/
def take (b : Sem) (c : Int) : Sem := { b with counter := c - 1, acquired := b.acquired + 1 }

/-- `for (; _Update != 0; --_Update) _Counter.notify_one();` (lines 104-106), after one call with `k` left before it. -/
def relNext (k : Nat) : PC := if k = 1 then .idle else .relOne (k - 1)

/-- A transition that changes only the semaphore and the acting thread. `none`: the thread cannot do `a` now. `release` is
called within its precondition (lines 74, 90). -/
def local_ {ι : Type} (max : Int) (b : Sem) (me : Loc) (a : Act ι) : Option (Sem × Loc) :=
  let goto (b : Sem) (pc : PC) : Option (Sem × Loc) := some (b, { me with pc := pc })
  let start (b : Sem) (pc : PC) : Option (Sem × Loc) := some (b, ⟨pc, none⟩)
  let ret (b : Sem) (r : Bool) : Option (Sem × Loc) := some (b, ⟨.idle, some r⟩)
  match me.pc, a with
  -- release, lines 70-92
  | .idle, .release u =>
    if u = 0 then start b .idle
    else if (u : Int) ≤ max - b.counter then
      start { b with counter := b.counter + u, released := b.released + u } (.relLoad u)
    else none
  -- lines 93-107
  | .relLoad u, .adv =>
    if b.waiting = 0 then goto b .idle
    else if b.waiting ≤ u then goto b (.relAll u)
    else goto b (.relOne u)
  -- acquire, lines 110-126; try_acquire, lines 128-138; try_acquire_for, lines 140-162
  | .idle, .acquire => start b (.acqLoad false)
  | .idle, .tryAcquireFor => start b (.acqLoad true)
  | .idle, .tryAcquire => if b.counter = 0 then ret b false else start (verify max b b.counter) (.tryCas b.counter)
  | .tryCas c, .adv => if b.counter = c then ret (take b c) true else ret b false
  | .tryCas _, .alt => ret b false
  | .acqLoad tm, .adv => goto b (.acqTest tm b.counter)
  | .acqTest tm c, .adv =>
    if c = 0 then goto b (.waitInc tm)
    else if b.counter = c then ret (take (verify max b c) c) true
    else goto (verify max b c) (.acqTest tm b.counter)
  | .acqTest tm c, .alt =>
    if c = 0 then (if tm then ret b false else none)
    else goto (verify max b c) (.acqTest tm b.counter)
  -- _Wait, lines 189-197
  | .waitInc tm, .adv => goto { b with waiting := b.waiting + 1 } (.waitLoad tm)
  | .waitLoad tm, .adv => if b.counter = 0 then goto b (.waitBlock tm b.counter) else goto b (.waitDec tm)
  | .waitBlock tm c, .adv => if b.counter = c then goto b (.asleep tm) else goto b (.waitDec tm)
  | .asleep tm, .alt => goto b (.waitDec tm)
  | .waitDec tm, .adv => goto { b with waiting := b.waiting - 1 } (.acqLoad tm)
  | _, _ => none

variable {ι : Type} [DecidableEq ι] [Fintype ι]

/-- One transition of thread `t`. -/
def step (max : Int) (σ : State ι) (t : ι) (a : Act ι) : Option (State ι) :=
  match (σ.l t).pc, a with
  -- notify_all, line 99
  | .relAll _, .adv => some ⟨σ.b, upd (fun u => wakeL (σ.l u)) t ⟨.idle, (σ.l t).res⟩⟩
  -- notify_one, line 105: wakes some sleeping thread, if there is one
  | .relOne k, .wake u =>
    if isAsleep (σ.l u) then some ⟨σ.b, upd (upd σ.l u (wakeL (σ.l u))) t ⟨relNext k, (σ.l t).res⟩⟩ else none
  | .relOne k, .adv =>
    if ∀ u, isAsleep (σ.l u) = false then some ⟨σ.b, upd σ.l t ⟨relNext k, (σ.l t).res⟩⟩ else none
  | _, _ => (local_ max σ.b (σ.l t) a).map (fun r => ⟨r.1, upd σ.l t r.2⟩)

/-- `counting_semaphore(_Desired)`, lines 61-65 (`_Waiting` is value-initialized). -/
def init (desired : Int) : State ι := ⟨⟨desired, 0, 0, 0, false⟩, fun _ => ⟨.idle, none⟩⟩

end STL.Semaphore
