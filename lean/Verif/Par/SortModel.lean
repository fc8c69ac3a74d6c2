import Verif.Sort.Model
import Verif.Conc.Base

/-!
# Model of the parallel `sort` (stl/inc/execution): work-stealing deques, the team, and the worker loops

A transition system: one transition is one atomic operation of one thread (sequentially consistent interleavings; every atomic operation of the
code is `memory_order_seq_cst`). The elements of a deque are three words each; a thief copies them word by word while the owner may be writing them word by word.
`_Process_sort_work_item` and the serial fallback are two transitions: the thread takes the contents of its range, and later writes the result back; in between other
threads run. Inside of a work item, positions are relative to the start of the item and an access outside of the item is undefined behaviour.

Ghost fields (`lb`, `items`, `gi`) are written but never read by the transitions.
-/

namespace STL.Par.PSort
open STL.Conc

/-- `_Sort_work_item_impl` (execution:2647-2654). -/
structure Item where
  off : Nat
  size : Nat
  ideal : Nat
  deriving DecidableEq

/-- `_Circular_buffer` (execution:509-576); `live`: not yet given to `operator delete`. -/
structure Seg where
  log : Nat
  data : Nat → Item
  rc : Nat
  live : Bool

/-- `_Subscript` (execution:556-564): `_Idx & _Mask`. -/
def slotOf (log idx : Nat) : Nat := idx &&& (2 ^ log - 1)

/-- The element at an index (execution:556-564). -/
def Seg.at (s : Seg) (idx : Nat) : Item := s.data (slotOf s.log idx)

/-- Assignment to an element. -/
def Seg.put (s : Seg) (idx : Nat) (x : Item) : Seg := { s with data := fun k => if k = slotOf s.log idx then x else s.data k }

/-- `_Work_stealing_deque` (execution:578-692): `_Bottom`, `_Top`, `_Segment` (as a number), `_Segment_lock`; the buffers ever allocated.
Ghost: `lb`, the end of the elements that nobody has taken; `items`, the element with each index. -/
structure Dq (ι : Type) where
  bottom : Nat
  top : Nat
  cur : Nat
  nseg : Nat
  segs : Nat → Seg
  lock : Option ι
  lb : Nat
  items : Nat → Item

inductive Pc where
  /-- a callback that has not been started -/
  | idle
  /-- before the locked part of `_Join_team` -/
  | join
  /-- before `_Queues_used.load()`, execution:774 -/
  | high
  /-- before the test of the loop in `_Join_team`, execution:775 -/
  | raise
  /-- the calling thread before `_Work._Submit`, execution:2766 -/
  | submit
  /-- before `_Process_sort_work_item`, execution:2704 -/
  | work
  /-- in `_Process_sort_work_item` -/
  | busy
  /-- `_Push_bottom`, execution:595: before `_Bottom.load()` -/
  | push0
  /-- before `_Top.load()`, execution:602 -/
  | push1
  /-- before `_Grow`, execution:605 -/
  | grow
  /-- before the lock, execution:608 -/
  | glock
  /-- before `exchange`, execution:609 -/
  | gxchg
  /-- before the unlock -/
  | gunlock
  /-- before `_Detached_segment->_Release()`, execution:612 -/
  | grel
  /-- before the first, second, third word of `_Segment->_Subscript(_Local_b) = _Val`, execution:615 -/
  | wr0 | wr1 | wr2
  /-- before `_Bottom.store(_Local_b + 1)`, execution:616 -/
  | pushSt
  /-- `_Push_bottom` has thrown: before `_Sort_unchecked`, execution:2710 -/
  | serial
  /-- in `_Sort_unchecked` -/
  | serialBusy
  /-- `_Try_pop_bottom`, execution:652: before `_Bottom.load()` -/
  | pop0
  /-- before `_Bottom.store(_Local_b)`, execution:658 -/
  | pop1
  /-- before `_Top.load()`, execution:659 -/
  | pop2
  /-- before the copy of the element, execution:666 -/
  | pop3
  /-- before the compare-exchange, execution:676 -/
  | pop4
  /-- before `_Bottom.store(_Desired_top)`, execution:677 -/
  | pop5
  /-- before `_Bottom.store(_Local_t)`, execution:661, :680 -/
  | popR
  /-- `_Work_stealing_membership::_Steal`, execution:717-721: before the operation on `_Remaining_work` -/
  | steal0
  /-- before `_Queues_used.load()`, execution:728 -/
  | steal1
  /-- at the head of the loop, execution:731 -/
  | steal2
  /-- `_Work_stealing_deque::_Steal`: before `_Top.load()`, execution:624 -/
  | s0
  /-- before `_Bottom.load()`, execution:627 -/
  | s1
  /-- before the lock, execution:633 -/
  | s2
  /-- before the load of `_Segment`, execution:634 -/
  | s3
  /-- before the increment of the reference count, execution:635 -/
  | s4
  /-- before the unlock -/
  | s5
  /-- before the first, second, third word of the copy, execution:638 -/
  | s6 | s7 | s8
  /-- before `_Release`, execution:639 -/
  | s9
  /-- before the compare-exchange, execution:644 -/
  | s10
  /-- before `_Leave_team`, execution:2740 -/
  | leave
  | done
  deriving DecidableEq

/-- A thread: `_Id`, `_Work_complete` of its ticket; `_Wi`, `_Right_fork_wi`; `_Local_b`, `_Local_t`, a buffer (`_New_segment`, `_Detached_segment`, `_Stealing_segment`), `_Idx`,
`_High` or `_High_water`; the contents of the range it works on. Ghost: `gi`, the element that it has taken and not yet read. -/
structure Th (α : Type) where
  pc : Pc
  id : Nat := 0
  wc : Nat := 0
  wi : Item := ⟨0, 0, 0⟩
  rf : Item := ⟨0, 0, 0⟩
  b : Nat := 0
  t : Nat := 0
  g : Nat := 0
  idx : Nat := 0
  hi : Nat := 0
  snap : List α := []
  gi : Item := ⟨0, 0, 0⟩

/-- What the environment decides: whether an allocation is refused, whether a weak compare-exchange fails spuriously, what is in fresh memory. -/
structure Env where
  refuse : Bool
  spurious : Bool
  junk : Nat → Item

variable {ι α : Type} [DecidableEq ι]

/-- `_Release` (execution:517-522). -/
def release (d : Dq ι) (g : Nat) : R (Dq ι) :=
  let s := d.segs g
  if s.live = true ∧ 0 < s.rc then
    .ok { d with segs := upd d.segs g { s with rc := s.rc - 1, live := decide (s.rc - 1 ≠ 0) } }
  else .error .ub

/-- The loop of `_Grow` (execution:570-572). The new buffer is not shared, and the old one is written by the owner only. -/
def growLoop (old : Seg) : Nat → Nat → Seg → Seg
  | 0, _, new => new
  | n + 1, idx, new => growLoop old n (idx + 1) (new.put idx (old.at idx))

/-- `_Allocate_circular_buffer` for a buffer of `2 ^ log` elements (execution:524-542): refused from `2 ^ 32` elements on; the environment may refuse other sizes too. -/
def allocSeg (e : Env) (log : Nat) : Option Seg :=
  if 32 ≤ log then none else if e.refuse = true then none else some ⟨log, e.junk, 1, true⟩

/-- Subtraction of `size_t`. -/
def szSub (a b : Nat) : Nat := (a + 2 ^ 64 - b) % 2 ^ 64

/-- `_Push_bottom` (execution:592-617) and `_Try_pop_bottom` (execution:649-683) on the deque of the thread. -/
def ownStep (e : Env) (me : ι) (d : Dq ι) (x : Th α) : R (Dq ι × Th α) :=
  match x.pc with
  | .push0 => .ok (d, if d.bottom = 2 ^ 64 - 1 then { x with pc := .serial } else { x with pc := .push1, b := d.bottom })
  | .push1 =>
    if (d.segs d.cur).live = true then
      .ok (d, if 2 ^ (d.segs d.cur).log ≤ szSub x.b d.top then { x with pc := .grow, t := d.top } else { x with pc := .wr0, t := d.top })
    else .error .ub
  | .grow =>
    if (d.segs d.cur).live = true then
      match allocSeg e ((d.segs d.cur).log + 1) with
      | none => .ok (d, { x with pc := .serial })
      | some new =>
        .ok ({ d with segs := upd d.segs d.nseg (growLoop (d.segs d.cur) (x.b - x.t) x.t new), nseg := d.nseg + 1 }, { x with pc := .glock, g := d.nseg })
    else .error .ub
  | .glock => .ok (if d.lock = none then ({ d with lock := some me }, { x with pc := .gxchg }) else (d, x))
  | .gxchg => .ok ({ d with cur := x.g }, { x with pc := .gunlock, g := d.cur })
  | .gunlock => .ok ({ d with lock := none }, { x with pc := .grel })
  | .grel => do
    let d ← release d x.g
    return (d, { x with pc := .wr0 })
  | .wr0 =>
    if (d.segs d.cur).live = true then
      .ok ({ d with segs := upd d.segs d.cur ((d.segs d.cur).put x.b { (d.segs d.cur).at x.b with off := x.rf.off }) }, { x with pc := .wr1 })
    else .error .ub
  | .wr1 =>
    if (d.segs d.cur).live = true then
      .ok ({ d with segs := upd d.segs d.cur ((d.segs d.cur).put x.b { (d.segs d.cur).at x.b with size := x.rf.size }) }, { x with pc := .wr2 })
    else .error .ub
  | .wr2 =>
    if (d.segs d.cur).live = true then
      .ok ({ d with segs := upd d.segs d.cur ((d.segs d.cur).put x.b { (d.segs d.cur).at x.b with ideal := x.rf.ideal }) }, { x with pc := .pushSt })
    else .error .ub
  | .pushSt => .ok ({ d with bottom := x.b + 1, lb := x.b + 1, items := upd d.items x.b x.rf }, { x with pc := .work })
  | .pop0 => .ok (d, if d.bottom = 0 then { x with pc := .steal0 } else { x with pc := .pop1, b := d.bottom - 1 })
  | .pop1 => .ok ({ d with bottom := x.b }, { x with pc := .pop2 })
  | .pop2 =>
    if x.b < d.top then .ok (d, { x with pc := .popR, t := d.top })
    else .ok (if d.top < x.b then { d with lb := x.b } else d, { x with pc := .pop3, t := d.top, gi := d.items x.b })
  | .pop3 =>
    if (d.segs d.cur).live = true then
      .ok (d, { x with pc := if x.t < x.b then .work else .pop4, wi := (d.segs d.cur).at x.b })
    else .error .ub
  | .pop4 => .ok (if d.top = x.t then ({ d with top := x.t + 1 }, { x with pc := .pop5 }) else (d, { x with pc := .popR, t := d.top }))
  | .pop5 => .ok ({ d with bottom := x.t + 1 }, { x with pc := .work })
  | .popR => .ok ({ d with bottom := x.t }, { x with pc := .steal0 })
  | _ => .error .ub

/-- `_Work_stealing_deque::_Steal` (execution:619-647) on the deque `_Queues[_Idx]`; `_Val` is `_Wi`. -/
def thiefStep (me : ι) (d : Dq ι) (x : Th α) : R (Dq ι × Th α) :=
  match x.pc with
  | .s0 => .ok (d, { x with pc := .s1, t := d.top })
  | .s1 => .ok (d, if d.bottom ≤ x.t then { x with pc := .steal2 } else { x with pc := .s2 })
  | .s2 => .ok (if d.lock = none then ({ d with lock := some me }, { x with pc := .s3 }) else (d, x))
  | .s3 => .ok (d, { x with pc := .s4, g := d.cur })
  | .s4 =>
    if (d.segs x.g).live = true then
      .ok ({ d with segs := upd d.segs x.g { d.segs x.g with rc := (d.segs x.g).rc + 1 } }, { x with pc := .s5 })
    else .error .ub
  | .s5 => .ok ({ d with lock := none }, { x with pc := .s6 })
  | .s6 => if (d.segs x.g).live = true then .ok (d, { x with pc := .s7, wi := { x.wi with off := ((d.segs x.g).at x.t).off } }) else .error .ub
  | .s7 => if (d.segs x.g).live = true then .ok (d, { x with pc := .s8, wi := { x.wi with size := ((d.segs x.g).at x.t).size } }) else .error .ub
  | .s8 => if (d.segs x.g).live = true then .ok (d, { x with pc := .s9, wi := { x.wi with ideal := ((d.segs x.g).at x.t).ideal } }) else .error .ub
  | .s9 => do
    let d ← release d x.g
    return (d, { x with pc := .s10 })
  | .s10 => .ok (if d.top = x.t then ({ d with top := x.t + 1 }, { x with pc := .work }) else (d, { x with pc := .s1, t := d.top }))
  | _ => .error .ub

/-- What the threads share beside the deques: `_Queues_used`, `_Remaining_work`, `_Available_queues`, the elements, and whether the callbacks have been submitted. -/
structure Team (α : Type) where
  used : Nat
  remaining : Int
  avail : Nat → Bool
  mem : List α
  submitted : Bool

/-- The result of `_Process_sort_work_item` (execution:2659-2697) on the elements of the item: the elements, and the two positions if it was divided. -/
def processItem (lt : α → α → Bool) (seg : List α) (ideal : Nat) : R (Mem α × Option (Nat × Nat)) :=
  let m : Mem α := seg.map some
  if seg.length ≤ isortMax then do
    let m ← insertionSort lt m 0 seg.length
    return (m, none)
  else if 0 < ideal then do
    let (m, a, b) ← partitionByMedianGuess lt m 0 seg.length
    return (m, some (a, b))
  else do
    let m ← makeHeap lt m 0 seg.length
    let m ← sortHeap lt m 0 seg.length
    return (m, none)

/-- Every object has a value again. -/
def allSome : Mem α → R (List α)
  | [] => .ok []
  | none :: _ => .error .ub
  | some x :: m => do
    let l ← allSome m
    return x :: l

/-- The elements of a range. -/
def getRange (mem : List α) (off size : Nat) : R (List α) :=
  if off + size ≤ mem.length then .ok ((mem.drop off).take size) else .error .ub

/-- Put the elements of a range back. -/
def putRange (mem : List α) (off : Nat) (seg : List α) : List α := mem.take off ++ seg ++ mem.drop (off + seg.length)

/-- The end of `_Process_sort_work_item`: the result is in memory, `_Wi`, `_Right_fork_wi` and `_Work_complete` are updated (execution:2677, :2683-2689, :2695). -/
def processEnd (x : Th α) : Option (Nat × Nat) → Th α
  | none => { x with pc := .pop0, wc := x.wc + x.wi.size }
  | some (a, b) =>
    { x with pc := .push0, wi := ⟨x.wi.off, a, x.wi.ideal / 2 + x.wi.ideal / 4⟩, rf := ⟨x.wi.off + b, x.wi.size - b, x.wi.ideal / 2 + x.wi.ideal / 4⟩, wc := x.wc + (b - a) }

/-- The steps that touch no deque: `_Join_team` (execution:765-779), `_Leave_team` (781-784), the first part of `_Work_stealing_membership::_Steal` (715-744), `_Process_sort_work_item` (2659-2697),
the fallback of `_Process_sort_queue` (2707-2711), `_Threadpool_callback` (2726-2746) and the loop of `sort` (2760-2777). The priority queue `_Available_queues` gives the smallest number (C36). -/
def teamStep (lt : α → α → Bool) (n T : Nat) (isMain : Bool) (e : Env) (s : Team α) (x : Th α) : R (Team α × Th α) :=
  match x.pc with
  | .idle => .ok (s, if s.submitted = true then { x with pc := .join } else x)
  | .join =>
    match (List.range T).find? s.avail with
    | none => .error .ub
    | some i => .ok ({ s with avail := upd s.avail i false }, { x with pc := .high, id := i, wc := 0 })
  | .high => .ok (s, { x with pc := .raise, hi := s.used })
  | .raise =>
    if x.hi < x.id then
      if s.used = x.hi ∧ e.spurious = false then .ok ({ s with used := x.id }, { x with pc := if isMain = true then .submit else .steal0 })
      else .ok (s, { x with hi := s.used })
    else .ok (s, { x with pc := if isMain = true then .submit else .steal0 })
  | .submit => .ok ({ s with submitted := true }, { x with pc := .work, wi := ⟨0, n, n⟩ })
  | .work => do
    let seg ← getRange s.mem x.wi.off x.wi.size
    return (s, { x with pc := .busy, snap := seg })
  | .busy => do
    let (m, r) ← processItem lt x.snap x.wi.ideal
    let seg ← allSome m
    return ({ s with mem := putRange s.mem x.wi.off seg }, processEnd x r)
  | .serial => do
    let seg ← getRange s.mem x.rf.off x.rf.size
    return (s, { x with pc := .serialBusy, snap := seg })
  | .serialBusy => do
    let m ← sortUnchecked lt (x.snap.length + 1) (x.snap.map some) 0 x.snap.length x.rf.ideal
    let seg ← allSome m
    return ({ s with mem := putRange s.mem x.rf.off seg }, { x with pc := .work, wc := x.wc + x.rf.size })
  | .steal0 => .ok ({ s with remaining := s.remaining - x.wc }, if s.remaining - x.wc = 0 then { x with pc := .done, wc := 0 } else { x with pc := .steal1, wc := 0 })
  | .steal1 => .ok (s, { x with pc := .steal2, hi := s.used + 1, idx := x.id })
  | .steal2 =>
    let i := (if x.idx = 0 then x.hi else x.idx) - 1
    .ok (s, if i = x.id then { x with pc := if isMain = true then .steal0 else .leave } else { x with pc := .s0, idx := i })
  | .leave => .ok ({ s with avail := upd s.avail x.id true }, { x with pc := .idle })
  | _ => .error .ub

/-- Whose memory a program point touches. -/
inductive Kind where
  | own | thief | team | stop
  deriving DecidableEq

def kind : Pc → Kind
  | .push0 | .push1 | .grow | .glock | .gxchg | .gunlock | .grel | .wr0 | .wr1 | .wr2 | .pushSt | .pop0 | .pop1 | .pop2 | .pop3 | .pop4 | .pop5 | .popR => .own
  | .s0 | .s1 | .s2 | .s3 | .s4 | .s5 | .s6 | .s7 | .s8 | .s9 | .s10 => .thief
  | .done => .stop
  | _ => .team

/-- The state of the program. -/
structure St (ι α : Type) where
  tm : Team α
  q : Nat → Dq ι
  l : ι → Th α

/-- A step of thread `t`; `T` is the number of queues. A subscript of `_Queues` out of range is undefined behaviour. A thread that waits for a lock, has not been started or has
finished stays where it is. -/
def step (lt : α → α → Bool) (n T : Nat) (main : ι) (e : Env) (s : St ι α) (t : ι) : R (St ι α) :=
  match kind (s.l t).pc with
  | .own =>
    if (s.l t).id < T then do
      let (d, x) ← ownStep e t (s.q (s.l t).id) (s.l t)
      return { s with q := upd s.q (s.l t).id d, l := upd s.l t x }
    else .error .ub
  | .thief =>
    if (s.l t).idx < T then do
      let (d, x) ← thiefStep t (s.q (s.l t).idx) (s.l t)
      return { s with q := upd s.q (s.l t).idx d, l := upd s.l t x }
    else .error .ub
  | .team => do
    let (tm, x) ← teamStep lt n T (decide (t = main)) e s.tm (s.l t)
    return { s with tm := tm, l := upd s.l t x }
  | .stop => .ok s

/-- The destructor of the deque (execution:588-590). -/
def destroy (d : Dq ι) : R (Dq ι) := release d d.cur

/-- The default constructor of the deque (execution:584, :686-691), with `_New_circular_buffer` (execution:544-546). -/
def dq0 (junk : Nat → Item) : Dq ι := ⟨0, 0, 0, 1, fun g => if g = 0 then ⟨6, junk, 1, true⟩ else ⟨0, junk, 0, false⟩, none, 0, fun _ => ⟨0, 0, 0⟩⟩

/-- The state in `sort` before `_Join_team` (execution:761-763, 2761-2764). -/
def init (T : Nat) (main : ι) (xs : List α) (junk : Nat → Item) : St ι α :=
  ⟨⟨0, xs.length, fun i => decide (i < T), xs, false⟩, fun _ => dq0 junk, fun t => { pc := if t = main then .join else .idle }⟩

/-- What can happen: every interleaving of the calling thread and the callbacks, `T` threads in total. A step with undefined behaviour leads to `none`. -/
inductive Reach (lt : α → α → Bool) (T : Nat) (main : ι) (xs : List α) : Option (St ι α) → Prop
  | init (junk) : Reach lt T main xs (some (init T main xs junk))
  | step {s} (e : Env) (t : ι) : Reach lt T main xs (some s) → Reach lt T main xs (step lt xs.length T main e s t).toOption

end STL.Par.PSort
