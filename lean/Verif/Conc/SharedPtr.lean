import Verif.Conc.Base

/-!
# Model of `shared_ptr` / `weak_ptr` reference counting

`/repo/stl/inc/memory:1126-1201` (`_Ref_count_base`), `1358-1470` (`_Ptr_base`), `1712`, `3227`, `3271`. One control block,
any finite set of threads. Each transition is one atomic operation on the control block. The two counters are 32-bit and
wrap. A handle (a non-null `shared_ptr` / `weak_ptr` to this block) belongs to a thread; moving a handle (also to another
thread) does not touch the block (`_Move_construct_from`, `memory:1347-1355`). A copy may be made from a handle owned by any
thread. Simplifications: interleavings are sequentially consistent (the memory orders `relaxed` / `acq_rel` of the
intrinsics are not modelled); `_Destroy` and `_Delete_this` are single transitions; null handles, aliasing, deleters and
`enable_shared_from_this` are not modelled.
-/

namespace STL.SharedPtr
open STL STL.Conc

/-- Where a thread is inside an operation on the control block. -/
inductive PC where
  | idle
  /-- `_Incref_nz`, before the load at `memory:1159` -/
  | lockLoad
  /-- `_Incref_nz`, before the compare-exchange at `memory:1162`, with `_Count = c` -/
  | lockCas (c : Nat)
  /-- `_Decref`, before `_Destroy()` at `memory:1183` -/
  | destroy
  /-- `_Decref`, before `_Decwref()` at `memory:1184` -/
  | decw
  /-- `_Decwref`, before `_Delete_this()` at `memory:1190` -/
  | delete
  deriving DecidableEq

/-- Local state: numbers of `shared_ptr` and `weak_ptr` handles, position, result of the last `lock()`. -/
structure Loc where
  s : Nat
  w : Nat
  pc : PC
  res : Option Bool

/-- The control block and what happened to it: `_Uses`, `_Weaks`, how often the managed object was destroyed and the block
deleted, and whether memory was ever used after that. -/
structure Block where
  uses : Nat
  weaks : Nat
  destroyed : Nat
  freed : Nat
  bad : Bool

structure State (ι : Type) where
  b : Block
  l : ι → Loc

/-- The operations a thread can start, and `adv`: the next transition of the operation in progress. -/
inductive Act (ι : Type) where
  | copyS (src : ι) | copyW (src : ι) | weakFromS (src : ι)
  | moveS (dst : ι) | moveW (dst : ι)
  | dropS | dropW | lock | use | adv

/-- Any access to the control block; after `_Delete_this` it is a use after free. -/
def Block.touch (b : Block) : Block := { b with bad := b.bad || decide (0 < b.freed) }

/-- `_MT_INCR`, `xatomic.h:51`. -/
def inc (x : Nat) : Nat := (x + 1) % 2 ^ 32
/-- `_MT_DECR`, `xatomic.h:52`. -/
def dec (x : Nat) : Nat := (x + (2 ^ 32 - 1)) % 2 ^ 32

/-- `_Incref`, `memory:1173-1175`. -/
def Block.incref (b : Block) : Block := { b.touch with uses := inc b.uses }
/-- `_Incwref`, `memory:1177-1179`. -/
def Block.incwref (b : Block) : Block := { b.touch with weaks := inc b.weaks }
/-- The decrement in `_Decref`, `memory:1182`; where the thread goes next. -/
def Block.decref (b : Block) : Block × PC :=
  ({ b.touch with uses := dec b.uses }, if dec b.uses = 0 then .destroy else .idle)
/-- The decrement in `_Decwref`, `memory:1189`; where the thread goes next. -/
def Block.decwref (b : Block) : Block × PC :=
  ({ b.touch with weaks := dec b.weaks }, if dec b.weaks = 0 then .delete else .idle)
/-- `_Destroy()`, called at `memory:1183`. -/
def Block.destroyObj (b : Block) : Block := { b.touch with destroyed := b.destroyed + 1 }
/-- `_Delete_this()`, called at `memory:1190`. -/
def Block.deleteThis (b : Block) : Block := { b.touch with freed := b.freed + 1 }
/-- Dereferencing a `shared_ptr`: a use of the managed object. -/
def Block.useObj (b : Block) : Block := { b with bad := b.bad || decide (0 < b.destroyed) }

variable {ι : Type} [DecidableEq ι]

/-- One transition of thread `t`; `none` if it cannot do `a` now. -/
def step (σ : State ι) (t : ι) (a : Act ι) : Option (State ι) :=
  let me := σ.l t
  match me.pc, a with
  -- shared_ptr copy constructor, memory:1358-1364
  | .idle, .copyS u => if 0 < (σ.l u).s then some ⟨σ.b.incref, upd σ.l t { me with s := me.s + 1 }⟩ else none
  -- weak_ptr copy constructor and weak_ptr from shared_ptr, memory:1418-1426
  | .idle, .copyW u => if 0 < (σ.l u).w then some ⟨σ.b.incwref, upd σ.l t { me with w := me.w + 1 }⟩ else none
  | .idle, .weakFromS u => if 0 < (σ.l u).s then some ⟨σ.b.incwref, upd σ.l t { me with w := me.w + 1 }⟩ else none
  -- move to another thread's handle
  | .idle, .moveS u =>
    if 0 < me.s then
      let l1 := upd σ.l t { me with s := me.s - 1 }
      some ⟨σ.b, upd l1 u { l1 u with s := (l1 u).s + 1 }⟩
    else none
  | .idle, .moveW u =>
    if 0 < me.w then
      let l1 := upd σ.l t { me with w := me.w - 1 }
      some ⟨σ.b, upd l1 u { l1 u with w := (l1 u).w + 1 }⟩
    else none
  -- ~shared_ptr, memory:1712; _Decref, memory:1181-1186
  | .idle, .dropS => if 0 < me.s then some ⟨σ.b.decref.1, upd σ.l t { me with s := me.s - 1, pc := σ.b.decref.2 }⟩ else none
  -- ~weak_ptr, memory:3227; _Decwref, memory:1188-1192
  | .idle, .dropW => if 0 < me.w then some ⟨σ.b.decwref.1, upd σ.l t { me with w := me.w - 1, pc := σ.b.decwref.2 }⟩ else none
  -- weak_ptr::lock, memory:3271-3275; _Construct_from_weak, memory:1389-1398
  | .idle, .lock => if 0 < me.w then some ⟨σ.b, upd σ.l t { me with pc := .lockLoad, res := none }⟩ else none
  | .idle, .use => if 0 < me.s then some ⟨σ.b.useObj, σ.l⟩ else none
  -- _Incref_nz, memory:1154-1171
  | .lockLoad, .adv =>
    if σ.b.uses ≠ 0 then some ⟨σ.b.touch, upd σ.l t { me with pc := .lockCas σ.b.uses }⟩
    else some ⟨σ.b.touch, upd σ.l t { me with pc := .idle, res := some false }⟩
  | .lockCas c, .adv =>
    if σ.b.uses = c then
      some ⟨{ σ.b.touch with uses := inc c }, upd σ.l t { me with pc := .idle, res := some true, s := me.s + 1 }⟩
    else if σ.b.uses ≠ 0 then some ⟨σ.b.touch, upd σ.l t { me with pc := .lockCas σ.b.uses }⟩
    else some ⟨σ.b.touch, upd σ.l t { me with pc := .idle, res := some false }⟩
  | .destroy, .adv => some ⟨σ.b.destroyObj, upd σ.l t { me with pc := .decw }⟩
  | .decw, .adv => some ⟨σ.b.decwref.1, upd σ.l t { me with pc := σ.b.decwref.2 }⟩
  | .delete, .adv => some ⟨σ.b.deleteThis, upd σ.l t { me with pc := .idle }⟩
  | _, _ => none

/-- Right after `shared_ptr<T>(new T)` in thread `t₀` (`memory:1142-1143`: both counters start at 1). -/
def init (t₀ : ι) : State ι :=
  ⟨⟨1, 1, 0, 0, false⟩, fun t => ⟨if t = t₀ then 1 else 0, 0, .idle, none⟩⟩

end STL.SharedPtr
