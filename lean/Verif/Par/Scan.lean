import Verif.Par.ForEach

/-!
# Parallel `inclusive_scan`, `exclusive_scan` and their `transform_` forms: model

`/repo/stl/inc/execution:3595-3735`, `:4397-4520`, `:4555-4660`, `:4736-4850`, `:4880-5005`, for an intermediate type equal to the value type of the destination (`_Scan_reuse_output`);
the other case is in `Verif.Par.ScanOther`. Interleaving as in `Verif.Par.ForEach`: a thread makes one atomic access to a `_State`, or works on the memory that it owns, per step.
The wake-ups are not modelled: a thread that waits for a `_State` that is not 0 any more can go on (`_Get_available_state` reloads it).
-/

namespace STL.Par
open STL STL.Conc

namespace Scan
variable {α : Type}

/-- The input: elsewhere, or the destination itself (`// temp to enable _First == _Dest`); for the `transform_` forms `f` is `_Transform_op`. -/
inductive Src (α : Type) where
  | separate (v : Nat → α)
  | inplace (f : α → α)

/-- `*_First` (`_Transform_op(*_First)`) at position `x` while the destination is `out`. -/
def Src.rd (I : Src α) (out : Nat → α) (x : Nat) : α :=
  match I with
  | .separate v => v x
  | .inplace f => f (out x)

/-- `*_Dest = val` -/
def set (out : Nat → α) (x : Nat) (val : α) : Nat → α := fun y => if y = x then val else out y

/-! ## Work on one chunk -/

/-- The loop of `_Exclusive_scan_per_chunk`, `execution:4409-4425`, and of `_Exclusive_scan_per_chunk_complete`, `:4437-4442`, with `m` elements left from `x`. -/
def exclRest (I : Src α) (op : α → α → α) : Nat → Nat → α → (Nat → α) → (Nat → α) × α
  | 0, _, val, out => (out, val)
  | m + 1, x, val, out => exclRest I op m (x + 1) (op val (I.rd out x)) (set out x val)

/-- `_Exclusive_scan_per_chunk`, `execution:4401-4426`: the destination and `_Val`. -/
def exclLocal (I : Src α) (op : α → α → α) (a b : Nat) (out : Nat → α) : (Nat → α) × α := exclRest I op (b - a - 1) (a + 1) (I.rd out a) out

/-- `_Exclusive_scan_per_chunk_complete`, `execution:4428-4443`. -/
def exclComplete (I : Src α) (op : α → α → α) (a b : Nat) (init : α) (out : Nat → α) : (Nat → α) × α :=
  exclRest I op (b - a - 1) (a + 1) (op init (I.rd out a)) (set out a init)

/-- The loop of `_Inclusive_scan_per_chunk`, `execution:4568-4583`, at `x` with `m` elements after it. -/
def inclLoop (I : Src α) (op : α → α → α) : Nat → Nat → α → (Nat → α) → (Nat → α) × α
  | 0, x, val, out => (set out x val, val)
  | m + 1, x, val, out => inclLoop I op m (x + 1) (op val (I.rd (set out x val) (x + 1))) (set out x val)

/-- The construction of `_Val`, `execution:4561-4566`: `none` is `_No_init_tag`. -/
def withPre (op : α → α → α) (pre : Option α) (y : α) : α :=
  match pre with
  | some p => op p y
  | none => y

/-- `_Inclusive_scan_per_chunk`, `execution:4555-4584`, with a predecessor or without. -/
def inclChunk (I : Src α) (op : α → α → α) (a b : Nat) (pre : Option α) (out : Nat → α) : (Nat → α) × α :=
  inclLoop I op (b - a - 1) a (withPre op pre (I.rd out a)) out

/-- The loop of `_Apply_inclusive_predecessor`, `execution:3693-3701`, and of `_Apply_exclusive_predecessor`, `:3675-3682`. -/
def applyLoop (op : α → α → α) (pre : α) : Nat → Nat → (Nat → α) → (Nat → α)
  | 0, _, out => out
  | m + 1, x, out => applyLoop op pre m (x + 1) (set out x (op pre (out x)))

/-- The algorithm and its initial value. -/
inductive Alg (α : Type) where
  | excl (init : α)
  | incl (init : Option α)

def Alg.init : Alg α → Option α
  | .excl i => some i
  | .incl o => o

/-- A chunk whose predecessor sum is known; `none` for an exclusive scan does not happen (`.crash`). -/
def full (A : Alg α) (I : Src α) (op : α → α → α) (a b : Nat) (pre : Option α) (out : Nat → α) : Option ((Nat → α) × α) :=
  match A, pre with
  | .excl _, some p => some (exclComplete I op a b p out)
  | .excl _, none => none
  | .incl _, pre => some (inclChunk I op a b pre out)

/-- A chunk without its predecessor sum, `execution:4486`, `:4633`. -/
def localScan (A : Alg α) (I : Src α) (op : α → α → α) (a b : Nat) (out : Nat → α) : (Nat → α) × α :=
  match A with
  | .excl _ => exclLocal I op a b out
  | .incl _ => inclChunk I op a b none out

/-- The elements in `_Apply_exclusive_predecessor`, `execution:3672-3682`, and `_Apply_inclusive_predecessor`, `:3692-3701`. -/
def applyPre (A : Alg α) (op : α → α → α) (a b : Nat) (pre : α) (out : Nat → α) : Nat → α :=
  match A with
  | .excl _ => applyLoop op pre (b - a - 1) (a + 1) (set out a pre)
  | .incl _ => applyLoop op pre (b - a) a out

/-! ## `_Process_chunk`, `execution:4464-4505`, `:4608-4650` -/

/-- `_State & _Sum_available`, with `_Local_available = 1`, `_Sum_available = 2` (`execution:3600-3601`). -/
def hasSum (st : Nat) : Bool := st &&& 2 != 0

inductive PC (α : Type) where
  | idle
  /-- before `_Get_next_key` -/
  | take
  /-- chunk `c = [a, b)`: before the load of the predecessor's state, or, for chunk 0, before the scan -/
  | start (c a b : Nat)
  /-- the predecessor's sum is available: before the scan -/
  | full (c a b : Nat)
  /-- before `_Store_available_state(_Sum_available)` -/
  | pubSum (c : Nat)
  /-- before the local scan -/
  | locl (c a b : Nat)
  /-- before `_Store_available_state(_Local_available)` -/
  | pubLocal (c a b : Nat)
  /-- before `_Prev_chunk->_Get_available_state()`, `execution:4490`, `:4637` -/
  | wait (c a b : Nat)
  /-- in `_Get_lookback_sum`: before `_Prev->_Get_available_state()` for `_Prev = p`, with `_Result = acc`, `execution:3724`, `:3729` -/
  | look (c a b p : Nat) (acc : α)
  /-- before the construction of `_Sum`, `execution:3670`, `:3688` -/
  | apply (c a b : Nat) (pre : α)
  /-- before `_State.store(_Local_available | _Sum_available)`, `execution:3671`, `:3689` -/
  | store (c a b : Nat) (pre : α)
  /-- before the loop over the elements -/
  | fix (c a b : Nat) (pre : α)
  | done
  | crash

/-- `_Consumed_chunks`; `_State`, `_Local`, `_Sum` of each chunk (`none`: not constructed); the destination. -/
structure Shared (α : Type) where
  consumed : Nat
  state : Nat → Nat
  locl : Nat → Option α
  sum : Nat → Option α
  out : Nat → α

structure State (ι α : Type) where
  s : Shared α
  l : ι → PC α

/-- `_Prev_state & _Sum_available ? _Prev->_Sum._Ref() : _Prev->_Local._Ref()`, `execution:3726`, `:3731`. -/
def prevVal (s : Shared α) (p : Nat) : Option α := if hasSum (s.state p) then s.sum p else s.locl p

/-- After `_Prev_chunk->_Get_available_state()`, `execution:4490-4498`, `:4637-4645`; `_Get_lookback_sum(_Prev_chunk)` starts with `_Current = c - 1` and `_Prev = c - 2`. -/
def waited (s : Shared α) (c a b : Nat) : PC α :=
  if hasSum (s.state (c - 1)) then
    match s.sum (c - 1) with
    | some v => .apply c a b v
    | none => .crash
  else if c < 2 then .crash
  else
    match s.locl (c - 1) with
    | some v => .look c a b (c - 2) v
    | none => .crash

/-- `_Result = _Reduce_op(…, _Result)`, then `--_Prev` unless a sum was found, `execution:3725-3732`. -/
def looked (s : Shared α) (op : α → α → α) (c a b p : Nat) (acc : α) : PC α :=
  match prevVal s p with
  | none => .crash
  | some v => if hasSum (s.state p) then .apply c a b (op v acc) else if p = 0 then .crash else .look c a b (p - 1) (op v acc)

/-- The scan of a chunk whose predecessor sum is `pre`. -/
def doFull (A : Alg α) (I : Src α) (op : α → α → α) (s : Shared α) (c a b : Nat) (pre : Option α) : Shared α × PC α :=
  match full A I op a b pre s.out with
  | none => (s, .crash)
  | some r => ({ s with out := r.1, sum := upd s.sum c (some r.2) }, .pubSum c)

/-- `_Sum = _Reduce_op(_Preceding, _Local)`, `execution:3670`, `:3688`. -/
def doApply (op : α → α → α) (s : Shared α) (c a b : Nat) (pre : α) : Shared α × PC α :=
  match s.locl c with
  | none => (s, .crash)
  | some v => ({ s with sum := upd s.sum c (some (op pre v)) }, .store c a b pre)

def stepL (T : Team) (A : Alg α) (I : Src α) (op : α → α → α) (s : Shared α) : PC α → Option (Shared α × PC α)
  | .idle => some (s, .take)
  | .take => some ({ s with consumed := (nextKey T s.consumed).2 }, match nextChunk T s.consumed with
    | .error _ => .crash
    | .ok none => .done
    | .ok (some (c, a, b)) => .start c a b)
  | .start c a b => some (if c = 0 then doFull A I op s c a b A.init else (s, if hasSum (s.state (c - 1)) then .full c a b else .locl c a b))
  | .full c a b => some (match s.sum (c - 1) with
    | none => (s, .crash)
    | some v => doFull A I op s c a b (some v))
  | .pubSum c => some ({ s with state := upd s.state c 2 }, .take)
  | .locl c a b => some ({ s with out := (localScan A I op a b s.out).1, locl := upd s.locl c (some (localScan A I op a b s.out).2) }, .pubLocal c a b)
  | .pubLocal c a b => some ({ s with state := upd s.state c 1 }, .wait c a b)
  | .wait c a b => if s.state (c - 1) = 0 then none else some (s, waited s c a b)
  | .look c a b p acc => if s.state p = 0 then none else some (s, looked s op c a b p acc)
  | .apply c a b pre => some (doApply op s c a b pre)
  | .store c a b pre => some ({ s with state := upd s.state c 3 }, .fix c a b pre)
  | .fix _ a b pre => some ({ s with out := applyPre A op a b pre s.out }, .take)
  | .done => none
  | .crash => none

variable {ι : Type} [DecidableEq ι]

def step (T : Team) (A : Alg α) (I : Src α) (op : α → α → α) (σ : State ι α) (t : ι) : Option (State ι α) := (stepL T A I op σ.s (σ.l t)).map fun r => ⟨r.1, upd σ.l t r.2⟩

def init (out : Nat → α) : State ι α := ⟨⟨0, fun _ => 0, fun _ => none, fun _ => none, out⟩, fun _ => .idle⟩

/-- States reached in `m` steps. -/
inductive Reach (T : Team) (A : Alg α) (I : Src α) (op : α → α → α) (out : Nat → α) : Nat → State ι α → Prop
  | init : Reach T A I op out 0 (init out)
  | step {m σ σ' t} : Reach T A I op out m σ → step T A I op σ t = some σ' → Reach T A I op out (m + 1) σ'

def Finished (caller : ι) (σ : State ι α) : Prop := σ.l caller = .done ∧ ∀ t, σ.l t = .idle ∨ σ.l t = .done

end Scan
end STL.Par
