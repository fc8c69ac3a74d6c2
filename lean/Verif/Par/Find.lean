import Verif.Par.ForEach

/-!
# Parallel `find`, `find_if`, `find_if_not`: model

`/repo/stl/inc/execution:393-474`, `:1310-1375`. `pred x` says whether the element at position `x` matches; elements do not change during the algorithm,
so the search of a chunk is one step. Interleaving as in `Verif.Par.ForEach`.
-/

namespace STL.Par
open STL STL.Conc

/-- `_Fx(_Range._First, _Range._Last)`, `execution:1340`: the first match in `[a, a + m)`, or `a + m`. -/
def firstMatch (pred : Nat → Bool) (a : Nat) : Nat → Nat
  | 0 => a
  | m + 1 => if pred a then a else firstMatch pred (a + 1) m

namespace Find

/-! ## With an atomic iterator: `_Parallel_choose_min_result` -/

namespace A

inductive PC where
  | idle
  /-- before `_Complete()`, `execution:1327` -/
  | check
  /-- before `_Get_next_key`, `execution:1331` -/
  | take
  /-- before the search, `execution:1338` -/
  | scan (a b : Nat)
  /-- in `_Imbue`, before the compare-exchange, `execution:411`: `_Local_result`, `_Expected` -/
  | cas (loc exp : Nat)
  | done
  | crash
  deriving DecidableEq

/-- `_Consumed_chunks`, `_Result`. -/
structure Shared where
  consumed : Nat
  result : Nat

structure State (ι : Type) where
  s : Shared
  l : ι → PC

/-- `spur`: a weak compare-exchange fails spuriously. -/
inductive Act where
  | adv | spur

/-- After a failed compare-exchange, `execution:411`. -/
def failed (s : Shared) (loc : Nat) : PC := if s.result > loc then .cas loc s.result else .done

def stepL (T : Team) (pred : Nat → Bool) (last : Nat) (s : Shared) : PC → Act → Option (Shared × PC)
  | .idle, .adv => some (s, .check)
  | .check, .adv => some (s, if s.result ≠ last then .done else .take)
  | .take, .adv => some (⟨(nextKey T s.consumed).2, s.result⟩, match nextChunk T s.consumed with
    | .error _ => .crash
    | .ok none => .done
    | .ok (some (_, a, b)) => .scan a b)
  | .scan a b, .adv => some (s, if firstMatch pred a (b - a) = b then .check else .cas (firstMatch pred a (b - a)) last)
  | .cas loc exp, .adv => if s.result = exp then some (⟨s.consumed, loc⟩, .done) else some (s, failed s loc)
  | .cas loc _, .spur => some (s, failed s loc)
  | _, _ => none

variable {ι : Type} [DecidableEq ι]

def step (T : Team) (pred : Nat → Bool) (last : Nat) (σ : State ι) (t : ι) (a : Act) : Option (State ι) := (stepL T pred last σ.s (σ.l t) a).map fun r => ⟨r.1, upd σ.l t r.2⟩

/-- `_Results(_Last)`, `execution:398`. -/
def init (last : Nat) : State ι := ⟨⟨0, last⟩, fun _ => .idle⟩

inductive Reach (T : Team) (pred : Nat → Bool) (last : Nat) : State ι → Prop
  | init : Reach T pred last (init last)
  | step {σ σ' t a} : Reach T pred last σ → step T pred last σ t a = some σ' → Reach T pred last σ'

def Finished (caller : ι) (σ : State ι) : Prop := σ.l caller = .done ∧ ∀ t, σ.l t = .idle ∨ σ.l t = .done

end A

/-! ## Otherwise: `_Parallel_choose_min_chunk` -/

namespace B

/-- `_Still_active`, `execution:70`. -/
def active : Nat := 2 ^ 64 - 1

inductive PC where
  | idle
  | check
  | take
  | scan (c a b : Nat)
  /-- in `_Imbue`, before the compare-exchange, `execution:461`: `_Chunk`, `_Local_result`, `_Expected` -/
  | cas (c loc exp : Nat)
  /-- before `lock_guard`, `execution:468` -/
  | lock (c loc : Nat)
  /-- before the load, `execution:469` -/
  | load (c loc : Nat)
  /-- before `_Result = _Local_result`, `execution:470` -/
  | write (c loc : Nat)
  /-- before the destructor of `_Lck` -/
  | unlock
  | done
  | crash
  deriving DecidableEq

/-- `_Consumed_chunks`, `_Selected_chunk`, `_Result`, `_Mtx`. -/
structure Shared where
  consumed : Nat
  selected : Nat
  result : Nat
  locked : Bool

structure State (ι : Type) where
  s : Shared
  l : ι → PC

inductive Act where
  | adv | spur

/-- After a failed compare-exchange, `execution:461-466`. -/
def failed (s : Shared) (c loc : Nat) : PC := if c > s.selected then .done else .cas c loc s.selected

def stepL (T : Team) (pred : Nat → Bool) (s : Shared) : PC → Act → Option (Shared × PC)
  | .idle, .adv => some (s, .check)
  | .check, .adv => some (s, if s.selected ≠ active then .done else .take)
  | .take, .adv => some ({ s with consumed := (nextKey T s.consumed).2 }, match nextChunk T s.consumed with
    | .error _ => .crash
    | .ok none => .done
    | .ok (some (c, a, b)) => .scan c a b)
  | .scan c a b, .adv => some (s, if firstMatch pred a (b - a) = b then .check else .cas c (firstMatch pred a (b - a)) active)
  | .cas c loc exp, .adv => if s.selected = exp then some ({ s with selected := c }, .lock c loc) else some (s, failed s c loc)
  | .cas c loc _, .spur => some (s, failed s c loc)
  | .lock c loc, .adv => if s.locked then none else some ({ s with locked := true }, .load c loc)
  | .load c loc, .adv => some (s, if s.selected = c then .write c loc else .unlock)
  | .write _ loc, .adv => some ({ s with result := loc }, .unlock)
  | .unlock, .adv => some ({ s with locked := false }, .done)
  | _, _ => none

variable {ι : Type} [DecidableEq ι]

def step (T : Team) (pred : Nat → Bool) (σ : State ι) (t : ι) (a : Act) : Option (State ι) := (stepL T pred σ.s (σ.l t) a).map fun r => ⟨r.1, upd σ.l t r.2⟩

/-- `_Results(_Last)`, `execution:448`. -/
def init (last : Nat) : State ι := ⟨⟨0, active, last, false⟩, fun _ => .idle⟩

inductive Reach (T : Team) (pred : Nat → Bool) (last : Nat) : State ι → Prop
  | init : Reach T pred last (init last)
  | step {σ σ' t a} : Reach T pred last σ → step T pred σ t a = some σ' → Reach T pred last σ'

def Finished (caller : ι) (σ : State ι) : Prop := σ.l caller = .done ∧ ∀ t, σ.l t = .idle ∨ σ.l t = .done

end B
end Find

/-! ## `all_of`, `any_of`, `none_of`: `execution:1083-1122`, `:1124-1148` -/

namespace AllOf

inductive PC where
  | idle
  /-- before `_Is_canceled()`, `execution:1097` -/
  | check
  | take
  | scan (a b : Nat)
  /-- before `_Cancel()`, `execution:1110` -/
  | cancel
  | done
  | crash
  deriving DecidableEq

/-- `_Consumed_chunks`, `_Cancel_token`. -/
structure Shared where
  consumed : Nat
  canceled : Bool

structure State (ι : Type) where
  s : Shared
  l : ι → PC

/-- `bad x`: `_Pred(x) ? _Invert : !_Invert`, `execution:1109`. -/
def stepL (T : Team) (bad : Nat → Bool) (s : Shared) : PC → Option (Shared × PC)
  | .idle => some (s, .check)
  | .check => some (s, if s.canceled then .done else .take)
  | .take => some (⟨(nextKey T s.consumed).2, s.canceled⟩, match nextChunk T s.consumed with
    | .error _ => .crash
    | .ok none => .done
    | .ok (some (_, a, b)) => .scan a b)
  | .scan a b => some (s, if firstMatch bad a (b - a) = b then .check else .cancel)
  | .cancel => some (⟨s.consumed, true⟩, .done)
  | .done => none
  | .crash => none

variable {ι : Type} [DecidableEq ι]

def step (T : Team) (bad : Nat → Bool) (σ : State ι) (t : ι) : Option (State ι) := (stepL T bad σ.s (σ.l t)).map fun r => ⟨r.1, upd σ.l t r.2⟩

def init : State ι := ⟨⟨0, false⟩, fun _ => .idle⟩

inductive Reach (T : Team) (bad : Nat → Bool) : State ι → Prop
  | init : Reach T bad init
  | step {σ σ' t} : Reach T bad σ → step T bad σ t = some σ' → Reach T bad σ'

def Finished (caller : ι) (σ : State ι) : Prop := σ.l caller = .done ∧ ∀ t, σ.l t = .idle ∨ σ.l t = .done

/-- What `_All_of_family_parallel` returns, `execution:1134`. -/
def result (σ : State ι) : Bool := !σ.s.canceled

end AllOf
end STL.Par
