import Verif.Par.PartitionProps
import Verif.Conc.Base

/-!
# Parallel `for_each`: model

`/repo/stl/inc/execution:253-265`, `:843-852`, `:1201-1225`. The calling thread and the callbacks that the thread pool starts (`_Submit_for_chunks`) run the same loop.
Callbacks may start at any time, or never: the destructor of `_Work_ptr` (`:234-237`) cancels the callbacks that have not started and waits for the others.
Each step of a thread is one atomic operation or one call of the function; steps of different threads interleave in any order.
-/

namespace STL.Par
open STL STL.Conc

/-- `_Get_next_key`, `execution:843-852`: the key (`none`: invalid) and the new value of `_Consumed_chunks`. -/
def nextKey (T : Team) (c : Nat) : R (Option Key) × Nat :=
  ((if c < T.chunks then do let k ← getChunkKey T c; .ok (some k) else .ok none : R (Option Key)), (c + 1) % 2 ^ 64)

/-- The chunk of the next key as positions, for a random access range of `T.count` elements: `_Basis._Get_chunk(_Key)`. -/
def nextChunk (T : Team) (c : Nat) : R (Option (Nat × Nat × Nat)) := do
  match ← (nextKey T c).1 with
  | none => .ok none
  | some k => do let (a, b) ← chunkRan T.count.toNat 0 k; .ok (some (k.chunk, a, b))

namespace ForEach

inductive PC where
  /-- not started -/
  | idle
  /-- before `_Get_next_key`, `execution:1213` -/
  | take
  /-- in `_For_each_ivdep`, `execution:1216`: the elements `[a, b)` are left -/
  | run (a b : Nat)
  | done
  /-- undefined behaviour -/
  | crash
  deriving DecidableEq

/-- `_Consumed_chunks` and the positions on which the function was called. -/
structure Shared where
  consumed : Nat
  calls : List Nat

structure State (ι : Type) where
  s : Shared
  l : ι → PC

/-- One step of a thread. -/
def stepL (T : Team) (s : Shared) : PC → Option (Shared × PC)
  | .idle => some (s, .take)
  | .take => some (⟨(nextKey T s.consumed).2, s.calls⟩, match nextChunk T s.consumed with
    | .error _ => .crash
    | .ok none => .done
    | .ok (some (_, a, b)) => .run a b)
  | .run a b => if a = b then some (s, .take) else some (⟨s.consumed, s.calls ++ [a]⟩, .run (a + 1) b)
  | .done => none
  | .crash => none

variable {ι : Type} [DecidableEq ι]

def step (T : Team) (σ : State ι) (t : ι) : Option (State ι) := (stepL T σ.s (σ.l t)).map fun r => ⟨r.1, upd σ.l t r.2⟩

def init : State ι := ⟨⟨0, []⟩, fun _ => .idle⟩

/-- The algorithm returns: the caller has left its loop, and so has every callback that was started. -/
def Finished (caller : ι) (σ : State ι) : Prop := σ.l caller = .done ∧ ∀ t, σ.l t = .idle ∨ σ.l t = .done

/-- States reached in `m` steps by any interleaving. -/
inductive Reach (T : Team) : Nat → State ι → Prop
  | init : Reach T 0 init
  | step {m σ σ' t} : Reach T m σ → step T σ t = some σ' → Reach T (m + 1) σ'

end ForEach
end STL.Par
