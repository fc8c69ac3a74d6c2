import Verif.Variant.Model

/-!
# What `variant` promises

A variable is absent, valueless, or holds a value of an alternative. For each operation: when it may be called, and what may come of it. Below, the programs that
use variants, and how they run on the model.
-/

namespace STL.Var
open STL

/-- The abstract state of a variable. -/
inductive G (V : Type) where
  | absent
  | valueless
  | holds (i : Nat) (x : V)

abbrev St (V : Type) := Nat → G V

variable {V : Type}

def St.set (s : St V) (k : Nat) (g : G V) : St V := fun m => if m = k then g else s m

/-- What is left of a variant whose value has been moved to a new one. -/
def G.leave (P : Par V) : G V → G V
  | .holds i x => .holds i (P.moved i x)
  | g => g

/-- `index()` -/
def G.index : G V → Nat
  | .holds i _ => i
  | _ => 2 ^ 64 - 1

/-- The order of the states: valueless is least, then by the alternative. -/
def G.rank : G V → Nat
  | .holds i _ => i + 1
  | _ => 0

/-- The six comparisons of numbers. -/
def Rel.nat : Rel → Nat → Nat → Bool
  | .eq, a, b => a = b
  | .ne, a, b => a ≠ b
  | .lt, a, b => a < b
  | .gt, a, b => b < a
  | .le, a, b => a ≤ b
  | .ge, a, b => b ≤ a

/-- The comparison of two states: of the values if they hold the same alternative, otherwise as the ranks compare. -/
def relSpec (P : Par V) (r : Rel) : G V → G V → Bool
  | .holds i x, .holds j y => if i = j then P.rel r i x y else r.nat i j
  | a, b => r.nat a.rank b.rank

inductive Op (V : Type) where
  /-- a new variant: from arguments, by copy, by move -/
  | newIn (k i : Nat) (x : V) (nothrow : Bool)
  | newCopy (k l : Nat)
  | newMove (k l : Nat)
  /-- the destructor -/
  | destroy (k : Nat)
  | emplace (k i : Nat) (x : V) (nothrow : Bool)
  /-- `v = x`; the construction, the assignment from `x` does not throw -/
  | assignArg (k i : Nat) (x : V) (ntc nta : Bool)
  | copyAssign (k l : Nat)
  | moveAssign (k l : Nat)
  | swap (k l : Nat)
  | index (k : Nat)
  | valueless (k : Nat)
  | holds (k i : Nat)
  | get (k i : Nat)
  | getIf (k i : Nat)
  /-- `get<i>(v) = x` -/
  | store (k i : Nat) (x : V)
  | compare (r : Rel) (k l : Nat)
  | hash (k : Nat)
  | visit (ks : List Nat)

inductive Out (V : Type) where
  | none
  | exc (e : Exc)
  | num (n : Nat)
  | bool (b : Bool)
  | val (x : V)
  | opt (x : Option V)
  /-- the visitor was called with these -/
  | args (l : List (Nat × V))

/-- When an operation may be called. -/
def Pre (P : Par V) (s : St V) : Op V → Prop
  | .newIn k i _ _ => s k = .absent ∧ i < P.n
  | .newCopy k l => s k = .absent ∧ s l ≠ .absent
  | .newMove k l => s k = .absent ∧ s l ≠ .absent
  | .destroy k => s k ≠ .absent
  | .emplace k i _ _ => s k ≠ .absent ∧ i < P.n
  | .assignArg k i _ _ _ => s k ≠ .absent ∧ i < P.n
  | .copyAssign k l => s k ≠ .absent ∧ s l ≠ .absent
  | .moveAssign k l => s k ≠ .absent ∧ s l ≠ .absent
  | .swap k l => s k ≠ .absent ∧ s l ≠ .absent
  | .index k => s k ≠ .absent
  | .valueless k => s k ≠ .absent
  | .holds k i => s k ≠ .absent ∧ i < P.n
  | .get k i => s k ≠ .absent ∧ i < P.n
  | .getIf k i => s k ≠ .absent ∧ i < P.n
  | .store k i _ => s k ≠ .absent ∧ i < P.n
  | .compare _ k l => s k ≠ .absent ∧ s l ≠ .absent
  | .hash k => s k ≠ .absent
  | .visit ks => (∀ k ∈ ks, s k ≠ .absent) ∧ (P.n + 1) ^ ks.length < 2 ^ 64

/-- A contained object threw. -/
def Out.threw (out : Out V) : Prop := out = .exc .user

/-- `v` gets the value `x` of alternative `i` that it does not hold now, by a construction that throws only if not `nothrow`. If it throws, `v` is unchanged
if the alternative can be moved without exceptions, and otherwise valueless. -/
def change (P : Par V) (s s' : St V) (k i : Nat) (x : V) (nothrow : Bool) (out : Out V) : Prop :=
  (out = .none ∧ s' = s.set k (.holds i x)) ∨
  (out.threw ∧ nothrow = false ∧ if P.nmc i then s' = s else s' = s.set k .valueless)

/-- What may come of an operation: the state after it, and what the caller sees. -/
def Post (P : Par V) (s s' : St V) (out : Out V) : Op V → Prop
  | .newIn k i x nothrow => (out = .none ∧ s' = s.set k (.holds i x)) ∨ (out.threw ∧ nothrow = false ∧ s' = s)
  | .newCopy k l => (out = .none ∧ s' = s.set k (s l)) ∨ (out.threw ∧ s' = s ∧ ∃ i x, s l = .holds i x ∧ P.ncc i = false)
  | .newMove k l => (out = .none ∧ s' = (s.set k (s l)).set l ((s l).leave P)) ∨
      (out.threw ∧ ∃ i x b, s l = .holds i x ∧ P.nmc i = false ∧ s' = s.set l (.holds i b))
  | .destroy k => out = .none ∧ s' = s.set k .absent
  | .emplace k i x nothrow => (out = .none ∧ s' = s.set k (.holds i x)) ∨ (out.threw ∧ nothrow = false ∧ s' = s.set k .valueless)
  | .assignArg k i x ntc nta =>
    if (s k).index = i then
      (out = .none ∧ s' = s.set k (.holds i x)) ∨ (out.threw ∧ nta = false ∧ ∃ a, s' = s.set k (.holds i a))
    else change P s s' k i x ntc out
  | .copyAssign k l => match s l with
    | .holds j y =>
      if (s k).index = j then
        (out = .none ∧ s' = s.set k (.holds j y)) ∨ (out.threw ∧ P.nca j = false ∧ ∃ a, s' = s.set k (.holds j a))
      else change P s s' k j y (P.ncc j) out
    | g => out = .none ∧ s' = s.set k g
  | .moveAssign k l => match s l with
    | .holds j y =>
      if k = l then
        (out = .none ∧ s' = s.set k (.holds j (P.selfMoved j y))) ∨ (out.threw ∧ P.nma j = false ∧ ∃ a, s' = s.set k (.holds j a))
      else if (s k).index = j then
        (out = .none ∧ s' = (s.set k (.holds j y)).set l (.holds j (P.movedA j y))) ∨
        (out.threw ∧ P.nma j = false ∧ ∃ a b, s' = (s.set k (.holds j a)).set l (.holds j b))
      else
        (out = .none ∧ s' = (s.set k (.holds j y)).set l (.holds j (P.moved j y))) ∨
        (out.threw ∧ P.nmc j = false ∧ ∃ b, s' = (s.set k .valueless).set l (.holds j b))
    | g => out = .none ∧ s' = s.set k g
  | .swap k l => (out = .none ∧ s' = (s.set k (s l)).set l (s k)) ∨
      (out.threw ∧
        ((∃ i x y a b, s k = .holds i x ∧ s l = .holds i y ∧ P.nsw i = false ∧ s' = (s.set l (.holds i b)).set k (.holds i a)) ∨
        ((s k).rank ≠ (s l).rank ∧
          ((∃ i x b, s k = .holds i x ∧ P.nmc i = false ∧ s' = s.set k (.holds i b)) ∨
          (∃ j y b, s l = .holds j y ∧ P.nmc j = false ∧ s' = (s.set k .valueless).set l (.holds j b)) ∨
          (∃ i x, s k = .holds i x ∧ P.nmc i = false ∧ (s l = .valueless → 32 ≤ P.n) ∧ s' = (s.set k (s l)).set l .valueless)))))
  | .index k => out = .num (s k).index ∧ s' = s
  | .valueless k => out = .bool (match s k with | .holds _ _ => false | _ => true) ∧ s' = s
  | .holds k i => out = .bool ((s k).index = i) ∧ s' = s
  | .get k i => s' = s ∧ if (s k).index = i then ∃ x, s k = .holds i x ∧ out = .val x else out = .exc .badAccess
  | .getIf k i => s' = s ∧ if (s k).index = i then ∃ x, s k = .holds i x ∧ out = .opt (some x) else out = .opt none
  | .store k i x => if (s k).index = i then out = .none ∧ s' = s.set k (.holds i x) else out = .exc .badAccess ∧ s' = s
  | .compare r k l => out = .bool (relSpec P r (s k) (s l)) ∧ s' = s
  | .hash k => out = .num (match s k with | .holds i x => P.hash i x | _ => 0) ∧ s' = s
  | .visit ks => s' = s ∧
      ((∃ k ∈ ks, s k = .valueless) → out = .exc .badAccess) ∧
      ((∀ k ∈ ks, s k ≠ .valueless) → ∃ l : List (Nat × V), out = .args l ∧ ks.map s = l.map fun p => .holds p.1 p.2)

/-- A program that uses variants: it sees what each operation gives before it chooses the next. -/
inductive Client (V : Type) where
  | done
  | call (op : Op V) (k : Out V → Client V)

/-- It keeps to the preconditions, whatever happens. -/
def Legal (P : Par V) (s : St V) : Client V → Prop
  | .done => True
  | .call op k => Pre P s op ∧ ∀ s' out, Post P s s' out op → Legal P s' (k out)

/-- What a program may see, and the state it may end in. -/
inductive SpecRun (P : Par V) : St V → Client V → List (Op V × Out V) → St V → Prop where
  | done {s : St V} : SpecRun P s .done [] s
  | call {s s' s'' : St V} {op : Op V} {k : Out V → Client V} {out : Out V} {tr : List (Op V × Out V)} :
      Post P s s' out op → SpecRun P s' (k out) tr s'' → SpecRun P s (.call op k) ((op, out) :: tr) s''

/-! ## Running a program -/

def outcome {β : Type} (f : β → Out V) : Res V β → Option (W V × Out V)
  | .ok b w => some (w, f b)
  | .exc e w => some (w, .exc e)
  | .ub => none

/-- One operation of the client. -/
def step (P : Par V) (w : W V) (op : Op V) : Option (W V × Out V) :=
  let unit := outcome (V := V) fun (_ : Unit) => .none
  match op with
  | .newIn k i x nt => unit (ctorIn P (.u k) i x nt w)
  | .newCopy k l => unit (copyCtor P (.u k) (.u l) w)
  | .newMove k l => unit (moveCtor P (.u k) (.u l) w)
  | .destroy k => unit (destruct P (.u k) w)
  | .emplace k i x nt => unit (emplace P (.u k) i x nt w)
  | .assignArg k i x ntc nta => unit (assignArg P (.u k) i x ntc nta w)
  | .copyAssign k l => unit (copyAssign P (.u k) (.u l) w)
  | .moveAssign k l => unit (moveAssign P (.u k) (.u l) w)
  | .swap k l => unit (swap P (.u k) (.u l) w)
  | .index k => outcome .num (index (.u k) w)
  | .valueless k => outcome .bool (valueless (.u k) w)
  | .holds k i => outcome .bool (holds (.u k) i w)
  | .get k i => outcome .val (get (.u k) i w)
  | .getIf k i => outcome .opt (getIf (.u k) i w)
  | .store k i x => unit (store (.u k) i x w)
  | .compare r k l => outcome .bool (compare P r (.u k) (.u l) w)
  | .hash k => outcome .num (hashOf P (.u k) w)
  | .visit ks => outcome .args (visit P (ks.map .u) w)

/-- Run a client. -/
def run (P : Par V) (w : W V) : Client V → Option (W V × List (Op V × Out V))
  | .done => some (w, [])
  | .call op k => do
    let r ← step P w op
    let q ← run P r.1 (k r.2)
    some (q.1, (op, r.2) :: q.2)

/-- The program before it has any variant. -/
def start (tape : List (Option (V × V))) : W V where
  cell := fun _ => ⟨false, 0, none, 0, 0⟩
  tape := tape

/-- What the traits mean: types with trivial special members have trivial destructors, and a trivial move leaves the source as it is. -/
structure Par.Ok (P : Par V) : Prop where
  pos : 0 < P.n
  lt : P.n < 2 ^ 31
  tcc : ∀ i, P.tcc i → P.td i
  tmc : ∀ i, P.tmc i → P.td i ∧ ∀ x, P.moved i x = x
  tma : ∀ i, P.tma i → ∀ x, P.movedA i x = x ∧ P.selfMoved i x = x

end STL.Var
