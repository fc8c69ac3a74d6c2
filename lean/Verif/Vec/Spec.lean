import Verif.Vec.Model

/-!
# What `std::vector` is supposed to do

The specification used by the theorems about `vector`. A vector is a list of values, a capacity and the place of its storage (`data()`; 0 is the
null pointer). A pointer to an element is a place and an index. The specification is relational: it does not say how much more than
needed is allocated and which values are left behind by operations without a strong guarantee.
-/

namespace STL.Vec
open STL
variable {α : Type}

/-- One vector. -/
structure Ent (α : Type) where
  X : List α
  cap : Nat
  loc : Nat

/-- All vectors, by name. A name that is not in use is a vector in its initial state. -/
abbrev St (α : Type) := Nat → Ent α

def Ent.null : Ent α := ⟨[], 0, 0⟩

/-- Operations of a program on its vectors. -/
inductive Op (α : Type) where
  | newN (k n : Nat) (x : α)
  | newRange (k : Nat) (xs : List α)
  | newInput (k : Nat) (xs : List α)
  | newCopy (k l : Nat)
  | newMove (k l : Nat)
  | destroy (k : Nat)
  | emplaceBack (k : Nat) (a : Arg α)
  | emplace (k pos : Nat) (a : Arg α)
  | insertN (k pos n : Nat) (src : Src α)
  | append (k : Nat) (xs : List α)
  | insertRange (k pos : Nat) (xs : List α)
  | appendInput (k : Nat) (xs : List α)
  | insertInput (k pos : Nat) (xs : List α)
  | assignN (k n : Nat) (x : α)
  | assignRange (k : Nat) (xs : List α)
  | assignInput (k : Nat) (xs : List α)
  | copyAssign (k l : Nat)
  | moveAssign (k l : Nat)
  | swap (k l : Nat)
  | resize (k n : Nat) (src : Src α)
  | reserve (k n : Nat)
  | shrink (k : Nat)
  | popBack (k : Nat)
  | eraseOne (k pos : Nat)
  | eraseRange (k first last : Nat)
  | clear (k : Nat)
  | at (k i : Nat)
  | size (k : Nat)
  | capacity (k : Nat)
  | data (k : Nat)
  | load (p i : Nat)
  | store (p i : Nat) (x : α)

/-- Results. -/
inductive Out (α : Type) where
  | none
  | num (n : Nat)
  | val (x : α)
  | exc (e : Exc)

/-- The value of the argument of an insertion: for an element of the vector itself, its value before the call. -/
def argVal (X : List α) : Arg α → Option α
  | .ext x => some x
  | .copy i => X[i]?
  | .move i => X[i]?

/-- The elements once the argument has been used. -/
def argLeft (P : Par α) (X : List α) (a : Arg α) (x : α) : List α :=
  match a with
  | .move i => X.set i (P.mv x)
  | _ => X

def srcVal' (X : List α) : Src α → Option α
  | .ext x => some x
  | .self i => X[i]?

/-- What the caller has to guarantee: positions are in range, elements that are arguments exist, pointers that are used point to an element of
some vector, objects are constructed where there is none. -/
def pre (s : St α) : Op α → Prop
  | .newN k _ _ | .newRange k _ | .newInput k _ => s k = Ent.null
  | .newCopy k _ => s k = Ent.null
  | .newMove k l => s k = Ent.null ∧ k ≠ l
  | .emplaceBack k a => (argVal (s k).X a).isSome
  | .emplace k pos a => (argVal (s k).X a).isSome ∧ pos ≤ (s k).X.length
  | .insertN k pos _ src => (srcVal' (s k).X src).isSome ∧ pos ≤ (s k).X.length
  | .insertRange k pos _ | .insertInput k pos _ => pos ≤ (s k).X.length
  | .resize k _ src => (srcVal' (s k).X src).isSome
  | .popBack k => (s k).X ≠ []
  | .eraseOne k pos => pos < (s k).X.length
  | .eraseRange k first last => first ≤ last ∧ last ≤ (s k).X.length
  | .load p i | .store p i _ => ∃ k, (s k).loc = p ∧ i < (s k).X.length
  | _ => True

/-- No reallocation: iterators, pointers and references to elements stay what they are. -/
def keeps (e e' : Ent α) : Prop := e'.loc = e.loc ∧ e'.cap = e.cap

/-- New storage for at least `n` elements. -/
def relocates (s : St α) (n : Nat) (e' : Ent α) : Prop := e'.loc ≠ 0 ∧ (∀ m, (s m).loc ≠ e'.loc) ∧ n ≤ e'.cap

/-- There are to be `n` elements: no reallocation if the capacity suffices, otherwise it grows by half at least, unless `max_size()` is in the
way. -/
def grows (P : Par α) (s : St α) (n : Nat) (e e' : Ent α) : Prop :=
  if n ≤ e.cap then keeps e e' else relocates s n e' ∧ min P.max (e.cap + e.cap / 2) ≤ e'.cap

/-- The old elements; if one was passed as an rvalue it may have another value. -/
def spared (X : List α) (a : Arg α) (X' : List α) : Prop := X' = X ∨ ∃ i y, a = .move i ∧ X' = X.set i y

/-- Elements are added: `n` is the new number, `Y` the new sequence; `G`: what holds of the elements if the element type throws. -/
def added (P : Par α) (s : St α) (n : Nat) (Y : List α) (G : List α → Prop) (e e' : Ent α) : Out α → Prop
  | .none => e'.X = Y ∧ n ≤ P.max ∧ grows P s n e e'
  | .exc .lengthError => P.max < n ∧ e' = e
  | .exc .badAlloc => n ≤ P.max ∧ e.cap < n ∧ e' = e
  | .exc .user => n ≤ P.max ∧ keeps e e' ∧ G e'.X
  | _ => False

/-- Elements `xs` are added one after the other, then brought to their place. -/
def addedOneByOne (P : Par α) (s : St α) (xs Y : List α) (strong : Prop) (e e' : Ent α) : Out α → Prop
  | .none => e'.X = Y ∧ grows P s (e.X.length + xs.length) e e'
  | .exc x => ∃ k, k ≤ xs.length ∧ grows P s (e.X.length + k) e e' ∧ e'.X.length = e.X.length + k ∧ (strong → e'.X = e.X ++ xs.take k) ∧
    (x = .lengthError ∧ e.X.length + k = P.max ∧ k < xs.length ∧ e'.X = e.X ++ xs.take k ∨
      x = .badAlloc ∧ e'.cap = e.X.length + k ∧ k < xs.length ∧ e'.X = e.X ++ xs.take k ∨ x = .user)
  | _ => False

/-- The elements are replaced by `xs`. -/
def assigned (P : Par α) (s : St α) (xs : List α) (e e' : Ent α) : Out α → Prop
  | .none => e'.X = xs ∧ xs.length ≤ P.max ∧ grows P s xs.length e e'
  | .exc .lengthError => P.max < xs.length ∧ e' = e
  | .exc .badAlloc => xs.length ≤ P.max ∧ e.cap < xs.length ∧ e'.X = []
  | .exc .user => xs.length ≤ P.max ∧ (e.cap < xs.length ∧ e'.X = [] ∨ xs.length ≤ e.cap ∧ keeps e e' ∧ e'.X.length = e.X.length)
  | _ => False

def assignedOneByOne (P : Par α) (s : St α) (xs : List α) (e e' : Ent α) : Out α → Prop
  | .none => e'.X = xs ∧ grows P s xs.length e e'
  | .exc .lengthError => P.max < xs.length ∧ e'.X = xs.take P.max
  | .exc .badAlloc => e.cap < xs.length ∧ ∃ k, k < xs.length ∧ e'.X = xs.take k
  | .exc .user => e'.X.length ≤ max e.X.length xs.length
  | _ => False

/-- A vector is constructed from `xs`. -/
def built (P : Par α) (s : St α) (xs : List α) (e' : Ent α) : Out α → Prop
  | .none => e'.X = xs ∧ (if xs = [] then e' = Ent.null else relocates s xs.length e')
  | .exc .lengthError => P.max < xs.length ∧ e' = Ent.null
  | .exc .badAlloc | .exc .user => xs ≠ [] ∧ e' = Ent.null
  | _ => False

/-- Elements are removed, those after them move down. -/
def removed (P : Par α) (first last : Nat) (e e' : Ent α) : Out α → Prop
  | .none => e'.X = e.X.take first ++ e.X.drop last ∧ keeps e e'
  | .exc .user => P.nma = false ∧ first < last ∧ last < e.X.length ∧ keeps e e' ∧ e'.X.length = e.X.length ∧ e'.X.take first = e.X.take first
  | _ => False

def updS (s : St α) (k : Nat) (e : Ent α) : St α := fun m => if m = k then e else s m

/-- Only vector `k` changes. -/
def on (s s' : St α) (k : Nat) (f : Ent α → Ent α → Prop) : Prop := ∃ e', f (s k) e' ∧ s' = updS s k e'

/-- What operations do. -/
def sem (P : Par α) (s : St α) (op : Op α) (s' : St α) (out : Out α) : Prop :=
  match op with
  | .newN k n x => on s s' k fun _ e' => built P s (List.replicate n x) e' out
  | .newRange k xs => on s s' k fun _ e' => built P s xs e' out
  | .newInput k xs => on s s' k fun _ e' => built P s xs e' out
  | .newCopy k l => on s s' k fun _ e' => built P s (s l).X e' out
  | .newMove k l => out = .none ∧ s' = updS (updS s l Ent.null) k (s l)
  | .destroy k => out = .none ∧ s' = updS s k Ent.null
  | .emplaceBack k a => on s s' k fun e e' => ∀ x, argVal e.X a = some x →
      added P s (e.X.length + 1) (argLeft P e.X a x ++ [x])
        (fun Z => Z.length = e.X.length ∧ (P.nmc = true ∨ P.cc = true → spared e.X a Z)) e e' out
  | .emplace k pos a => on s s' k fun e e' => ∀ x, argVal e.X a = some x →
      added P s (e.X.length + 1) ((argLeft P e.X a x).insertIdx pos x)
        (fun Z => P.nmc = true ∧ (P.nma = true ∨ pos = e.X.length) ∨ pos = e.X.length ∧ P.cc = true → spared e.X a Z) e e' out
  | .insertN k pos n src => on s s' k fun e e' => ∀ x, srcVal' e.X src = some x →
      added P s (e.X.length + n) (e.X.take pos ++ List.replicate n x ++ e.X.drop pos)
        (fun Z => pos = e.X.length ∧ n = 1 ∧ (P.nmc = true ∨ P.cc = true) → Z = e.X) e e' out
  | .append k xs => on s s' k fun e e' => added P s (e.X.length + xs.length) (e.X ++ xs)
        (fun Z => P.nmc = true ∨ xs.length = 1 ∧ P.cc = true ∨ e.X.length + xs.length ≤ e.cap → Z = e.X) e e' out
  | .insertRange k pos xs => on s s' k fun e e' => added P s (e.X.length + xs.length) (e.X.take pos ++ xs ++ e.X.drop pos)
        (fun Z => P.nmc = true ∧ P.nma = true ∨ pos = e.X.length ∧ (P.nmc = true ∨ xs.length = 1 ∧ P.cc = true ∨ e.X.length + xs.length ≤ e.cap) →
          Z = e.X) e e' out
  | .appendInput k xs => on s s' k fun e e' => addedOneByOne P s xs (e.X ++ xs) (P.nmc = true ∨ P.cc = true) e e' out
  | .insertInput k pos xs => on s s' k fun e e' =>
      addedOneByOne P s xs (e.X.take pos ++ xs ++ e.X.drop pos) (P.nmc = true ∧ P.nma = true) e e' out
  | .assignN k n x => on s s' k fun e e' => assigned P s (List.replicate n x) e e' out
  | .assignRange k xs => on s s' k fun e e' => assigned P s xs e e' out
  | .assignInput k xs => on s s' k fun e e' => assignedOneByOne P s xs e e' out
  | .copyAssign k l => if k = l then out = .none ∧ s' = s else on s s' k fun e e' => assigned P s (s l).X e e' out
  | .moveAssign k l => if k = l then out = .none ∧ s' = s else out = .none ∧ s' = updS (updS s l Ent.null) k (s l)
  | .swap k l => out = .none ∧ s' = updS (updS s k (s l)) l (s k)
  | .resize k n src => on s s' k fun e e' => ∀ x, srcVal' e.X src = some x →
      added P s n (e.X.take n ++ List.replicate (n - e.X.length) x) (fun Z => P.nmc = true ∨ P.cc = true → Z = e.X) e e' out
  | .reserve k n => on s s' k fun e e' => match out with
      | .none => e'.X = e.X ∧ n ≤ P.max ∧ (if n ≤ e.cap then keeps e e' else relocates s n e')
      | .exc .lengthError => P.max < n ∧ e' = e
      | .exc .badAlloc => n ≤ P.max ∧ e.cap < n ∧ e' = e
      | .exc .user => n ≤ P.max ∧ e.cap < n ∧ keeps e e' ∧ e'.X.length = e.X.length ∧ (P.nmc = true ∨ P.cc = true → e' = e)
      | _ => False
  | .shrink k => on s s' k fun e e' => match out with
      | .none => e'.X = e.X ∧ e'.cap = e.X.length
      | .exc .badAlloc => e' = e
      | .exc .user => keeps e e' ∧ e'.X.length = e.X.length ∧ (P.nmc = true ∨ P.cc = true → e' = e)
      | _ => False
  | .popBack k => on s s' k fun e e' => out = .none ∧ e'.X = e.X.dropLast ∧ keeps e e'
  | .eraseOne k pos => on s s' k fun e e' => removed P pos (pos + 1) e e' out
  | .eraseRange k first last => on s s' k fun e e' => removed P first last e e' out
  | .clear k => on s s' k fun e e' => out = .none ∧ e'.X = [] ∧ keeps e e'
  | .at k i => s' = s ∧ match (s k).X[i]? with
      | some x => out = .val x
      | none => out = .exc .outOfRange
  | .size k => s' = s ∧ out = .num (s k).X.length
  | .capacity k => s' = s ∧ out = .num (s k).cap
  | .data k => s' = s ∧ out = .num (s k).loc
  | .load p i => s' = s ∧ ∀ k x, (s k).loc = p → (s k).X[i]? = some x → out = .val x
  | .store p i x => ∀ k, (s k).loc = p → i < (s k).X.length → on s s' k fun e e' => keeps e e' ∧
      (out = .none ∧ e'.X = e.X.set i x ∨ out = .exc .user ∧ ∃ y, e'.X = e.X.set i y)

/-- A client: it decides what to do next by what it has seen. -/
inductive Client (α : Type) where
  | done
  | call (op : Op α) (k : Out α → Client α)

/-- The client meets all preconditions, whatever the specification allows the operations to do. -/
def Legal (P : Par α) (s : St α) : Client α → Prop
  | .done => True
  | .call op k => pre s op ∧ ∀ s' out, sem P s op s' out → Legal P s' (k out)

/-- `SpecRun s c tr s'`: the specification allows the client `c`, started in `s`, to see the calls and results `tr` and end in `s'`. -/
inductive SpecRun (P : Par α) : St α → Client α → List (Op α × Out α) → St α → Prop
  | done {s} : SpecRun P s .done [] s
  | call {s op k s1 out tr s'} : pre s op → sem P s op s1 out → SpecRun P s1 (k out) tr s' → SpecRun P s (.call op k) ((op, out) :: tr) s'

/-! ## The program: the same operations, executed by the code -/

structure Pg (α : Type) where
  mem : W α
  vs : Nat → V

def updV (vs : Nat → V) (k : Nat) (v : V) : Nat → V := fun m => if m = k then v else vs m

/-- Run a member function of vector `k`; `none` is undefined behaviour. -/
def member {β : Type} (g : Pg α) (k : Nat) (m : M α β) (f : β → Out α) : Option (Pg α × Out α) :=
  match m { g.mem with v := g.vs k } with
  | .ok b w => some (⟨w, updV g.vs k w.v⟩, f b)
  | .exc e w => some (⟨w, updV g.vs k w.v⟩, .exc e)
  | .ub => none

/-- Read `n` elements from `b i` on. -/
def readAll (b : Nat) : Nat → Nat → M α (List α)
  | _, 0 => pure []
  | i, n + 1 => do
    let x ← rd b i
    let xs ← readAll b (i + 1) n
    pure (x :: xs)

/-- One operation. `newCopy` is `vector(const vector&)` (vector:747-752), `newMove` is `vector(vector&&)` (vector:761-768), `destroy` is `~vector`
(vector:831-837), `copyAssign` is `operator=(const vector&)` (vector:1526-1545; simplification: the elements of the other vector are read
first), `moveAssign` is `operator=(vector&&)` (vector:800-829) with `_Take_contents` (vector:426-434), `swap` is vector:1832-1837, `load` and
`store` access an element through a pointer, a reference or an iterator. -/
def step (P : Par α) (g : Pg α) (op : Op α) : Option (Pg α × Out α) :=
  match op with
  | .newN k n x => member g k (ctorN P n x) fun _ => .none
  | .newRange k xs => member g k (ctorRange P xs) fun _ => .none
  | .newInput k xs => member g k (ctorInput P xs) fun _ => .none
  | .newCopy k l => member g k (do
      let xs ← readAll (g.vs l).buf 0 (g.vs l).size
      ctorRange P xs) fun _ => .none
  | .newMove k l => some (⟨g.mem, updV (updV g.vs l ⟨0, 0, 0⟩) k (g.vs l)⟩, .none)
  | .destroy k => member g k tidy fun _ => .none
  | .emplaceBack k a => member g k (emplaceBack P a) fun _ => .none
  | .emplace k pos a => member g k (emplace P pos a) fun _ => .none
  | .insertN k pos n src => member g k (insertN P pos n src) fun _ => .none
  | .append k xs => member g k (append P xs) fun _ => .none
  | .insertRange k pos xs => member g k (insertRange P pos xs) fun _ => .none
  | .appendInput k xs => member g k (appendInput P xs) fun _ => .none
  | .insertInput k pos xs => member g k (insertInput P pos xs) fun _ => .none
  | .assignN k n x => member g k (assignN P n x) fun _ => .none
  | .assignRange k xs => member g k (assignRange P xs) fun _ => .none
  | .assignInput k xs => member g k (assignInput P xs) fun _ => .none
  | .copyAssign k l =>
    if k = l then some (g, .none)
    else member g k (do
      let xs ← readAll (g.vs l).buf 0 (g.vs l).size
      assignRange P xs) fun _ => .none
  | .moveAssign k l =>
    if k = l then some (g, .none)
    else match member g k tidy (fun _ => .none) with
      | some (g, .none) => some (⟨g.mem, updV (updV g.vs l ⟨0, 0, 0⟩) k (g.vs l)⟩, .none)
      | _ => none
  | .swap k l => if k = l then some (g, .none) else some (⟨g.mem, updV (updV g.vs k (g.vs l)) l (g.vs k)⟩, .none)
  | .resize k n src => member g k (resize P n src) fun _ => .none
  | .reserve k n => member g k (reserve P n) fun _ => .none
  | .shrink k => member g k (shrinkToFit P) fun _ => .none
  | .popBack k => member g k popBack fun _ => .none
  | .eraseOne k pos => member g k (eraseOne P pos) fun _ => .none
  | .eraseRange k first last => member g k (eraseRange P first last) fun _ => .none
  | .clear k => member g k clear fun _ => .none
  | .at k i => member g k (at_ i) fun x => .val x
  | .size k => some (g, .num (g.vs k).size)
  | .capacity k => some (g, .num (g.vs k).cap)
  | .data k => some (g, .num (g.vs k).buf)
  | .load p i => match rd p i g.mem with
    | .ok x _ => some (g, .val x)
    | _ => none
  | .store p i x => match copyA P x p i g.mem with
    | .ok _ w => some (⟨w, g.vs⟩, .none)
    | .exc e w => some (⟨w, g.vs⟩, .exc e)
    | .ub => none

/-- Run a client. -/
def run (P : Par α) (g : Pg α) : Client α → Option (Pg α × List (Op α × Out α))
  | .done => some (g, [])
  | .call op k => do
    let r ← step P g op
    let q ← run P r.1 (k r.2)
    some (q.1, (op, r.2) :: q.2)

/-- The program before it uses any vector; `ans` and `tape` decide which allocations and which operations of the element type will fail. -/
def start (ans : List (Option Nat)) (tape : List Bool) : Pg α := ⟨⟨fun _ => none, fun _ _ => none, 1, ⟨0, 0, 0⟩, ans, tape⟩, fun _ => ⟨0, 0, 0⟩⟩

end STL.Vec
