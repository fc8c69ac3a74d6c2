import Verif.RBTree.Model

/-!
# What ordered associative containers are supposed to do

The specification used by the theorems about `set`, `map`, `multiset` and `multimap`. It knows nothing of trees: a container is a *list* of
elements in iteration order. An element is a pair of its identity (the address that iterators, pointers and references to it hold) and its
value. `hd` is the identity that the end iterator holds.
-/

namespace STL.RBT
open STL
variable {α κ : Type}

/-- One container. `multi`: equivalent keys are allowed. -/
structure Ent (α : Type) where
  hd : Nat
  multi : Bool
  X : List (Nat × α)

/-- All live containers, by name. -/
abbrev St (α : Type) := Nat → Option (Ent α)

/-- Identities a container holds. -/
def adr (e : Ent α) : List Nat := e.hd :: e.X.map Prod.fst

/-- Identities in use. -/
def used (s : St α) (q : Nat) : Prop := ∃ n e, s n = some e ∧ q ∈ adr e

/-- Keys `k` and that of `a` are equivalent. -/
def eqv (key : α → κ) (lt : κ → κ → Bool) (k : κ) (a : Nat × α) : Bool := !(lt (key a.2) k) && !(lt k (key a.2))

/-- Elements before position `p`, and from `p` on. -/
def bef (X : List (Nat × α)) (p : Nat) : List (Nat × α) := X.takeWhile (fun a => a.1 != p)
def fro (X : List (Nat × α)) (p : Nat) : List (Nat × α) := X.dropWhile (fun a => a.1 != p)

/-- The iterator to the first element of a suffix of the container, `end()` if there is none. -/
def atFirst (hd : Nat) : List (Nat × α) → Nat
  | [] => hd
  | a :: _ => a.1

/-- Insert behind all elements not greater than `k` / before all elements not less than `k`. -/
def upIns (key : α → κ) (lt : κ → κ → Bool) (a : Nat × α) (X : List (Nat × α)) : List (Nat × α) :=
  X.takeWhile (fun b => !(lt (key a.2) (key b.2))) ++ a :: X.dropWhile (fun b => !(lt (key a.2) (key b.2)))
def loIns (key : α → κ) (lt : κ → κ → Bool) (a : Nat × α) (X : List (Nat × α)) : List (Nat × α) :=
  X.takeWhile (fun b => lt (key b.2) (key a.2)) ++ a :: X.dropWhile (fun b => lt (key b.2) (key a.2))

/-- Insertion with a hint into a `multiset`/`multimap`: right before the hint if that keeps the order; else as close to it as the order
allows, which is behind the equivalent elements if the hint is too far right, and before them if it is too far left. -/
def hintIns (key : α → κ) (lt : κ → κ → Bool) (hint : Nat) (a : Nat × α) (X : List (Nat × α)) : List (Nat × α) :=
  if (bef X hint).any (fun b => lt (key a.2) (key b.2)) then upIns key lt a X
  else if (fro X hint).any (fun b => lt (key b.2) (key a.2)) then loIns key lt a X
  else bef X hint ++ a :: fro X hint

/-- `merge`: take the source's elements in order (`S`: still to look at, `K`: looked at and kept in the source), and move over those that
may be inserted into the destination `D`, until the destination is full. -/
def mergeSpec (key : α → κ) (lt : κ → κ → Bool) (multi : Bool) (maxsz : Nat) (D K : List (Nat × α)) : List (Nat × α) → List (Nat × α) × List (Nat × α) × Option Exc
  | [] => (D, K, none)
  | a :: S =>
    if multi = false ∧ D.any (eqv key lt (key a.2)) then mergeSpec key lt multi maxsz D (K ++ [a]) S
    else if maxsz = D.length then (D, K ++ a :: S, some .lengthError)
    else mergeSpec key lt multi maxsz (upIns key lt a D) K S

/-- Operations. Addresses `x` are what the allocator answers; `none`: allocation or the constructor of the element throws. -/
inductive Op (α κ : Type) where
  | new (n : Nat) (multi : Bool) (x : Nat)
  | destroy (n : Nat)
  | emplace (n : Nat) (v : α) (slow : Bool) (x : Option Nat)
  | emplaceHint (n hint : Nat) (v : α) (x : Option Nat)
  | eraseAt (n p : Nat)
  | eraseRange (n first last : Nat)
  | eraseKey (n : Nat) (k : κ)
  | clear (n : Nat)
  | merge (n m : Nat)
  | swap (n m : Nat)
  | find (n : Nat) (k : κ)
  | count (n : Nat) (k : κ)
  | contains (n : Nat) (k : κ)
  | lowerBound (n : Nat) (k : κ)
  | upperBound (n : Nat) (k : κ)
  | equalRange (n : Nat) (k : κ)
  | begin (n : Nat)
  | next (n p : Nat)
  | prev (n p : Nat)

/-- Results. -/
inductive Out where
  | none
  | it (p : Nat)
  | ins (p : Nat) (inserted : Bool)
  | rng (p q : Nat)
  | num (n : Nat)
  | bool (b : Bool)
  | exc (e : Exc)
  deriving DecidableEq

/-- What the caller has to guarantee: names denote live containers, iterators belong to the container, the allocator returns unused memory. -/
def pre (s : St α) : Op α κ → Prop
  | .new n _ x => s n = .none ∧ ¬ used s x
  | .destroy n | .eraseKey n _ | .clear n | .find n _ | .count n _ | .contains n _ | .lowerBound n _ | .upperBound n _ | .equalRange n _ | .begin n => ∃ e, s n = some e
  | .emplace n _ _ x => (∃ e, s n = some e) ∧ ∀ i, x = some i → ¬ used s i
  | .emplaceHint n hint _ x => (∃ e, s n = some e ∧ hint ∈ adr e) ∧ ∀ i, x = some i → ¬ used s i
  | .eraseAt n p | .next n p => ∃ e, s n = some e ∧ p ∈ e.X.map Prod.fst
  | .prev n p => ∃ e, s n = some e ∧ p ∈ adr e ∧ bef e.X p ≠ []
  | .eraseRange n p q => ∃ e, s n = some e ∧ p ∈ adr e ∧ (q = e.hd ∨ q ∈ (fro e.X p).map Prod.fst)
  | .merge n m => n ≠ m ∧ (∃ e, s n = some e) ∧ ∃ e, s m = some e
  | .swap n m => ∃ e e', s n = some e ∧ s m = some e' ∧ e.multi = e'.multi

def upd {β : Type} (s : Nat → Option β) (n : Nat) (e : Option β) : Nat → Option β := fun m => if m = n then e else s m

/-- Insertion of a new element: the new contents and the result. `put`: where to put it. -/
def insSpec (key : α → κ) (lt : κ → κ → Bool) (maxsz : Nat) (slow : Bool) (e : Ent α) (v : α) (x : Option Nat)
    (put : Nat × α → List (Nat × α) → List (Nat × α)) : List (Nat × α) × Out :=
  if e.multi then
    match x with
    | .none => (e.X, .exc .badAlloc)
    | some i => if maxsz = e.X.length then (e.X, .exc .lengthError) else (put (i, v) e.X, .ins i true)
  else
    if slow = true ∧ x = .none then (e.X, .exc .badAlloc)
    else match e.X.find? (eqv key lt (key v)) with
      | some a => (e.X, .ins a.1 false)
      | .none =>
        if maxsz = e.X.length then (e.X, .exc .lengthError)
        else match x with
          | .none => (e.X, .exc .badAlloc)
          | some i => (upIns key lt (i, v) e.X, .ins i true)

/-- Only container `n` is involved. -/
def on (s : St α) (n : Nat) (f : Ent α → List (Nat × α) × Out) : St α × Out :=
  match s n with
  | some e => (upd s n (some ⟨e.hd, e.multi, (f e).1⟩), (f e).2)
  | .none => (s, .none)

/-- What the operations do. `maxsz`: `max_size()`. -/
def sem (key : α → κ) (lt : κ → κ → Bool) (maxsz : Nat) (s : St α) : Op α κ → St α × Out
  | .new n m x => (upd s n (some ⟨x, m, []⟩), .none)
  | .destroy n => (upd s n .none, .none)
  | .emplace n v slow x => on s n fun e => insSpec key lt maxsz slow e v x (upIns key lt)
  | .emplaceHint n hint v x => on s n fun e => insSpec key lt maxsz false e v x (hintIns key lt hint)
  | .eraseAt n p => on s n fun e => (bef e.X p ++ (fro e.X p).tail, .it (atFirst e.hd (fro e.X p).tail))
  | .eraseRange n p q => on s n fun e => (bef e.X p ++ fro e.X q, .it q)
  | .eraseKey n k => on s n fun e => (e.X.filter (fun a => !(eqv key lt k a)), .num (e.X.countP (eqv key lt k)))
  | .clear n => on s n fun _ => ([], .none)
  | .merge n m =>
    match s n, s m with
    | some e, some e' =>
      let r := mergeSpec key lt e.multi maxsz e.X [] e'.X
      (upd (upd s n (some ⟨e.hd, e.multi, r.1⟩)) m (some ⟨e'.hd, e'.multi, r.2.1⟩), match r.2.2 with | some x => .exc x | .none => .none)
    | _, _ => (s, .none)
  | .swap n m => (fun q => if q = n then s m else if q = m then s n else s q, .none)
  | .find n k => on s n fun e => (e.X, .it (match e.X.find? (eqv key lt k) with | some a => a.1 | .none => e.hd))
  | .count n k => on s n fun e => (e.X, .num (e.X.countP (eqv key lt k)))
  | .contains n k => on s n fun e => (e.X, .bool (e.X.any (eqv key lt k)))
  | .lowerBound n k => on s n fun e => (e.X, .it (atFirst e.hd (e.X.dropWhile (fun a => lt (key a.2) k))))
  | .upperBound n k => on s n fun e => (e.X, .it (atFirst e.hd (e.X.dropWhile (fun a => !(lt k (key a.2))))))
  | .equalRange n k => on s n fun e => (e.X, .rng (atFirst e.hd (e.X.dropWhile (fun a => lt (key a.2) k))) (atFirst e.hd (e.X.dropWhile (fun a => !(lt k (key a.2))))))
  | .begin n => on s n fun e => (e.X, .it (atFirst e.hd e.X))
  | .next n p => on s n fun e => (e.X, .it (atFirst e.hd (fro e.X p).tail))
  | .prev n p => on s n fun e => (e.X, .it (atFirst e.hd (bef e.X p).reverse))

/-- `SpecRun s ops outs s'`: starting in `s`, a caller that meets the preconditions and issues `ops` has to see the results `outs`, and ends in `s'`. -/
inductive SpecRun (key : α → κ) (lt : κ → κ → Bool) (maxsz : Nat) : St α → List (Op α κ) → List Out → St α → Prop
  | nil {s} : SpecRun key lt maxsz s [] [] s
  | cons {s op ops outs s'} : pre s op → SpecRun key lt maxsz (sem key lt maxsz s op).1 ops outs s' →
      SpecRun key lt maxsz s (op :: ops) ((sem key lt maxsz s op).2 :: outs) s'

/-! ## The program: the same operations, executed by the code -/

/-- A container object and its kind. -/
structure W where
  c : Con
  multi : Bool

structure Pg (α : Type) where
  h : Hp α
  w : Nat → Option W

def conOf (w : Nat → Option W) (n : Nat) : R W := match w n with | some c => .ok c | none => .error .ub

/-- Iterations every descent, climb or rebalancing loop may take on a container with `n` elements: logarithmically many. -/
def fu (n : Nat) : Nat := 2 * Nat.log2 (n + 1) + 3

def outIns : Nat × Bool × Option Exc → Out
  | (_, _, some e) => .exc e
  | (p, b, none) => .ins p b

/-- One operation. All loops inside get fuel `fu`, logarithmic in the size; only loops that visit erased, counted or merged elements one by
one have linear fuel. -/
def step (key : α → κ) (lt : κ → κ → Bool) (maxsz : Nat) (g : Pg α) : Op α κ → R (Pg α × Out)
  | .new n m x => do
    let r ← newCon g.h x
    .ok (⟨r.1, upd g.w n (some ⟨r.2, m⟩)⟩, .none)
  | .destroy n => do
    let c ← conOf g.w n
    let h ← destroy (fu c.c.size) g.h c.c
    .ok (⟨h, upd g.w n none⟩, .none)
  | .emplace n v slow x => do
    let c ← conOf g.w n
    let r ← (if c.multi then emplaceMulti key lt maxsz (fu c.c.size) g.h c.c v x
      else if slow then emplaceUniqueSlow key lt maxsz (fu c.c.size) g.h c.c v x
      else emplaceUnique key lt maxsz (fu c.c.size) g.h c.c v x : R _)
    .ok (⟨r.1, upd g.w n (some ⟨r.2.1, c.multi⟩)⟩, outIns r.2.2)
  | .emplaceHint n hint v x => do
    let c ← conOf g.w n
    let r ← (if c.multi then emplaceHintMulti key lt maxsz (fu c.c.size) g.h c.c hint v x
      else emplaceHintUnique key lt maxsz (fu c.c.size) g.h c.c hint v x : R _)
    .ok (⟨r.1, upd g.w n (some ⟨r.2.1, c.multi⟩)⟩, outIns r.2.2)
  | .eraseAt n p => do
    let c ← conOf g.w n
    let r ← eraseAt (fu c.c.size) g.h c.c p
    .ok (⟨r.1, upd g.w n (some ⟨r.2.1, c.multi⟩)⟩, .it r.2.2)
  | .eraseRange n p q => do
    let c ← conOf g.w n
    let r ← eraseRange (fu c.c.size) (c.c.size + 1) g.h c.c p q
    .ok (⟨r.1, upd g.w n (some ⟨r.2, c.multi⟩)⟩, .it q)
  | .eraseKey n k => do
    let c ← conOf g.w n
    let r ← eraseKey key lt (fu c.c.size) (c.c.size + 1) g.h c.c k
    .ok (⟨r.1, upd g.w n (some ⟨r.2.1, c.multi⟩)⟩, .num r.2.2)
  | .clear n => do
    let c ← conOf g.w n
    let r ← clear (fu c.c.size) g.h c.c
    .ok (⟨r.1, upd g.w n (some ⟨r.2, c.multi⟩)⟩, .none)
  | .merge n m => do
    let c ← conOf g.w n
    let d ← conOf g.w m
    let r ← merge key lt c.multi maxsz (fu (c.c.size + d.c.size)) (d.c.size + 1) g.h c.c d.c
    .ok (⟨r.1, upd (upd g.w n (some ⟨r.2.1, c.multi⟩)) m (some ⟨r.2.2.1, d.multi⟩)⟩, match r.2.2.2 with | some x => .exc x | .none => .none)
  | .swap n m => do  -- `_Swap_val_excluding_comp`, `xtree:1010-1017`
    let c ← conOf g.w n
    let d ← conOf g.w m
    .ok (⟨g.h, fun q => if q = n then some ⟨d.c, c.multi⟩ else if q = m then some ⟨c.c, d.multi⟩ else g.w q⟩, .none)
  | .find n k => do
    let c ← conOf g.w n
    let p ← find key lt c.c.hd (fu c.c.size) g.h k
    .ok (g, .it p)
  | .count n k => do
    let c ← conOf g.w n
    let p ← count key lt c.multi (fu c.c.size) (c.c.size + 1) g.h c.c k
    .ok (g, .num p)
  | .contains n k => do
    let c ← conOf g.w n
    let b ← contains key lt c.c.hd (fu c.c.size) g.h k
    .ok (g, .bool b)
  | .lowerBound n k => do  -- `xtree:1451-1453`
    let c ← conOf g.w n
    let r ← findLower key lt c.c.hd (fu c.c.size) g.h k
    .ok (g, .it r.bound)
  | .upperBound n k => do  -- `xtree:1469-1471`
    let c ← conOf g.w n
    let r ← findUpper key lt c.c.hd (fu c.c.size) g.h k
    .ok (g, .it r.bound)
  | .equalRange n k => do  -- `xtree:1487-1491`
    let c ← conOf g.w n
    let r ← eqrange key lt c.c.hd (fu c.c.size) g.h k
    .ok (g, .rng r.1 r.2)
  | .begin n => do  -- `xtree:1151-1154`
    let c ← conOf g.w n
    let hn ← nd g.h c.c.hd
    .ok (g, .it hn.left)
  | .next n p => do
    let c ← conOf g.w n
    let q ← next g.h (fu c.c.size) p
    .ok (g, .it q)
  | .prev n p => do
    let c ← conOf g.w n
    let q ← prev g.h (fu c.c.size) p
    .ok (g, .it q)

def steps (key : α → κ) (lt : κ → κ → Bool) (maxsz : Nat) (g : Pg α) : List (Op α κ) → R (Pg α × List Out)
  | [] => .ok (g, [])
  | op :: ops => do
    let r ← step key lt maxsz g op
    let q ← steps key lt maxsz r.1 ops
    .ok (q.1, r.2 :: q.2)

/-- The program before it creates any container. -/
def start : Pg α := ⟨fun _ => none, fun _ => none⟩

end STL.RBT
