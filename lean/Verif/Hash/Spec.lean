import Verif.Hash.Model

/-!
# What the unordered containers are supposed to do

The specification used by the theorems about `unordered_set`, `unordered_map`, `unordered_multiset` and `unordered_multimap`. It knows nothing
of nodes, links and bucket arrays. A container is a sequence of elements, in the order of iteration; an element is a pair of its identity (the
address that iterators, pointers and references to it hold) and its value. What matters of the order is the order within each group of
elements with equal keys; the rest is left open by most operations.
-/

namespace STL.UH
open STL STL.DL
variable {α K : Type}

/-- The requirements on hash function and key equality. -/
structure Good (P : Par α K) : Prop where
  refl : ∀ k, P.eq k k = true
  symm : ∀ k l, P.eq k l = true → P.eq l k = true
  trans : ∀ k l m, P.eq k l = true → P.eq l m = true → P.eq k m = true
  hash : ∀ k l, P.eq k l = true → P.hash k = P.hash l

/-- One container, and the nodes that node handles own. -/
structure St (α : Type) where
  /-- the identity that the end iterator holds -/
  hd : Nat
  /-- the elements -/
  X : List (Nat × α)
  /-- the elements owned by node handles -/
  H : List (Nat × α)
  /-- `bucket_count()` -/
  nb : Nat
  /-- the maximum load factor -/
  lf : LF

/-- The elements with key `k`, in the order of iteration. -/
def grp (P : Par α K) (k : K) (X : List (Nat × α)) : List (Nat × α) := X.filter fun a => P.eq k (P.kfn a.2)

/-- The elements whose hash values fall into bucket `b` of `nb`. -/
def inBucket (P : Par α K) (nb b : Nat) (X : List (Nat × α)) : List (Nat × α) := X.filter fun a => decide (P.hash (P.kfn a.2) % nb = b)

/-- Identities in use. -/
def adr (s : St α) : List Nat := s.hd :: (ids s.X ++ ids s.H)

/-- A new element of a group goes after the element that the hint refers to, if this is an element of the group, otherwise to the end. -/
def insAfter (hint : Option Nat) (G : List (Nat × α)) (a : Nat × α) : List (Nat × α) :=
  match hint with
  | none => G ++ [a]
  | some p => match fro G p with
    | [] => G ++ [a]
    | b :: F => bef G p ++ b :: a :: F

/-- The largest bucket count: a power of two (`_Max_storage_buckets`). -/
def maxBuckets (P : Par α K) : Nat := 2 ^ Nat.log2 (P.vecMax / 2 ||| 1)

inductive Op (α K : Type) where
  /-- `emplace`, `insert`, `try_emplace`, with or without hint. `viaKey`: the key can be taken from the arguments, without making a node. -/
  | emplace (viaKey : Bool) (hint : Option Nat) (v : α) (e : Env)
  /-- `insert(node_type&&)`, with or without hint -/
  | insertNode (hint : Option Nat) (x : Nat) (vok : Bool) (thr : Option Nat)
  | extractAt (p : Nat)
  | extractKey (k : K)
  /-- the destructor of a node handle -/
  | dropNode (x : Nat)
  /-- assignment through `value()`, `key()` or `mapped()` of a node handle -/
  | writeNode (x : Nat) (v : α)
  | eraseAt (p : Nat)
  | eraseRange (p q : Nat)
  | eraseKey (k : K)
  | clear
  | rehash (n : Nat) (vok : Bool) (thr : Option Nat)
  | reserve (n : Nat) (vok : Bool) (thr : Option Nat)
  | maxLoad (lf : LF)
  | find (k : K)
  | contains (k : K)
  | count (k : K)
  | equalRange (k : K)
  | size
  | bucketCount
  | bucket (k : K)
  | beginB (b : Nat)
  | endB (b : Nat)
  | bucketSize (b : Nat)
  | begin
  | next (p : Nat)
  | deref (p : Nat)
  /-- assignment to the mapped value -/
  | write (p : Nat) (v : α)

inductive Out (α : Type) where
  | none
  | it (p : Nat)
  | its (p q : Nat)
  /-- an iterator, and whether something was inserted -/
  | ins (p : Nat) (b : Bool)
  | node (x : Option Nat)
  | num (n : Nat)
  | bool (b : Bool)
  | val (v : α)
  | exc (e : Exc)

/-- What the caller has to guarantee: iterators are valid, the allocator returns unused memory, keys are not modified. -/
def pre (P : Par α K) (s : St α) : Op α K → Prop
  | .emplace _ hint _ e => (∀ p, hint = some p → p = s.hd ∨ p ∈ ids s.X) ∧ ∀ x, e.x = some x → x ≠ 0 ∧ x ∉ adr s
  | .insertNode hint x _ _ => (∀ p, hint = some p → p = s.hd ∨ p ∈ ids s.X) ∧ x ∈ ids s.H
  | .dropNode x | .writeNode x _ => x ∈ ids s.H
  | .extractAt p | .eraseAt p | .next p | .deref p => p ∈ ids s.X
  | .eraseRange p q => (p = s.hd ∨ p ∈ ids s.X) ∧ (q = s.hd ∨ q ∈ ids (fro s.X p))
  | .beginB b | .endB b | .bucketSize b => b < s.nb
  | .write p v => ∃ u, (p, u) ∈ s.X ∧ P.kfn u = P.kfn v
  | _ => True

/-- The container after the successful insertion of the element `a`: no other group has changed; if the load factor has to be reduced, there
are now enough buckets, otherwise the order of the other elements is as before. -/
def inserted (P : Par α K) (hint : Option Nat) (a : Nat × α) (s s' : St α) : Prop :=
  (∀ k, grp P k s'.X = if P.eq k (P.kfn a.2) then insAfter hint (grp P k s.X) a else grp P k s.X) ∧
  s'.hd = s.hd ∧ s'.lf = s.lf ∧
  if s.lf.need (s.X.length + 1) s.nb then s.nb ≤ s'.nb ∧ s.lf.minBk (s.X.length + 1) ≤ s'.nb
  else s'.nb = s.nb ∧ ∃ L N, s.X = L ++ N ∧ s'.X = L ++ a :: N

/-- The container after a failed insertion, and why it may fail. `noMem`: there is no memory for the node. An exception thrown by the hash
function or the key equality during a rehash clears the container. -/
def failed (P : Par α K) (s s' : St α) (noMem vok : Bool) (thr : Option Nat) : Exc → Prop
  | .lengthError => s' = s ∧ (s.X.length = P.maxSize ∨ s.lf.need (s.X.length + 1) s.nb = true ∧ maxBuckets P < max (8 * s.nb) (s.lf.minBk (s.X.length + 1)))
  | .badAlloc => s' = s ∧ (noMem = true ∨ s.lf.need (s.X.length + 1) s.nb = true ∧ vok = false)
  | .user => s' = { s with X := [], nb := s'.nb } ∧ s.lf.need (s.X.length + 1) s.nb = true ∧ thr ≠ none
  | _ => False

/-- `rehash` to at least `n` buckets, and enough for the elements. -/
def rehashed (P : Par α K) (n : Nat) (vok : Bool) (thr : Option Nat) (s s' : St α) (out : Out α) : Prop :=
  match out with
  | .none => (∀ k, grp P k s'.X = grp P k s.X) ∧ n ≤ s'.nb ∧ s.lf.minBk s.X.length ≤ s'.nb ∧ s.nb ≤ s'.nb ∧ s' = { s with X := s'.X, nb := s'.nb } ∧
      (max (s.lf.minBk s.X.length) n ≤ s.nb → s' = s)
  | .exc .lengthError => s' = s ∧ maxBuckets P < max (s.lf.minBk s.X.length) n
  | .exc .badAlloc => s' = s ∧ vok = false
  | .exc .user => s' = { s with X := [], nb := s'.nb } ∧ thr ≠ none
  | _ => False

/-- What the operations do. -/
def sem (P : Par α K) (s : St α) (op : Op α K) (s' : St α) (out : Out α) : Prop :=
  match op with
  | .emplace viaKey hint v e => match out with
    | .ins p false => P.multi = false ∧ s' = s ∧ ∃ u, grp P (P.kfn v) s.X = [(p, u)]
    | .ins p true => e.x = some p ∧ (P.multi = false → grp P (P.kfn v) s.X = []) ∧ inserted P hint (p, v) s s' ∧ s'.H = s.H
    | .exc x => failed P s s' e.x.isNone e.vok e.thr x ∧ (P.multi = false → viaKey = true → grp P (P.kfn v) s.X = [])
    | _ => False
  | .insertNode hint x vok thr => ∃ v, (x, v) ∈ s.H ∧ match out with
    | .ins p false => P.multi = false ∧ s' = s ∧ ∃ u, grp P (P.kfn v) s.X = [(p, u)]
    | .ins p true => p = x ∧ (P.multi = false → grp P (P.kfn v) s.X = []) ∧ inserted P hint (x, v) s s' ∧ s'.H = s.H.filter (fun a => a.1 != x)
    | .exc e => failed P s s' false vok thr e ∧ (P.multi = false → grp P (P.kfn v) s.X = [])
    | _ => False
  | .extractAt p => ∃ v, (p, v) ∈ s.X ∧ s' = { s with X := bef s.X p ++ (fro s.X p).tail, H := (p, v) :: s.H } ∧ out = .node (some p)
  | .extractKey k => match grp P k s.X with
    | [] => s' = s ∧ out = .node none
    | a :: _ => s' = { s with X := bef s.X a.1 ++ (fro s.X a.1).tail, H := a :: s.H } ∧ out = .node (some a.1)
  | .dropNode x => s' = { s with H := s.H.filter (fun a => a.1 != x) } ∧ out = .none
  | .writeNode x v => s' = { s with H := s.H.map fun a => if a.1 = x then (x, v) else a } ∧ out = .none
  | .eraseAt p => s' = { s with X := bef s.X p ++ (fro s.X p).tail } ∧ out = .it (atFirst s.hd (fro s.X p).tail)
  | .eraseRange p q => s' = { s with X := without s.X p q } ∧ out = .it q
  | .eraseKey k => s' = { s with X := s.X.filter fun a => !P.eq k (P.kfn a.2) } ∧ out = .num (grp P k s.X).length
  | .clear => s' = { s with X := [] } ∧ out = .none
  | .rehash n vok thr => rehashed P n vok thr s s' out
  | .reserve n vok thr => rehashed P (s.lf.minBk n) vok thr s s' out
  | .maxLoad lf => s' = { s with lf := lf } ∧ out = .none
  | .find k => s' = s ∧ out = .it (atFirst s.hd (grp P k s.X))
  | .contains k => s' = s ∧ out = .bool (decide (grp P k s.X ≠ []))
  | .count k => s' = s ∧ out = .num (grp P k s.X).length
  | .equalRange k => s' = s ∧ ∃ p q, out = .its p q ∧ range s.X p q = grp P k s.X ∧ (grp P k s.X = [] → p = s.hd ∧ q = s.hd)
  | .size => s' = s ∧ out = .num s.X.length
  | .bucketCount => s' = s ∧ out = .num s.nb
  | .bucket k => s' = s ∧ out = .num (P.hash k % s.nb)
  | .beginB b => s' = s ∧ out = .it (atFirst s.hd (inBucket P s.nb b s.X))
  | .endB b => s' = s ∧ ∃ q, out = .it q ∧ range s.X (atFirst s.hd (inBucket P s.nb b s.X)) q = inBucket P s.nb b s.X ∧ (inBucket P s.nb b s.X = [] → q = s.hd)
  | .bucketSize b => s' = s ∧ out = .num (inBucket P s.nb b s.X).length
  | .begin => s' = s ∧ out = .it (atFirst s.hd s.X)
  | .next p => s' = s ∧ out = .it (atFirst s.hd (fro s.X p).tail)
  | .deref p => ∃ v, (p, v) ∈ s.X ∧ s' = s ∧ out = .val v
  | .write p v => s' = { s with X := s.X.map fun a => if a.1 = p then (p, v) else a } ∧ out = .none

/-- A client of the container: it calls operations and may decide what to do next by looking at the results. -/
inductive Client (α K : Type) where
  | done
  | call (op : Op α K) (k : Out α → Client α K)

/-- The client meets all preconditions, whatever the specification allows the operations to do. -/
def Legal (P : Par α K) (s : St α) : Client α K → Prop
  | .done => True
  | .call op k => pre P s op ∧ ∀ s' out, sem P s op s' out → Legal P s' (k out)

/-- `SpecRun P s c tr s'`: the specification allows the client `c`, started in `s`, to see the calls and results `tr` and end in `s'`. -/
inductive SpecRun (P : Par α K) : St α → Client α K → List (Op α K × Out α) → St α → Prop
  | done {s} : SpecRun P s .done [] s
  | call {s op k s1 out tr s'} : pre P s op → sem P s op s1 out → SpecRun P s1 (k out) tr s' → SpecRun P s (.call op k) ((op, out) :: tr) s'

/-- `merge`: the elements of `Y` that are transferred into a container with the elements `X`. A container with unique keys takes those whose
key it does not have yet. -/
def moves (P : Par α K) : List (Nat × α) → List (Nat × α) → List (Nat × α)
  | _, [] => []
  | X, a :: Y => if P.multi = false ∧ grp P (P.kfn a.2) X ≠ [] then moves P X Y else a :: moves P (X ++ [a]) Y

/-- `merge`: the other elements of `Y`. -/
def stays (P : Par α K) : List (Nat × α) → List (Nat × α) → List (Nat × α)
  | _, [] => []
  | X, a :: Y => if P.multi = false ∧ grp P (P.kfn a.2) X ≠ [] then a :: stays P X Y else stays P (X ++ [a]) Y

/-- What `merge` does: `i` elements of the source have been processed. An exception leaves both containers in the state that the
elements processed so far have produced, except that one thrown by the hash function or the key equality clears the target. -/
def Merged (P : Par α K) (X Y : List (Nat × α)) (env : List (Bool × Option Nat)) (X' Y' : List (Nat × α)) (e : Option Exc) : Prop :=
  ∃ i ≤ Y.length, Y' = stays P X (Y.take i) ++ Y.drop i ∧
    match e with
    | none => i = Y.length ∧ ∀ k, grp P k X' = grp P k X ++ grp P k (moves P X (Y.take i))
    | some .badAlloc => (∃ x ∈ env, x.1 = false) ∧ ∀ k, grp P k X' = grp P k X ++ grp P k (moves P X (Y.take i))
    | some .lengthError => ∀ k, grp P k X' = grp P k X ++ grp P k (moves P X (Y.take i))
    | some .user => (∃ x ∈ env, x.2 ≠ none) ∧ X' = []
    | some _ => False

/-! ## The program: the same operations, executed by the code -/

structure Pg (α : Type) where
  h : Hp α
  t : Tab

def outR : Option Exc → Out α
  | some e => .exc e
  | none => .none

def outE (p : Nat) (b : Bool) : Option Exc → Out α
  | some e => .exc e
  | none => .ins p b

/-- One operation. -/
def step (P : Par α K) (g : Pg α) : Op α K → R (Pg α × Out α)
  | .emplace viaKey hint v e => do
    let r ← (if P.multi then emplaceMulti P hint g.h g.t v e
      else if viaKey then emplaceUnique P hint g.h g.t v e
      else emplaceUniqueNode P hint g.h g.t v e : R _)
    .ok (⟨r.1, r.2.1⟩, outE r.2.2.1 r.2.2.2.1 r.2.2.2.2)
  | .insertNode hint x vok thr => do
    let r ← insertNode P hint g.h g.t x vok thr
    .ok (⟨r.1, r.2.1⟩, outE r.2.2.1 r.2.2.2.1 r.2.2.2.2)
  | .extractAt p => do
    let r ← extractAt P g.h g.t p
    .ok (⟨r.1, r.2⟩, .node (some p))
  | .extractKey k => do
    let r ← extractKey P g.h g.t k
    .ok (⟨r.1, r.2.1⟩, .node r.2.2)
  | .dropNode x => do  -- `_Node_handle::_Clear` (xnode_handle.h:58-67)
    let h ← free g.h x
    .ok (⟨h, g.t⟩, .none)
  | .writeNode x v => do
    let h ← setV g.h x v
    .ok (⟨h, g.t⟩, .none)
  | .eraseAt p => do
    let r ← eraseAt P g.h g.t p
    .ok (⟨r.1, r.2.1⟩, .it r.2.2)
  | .eraseRange p q => do  -- xhash:1064-1067
    let r ← eraseRange P g.h g.t p q
    .ok (⟨r.1, r.2⟩, .it q)
  | .eraseKey k => do
    let r ← eraseKey P g.h g.t k
    .ok (⟨r.1, r.2.1⟩, .num r.2.2)
  | .clear => do
    let r ← clearTab P g.h g.t
    .ok (⟨r.1, r.2⟩, .none)
  | .rehash n vok thr => do
    let r ← rehash P g.h g.t n vok thr
    .ok (⟨r.1, r.2.1⟩, outR r.2.2)
  | .reserve n vok thr => do
    let r ← reserve P g.h g.t n vok thr
    .ok (⟨r.1, r.2.1⟩, outR r.2.2)
  | .maxLoad lf => .ok (⟨g.h, { g.t with lf := lf }⟩, .none)  -- xhash:839-844
  | .find k => do
    let p ← find P g.h g.t k
    .ok (g, .it p)
  | .contains k => do
    let b ← contains P g.h g.t k
    .ok (g, .bool b)
  | .count k => do
    let n ← count P g.h g.t k
    .ok (g, .num n)
  | .equalRange k => do  -- xhash:1252-1263
    let r ← equalRange P g.h g.t k
    .ok (g, .its r.1 r.2.1)
  | .size => .ok (g, .num g.t.con.size)  -- xhash:744-746
  | .bucketCount => .ok (g, .num g.t.maxidx)  -- xhash:772-774
  | .bucket k => .ok (g, .num (bucket P g.t k))
  | .beginB b => do
    let p ← beginB g.t b
    .ok (g, .it p)
  | .endB b => do
    let p ← endB g.h g.t b
    .ok (g, .it p)
  | .bucketSize b => do
    let n ← bucketSize g.h g.t b
    .ok (g, .num n)
  | .begin => do  -- xhash:720-722
    let n ← nd g.h g.t.con.hd
    .ok (g, .it n.next)
  | .next p => do
    let q ← next g.h p
    .ok (g, .it q)
  | .deref p => do
    let v ← valAt g.h p
    .ok (g, .val v)
  | .write p v => do
    let h ← setV g.h p v
    .ok (⟨h, g.t⟩, .none)

/-- Run a client. -/
def run (P : Par α K) (g : Pg α) : Client α K → R (Pg α × List (Op α K × Out α))
  | .done => .ok (g, [])
  | .call op k => do
    let r ← step P g op
    let q ← run P r.1 (k r.2)
    .ok (q.1, (op, r.2) :: q.2)

/-- Construct a container, whose list head is allocated at `x`, and run a client. -/
def runNew (P : Par α K) (x : Nat) (lf : LF) (c : Client α K) : R (Pg α × List (Op α K × Out α)) := do
  let h ← newHead (fun _ => none) x
  run P ⟨h, newTab ⟨x, 0⟩ lf⟩ c

/-- An empty container. -/
def empty (x : Nat) (lf : LF) : St α := ⟨x, [], [], 8, lf⟩

end STL.UH
