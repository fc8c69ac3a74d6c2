import Verif.DList.Model

/-!
# What `std::list` is supposed to do

The specification used by the theorems about `list`. It knows nothing of nodes and links: a list is a sequence of elements; an element is a
pair of its identity (the address that iterators, pointers and references to it hold) and its value. `hd` is the identity that the end
iterator holds. Sorting and merging have relational specifications, because an exception thrown by the comparator leaves the order open.
-/

namespace STL.DL
open STL
variable {α : Type}

/-- One list. -/
structure Ent (α : Type) where
  hd : Nat
  X : List (Nat × α)

/-- All live lists, by name. -/
abbrev St (α : Type) := Nat → Option (Ent α)

abbrev ids (X : List (Nat × α)) : List Nat := X.map Prod.fst

/-- Identities a list holds. -/
def adr (e : Ent α) : List Nat := e.hd :: ids e.X

/-- Identities in use. -/
def used (s : St α) (q : Nat) : Prop := ∃ n e, s n = some e ∧ q ∈ adr e

/-- The allocator returns unused memory, never a null pointer, and every address once. -/
def fresh (s : St α) (xs : List Nat) : Prop := xs.Nodup ∧ ∀ x ∈ xs, x ≠ 0 ∧ ¬ used s x

/-- Elements before position `p`, and from `p` on. -/
def bef (X : List (Nat × α)) (p : Nat) : List (Nat × α) := X.takeWhile (fun a => a.1 != p)
def fro (X : List (Nat × α)) (p : Nat) : List (Nat × α) := X.dropWhile (fun a => a.1 != p)

/-- The iterator to the first element of a part of the list that extends to its end. -/
def atFirst (hd : Nat) : List (Nat × α) → Nat
  | [] => hd
  | a :: _ => a.1

/-- Elements from `p` up to `q`, exclusively. -/
def range (X : List (Nat × α)) (p q : Nat) : List (Nat × α) := bef (fro X p) q

/-- The elements outside `[p, q)`. -/
def without (X : List (Nat × α)) (p q : Nat) : List (Nat × α) := bef X p ++ fro (fro X p) q

/-- Put the elements `M` before position `p`. -/
def putAt (X : List (Nat × α)) (p : Nat) (M : List (Nat × α)) : List (Nat × α) := bef X p ++ M ++ fro X p

/-- `unique`: keep the first element of every group of consecutive elements that match the first of the group. `k` predicate calls succeed. -/
def uniq (eq : α → α → Bool) (a : Nat × α) : Nat → List (Nat × α) → List (Nat × α)
  | _, [] => [a]
  | 0, X => a :: X
  | k + 1, b :: X => if eq a.2 b.2 then uniq eq a k X else a :: uniq eq b k X

/-- sorted -/
def Sorted (lt : α → α → Bool) (X : List (Nat × α)) : Prop := X.Pairwise (fun a b => lt b.2 a.2 = false)

/-- `Y` is `X` sorted stably: a permutation, sorted, with equivalent elements in the order in which they are in `X`. -/
def StablySorted (lt : α → α → Bool) (X Y : List (Nat × α)) : Prop :=
  Y.Perm X ∧ Sorted lt Y ∧ ∀ v, Y.filter (fun a => !lt a.2 v && !lt v a.2) = X.filter (fun a => !lt a.2 v && !lt v a.2)

/-- Operations. Addresses are what the allocator answers; `none`, or too few in a list of addresses: it throws. `k`: so many calls of the
user's predicate return, the next one throws. -/
inductive Op (α : Type) where
  | new (n : Nat) (x : Option Nat)
  | newRange (n : Nat) (vs : List α) (xs : List Nat) (x : Option Nat)
  | newMove (n m : Nat) (x : Option Nat)
  | destroy (n : Nat)
  | emplace (n p : Nat) (v : α) (x : Option Nat)
  | pushFront (n : Nat) (v : α) (x : Option Nat)
  | pushBack (n : Nat) (v : α) (x : Option Nat)
  | popFront (n : Nat)
  | popBack (n : Nat)
  | insertRange (n p : Nat) (vs : List α) (xs : List Nat)
  | insertN (n p count : Nat) (v : α) (xs : List Nat)
  | eraseAt (n p : Nat)
  | eraseRange (n p q : Nat)
  | clear (n : Nat)
  | resize (n count : Nat) (v : α) (xs : List Nat)
  | assignRange (n : Nat) (vs : List α) (xs : List Nat)
  | assignN (n count : Nat) (v : α) (xs : List Nat)
  | swap (n m : Nat)
  | moveAssign (n m : Nat)
  | spliceAll (n p m : Nat)
  | spliceOne (n p m i : Nat)
  | spliceRange (n p m i j : Nat)
  | removeIf (n : Nat) (pred : α → Bool) (k : Nat)
  | removeEq (n : Nat) (eq : α → α → Bool) (m p : Nat)
  | unique (n : Nat) (eq : α → α → Bool) (k : Nat)
  | merge (n m : Nat) (lt : α → α → Bool) (k : Nat)
  | sort (n : Nat) (lt : α → α → Bool) (k : Nat)
  | reverse (n : Nat)
  | size (n : Nat)
  | begin (n : Nat)
  | next (n p : Nat)
  | prev (n p : Nat)
  | deref (n p : Nat)
  | write (n p : Nat) (v : α)

/-- Results. -/
inductive Out (α : Type) where
  | none
  | it (p : Nat)
  | num (n : Nat)
  | val (v : α)
  | exc (e : Exc)

/-- What the caller has to guarantee: names denote live lists, iterators belong to them, comparators are strict weak orders, a range that is
spliced within its own list does not contain the destination, `merge` gets sorted lists. -/
def pre (s : St α) : Op α → Prop
  | .new n x => s n = .none ∧ ∀ i, x = some i → fresh s [i]
  | .newRange n _ xs x => s n = .none ∧ fresh s (xs ++ x.toList)
  | .newMove n m x => s n = .none ∧ (∃ e, s m = some e) ∧ ∀ i, x = some i → fresh s [i]
  | .destroy n | .clear n | .reverse n | .size n | .begin n | .unique n _ _ | .removeIf n _ _ => ∃ e, s n = some e
  | .popFront n | .popBack n => ∃ e, s n = some e ∧ e.X ≠ []
  | .emplace n p _ x => (∃ e, s n = some e ∧ p ∈ adr e) ∧ ∀ i, x = some i → fresh s [i]
  | .pushFront n _ x | .pushBack n _ x => (∃ e, s n = some e) ∧ ∀ i, x = some i → fresh s [i]
  | .insertRange n p _ xs | .insertN n p _ _ xs => (∃ e, s n = some e ∧ p ∈ adr e) ∧ fresh s xs
  | .resize n _ _ xs | .assignRange n _ xs | .assignN n _ _ xs => (∃ e, s n = some e) ∧ fresh s xs
  | .eraseAt n p | .next n p | .deref n p | .write n p _ => ∃ e, s n = some e ∧ p ∈ ids e.X
  | .prev n p => ∃ e, s n = some e ∧ p ∈ adr e ∧ bef e.X p ≠ []
  | .eraseRange n p q => ∃ e, s n = some e ∧ p ∈ adr e ∧ (q = e.hd ∨ q ∈ ids (fro e.X p))
  | .swap n m | .moveAssign n m => (∃ e, s n = some e) ∧ ∃ e, s m = some e
  | .spliceAll n p m => n ≠ m ∧ (∃ e, s n = some e ∧ p ∈ adr e) ∧ ∃ e, s m = some e
  | .spliceOne n p m i => (∃ e, s n = some e ∧ p ∈ adr e) ∧ ∃ e, s m = some e ∧ i ∈ ids e.X
  | .spliceRange n p m i j => (∃ e, s n = some e ∧ p ∈ adr e) ∧ ∃ e, s m = some e ∧ i ∈ adr e ∧ (j = e.hd ∨ j ∈ ids (fro e.X i)) ∧ (n = m → p ∉ ids (range e.X i j))
  | .removeEq n _ m p => (∃ e, s n = some e) ∧ ∃ e, s m = some e ∧ p ∈ ids e.X
  | .merge n m lt _ => SWO lt ∧ ∃ e e', s n = some e ∧ s m = some e' ∧ Sorted lt e.X ∧ Sorted lt e'.X
  | .sort n lt _ => SWO lt ∧ ∃ e, s n = some e

def upd {β : Type} (s : Nat → Option β) (n : Nat) (e : Option β) : Nat → Option β := fun m => if m = n then e else s m

/-- Only list `n` is involved; its contents and the result are as `f` says. -/
def on (s : St α) (n : Nat) (s' : St α) (f : Ent α → List (Nat × α) → Prop) : Prop :=
  ∃ e X', s n = some e ∧ f e X' ∧ s' = upd s n (some ⟨e.hd, X'⟩)

/-- Lists `n` and `m`, two different ones, are involved. -/
def on2 (s : St α) (n m : Nat) (s' : St α) (f : Ent α → Ent α → List (Nat × α) → List (Nat × α) → Prop) : Prop :=
  ∃ e e' X Y, s n = some e ∧ s m = some e' ∧ f e e' X Y ∧ s' = upd (upd s n (some ⟨e.hd, X⟩)) m (some ⟨e'.hd, Y⟩)

/-- Moving elements `M` from list `m`, which keeps `Y`, before position `p` of list `n`. -/
def moved (maxsz : Nat) (p : Nat) (M Y' : List (Nat × α)) (out : Out α) (e e' : Ent α) (X Y : List (Nat × α)) : Prop :=
  if maxsz - e.X.length < M.length then X = e.X ∧ Y = e'.X ∧ out = .exc .lengthError
  else X = putAt e.X p M ∧ Y = Y' ∧ out = .none

/-- New elements with values `vs` at addresses `xs`, if there are enough addresses; `p` is where they go. -/
def inserted (p : Nat) (vs : List α) (xs : List Nat) (out : Out α) (e : Ent α) (X' : List (Nat × α)) : Prop :=
  if xs.length < vs.length then X' = e.X ∧ out = .exc .badAlloc
  else X' = putAt e.X p (xs.zip vs) ∧ out = .it (atFirst p (xs.zip vs))

/-- A single new element. -/
def inserted1 (maxsz p : Nat) (v : α) (x : Option Nat) (out : Out α) (e : Ent α) (X' : List (Nat × α)) : Prop :=
  if e.X.length = maxsz then X' = e.X ∧ out = .exc .lengthError
  else match x with
    | .none => X' = e.X ∧ out = .exc .badAlloc
    | some i => X' = putAt e.X p [(i, v)] ∧ out = .it i

/-- `assign`: old elements are reused from the front; on failure of the allocator their values have been replaced. -/
def assigned (vs : List α) (xs : List Nat) (out : Out α) (e : Ent α) (X' : List (Nat × α)) : Prop :=
  if xs.length < vs.length - e.X.length then X' = (ids e.X).zip vs ∧ out = .exc .badAlloc
  else X' = (ids e.X ++ xs).zip vs ∧ out = .none

/-- What the operations do. `maxsz`: `max_size()`. -/
def sem (maxsz : Nat) (s : St α) (op : Op α) (s' : St α) (out : Out α) : Prop :=
  match op with
  | .new n (some x) => s' = upd s n (some ⟨x, []⟩) ∧ out = .none
  | .new _ .none => s' = s ∧ out = .exc .badAlloc
  | .newRange n vs xs x => match x with
    | .none => s' = s ∧ out = .exc .badAlloc
    | some x => if xs.length < vs.length then s' = s ∧ out = .exc .badAlloc else s' = upd s n (some ⟨x, xs.zip vs⟩) ∧ out = .none
  | .newMove n m x => match x with
    | .none => s' = s ∧ out = .exc .badAlloc
    | some x => s' = upd (upd s n (s m)) m (some ⟨x, []⟩) ∧ out = .none
  | .destroy n => s' = upd s n .none ∧ out = .none
  | .emplace n p v x => on s n s' (inserted1 maxsz p v x out)
  | .pushFront n v x => on s n s' fun e => inserted1 maxsz (atFirst e.hd e.X) v x out e
  | .pushBack n v x => on s n s' fun e => inserted1 maxsz e.hd v x out e
  | .popFront n => on s n s' fun e X' => X' = e.X.tail ∧ out = .none
  | .popBack n => on s n s' fun e X' => X' = e.X.dropLast ∧ out = .none
  | .insertRange n p vs xs => on s n s' (inserted p vs xs out)
  | .insertN n p count v xs => on s n s' (inserted p (List.replicate count v) xs out)
  | .eraseAt n p => on s n s' fun e X' => X' = bef e.X p ++ (fro e.X p).tail ∧ out = .it (atFirst e.hd (fro e.X p).tail)
  | .eraseRange n p q => on s n s' fun e X' => X' = without e.X p q ∧ out = .it q
  | .clear n => on s n s' fun _ X' => X' = [] ∧ out = .none
  | .resize n count v xs => on s n s' fun e X' =>
      if xs.length < count - e.X.length then X' = e.X ∧ out = .exc .badAlloc
      else X' = e.X.take count ++ xs.zip (List.replicate (count - e.X.length) v) ∧ out = .none
  | .assignRange n vs xs => on s n s' (assigned vs xs out)
  | .assignN n count v xs => on s n s' (assigned (List.replicate count v) xs out)
  | .swap n m => (s' = fun q => if q = n then s m else if q = m then s n else s q) ∧ out = .none
  | .moveAssign n m => (if n = m then s' = s else
      ∃ e e', s n = some e ∧ s m = some e' ∧ s' = upd (upd s n (some e')) m (some ⟨e.hd, []⟩)) ∧ out = .none
  | .spliceAll n p m => on2 s n m s' fun e e' => moved maxsz p e'.X [] out e e'
  | .spliceOne n p m i =>
    if n = m then on s n s' fun e X' => (X' = if p = i then e.X else putAt (bef e.X i ++ (fro e.X i).tail) p ((fro e.X i).take 1)) ∧ out = .none
    else on2 s n m s' fun e e' => moved maxsz p ((fro e'.X i).take 1) (bef e'.X i ++ (fro e'.X i).tail) out e e'
  | .spliceRange n p m i j =>
    if n = m then on s n s' fun e X' => X' = putAt (without e.X i j) p (range e.X i j) ∧ out = .none
    else on2 s n m s' fun e e' => moved maxsz p (range e'.X i j) (without e'.X i j) out e e'
  | .removeIf n pred k => on s n s' fun e X' => X' = (e.X.take k).filter (fun a => !pred a.2) ++ e.X.drop k ∧
      out = if k < e.X.length then .exc .user else .num (e.X.countP (fun a => pred a.2))
  | .removeEq n eq m p => ∃ e a, s m = some e ∧ (p, a) ∈ e.X ∧ on s n s' fun e X' => X' = e.X.filter (fun b => !eq b.2 a) ∧ out = .num (e.X.countP (fun b => eq b.2 a))
  | .unique n eq k => on s n s' fun e X' => X' = (match e.X with | [] => [] | a :: X => uniq eq a k X) ∧
      out = if k < e.X.length - 1 then .exc .user else .num (e.X.length - X'.length)
  | .merge n m lt k =>
    if n = m then s' = s ∧ out = .none
    else on2 s n m s' fun e e' X Y =>
      if maxsz - e.X.length < e'.X.length then X = e.X ∧ Y = e'.X ∧ out = .exc .lengthError
      else Y = [] ∧ (out = .none ∧ StablySorted lt (e.X ++ e'.X) X ∨ k < e.X.length + e'.X.length - 1 ∧ out = .exc .user ∧ X.Perm (e.X ++ e'.X))
  | .sort n lt k => on s n s' fun e X' =>
      out = .none ∧ StablySorted lt e.X X' ∨ k < e.X.length * (Nat.log2 e.X.length + 1) ∧ out = .exc .user ∧ X'.Perm e.X
  | .reverse n => on s n s' fun e X' => X' = e.X.reverse ∧ out = .none
  | .size n => ∃ e, s n = some e ∧ s' = s ∧ out = .num e.X.length
  | .begin n => ∃ e, s n = some e ∧ s' = s ∧ out = .it (atFirst e.hd e.X)
  | .next n p => ∃ e, s n = some e ∧ s' = s ∧ out = .it (atFirst e.hd (fro e.X p).tail)
  | .prev n p => ∃ e, s n = some e ∧ s' = s ∧ out = .it (atFirst e.hd (bef e.X p).reverse)
  | .deref n p => ∃ e v, s n = some e ∧ (p, v) ∈ e.X ∧ s' = s ∧ out = .val v
  | .write n p v => on s n s' fun e X' => X' = e.X.map (fun a => if a.1 = p then (p, v) else a) ∧ out = .none

/-- A client of the lists: it calls operations and may decide what to do next by looking at the results. -/
inductive Client (α : Type) where
  | done
  | call (op : Op α) (k : Out α → Client α)

/-- The client meets all preconditions, whatever the specification allows the operations to do. -/
def Legal (maxsz : Nat) (s : St α) : Client α → Prop
  | .done => True
  | .call op k => pre s op ∧ ∀ s' out, sem maxsz s op s' out → Legal maxsz s' (k out)

/-- `SpecRun s c tr s'`: the specification allows the client `c`, started in `s`, to see the calls and results `tr` and end in `s'`. -/
inductive SpecRun (maxsz : Nat) : St α → Client α → List (Op α × Out α) → St α → Prop
  | done {s} : SpecRun maxsz s .done [] s
  | call {s op k s1 out tr s'} : pre s op → sem maxsz s op s1 out → SpecRun maxsz s1 (k out) tr s' → SpecRun maxsz s (.call op k) ((op, out) :: tr) s'

/-! ## The program: the same operations, executed by the code -/

structure Pg (α : Type) where
  h : Hp α
  w : Nat → Option Con

def conOf (w : Nat → Option Con) (n : Nat) : R Con := match w n with | some c => .ok c | none => .error .ub

def outX : Option Exc → Out α
  | some e => .exc e
  | none => .none

def outI (p : Nat) : Option Exc → Out α
  | some e => .exc e
  | none => .it p

def outN (p : Nat) : Option Exc → Out α
  | some e => .exc e
  | none => .num p

/-- One operation. -/
def step (maxsz : Nat) (g : Pg α) : Op α → R (Pg α × Out α)
  | .new n x => match x with  -- `list()`, `list:812-814`
    | none => .ok (g, .exc .badAlloc)
    | some x => do
      let h ← newHead g.h x
      .ok (⟨h, upd g.w n (some ⟨x, 0⟩)⟩, .none)
  | .newRange n vs xs x => do  -- `list:894-897`, `list:903-907`
    let r ← constructRange g.h vs xs x
    match r.2 with
    | some c => .ok (⟨r.1, upd g.w n (some c)⟩, .none)
    | none => .ok (⟨r.1, g.w⟩, .exc .badAlloc)
  | .newMove n m x => match x with  -- `list(list&&)`, `list:923-926`
    | none => .ok (g, .exc .badAlloc)
    | some x => do
      let d ← conOf g.w m
      let h ← newHead g.h x
      .ok (⟨h, upd (upd g.w n (some d)) m (some ⟨x, 0⟩)⟩, .none)
  | .destroy n => do
    let c ← conOf g.w n
    let h ← destroy g.h c
    .ok (⟨h, upd g.w n none⟩, .none)
  | .emplace n p v x => do
    let c ← conOf g.w n
    let r ← emplace maxsz g.h c p v x
    .ok (⟨r.1, upd g.w n (some r.2.1)⟩, outI r.2.2.1 r.2.2.2)
  | .pushFront n v x => do
    let c ← conOf g.w n
    let r ← pushFront maxsz g.h c v x
    .ok (⟨r.1, upd g.w n (some r.2.1)⟩, outI r.2.2.1 r.2.2.2)
  | .pushBack n v x => do
    let c ← conOf g.w n
    let r ← pushBack maxsz g.h c v x
    .ok (⟨r.1, upd g.w n (some r.2.1)⟩, outI r.2.2.1 r.2.2.2)
  | .popFront n => do
    let c ← conOf g.w n
    let r ← popFront g.h c
    .ok (⟨r.1, upd g.w n (some r.2)⟩, .none)
  | .popBack n => do
    let c ← conOf g.w n
    let r ← popBack g.h c
    .ok (⟨r.1, upd g.w n (some r.2)⟩, .none)
  | .insertRange n p vs xs => do
    let c ← conOf g.w n
    let r ← insertRange g.h c p vs xs
    .ok (⟨r.1, upd g.w n (some r.2.1)⟩, outI r.2.2.1 r.2.2.2)
  | .insertN n p count v xs => do
    let c ← conOf g.w n
    let r ← insertN g.h c p count v xs
    .ok (⟨r.1, upd g.w n (some r.2.1)⟩, outI r.2.2.1 r.2.2.2)
  | .eraseAt n p => do
    let c ← conOf g.w n
    let r ← eraseAt g.h c p
    .ok (⟨r.1, upd g.w n (some r.2.1)⟩, .it r.2.2)
  | .eraseRange n p q => do  -- `list:1448-1451`
    let c ← conOf g.w n
    let r ← uncheckedEraseRange g.h c p q
    .ok (⟨r.1, upd g.w n (some r.2)⟩, .it q)
  | .clear n => do
    let c ← conOf g.w n
    let r ← clear g.h c
    .ok (⟨r.1, upd g.w n (some r.2)⟩, .none)
  | .resize n count v xs => do
    let c ← conOf g.w n
    let r ← resize g.h c count v xs
    .ok (⟨r.1, upd g.w n (some r.2.1)⟩, outX r.2.2)
  | .assignRange n vs xs => do
    let c ← conOf g.w n
    let r ← assignRange g.h c vs xs
    .ok (⟨r.1, upd g.w n (some r.2.1)⟩, outX r.2.2)
  | .assignN n count v xs => do
    let c ← conOf g.w n
    let r ← assignN g.h c count v xs
    .ok (⟨r.1, upd g.w n (some r.2.1)⟩, outX r.2.2)
  | .swap n m => do  -- `list:1523-1528`, `_Swap_val`, `list:974-981`
    let c ← conOf g.w n
    let d ← conOf g.w m
    .ok (⟨g.h, if n = m then g.w else upd (upd g.w n (some d)) m (some c)⟩, .none)
  | .moveAssign n m => do  -- `list:940-970`
    let c ← conOf g.w n
    let d ← conOf g.w m
    if n = m then .ok (g, .none)
    else do
      let r ← clear g.h c
      .ok (⟨r.1, upd (upd g.w n (some d)) m (some r.2)⟩, .none)
  | .spliceAll n p m => do
    let c ← conOf g.w n
    let d ← conOf g.w m
    let r ← spliceAll maxsz g.h c d p
    .ok (⟨r.1, upd (upd g.w n (some r.2.1)) m (some r.2.2.1)⟩, outX r.2.2.2)
  | .spliceOne n p m i => do
    let c ← conOf g.w n
    let d ← conOf g.w m
    if n = m then do
      let h ← spliceOneSelf g.h p i
      .ok (⟨h, g.w⟩, .none)
    else do
      let r ← spliceOne maxsz g.h c d p i
      .ok (⟨r.1, upd (upd g.w n (some r.2.1)) m (some r.2.2.1)⟩, outX r.2.2.2)
  | .spliceRange n p m i j => do
    let c ← conOf g.w n
    let d ← conOf g.w m
    if n = m then do
      let h ← spliceRangeSelf g.h p i j
      .ok (⟨h, g.w⟩, .none)
    else do
      let r ← spliceRange maxsz g.h c d p i j
      .ok (⟨r.1, upd (upd g.w n (some r.2.1)) m (some r.2.2.1)⟩, outX r.2.2.2)
  | .removeIf n pred k => do
    let c ← conOf g.w n
    let r ← removeIf (fun _ a => .ok (pred a)) k g.h c
    .ok (⟨r.1, upd g.w n (some r.2.1)⟩, outN r.2.2.1 r.2.2.2)
  | .removeEq n eq _ p => do  -- `remove(val)`, `list:1682-1684`, where `val` is a reference to the element at `p`
    let c ← conOf g.w n
    let r ← removeIf (fun h a => do let v ← valAt h p; .ok (eq a v)) (c.size + 1) g.h c
    .ok (⟨r.1, upd g.w n (some r.2.1)⟩, outN r.2.2.1 r.2.2.2)
  | .unique n eq k => do
    let c ← conOf g.w n
    let r ← unique eq k g.h c
    .ok (⟨r.1, upd g.w n (some r.2.1)⟩, outN r.2.2.1 r.2.2.2)
  | .merge n m lt k => do
    let c ← conOf g.w n
    let d ← conOf g.w m
    if n = m then .ok (g, .none)
    else do
      let r ← merge lt maxsz k g.h c d
      .ok (⟨r.1, upd (upd g.w n (some r.2.1)) m (some r.2.2.1)⟩, outX r.2.2.2)
  | .sort n lt k => do
    let c ← conOf g.w n
    let r ← sort lt k g.h c
    .ok (⟨r.1, g.w⟩, outX r.2)
  | .reverse n => do
    let c ← conOf g.w n
    let h ← reverse g.h c
    .ok (⟨h, g.w⟩, .none)
  | .size n => do  -- `list:1203-1205`
    let c ← conOf g.w n
    .ok (g, .num c.size)
  | .begin n => do
    let c ← conOf g.w n
    let hn ← nd g.h c.hd
    .ok (g, .it hn.next)
  | .next n p => do
    let _ ← conOf g.w n
    let q ← next g.h p
    .ok (g, .it q)
  | .prev n p => do
    let _ ← conOf g.w n
    let q ← prev g.h p
    .ok (g, .it q)
  | .deref n p => do
    let _ ← conOf g.w n
    let v ← valAt g.h p
    .ok (g, .val v)
  | .write n p v => do
    let _ ← conOf g.w n
    let h ← setV g.h p v
    .ok (⟨h, g.w⟩, .none)

/-- Run a client. -/
def run (maxsz : Nat) (g : Pg α) : Client α → R (Pg α × List (Op α × Out α))
  | .done => .ok (g, [])
  | .call op k => do
    let r ← step maxsz g op
    let q ← run maxsz r.1 (k r.2)
    .ok (q.1, (op, r.2) :: q.2)

/-- The program before it creates any list. -/
def start : Pg α := ⟨fun _ => none, fun _ => none⟩

end STL.DL
