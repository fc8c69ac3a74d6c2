import Verif.Base

/-!
# Model of `std::list`

`/repo/stl/inc/list`. Nodes live in an explicit heap, shared by all lists; a node pointer is an address, address `0` is the null pointer, and
following a pointer to unallocated memory, freeing unallocated memory and an allocator that returns memory in use are undefined behaviour
(`Err.ub`). Loops have fuel; running out of it is an error that the theorems exclude.

Simplifications: constructing a node may throw (before or after the allocation: the code frees the memory in the second case, so both leave the
heap as it was); assignments of elements do not throw; predicates and comparators may throw, at the `k`-th call for any `k`; iterator debugging
and proxies are left out; allocators of all lists are equal; `_Mysize` does not wrap around.
-/

namespace STL.DL
open STL

variable {α : Type}

/-- `_List_node`, `list:280-292`. `val = none`: no value constructed (the head). -/
structure Node (α : Type) where
  next : Nat
  prev : Nat
  val : Option α

abbrev Hp (α : Type) := Nat → Option (Node α)

/-- `_Myhead`, `_Mysize`, `list:584-585`. -/
structure Con where
  hd : Nat
  size : Nat
  deriving DecidableEq

/-- `*p`. -/
def nd (h : Hp α) (p : Nat) : R (Node α) := match h p with | some n => .ok n | none => .error .ub

def put (h : Hp α) (p : Nat) (n : Node α) : Hp α := fun q => if q = p then some n else h q

/-- `p->_Next = v` -/
def setN (h : Hp α) (p v : Nat) : R (Hp α) := do let n ← nd h p; .ok (put h p ⟨v, n.prev, n.val⟩)
/-- `p->_Prev = v` -/
def setP (h : Hp α) (p v : Nat) : R (Hp α) := do let n ← nd h p; .ok (put h p ⟨n.next, v, n.val⟩)
/-- `p->_Myval = v`, an assignment: there has to be an element. -/
def setV (h : Hp α) (p : Nat) (v : α) : R (Hp α) := do
  let n ← nd h p
  match n.val with
  | some _ => .ok (put h p ⟨n.next, n.prev, some v⟩)
  | none => .error .ub
/-- `p->_Myval` -/
def valAt (h : Hp α) (p : Nat) : R α := do
  let n ← nd h p
  match n.val with
  | some v => .ok v
  | none => .error .ub

/-- Allocation of a node, and construction of its value if there is one. The links are not initialised. -/
def alloc (h : Hp α) (x : Nat) (v : Option α) : R (Hp α) := if (h x).isNone ∧ x ≠ 0 then .ok (put h x ⟨0, 0, v⟩) else .error .ub

/-- `_Freenode`, `_Freenode0`, `list:306-319`. -/
def free (h : Hp α) (x : Nat) : R (Hp α) := do
  let _ ← nd h x
  .ok (fun q => if q = x then none else h q)

/-- `_Alloc_sentinel_and_proxy`, `list:1847-1856`; `_Buyheadnode`, `list:298-304`. -/
def newHead (h : Hp α) (x : Nat) : R (Hp α) := do
  let h ← alloc h x none
  let h ← setN h x x
  setP h x x

/-- The loop of `_Free_non_head`, `list:326-330`. -/
def freeLoop : Nat → Hp α → Nat → R (Hp α)
  | 0, h, p => if p = 0 then .ok h else .error .fuel
  | f + 1, h, p =>
    if p = 0 then .ok h
    else do
      let n ← nd h p
      let h ← free h p
      freeLoop f h n.next

/-- `_Free_non_head`, `list:321-331`. -/
def freeNonHead (f : Nat) (h : Hp α) (hd : Nat) : R (Hp α) := do
  let n ← nd h hd
  let h ← setN h n.prev 0
  let n ← nd h hd
  freeLoop f h n.next

/-- `clear`, `list:1504-1511`. -/
def clear (h : Hp α) (c : Con) : R (Hp α × Con) := do
  let h ← freeNonHead c.size h c.hd
  let h ← setN h c.hd c.hd
  let h ← setP h c.hd c.hd
  .ok (h, ⟨c.hd, 0⟩)

/-- `_Tidy`, `list:1514-1520`, called by the destructor, `list:1060-1066`. -/
def destroy (h : Hp α) (c : Con) : R (Hp α) := do
  let h ← freeNonHead c.size h c.hd
  free h c.hd

/-- `_Transfer_before`, `list:607-616`: links in the new node `x`. -/
def transferBefore (h : Hp α) (x wh : Nat) : R (Hp α) := do
  let wn ← nd h wh
  let h ← setN h x wh
  let h ← setP h x wn.prev
  let h ← setP h wh x
  setN h wn.prev x

/-- `_Emplace`, `list:1027-1036`. `x = none`: the allocation or the constructor throws. -/
def emplace (maxsz : Nat) (h : Hp α) (c : Con) (wh : Nat) (v : α) (x : Option Nat) : R (Hp α × Con × Nat × Option Exc) :=
  if c.size = maxsz then .ok (h, c, 0, some .lengthError)
  else match x with
    | none => .ok (h, c, 0, some .badAlloc)
    | some x => do
      let h ← alloc h x (some v)
      let h ← transferBefore h x wh
      .ok (h, ⟨c.hd, c.size + 1⟩, x, none)

/-- `push_front`, `list:984-986`. -/
def pushFront (maxsz : Nat) (h : Hp α) (c : Con) (v : α) (x : Option Nat) : R (Hp α × Con × Nat × Option Exc) := do
  let n ← nd h c.hd
  emplace maxsz h c n.next v x

/-- `push_back`, `list:988-990`. -/
def pushBack (maxsz : Nat) (h : Hp α) (c : Con) (v : α) (x : Option Nat) : R (Hp α × Con × Nat × Option Exc) := emplace maxsz h c c.hd v x

/-- `_Unlinknode`, `list:404-410`. -/
def unlinkNode (h : Hp α) (c : Con) (p : Nat) : R (Hp α × Con) := do
  let n ← nd h p
  let h ← setN h n.prev n.next
  let n ← nd h p
  let h ← setP h n.next n.prev
  .ok (h, ⟨c.hd, c.size - 1⟩)

/-- `erase`, `list:1427-1434`. -/
def eraseAt (h : Hp α) (c : Con) (p : Nat) : R (Hp α × Con × Nat) := do
  let n ← nd h p
  let r ← unlinkNode h c p
  let h ← free r.1 p
  .ok (h, r.2, n.next)

/-- `_Unchecked_erase` of one node, `list:1437-1445`. -/
def uncheckedErase (h : Hp α) (c : Con) (p : Nat) : R (Hp α × Con × Nat) := do
  let n ← nd h p
  let h ← setN h n.prev n.next
  let m ← nd h p
  let h ← setP h n.next m.prev
  let h ← free h p
  .ok (h, ⟨c.hd, c.size - 1⟩, n.next)

/-- `pop_front`, `list:1265-1271`. -/
def popFront (h : Hp α) (c : Con) : R (Hp α × Con) := do
  let n ← nd h c.hd
  let r ← uncheckedErase h c n.next
  .ok (r.1, r.2.1)

/-- `pop_back`, `list:1286-1292`. -/
def popBack (h : Hp α) (c : Con) : R (Hp α × Con) := do
  let n ← nd h c.hd
  let r ← uncheckedErase h c n.prev
  .ok (r.1, r.2.1)

/-- The loop of `_Unchecked_erase`, `list:1491-1496`: frees `[p, last)` and counts. -/
def eraseLoop : Nat → Hp α → Nat → Nat → R (Hp α × Nat)
  | 0, _, _, _ => .error .fuel
  | f + 1, h, p, last => do
    let n ← nd h p
    let h ← free h p
    if n.next = last then .ok (h, 1)
    else do
      let r ← eraseLoop f h n.next last
      .ok (r.1, r.2 + 1)

/-- `_Unchecked_erase` of a range, `list:1455-1500`. -/
def uncheckedEraseRange (h : Hp α) (c : Con) (first last : Nat) : R (Hp α × Con) :=
  if first = last then .ok (h, c)
  else do
    let n ← nd h first
    let h ← setN h n.prev last
    let h ← setP h last n.prev
    let r ← eraseLoop c.size h first last
    .ok (r.1, ⟨c.hd, c.size - r.2⟩)

/-! ## Building a chain of nodes before attaching it -/

/-- The state of `_List_node_insert_op2`, `list:757-761`. -/
structure InsOp where
  added : Nat
  head : Nat
  tail : Nat

/-- `_Append_range_unchecked` from its `while` on, `list:679-687`, with `_Added > 0`. `xs`: what the allocator answers; it fails when they
run out. The flag tells whether an exception was thrown. -/
def appendLoop (h : Hp α) (o : InsOp) : List α → List Nat → R (Hp α × InsOp × Bool)
  | [], _ => .ok (h, o, false)
  | _ :: _, [] => .ok (h, o, true)
  | v :: vs, x :: xs => do
    let h ← alloc h x (some v)
    let h ← setN h o.tail x
    let h ← setP h x o.tail
    appendLoop h ⟨o.added + 1, o.head, x⟩ vs xs

/-- `_Append_range_unchecked`, `list:661-688`, on a fresh operation. -/
def appendRange (h : Hp α) : List α → List Nat → R (Hp α × InsOp × Bool)
  | [], _ => .ok (h, ⟨0, 0, 0⟩, false)
  | _ :: _, [] => .ok (h, ⟨0, 0, 0⟩, true)
  | v :: vs, x :: xs => do
    let h ← alloc h x (some v)
    appendLoop h ⟨1, x, x⟩ vs xs

/-- `_Append_n` from its `for` on, `list:648-655`. -/
def appendNLoop (h : Hp α) (o : InsOp) (v : α) : Nat → List Nat → R (Hp α × InsOp × Bool)
  | 0, _ => .ok (h, o, false)
  | _ + 1, [] => .ok (h, o, true)
  | n + 1, x :: xs => do
    let h ← alloc h x (some v)
    let h ← setN h o.tail x
    let h ← setP h x o.tail
    appendNLoop h ⟨o.added + 1, o.head, x⟩ v n xs

/-- `_Append_n`, `list:631-658`, on a fresh operation. -/
def appendN (h : Hp α) (n : Nat) (v : α) (xs : List Nat) : R (Hp α × InsOp × Bool) :=
  if n = 0 then .ok (h, ⟨0, 0, 0⟩, false)
  else match xs with
    | [] => .ok (h, ⟨0, 0, 0⟩, true)
    | x :: xs => do
      let h ← alloc h x (some v)
      appendNLoop h ⟨1, x, x⟩ v (n - 1) xs

/-- `_Attach_before`, `list:690-713`. -/
def attachBefore (h : Hp α) (c : Con) (o : InsOp) (wh : Nat) : R (Hp α × Con × Nat) :=
  if o.added = 0 then .ok (h, c, wh)
  else do
    let wn ← nd h wh
    let h ← setP h o.head wn.prev
    let h ← setN h wn.prev o.head
    let h ← setN h o.tail wh
    let h ← setP h wh o.tail
    .ok (h, ⟨c.hd, c.size + o.added⟩, o.head)

/-- `_Attach_head`, `list:720-739`, with the address of the new head. -/
def attachHead (h : Hp α) (o : InsOp) (x : Nat) : R (Hp α × Con) := do
  let h ← alloc h x none
  let h ← (if o.added = 0 then do
      let h ← setN h x x
      setP h x x
    else do
      let h ← setN h x o.head
      let h ← setP h x o.tail
      let h ← setP h o.head x
      setN h o.tail x : R (Hp α))
  .ok (h, ⟨x, o.added⟩)

/-- `~_List_node_insert_op2`, `list:741-752`. -/
def insOpDtor (h : Hp α) (o : InsOp) : R (Hp α) :=
  if o.added = 0 then .ok h
  else do
    let h ← setP h o.head 0
    let h ← setN h o.tail 0
    freeLoop o.added h o.head

/-- A chain was built (or an exception was thrown meanwhile): attach it before `wh`. -/
def attachOrUndo (c : Con) (wh : Nat) (r : Hp α × InsOp × Bool) : R (Hp α × Con × Nat × Option Exc) :=
  if r.2.2 then do
    let h ← insOpDtor r.1 r.2.1
    .ok (h, c, 0, some .badAlloc)
  else do
    let q ← attachBefore r.1 c r.2.1 wh
    .ok (q.1, q.2.1, q.2.2, none)

/-- `insert(where, first, last)`, `list:1404-1413`; `insert_range`, `prepend_range`, `append_range`. -/
def insertRange (h : Hp α) (c : Con) (wh : Nat) (vs : List α) (xs : List Nat) : R (Hp α × Con × Nat × Option Exc) := do
  let r ← appendRange h vs xs
  attachOrUndo c wh r

/-- `insert(where, count, val)`, `list:1394-1402`. -/
def insertN (h : Hp α) (c : Con) (wh : Nat) (n : Nat) (v : α) (xs : List Nat) : R (Hp α × Con × Nat × Option Exc) := do
  let r ← appendN h n v xs
  attachOrUndo c wh r

/-- `_Construct_range_unchecked`, `list:880-888`: a new list with the given values; the head is allocated last. -/
def constructRange (h : Hp α) (vs : List α) (xs : List Nat) (x : Option Nat) : R (Hp α × Option Con) := do
  let r ← appendRange h vs xs
  match r.2.2, x with
  | false, some x => do
    let q ← attachHead r.1 r.2.1 x
    .ok (q.1, some q.2)
  | _, _ => do
    let h ← insOpDtor r.1 r.2.1
    .ok (h, none)

/-- The `while` of `resize`, `list:1197-1199`. -/
def popLoop : Nat → Hp α → Con → Nat → R (Hp α × Con)
  | 0, _, _, _ => .error .fuel
  | f + 1, h, c, n =>
    if n < c.size then do
      let r ← popBack h c
      popLoop f r.1 r.2 n
    else .ok (h, c)

/-- `resize`, `list:1189-1201`. -/
def resize (h : Hp α) (c : Con) (n : Nat) (v : α) (xs : List Nat) : R (Hp α × Con × Option Exc) :=
  if c.size < n then do
    let r ← insertN h c c.hd (n - c.size) v xs
    .ok (r.1, r.2.1, r.2.2.2)
  else do
    let r ← popLoop (c.size + 1) h c n
    .ok (r.1, r.2, none)

/-- `_Assign_unchecked`, `list:1321-1345`; the recursion is on the source range. -/
def assignLoop (h : Hp α) (c : Con) (xs : List Nat) : List α → Nat → R (Hp α × Con × Option Exc)
  | [], old => do
    let r ← uncheckedEraseRange h c old c.hd
    .ok (r.1, r.2, none)
  | v :: vs, old =>
    if old = c.hd then do
      let r ← insertRange h c c.hd (v :: vs) xs
      .ok (r.1, r.2.1, r.2.2.2)
    else do
      let h ← setV h old v
      let n ← nd h old
      assignLoop h c xs vs n.next

/-- `assign(first, last)`, `list:1347-1352`; copy assignment, `list:1085-1105`. -/
def assignRange (h : Hp α) (c : Con) (vs : List α) (xs : List Nat) : R (Hp α × Con × Option Exc) := do
  let n ← nd h c.hd
  assignLoop h c xs vs n.next

/-- The loop of `assign(count, val)`, `list:1366-1384`. -/
def assignNLoop (c : Con) (v : α) (xs : List Nat) : Nat → Hp α → Nat → Nat → R (Hp α × Con × Option Exc)
  | 0, _, _, _ => .error .fuel
  | f + 1, h, n, old =>
    if old = c.hd then do
      let r ← insertN h c c.hd n v xs
      .ok (r.1, r.2.1, r.2.2.2)
    else if n = 0 then do
      let r ← uncheckedEraseRange h c old c.hd
      .ok (r.1, r.2, none)
    else do
      let h ← setV h old v
      let m ← nd h old
      assignNLoop c v xs f h (n - 1) m.next

/-- `assign(count, val)`, `list:1363-1385`. -/
def assignN (h : Hp α) (c : Con) (n : Nat) (v : α) (xs : List Nat) : R (Hp α × Con × Option Exc) := do
  let m ← nd h c.hd
  assignNLoop c v xs (c.size + 1) h n m.next

/-! ## Splicing -/

/-- `_Unchecked_splice`, `list:477-497`. -/
def uncheckedSplice (h : Hp α) (before first last : Nat) : R (Hp α) := do
  let fn ← nd h first
  let firstPrev := fn.prev
  let h ← setN h firstPrev last
  let ln ← nd h last
  let lastPrev := ln.prev
  let h ← setN h lastPrev before
  let bn ← nd h before
  let beforePrev := bn.prev
  let h ← setN h beforePrev first
  let h ← setP h before lastPrev
  let h ← setP h last firstPrev
  setP h first beforePrev

/-- `_Splice`, `list:1813-1845`, from another list `d`. -/
def splice2 (maxsz : Nat) (h : Hp α) (c d : Con) (wh first last count : Nat) : R (Hp α × Con × Con × Option Exc) :=
  if maxsz - c.size < count then .ok (h, c, d, some .lengthError)
  else do
    let h ← uncheckedSplice h wh first last
    .ok (h, ⟨c.hd, c.size + count⟩, ⟨d.hd, d.size - count⟩, none)

/-- `splice(where, right)`, `list:1530-1539`, with `this != &right`. -/
def spliceAll (maxsz : Nat) (h : Hp α) (c d : Con) (wh : Nat) : R (Hp α × Con × Con × Option Exc) :=
  if d.size ≠ 0 then do
    let dn ← nd h d.hd
    splice2 maxsz h c d wh dn.next d.hd d.size
  else .ok (h, c, d, none)

/-- `splice(where, right, first)`, `list:1545-1563`, with `this != &right`. -/
def spliceOne (maxsz : Nat) (h : Hp α) (c d : Con) (wh first : Nat) : R (Hp α × Con × Con × Option Exc) := do
  let n ← nd h first
  splice2 maxsz h c d wh first n.next 1

/-- `splice(where, *this, first)`, `list:1545-1563`. -/
def spliceOneSelf (h : Hp α) (wh first : Nat) : R (Hp α) := do
  let n ← nd h first
  if wh ≠ first ∧ wh ≠ n.next then uncheckedSplice h wh first n.next else .ok h

/-- The counting loop of `splice`, `list:1590-1594`. -/
def countLoop (h : Hp α) : Nat → Nat → Nat → R Nat
  | 0, _, _ => .error .fuel
  | f + 1, p, last =>
    if p = last then .ok 0
    else do
      let n ← nd h p
      let r ← countLoop h f n.next last
      .ok (r + 1)

/-- `splice(where, right, first, last)`, `list:1570-1601`, with `this != &right`. -/
def spliceRange (maxsz : Nat) (h : Hp α) (c d : Con) (wh first last : Nat) : R (Hp α × Con × Con × Option Exc) :=
  if first ≠ last then do
    let dn ← nd h d.hd
    let count ← (if first = dn.next ∧ last = d.hd then .ok d.size else countLoop h (d.size + 1) first last : R Nat)
    splice2 maxsz h c d wh first last count
  else .ok (h, c, d, none)

/-- `splice(where, *this, first, last)`, `list:1570-1601`. -/
def spliceRangeSelf (h : Hp α) (wh first last : Nat) : R (Hp α) :=
  if first ≠ last ∧ wh ≠ last then uncheckedSplice h wh first last else .ok h

/-! ## Removing -/

/-- `_Head` and `_Tail` of `_List_node_remove_op`, `list:1677-1679`; `tail = none` is `addressof(_Head)`, `some p` is `addressof(p->_Next)`. -/
structure RmOp where
  head : Nat
  tail : Option Nat

/-- `_Transfer_back`, `list:1617-1639`; also returns the node after the removed one. -/
def transferBack (h : Hp α) (c : Con) (o : RmOp) (p : Nat) : R (Hp α × Con × RmOp × Nat) := do
  let n ← nd h p
  let h ← setN h p 0
  let h ← setN h n.prev n.next
  let h ← setP h n.next n.prev
  match o.tail with
  | none => .ok (h, ⟨c.hd, c.size - 1⟩, ⟨p, some p⟩, n.next)
  | some t => do
    let h ← setN h t p
    .ok (h, ⟨c.hd, c.size - 1⟩, ⟨o.head, some p⟩, n.next)

/-- `~_List_node_remove_op`, `list:1641-1674`: the removed nodes are freed at the very end. -/
def rmDtor (f : Nat) (h : Hp α) (o : RmOp) : R (Hp α) := freeLoop f h o.head

/-- A call of a user's predicate; `k` calls succeed before one throws. -/
def callPred (k : Nat) (b : Bool) : Option (Nat × Bool) := match k with | 0 => none | k + 1 => some (k, b)

/-- The loop of `remove_if`, `list:1694-1701`. The predicate may look at the heap: `remove(val)` is allowed to get a reference to an
element of the list. -/
def removeLoop (pred : Hp α → α → R Bool) (last : Nat) : Nat → Nat → Hp α → Con → RmOp → Nat → R (Hp α × Con × RmOp × Bool)
  | 0, _, _, _, _, _ => .error .fuel
  | f + 1, k, h, c, o, p =>
    if p = last then .ok (h, c, o, false)
    else do
      let n ← nd h p
      let v ← valAt h p
      let b ← pred h v
      match callPred k b with
      | none => .ok (h, c, o, true)
      | some (k, true) => do
        let r ← transferBack h c o p
        removeLoop pred last f k r.1 r.2.1 r.2.2.1 n.next
      | some (k, false) => removeLoop pred last f k h c o n.next

/-- `remove_if`, `list:1688-1708`; the result is the number of removed elements, or the exception. -/
def removeIf (pred : Hp α → α → R Bool) (k : Nat) (h : Hp α) (c : Con) : R (Hp α × Con × Nat × Option Exc) := do
  let hn ← nd h c.hd
  let r ← removeLoop pred c.hd (c.size + 1) k h c ⟨0, none⟩ hn.next
  let h ← rmDtor (c.size - r.2.1.size) r.1 r.2.2.1
  .ok (h, r.2.1, c.size - r.2.1.size, if r.2.2.2 then some .user else none)

/-- The loop of `unique`, `list:1722-1729`. -/
def uniqueLoop (eq : α → α → Bool) (last : Nat) : Nat → Nat → Hp α → Con → RmOp → Nat → Nat → R (Hp α × Con × RmOp × Bool)
  | 0, _, _, _, _, _, _ => .error .fuel
  | f + 1, k, h, c, o, pprev, p =>
    if p = last then .ok (h, c, o, false)
    else do
      let u ← valAt h pprev
      let v ← valAt h p
      match callPred k (eq u v) with
      | none => .ok (h, c, o, true)
      | some (k, true) => do
        let r ← transferBack h c o p
        uniqueLoop eq last f k r.1 r.2.1 r.2.2.1 pprev r.2.2.2
      | some (k, false) => do
        let n ← nd h p
        uniqueLoop eq last f k h c o p n.next

/-- `unique`, `list:1715-1737`. -/
def unique (eq : α → α → Bool) (k : Nat) (h : Hp α) (c : Con) : R (Hp α × Con × Nat × Option Exc) := do
  let hn ← nd h c.hd
  let pn ← nd h hn.next
  let r ← uniqueLoop eq c.hd (c.size + 1) k h c ⟨0, none⟩ hn.next pn.next
  let h ← rmDtor (c.size - r.2.1.size) r.1 r.2.2.1
  .ok (h, r.2.1, c.size - r.2.1.size, if r.2.2.2 then some .user else none)

/-! ## Sorting and merging -/

/-- `_Pred(p->_Myval, q->_Myval)`. -/
def cmp (lt : α → α → Bool) (k : Nat) (h : Hp α) (p q : Nat) : R (Option (Nat × Bool)) := do
  let u ← valAt h p
  let v ← valAt h q
  .ok (callPred k (lt u v))

/-- `do { _First = _First->_Next; if (_First == _Mid) return } while (!_Pred(_Mid, _First))`, `list:534-540`, `list:555-560`.
`none`: the predicate threw; otherwise the remaining calls and the new `_First`. The caller compares it with `_Mid`. -/
def skipLoop (lt : α → α → Bool) (h : Hp α) (mid : Nat) : Nat → Nat → Nat → R (Option (Nat × Nat))
  | 0, _, _ => .error .fuel
  | f + 1, k, first => do
    let n ← nd h first
    if n.next = mid then .ok (some (k, mid))
    else do
      let r ← cmp lt k h mid n.next
      match r with
      | none => .ok none
      | some (k, true) => .ok (some (k, n.next))
      | some (k, false) => skipLoop lt h mid f k n.next

/-- `do { _Mid = _Mid->_Next } while (_Mid != _Last && _Pred(_Mid, _First))`, `list:545-547`. -/
def runLoop (lt : α → α → Bool) (h : Hp α) (first last : Nat) : Nat → Nat → Nat → R (Option (Nat × Nat))
  | 0, _, _ => .error .fuel
  | f + 1, k, mid => do
    let n ← nd h mid
    if n.next = last then .ok (some (k, last))
    else do
      let r ← cmp lt k h n.next first
      match r with
      | none => .ok none
      | some (k, true) => runLoop lt h first last f k n.next
      | some (k, false) => .ok (some (k, n.next))

/-- The `for (;;)` of `_Merge_same`, `list:543-562`. `none`: the predicate threw. `g`: fuel of the inner loops. -/
def mergeLoop (lt : α → α → Bool) (last g : Nat) : Nat → Nat → Hp α → Nat → Nat → R (Hp α × Option Nat)
  | 0, _, _, _, _ => .error .fuel
  | f + 1, k, h, first, mid => do
    let r ← runLoop lt h first last g k mid
    match r with
    | none => .ok (h, none)
    | some (k, mid') => do
      let h ← uncheckedSplice h first mid mid'
      if mid' = last then .ok (h, some k)
      else do
        let r ← skipLoop lt h mid' g k first
        match r with
        | none => .ok (h, none)
        | some (k, first') => if first' = mid' then .ok (h, some k) else mergeLoop lt last g f k h first' mid'

/-- `_Merge_same`, `list:520-563`. Returns the remaining calls and the new beginning of the range. -/
def mergeSame (lt : α → α → Bool) (g k : Nat) (h : Hp α) (first mid last : Nat) : R (Hp α × Option (Nat × Nat)) := do
  let r ← cmp lt k h mid first
  match r with
  | none => .ok (h, none)
  | some (k, true) => do
    let q ← mergeLoop lt last g g k h first mid
    .ok (q.1, q.2.map fun k => (k, mid))
  | some (k, false) => do
    let r ← skipLoop lt h mid g k first
    match r with
    | none => .ok (h, none)
    | some (k, first') =>
      if first' = mid then .ok (h, some (k, first))
      else do
        let q ← mergeLoop lt last g g k h first' mid
        .ok (q.1, q.2.map fun k => (k, first))

/-- `_Nodeptr& _First` in `_Sort`: either a reference to a local variable or to the member `p->_Next`. -/
inductive Ref where
  | var (v : Nat)
  | nextOf (p : Nat)

def Ref.get (h : Hp α) : Ref → R Nat
  | .var v => .ok v
  | .nextOf p => do let n ← nd h p; .ok n.next

def Ref.set (h : Hp α) (v : Nat) : Ref → R (Hp α × Ref)
  | .var _ => .ok (h, .var v)
  | .nextOf p => do let h ← setN h p v; .ok (h, .nextOf p)

/-- `_Sort`, `list:565-582`. Returns `none` if the predicate threw; otherwise the remaining calls, the reference and `_Last`. -/
def sortF (lt : α → α → Bool) : Nat → Nat → Hp α → Ref → Nat → R (Hp α × Option (Nat × Ref × Nat))
  | 0, _, _, _, _ => .error .fuel
  | f + 1, k, h, r, size =>
    if size = 0 then do
      let p ← r.get h
      .ok (h, some (k, r, p))
    else if size = 1 then do
      let p ← r.get h
      let n ← nd h p
      .ok (h, some (k, r, n.next))
    else do
      let q ← sortF lt f k h r (size / 2)
      match q.2 with
      | none => .ok (q.1, none)
      | some (k, r, mid) => do
        let q ← sortF lt f k q.1 (.var mid) (size - size / 2)
        match q.2 with
        | none => .ok (q.1, none)
        | some (k, m, last) => do
          let first ← r.get q.1
          let mid ← m.get q.1
          let z ← mergeSame lt (size + 1) k q.1 first mid last
          match z.2 with
          | none => .ok (z.1, none)
          | some (k, first) => do
            let w ← r.set z.1 first
            .ok (w.1, some (k, w.2, last))

/-- `sort`, `list:1789-1793`. The result tells whether the predicate threw. -/
def sort (lt : α → α → Bool) (k : Nat) (h : Hp α) (c : Con) : R (Hp α × Option Exc) := do
  let r ← sortF lt (c.size + 1) k h (.nextOf c.hd) c.size
  .ok (r.1, match r.2 with | none => some .user | some _ => none)

/-- `_Merge1`, `list:1750-1782`, with `this != &right`. -/
def merge (lt : α → α → Bool) (maxsz k : Nat) (h : Hp α) (c d : Con) : R (Hp α × Con × Con × Option Exc) :=
  if d.size = 0 then .ok (h, c, d, none)
  else do
    let dn ← nd h d.hd
    let mid := dn.next
    let r ← splice2 maxsz h c d c.hd mid d.hd d.size
    match r.2.2.2 with
    | some e => .ok (r.1, r.2.1, r.2.2.1, some e)
    | none => do
      let hn ← nd r.1 c.hd
      if hn.next ≠ mid then do
        let q ← mergeSame lt (c.size + d.size + 1) k r.1 hn.next mid c.hd
        .ok (q.1, r.2.1, r.2.2.1, match q.2 with | none => some .user | some _ => none)
      else .ok (r.1, r.2.1, r.2.2.1, none)

/-- `reverse`, `list:1795-1811`. -/
def reverseLoop (hd : Nat) : Nat → Hp α → Nat → R (Hp α)
  | 0, _, _ => .error .fuel
  | f + 1, h, p => do
    let n ← nd h p
    let h ← setN h p n.prev
    let h ← setP h p n.next
    if n.next = hd then .ok h else reverseLoop hd f h n.next

def reverse (h : Hp α) (c : Con) : R (Hp α) := reverseLoop c.hd (c.size + 1) h c.hd

/-- `operator++`, `list:55-58`. -/
def next (h : Hp α) (p : Nat) : R Nat := do let n ← nd h p; .ok n.next

/-- `operator--`, `list:65-68`. -/
def prev (h : Hp α) (p : Nat) : R Nat := do let n ← nd h p; .ok n.prev

end STL.DL
