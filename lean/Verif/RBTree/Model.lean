import Verif.Base

/-!
# Model of the red-black tree behind `set`, `map`, `multiset`, `multimap`

`/repo/stl/inc/xtree`. Nodes live in an explicit heap; a node pointer is an address, `none` is unallocated memory, and
following a pointer to unallocated memory is undefined behaviour. `_Nil` is the tree's head node, as in the code. Every loop
has a fuel argument: running out of it is an error that the theorems exclude, so a fuel bound is a bound on the iterations.

Simplifications: the comparator and the element moves do not throw, node construction may throw (`alloc = none`) before the
tree is touched; iterator debugging and proxies are left out; the comparator object is the function `lt`.
-/

namespace STL.RBT
open STL

variable {α κ : Type}

/-- `_Tree_node`, `xtree:336-352`. `val = none`: no value constructed (the head). -/
structure Node (α : Type) where
  left : Nat
  parent : Nat
  right : Nat
  red : Bool
  nil : Bool
  val : Option α

abbrev Hp (α : Type) := Nat → Option (Node α)

/-- `*p`. -/
def nd (h : Hp α) (p : Nat) : R (Node α) := match h p with | some n => .ok n | none => .error .ub

def put (h : Hp α) (p : Nat) (n : Node α) : Hp α := fun q => if q = p then some n else h q

/-- `p->_Left = v` -/
def setL (h : Hp α) (p v : Nat) : R (Hp α) := do let n ← nd h p; .ok (put h p ⟨v, n.parent, n.right, n.red, n.nil, n.val⟩)
/-- `p->_Parent = v` -/
def setP (h : Hp α) (p v : Nat) : R (Hp α) := do let n ← nd h p; .ok (put h p ⟨n.left, v, n.right, n.red, n.nil, n.val⟩)
/-- `p->_Right = v` -/
def setR (h : Hp α) (p v : Nat) : R (Hp α) := do let n ← nd h p; .ok (put h p ⟨n.left, n.parent, v, n.red, n.nil, n.val⟩)
/-- `p->_Color = c` -/
def setC (h : Hp α) (p : Nat) (c : Bool) : R (Hp α) := do let n ← nd h p; .ok (put h p ⟨n.left, n.parent, n.right, c, n.nil, n.val⟩)

/-- `_Traits::_Kfn(p->_Myval)`. -/
def keyAt (key : α → κ) (h : Hp α) (p : Nat) : R κ := do
  let n ← nd h p
  match n.val with
  | some v => .ok (key v)
  | none => .error .ub

/-- `_Max`, `xtree:478-484`. -/
def maxF (h : Hp α) : Nat → Nat → R Nat
  | 0, _ => .error .fuel
  | f + 1, p => do
    let n ← nd h p
    let r ← nd h n.right
    if r.nil then .ok p else maxF h f n.right

/-- `_Min`, `xtree:486-492`. -/
def minF (h : Hp α) : Nat → Nat → R Nat
  | 0, _ => .error .fuel
  | f + 1, p => do
    let n ← nd h p
    let l ← nd h n.left
    if l.nil then .ok p else minF h f n.left

/-- The `while` of `operator++`, `xtree:62-66`. -/
def climbR (h : Hp α) : Nat → Nat → R Nat
  | 0, _ => .error .fuel
  | f + 1, p => do
    let n ← nd h p
    let q ← nd h n.parent
    if q.nil then .ok n.parent
    else if p = q.right then climbR h f n.parent else .ok n.parent

/-- `operator++`, `xtree:60-74`. -/
def next (h : Hp α) (f : Nat) (p : Nat) : R Nat := do
  let n ← nd h p
  let r ← nd h n.right
  if r.nil then climbR h f p else minF h f n.right

/-- The `while` of `operator--`, `xtree:86-93`; returns the new `_Ptr`. -/
def climbL (h : Hp α) : Nat → Nat → R Nat
  | 0, _ => .error .fuel
  | f + 1, p => do
    let n ← nd h p
    let q ← nd h n.parent
    if q.nil then .ok n.parent
    else if p = q.left then climbL h f n.parent else .ok n.parent

/-- `operator--`, `xtree:82-100`. -/
def prev (h : Hp α) (f : Nat) (p : Nat) : R Nat := do
  let n ← nd h p
  if n.nil then .ok n.right
  else do
    let l ← nd h n.left
    if l.nil then climbL h f p else maxF h f n.left

/-- `_Lrotate`, `xtree:494-514`. -/
def lrotate (hd : Nat) (h : Hp α) (w : Nat) : R (Hp α) := do
  let wn ← nd h w
  let p := wn.right
  let pn ← nd h p
  let h ← setR h w pn.left
  let pn ← nd h p
  let b ← nd h pn.left
  let h ← (if b.nil then .ok h else setP h pn.left w : R (Hp α))
  let wn ← nd h w
  let h ← setP h p wn.parent
  let hn ← nd h hd
  let h ← (if w = hn.parent then setP h hd p
    else do
      let wn ← nd h w
      let q ← nd h wn.parent
      if w = q.left then setL h wn.parent p else setR h wn.parent p : R (Hp α))
  let h ← setL h p w
  setP h w p

/-- `_Rrotate`, `xtree:516-536`. -/
def rrotate (hd : Nat) (h : Hp α) (w : Nat) : R (Hp α) := do
  let wn ← nd h w
  let p := wn.left
  let pn ← nd h p
  let h ← setL h w pn.right
  let pn ← nd h p
  let b ← nd h pn.right
  let h ← (if b.nil then .ok h else setP h pn.right w : R (Hp α))
  let wn ← nd h w
  let h ← setP h p wn.parent
  let hn ← nd h hd
  let h ← (if w = hn.parent then setP h hd p
    else do
      let wn ← nd h w
      let q ← nd h wn.parent
      if w = q.right then setR h wn.parent p else setL h wn.parent p : R (Hp α))
  let h ← setR h p w
  setP h w p

/-- The `for` of `_Insert_node`, `xtree:709-751`. -/
def insertFix (hd : Nat) : Nat → Hp α → Nat → R (Hp α)
  | 0, _, _ => .error .fuel
  | f + 1, h, p => do
    let pn ← nd h p
    let q ← nd h pn.parent
    if q.red then do
      let g ← nd h q.parent
      if pn.parent = g.left then do
        let s ← nd h g.right
        if s.red then do
          let h ← setC h pn.parent false
          let h ← setC h g.right false
          let h ← setC h q.parent true
          insertFix hd f h q.parent
        else do
          let r ← (if p = q.right then do
              let h ← lrotate hd h pn.parent
              .ok (h, pn.parent)
            else .ok (h, p) : R (Hp α × Nat))
          let pn ← nd r.1 r.2
          let h ← setC r.1 pn.parent false
          let q ← nd h pn.parent
          let h ← setC h q.parent true
          let h ← rrotate hd h q.parent
          insertFix hd f h r.2
      else do
        let s ← nd h g.left
        if s.red then do
          let h ← setC h pn.parent false
          let h ← setC h g.left false
          let h ← setC h q.parent true
          insertFix hd f h q.parent
        else do
          let r ← (if p = q.left then do
              let h ← rrotate hd h pn.parent
              .ok (h, pn.parent)
            else .ok (h, p) : R (Hp α × Nat))
          let pn ← nd r.1 r.2
          let h ← setC r.1 pn.parent false
          let q ← nd h pn.parent
          let h ← setC h q.parent true
          let h ← lrotate hd h q.parent
          insertFix hd f h r.2
    else .ok h

/-- `_Insert_node`, `xtree:680-755`, without `++_Mysize`; `right`: `_Tree_child::_Right`. -/
def insertNode (hd f : Nat) (h : Hp α) (parent : Nat) (right : Bool) (x : Nat) : R (Hp α) := do
  let h ← setP h x parent
  if parent = hd then do
    let h ← setL h hd x
    let h ← setP h hd x
    let h ← setR h hd x
    setC h x false
  else do
    let h ← (if right then do
        let h ← setR h parent x
        let hn ← nd h hd
        if parent = hn.right then setR h hd x else .ok h
      else do
        let h ← setL h parent x
        let hn ← nd h hd
        if parent = hn.left then setL h hd x else .ok h : R (Hp α))
    let h ← insertFix hd f h x
    let hn ← nd h hd
    setC h hn.parent false

/-- The unlinking part of `_Extract`, `xtree:538-604`; returns the heap, `_Fixnode` and `_Fixnodeparent`. -/
def unlink (hd f : Nat) (h : Hp α) (e : Nat) : R (Hp α × Nat × Nat) := do
  let succ ← next h f e
  let en ← nd h e
  let l ← nd h en.left
  let r ← nd h en.right
  let sn ← nd h succ
  if l.nil ∨ r.nil then do
    let fix := if l.nil then en.right else en.left
    let fp := en.parent
    let fixn ← nd h fix
    let h ← (if fixn.nil then .ok h else setP h fix fp : R (Hp α))
    let hn ← nd h hd
    let h ← (if hn.parent = e then setP h hd fix
      else do
        let q ← nd h fp
        if q.left = e then setL h fp fix else setR h fp fix : R (Hp α))
    let hn ← nd h hd
    let h ← (if hn.left = e then do
        let fixn ← nd h fix
        let m ← (if fixn.nil then .ok fp else minF h f fix : R Nat)
        setL h hd m
      else .ok h : R (Hp α))
    let hn ← nd h hd
    let h ← (if hn.right = e then do
        let fixn ← nd h fix
        let m ← (if fixn.nil then .ok fp else maxF h f fix : R Nat)
        setR h hd m
      else .ok h : R (Hp α))
    .ok (h, fix, fp)
  else do
    let fix := sn.right
    let h ← setP h en.left succ
    let h ← setL h succ en.left
    let r ← (if succ = en.right then .ok (h, succ)
      else do
        let sn ← nd h succ
        let fp := sn.parent
        let fixn ← nd h fix
        let h ← (if fixn.nil then .ok h else setP h fix fp : R (Hp α))
        let h ← setL h fp fix
        let h ← setR h succ en.right
        let h ← setP h en.right succ
        .ok (h, fp) : R (Hp α × Nat))
    let h := r.1
    let hn ← nd h hd
    let h ← (if hn.parent = e then setP h hd succ
      else do
        let q ← nd h en.parent
        if q.left = e then setL h en.parent succ else setR h en.parent succ : R (Hp α))
    let h ← setP h succ en.parent
    let sn ← nd h succ
    let en ← nd h e
    let h ← setC h succ en.red
    let h ← setC h e sn.red
    .ok (h, fix, r.2)

/-- The `for` of `_Extract`, `xtree:607-667`; returns the heap and `_Fixnode`. -/
def eraseFix (hd : Nat) : Nat → Hp α → Nat → Nat → R (Hp α × Nat)
  | 0, _, _, _ => .error .fuel
  | f + 1, h, fix, fp => do
    let hn ← nd h hd
    let fixn ← nd h fix
    if fix ≠ hn.parent ∧ fixn.red = false then do
      let fpn ← nd h fp
      if fix = fpn.left then do
        let p := fpn.right
        let pn ← nd h p
        let r ← (if pn.red then do
            let h ← setC h p false
            let h ← setC h fp true
            let h ← lrotate hd h fp
            let fpn ← nd h fp
            .ok (h, fpn.right)
          else .ok (h, p) : R (Hp α × Nat))
        let h := r.1
        let p := r.2
        let pn ← nd h p
        if pn.nil then do
          let fpn ← nd h fp
          eraseFix hd f h fp fpn.parent
        else do
          let pl ← nd h pn.left
          let pr ← nd h pn.right
          if pl.red = false ∧ pr.red = false then do
            let h ← setC h p true
            let fpn ← nd h fp
            eraseFix hd f h fp fpn.parent
          else do
            let r ← (if pr.red = false then do
                let h ← setC h pn.left false
                let h ← setC h p true
                let h ← rrotate hd h p
                let fpn ← nd h fp
                .ok (h, fpn.right)
              else .ok (h, p) : R (Hp α × Nat))
            let h := r.1
            let p := r.2
            let fpn ← nd h fp
            let h ← setC h p fpn.red
            let h ← setC h fp false
            let pn ← nd h p
            let h ← setC h pn.right false
            let h ← lrotate hd h fp
            .ok (h, fix)
      else do
        let p := fpn.left
        let pn ← nd h p
        let r ← (if pn.red then do
            let h ← setC h p false
            let h ← setC h fp true
            let h ← rrotate hd h fp
            let fpn ← nd h fp
            .ok (h, fpn.left)
          else .ok (h, p) : R (Hp α × Nat))
        let h := r.1
        let p := r.2
        let pn ← nd h p
        if pn.nil then do
          let fpn ← nd h fp
          eraseFix hd f h fp fpn.parent
        else do
          let pr ← nd h pn.right
          let pl ← nd h pn.left
          if pr.red = false ∧ pl.red = false then do
            let h ← setC h p true
            let fpn ← nd h fp
            eraseFix hd f h fp fpn.parent
          else do
            let r ← (if pl.red = false then do
                let h ← setC h pn.right false
                let h ← setC h p true
                let h ← lrotate hd h p
                let fpn ← nd h fp
                .ok (h, fpn.left)
              else .ok (h, p) : R (Hp α × Nat))
            let h := r.1
            let p := r.2
            let fpn ← nd h fp
            let h ← setC h p fpn.red
            let h ← setC h fp false
            let pn ← nd h p
            let h ← setC h pn.left false
            let h ← rrotate hd h fp
            .ok (h, fix)
    else .ok (h, fix)

/-- `_Extract`, `xtree:538-678`, without `--_Mysize`. -/
def extract (hd f : Nat) (h : Hp α) (e : Nat) : R (Hp α) := do
  let r ← unlink hd f h e
  let en ← nd r.1 e
  if en.red then .ok r.1
  else do
    let s ← eraseFix hd f r.1 r.2.1 r.2.2
    setC s.1 s.2 false

/-- A search result: `_Location._Parent`, `_Location._Child == _Right`, `_Bound`. -/
structure Found where
  parent : Nat
  right : Bool
  bound : Nat

/-- The loop of `_Find_lower_bound`, `xtree:1643-1653`. -/
def lowerLoop (key : α → κ) (lt : κ → κ → Bool) (h : Hp α) (k : κ) : Nat → Nat → Found → R Found
  | 0, _, _ => .error .fuel
  | f + 1, t, r => do
    let n ← nd h t
    if n.nil then .ok r
    else do
      let nk ← keyAt key h t
      if lt nk k then lowerLoop key lt h k f n.right ⟨t, true, r.bound⟩
      else lowerLoop key lt h k f n.left ⟨t, false, t⟩

/-- `_Find_lower_bound`, `xtree:1639-1656`. -/
def findLower (key : α → κ) (lt : κ → κ → Bool) (hd f : Nat) (h : Hp α) (k : κ) : R Found := do
  let hn ← nd h hd
  lowerLoop key lt h k f hn.parent ⟨hn.parent, true, hd⟩

/-- The loop of `_Find_upper_bound`, `xtree:1618-1628`. -/
def upperLoop (key : α → κ) (lt : κ → κ → Bool) (h : Hp α) (k : κ) : Nat → Nat → Found → R Found
  | 0, _, _ => .error .fuel
  | f + 1, t, r => do
    let n ← nd h t
    if n.nil then .ok r
    else do
      let nk ← keyAt key h t
      if lt k nk then upperLoop key lt h k f n.left ⟨t, false, t⟩
      else upperLoop key lt h k f n.right ⟨t, true, r.bound⟩

/-- `_Find_upper_bound`, `xtree:1614-1631`. -/
def findUpper (key : α → κ) (lt : κ → κ → Bool) (hd f : Nat) (h : Hp α) (k : κ) : R Found := do
  let hn ← nd h hd
  upperLoop key lt h k f hn.parent ⟨hn.parent, true, hd⟩

/-- `_Lower_bound_duplicate`, `xtree:1633-1636`. -/
def isDup (key : α → κ) (lt : κ → κ → Bool) (h : Hp α) (bound : Nat) (k : κ) : R Bool := do
  let b ← nd h bound
  if b.nil then .ok false
  else do
    let bk ← keyAt key h bound
    .ok (!(lt k bk))

/-- `_Find` (`find`), `xtree:1393-1401`. -/
def find (key : α → κ) (lt : κ → κ → Bool) (hd f : Nat) (h : Hp α) (k : κ) : R Nat := do
  let r ← findLower key lt hd f h k
  let d ← isDup key lt h r.bound k
  .ok (if d then r.bound else hd)

/-- The first loop of `_Eqrange`, `xtree:1725-1737`. -/
def eqLoop1 (key : α → κ) (lt : κ → κ → Bool) (h : Hp α) (k : κ) : Nat → Nat → Nat → Nat → R (Nat × Nat)
  | 0, _, _, _ => .error .fuel
  | f + 1, p, lo, hi => do
    let n ← nd h p
    if n.nil then .ok (lo, hi)
    else do
      let nk ← keyAt key h p
      if lt nk k then eqLoop1 key lt h k f n.right lo hi
      else do
        let hn ← nd h hi
        eqLoop1 key lt h k f n.left p (if hn.nil ∧ lt k nk then p else hi)

/-- The second loop of `_Eqrange`, `xtree:1740-1748`. -/
def eqLoop2 (key : α → κ) (lt : κ → κ → Bool) (h : Hp α) (k : κ) : Nat → Nat → Nat → R Nat
  | 0, _, _ => .error .fuel
  | f + 1, p, hi => do
    let n ← nd h p
    if n.nil then .ok hi
    else do
      let nk ← keyAt key h p
      if lt k nk then eqLoop2 key lt h k f n.left p else eqLoop2 key lt h k f n.right hi

/-- `_Eqrange`, `xtree:1714-1751`. -/
def eqrange (key : α → κ) (lt : κ → κ → Bool) (hd f : Nat) (h : Hp α) (k : κ) : R (Nat × Nat) := do
  let hn ← nd h hd
  let r ← eqLoop1 key lt h k f hn.parent hd hd
  let hin ← nd h r.2
  let hn ← nd h hd
  let hi ← eqLoop2 key lt h k f (if hin.nil then hn.parent else hin.left) r.2
  .ok (r.1, hi)

/-- A hint: parent, right child?, duplicate? (`_Tree_find_hint_result`). -/
structure Hint where
  parent : Nat
  right : Bool
  dup : Bool

/-- `_Find_hint` for unique keys, `xtree:1568-1610`. -/
def findHintUnique (key : α → κ) (lt : κ → κ → Bool) (hd f : Nat) (h : Hp α) (hint : Nat) (k : κ) : R Hint := do
  let fallback : R Hint := do
    let r ← findLower key lt hd f h k
    let d ← isDup key lt h r.bound k
    .ok (if d then ⟨r.bound, false, true⟩ else ⟨r.parent, r.right, false⟩)
  let n ← nd h hint
  let hn ← nd h hd
  if n.nil then do
    let root ← nd h hn.parent
    if root.nil then .ok ⟨hn.right, true, false⟩
    else do
      let mk ← keyAt key h hn.right
      if lt mk k then .ok ⟨hn.right, true, false⟩ else fallback
  else do
    let nk ← keyAt key h hint
    if hint = hn.left then
      if lt k nk then .ok ⟨hint, false, false⟩ else fallback
    else if lt k nk then do
      let p ← prev h f hint
      let pk ← keyAt key h p
      if lt pk k then do
        let pn ← nd h p
        let pr ← nd h pn.right
        .ok (if pr.nil then ⟨p, true, false⟩ else ⟨hint, false, false⟩)
      else fallback
    else if lt nk k then do
      let s ← next h f hint
      let sn ← nd h s
      let here ← (if sn.nil then .ok true else do
        let sk ← keyAt key h s
        .ok (lt k sk) : R Bool)
      if here then do
        let r ← nd h n.right
        .ok (if r.nil then ⟨hint, true, false⟩ else ⟨s, false, false⟩)
      else fallback
    else .ok ⟨hint, true, true⟩

/-- `_Find_hint` for `multiset`/`multimap`, `xtree:1527-1567`. -/
def findHintMulti (key : α → κ) (lt : κ → κ → Bool) (hd f : Nat) (h : Hp α) (hint : Nat) (k : κ) : R Hint := do
  let up : R Hint := do
    let r ← findUpper key lt hd f h k
    .ok ⟨r.parent, r.right, false⟩
  let lo : R Hint := do
    let r ← findLower key lt hd f h k
    .ok ⟨r.parent, r.right, false⟩
  let n ← nd h hint
  let hn ← nd h hd
  if n.nil then do
    let root ← nd h hn.parent
    if root.nil then .ok ⟨hn.right, true, false⟩
    else do
      let mk ← keyAt key h hn.right
      if lt k mk then up else .ok ⟨hn.right, true, false⟩
  else do
    let nk ← keyAt key h hint
    if hint = hn.left then
      if lt nk k then lo else .ok ⟨hint, false, false⟩
    else if lt nk k then lo
    else do
      let p ← prev h f hint
      let pk ← keyAt key h p
      if lt k pk then up
      else do
        let pn ← nd h p
        let pr ← nd h pn.right
        .ok (if pr.nil then ⟨p, true, false⟩ else ⟨hint, false, false⟩)

/-! ## Containers: a head node and `_Mysize`; several containers share the heap -/

structure Con where
  hd : Nat
  size : Nat

/-- Allocation at address `x` (`none`: throws `bad_alloc`). Allocating memory in use would be an allocator bug. -/
def alloc (h : Hp α) (x : Nat) (n : Node α) : R (Hp α) := if (h x).isNone then .ok (put h x n) else .error .ub

/-- Deallocation. -/
def free (h : Hp α) (x : Nat) : R (Hp α) := do
  let _ ← nd h x
  .ok (fun q => if q = x then none else h q)

/-- `_Buyheadnode`, `xtree:353-363`: a new container. -/
def newCon (h : Hp α) (x : Nat) : R (Hp α × Con) := do
  let h ← alloc h x ⟨x, x, x, false, true, none⟩
  .ok (h, ⟨x, 0⟩)

/-- `_Emplace` for unique keys, `xtree:1020-1054`; returns heap, container, position, inserted?, exception. `x`: the address of a new
node, `none` if its construction throws. -/
def emplaceUnique (key : α → κ) (lt : κ → κ → Bool) (maxsz f : Nat) (h : Hp α) (c : Con) (v : α) (x : Option Nat) :
    R (Hp α × Con × Nat × Bool × Option Exc) := do
  let r ← findLower key lt c.hd f h (key v)
  let d ← isDup key lt h r.bound (key v)
  if d then .ok (h, c, r.bound, false, none)
  else if maxsz = c.size then .ok (h, c, c.hd, false, some .lengthError)
  else match x with
    | none => .ok (h, c, c.hd, false, some .badAlloc)
    | some x => do
      let h ← alloc h x ⟨c.hd, c.hd, c.hd, true, false, some v⟩
      let h ← insertNode c.hd f h r.parent r.right x
      .ok (h, ⟨c.hd, c.size + 1⟩, x, true, none)

/-- `_Emplace` for unique keys when the key cannot be seen in the arguments, `xtree:1036-1054`: the node is built first, and freed again by
`~_Tree_temp_node` when there is a duplicate or the length check throws. -/
def emplaceUniqueSlow (key : α → κ) (lt : κ → κ → Bool) (maxsz f : Nat) (h : Hp α) (c : Con) (v : α) (x : Option Nat) :
    R (Hp α × Con × Nat × Bool × Option Exc) :=
  match x with
  | none => .ok (h, c, c.hd, false, some .badAlloc)
  | some x => do
    let h ← alloc h x ⟨c.hd, c.hd, c.hd, true, false, some v⟩
    let r ← findLower key lt c.hd f h (key v)
    let d ← isDup key lt h r.bound (key v)
    if d then do
      let h ← free h x
      .ok (h, c, r.bound, false, none)
    else if maxsz = c.size then do
      let h ← free h x
      .ok (h, c, c.hd, false, some .lengthError)
    else do
      let h ← insertNode c.hd f h r.parent r.right x
      .ok (h, ⟨c.hd, c.size + 1⟩, x, true, none)

/-- `_Emplace` for `multiset`/`multimap`, `xtree:1036-1054`; the temporary node is freed when the length check throws. -/
def emplaceMulti (key : α → κ) (lt : κ → κ → Bool) (maxsz f : Nat) (h : Hp α) (c : Con) (v : α) (x : Option Nat) :
    R (Hp α × Con × Nat × Bool × Option Exc) :=
  match x with
  | none => .ok (h, c, c.hd, false, some .badAlloc)
  | some x => do
    let h ← alloc h x ⟨c.hd, c.hd, c.hd, true, false, some v⟩
    let r ← findUpper key lt c.hd f h (key v)
    if maxsz = c.size then do
      let h ← free h x
      .ok (h, c, c.hd, false, some .lengthError)
    else do
      let h ← insertNode c.hd f h r.parent r.right x
      .ok (h, ⟨c.hd, c.size + 1⟩, x, true, none)

/-- `_Emplace_hint` for unique keys, `xtree:1063-1094`. -/
def emplaceHintUnique (key : α → κ) (lt : κ → κ → Bool) (maxsz f : Nat) (h : Hp α) (c : Con) (hint : Nat) (v : α) (x : Option Nat) :
    R (Hp α × Con × Nat × Bool × Option Exc) := do
  let r ← findHintUnique key lt c.hd f h hint (key v)
  if r.dup then .ok (h, c, r.parent, false, none)
  else if maxsz = c.size then .ok (h, c, c.hd, false, some .lengthError)
  else match x with
    | none => .ok (h, c, c.hd, false, some .badAlloc)
    | some x => do
      let h ← alloc h x ⟨c.hd, c.hd, c.hd, true, false, some v⟩
      let h ← insertNode c.hd f h r.parent r.right x
      .ok (h, ⟨c.hd, c.size + 1⟩, x, true, none)

/-- `_Emplace_hint` for `multiset`/`multimap`, `xtree:1079-1094`. -/
def emplaceHintMulti (key : α → κ) (lt : κ → κ → Bool) (maxsz f : Nat) (h : Hp α) (c : Con) (hint : Nat) (v : α) (x : Option Nat) :
    R (Hp α × Con × Nat × Bool × Option Exc) :=
  match x with
  | none => .ok (h, c, c.hd, false, some .badAlloc)
  | some x => do
    let h ← alloc h x ⟨c.hd, c.hd, c.hd, true, false, some v⟩
    let r ← findHintMulti key lt c.hd f h hint (key v)
    if maxsz = c.size then do
      let h ← free h x
      .ok (h, c, c.hd, false, some .lengthError)
    else do
      let h ← insertNode c.hd f h r.parent r.right x
      .ok (h, ⟨c.hd, c.size + 1⟩, x, true, none)

/-- `--_Mysize` in `_Extract`, `xtree:671-673`. -/
def dec (c : Con) : Con := ⟨c.hd, if 0 < c.size then c.size - 1 else c.size⟩

/-- `_Erase_unchecked(where)`, `xtree:1310-1318`; returns the successor. -/
def eraseAt (f : Nat) (h : Hp α) (c : Con) (e : Nat) : R (Hp α × Con × Nat) := do
  let s ← next h f e
  let h ← extract c.hd f h e
  let h ← free h e
  .ok (h, dec c, s)

/-- `_Erase_tree`, `xtree:777-786`: free the right subtree, then the node, then go on with the left subtree. -/
def eraseTree : Nat → Hp α → Nat → R (Hp α)
  | 0, _, _ => .error .fuel
  | f + 1, h, p => do
    let n ← nd h p
    if n.nil then .ok h
    else do
      let h ← eraseTree f h n.right
      let n ← nd h p
      let h ← free h p
      eraseTree f h n.left

/-- `clear`, `xtree:1382-1391`. -/
def clear (f : Nat) (h : Hp α) (c : Con) : R (Hp α × Con) := do
  let hn ← nd h c.hd
  let h ← eraseTree f h hn.parent
  let h ← setP h c.hd c.hd
  let h ← setL h c.hd c.hd
  let h ← setR h c.hd c.hd
  .ok (h, ⟨c.hd, 0⟩)

/-- The destructor: `_Erase_head`, `xtree:788-793`. -/
def destroy (f : Nat) (h : Hp α) (c : Con) : R (Hp α) := do
  let hn ← nd h c.hd
  let h ← eraseTree f h hn.parent
  free h c.hd

/-- The loop of `_Erase_unchecked(first, last)`, `xtree:1329-1331`. `g`: fuel of the inner loops. -/
def eraseLoop (g : Nat) : Nat → Hp α → Con → Nat → Nat → R (Hp α × Con)
  | 0, _, _, _, _ => .error .fuel
  | f + 1, h, c, first, last =>
    if first ≠ last then do
      let s ← next h g first
      let r ← eraseAt g h c first
      eraseLoop g f r.1 r.2.1 s last
    else .ok (h, c)

/-- `_Erase_unchecked(first, last)`, `xtree:1320-1334`. -/
def eraseRange (g f : Nat) (h : Hp α) (c : Con) (first last : Nat) : R (Hp α × Con) := do
  let hn ← nd h c.hd
  let ln ← nd h last
  if first = hn.left ∧ ln.nil then clear g h c
  else eraseLoop g f h c first last

/-- `distance(first, last)`. -/
def dist (g : Nat) (h : Hp α) : Nat → Nat → Nat → R Nat
  | 0, _, _ => .error .fuel
  | f + 1, first, last =>
    if first ≠ last then do
      let s ← next h g first
      let n ← dist g h f s last
      .ok (n + 1)
    else .ok 0

/-- `erase(key)`, `xtree:1336-1342`, `:1368-1370`. -/
def eraseKey (key : α → κ) (lt : κ → κ → Bool) (g f : Nat) (h : Hp α) (c : Con) (k : κ) : R (Hp α × Con × Nat) := do
  let r ← eqrange key lt c.hd g h k
  let n ← dist g h f r.1 r.2
  let s ← eraseRange g f h c r.1 r.2
  .ok (s.1, s.2, n)

/-- `contains(key)`, `xtree:1423-1425`. -/
def contains (key : α → κ) (lt : κ → κ → Bool) (hd g : Nat) (h : Hp α) (k : κ) : R Bool := do
  let r ← findLower key lt hd g h k
  isDup key lt h r.bound k

/-- `count(key)`, `xtree:1434-1442`. -/
def count (key : α → κ) (lt : κ → κ → Bool) (multi : Bool) (g f : Nat) (h : Hp α) (c : Con) (k : κ) : R Nat :=
  if multi then do
    let r ← eqrange key lt c.hd g h k
    dist g h f r.1 r.2
  else do
    let b ← contains key lt c.hd g h k
    .ok (if b then 1 else 0)

/-- The loop of `merge`, `xtree:1885-1915`; `multi`: the destination takes duplicates. `gt`, `gs`: fuel of the loops in the
destination and the source. Stops with `length_error`. -/
def mergeLoop (key : α → κ) (lt : κ → κ → Bool) (multi : Bool) (maxsz : Nat) (g : Nat) : Nat → Hp α → Con → Con → Nat →
    R (Hp α × Con × Con × Option Exc)
  | 0, _, _, _, _ => .error .fuel
  | f + 1, h, c, that, first => do
    let n ← nd h first
    if n.nil then .ok (h, c, that, none)
    else do
      let nx ← next h g first
      let k ← keyAt key h first
      let r ← (if multi then do
          let r ← findUpper key lt c.hd g h k
          .ok (r, false)
        else do
          let r ← findLower key lt c.hd g h k
          let d ← isDup key lt h r.bound k
          .ok (r, d) : R (Found × Bool))
      if r.2 then mergeLoop key lt multi maxsz g f h c that nx
      else if maxsz = c.size then .ok (h, c, that, some .lengthError)
      else do
        let h ← extract that.hd g h first
        let h ← setL h first c.hd
        let h ← setR h first c.hd
        let h ← setC h first true
        let h ← insertNode c.hd g h r.1.parent r.1.right first
        mergeLoop key lt multi maxsz g f h ⟨c.hd, c.size + 1⟩ (dec that) nx

/-- `merge`, `xtree:1861-1916`, of two different containers. -/
def merge (key : α → κ) (lt : κ → κ → Bool) (multi : Bool) (maxsz : Nat) (g f : Nat) (h : Hp α) (c that : Con) : R (Hp α × Con × Con × Option Exc) := do
  let hn ← nd h that.hd
  mergeLoop key lt multi maxsz g f h c that hn.left

end STL.RBT
