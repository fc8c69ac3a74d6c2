import Verif.Reorder.Model

/-!
# Model of `std::deque`

`/repo/stl/inc/deque`. The circular map of block pointers, the blocks and their cells are explicit: `map` holds the block
pointers (`none` is a null pointer), `blk b` is the block with identity `b` if it is allocated, a cell of a block is `none` as
long as no object lives there. Reading, assigning or destroying where no object lives, constructing over a live object,
deallocating a block that holds objects, and following a null or stale block pointer are undefined behaviour.

Simplifications: `size_type` arithmetic is on `Nat`, except the subtraction in the length test (the theorem
`C08_no_overflow` shows that the sums stay below twice `max_size()`); a new block gets an identity never used before;
`_Allocate_at_least_helper` returns exactly the requested number; iterator debugging and proxies are left out. Exceptions:
`Fail` says which of the allocations or the element constructor of a push throws.
-/

namespace STL.Deque
open STL

structure Dq (T : Type _) where
  map : List (Option Nat)
  off : Nat
  size : Nat
  blk : Nat → Option (Nat → Option T)
  next : Nat

/-- Which operation inside a push throws. -/
inductive Fail where
  | no | mapAlloc | blkAlloc | ctor
  deriving DecidableEq

section
variable {T : Type _}

/-- `deque()`, `deque:642-644`, `:556`. -/
def empty : Dq T := ⟨[], 0, 0, fun _ => none, 0⟩

/-- `_Getblock`, `deque:570-573`. -/
def getblock (B : Nat) (d : Dq T) (o : Nat) : Nat := (o / B) &&& (d.map.length - 1)

/-- The address computed by `_Subscript` / `_Address_subscript`, `deque:575-591`. -/
def addr (B : Nat) (d : Dq T) (o : Nat) : R (Nat × Nat) :=
  match d.map[getblock B d o]? with
  | some (some b) => .ok (b, o % B)
  | _ => .error .ub

/-- `*_Address_subscript(o)` as an rvalue. -/
def load (B : Nat) (d : Dq T) (o : Nat) : R T := do
  let a ← addr B d o
  match d.blk a.1 with
  | some c => match c a.2 with
    | some x => .ok x
    | none => .error .ub
  | none => .error .ub

/-- Change one cell. -/
def setCell (d : Dq T) (b k : Nat) (v : Option T) : Dq T :=
  ⟨d.map, d.off, d.size, fun b' => if b' = b then (d.blk b).map (fun c k' => if k' = k then v else c k') else d.blk b', d.next⟩

/-- `*_Address_subscript(o) = x`. -/
def assign (B : Nat) (d : Dq T) (o : Nat) (x : T) : R (Dq T) := do
  let a ← addr B d o
  match d.blk a.1 with
  | some c => if (c a.2).isSome then .ok (setCell d a.1 a.2 (some x)) else .error .ub
  | none => .error .ub

/-- `_Alty_traits::construct(_Getal(), _Address_subscript(o), x)`. -/
def construct (B : Nat) (d : Dq T) (o : Nat) (x : T) : R (Dq T) := do
  let a ← addr B d o
  match d.blk a.1 with
  | some c => if (c a.2).isNone then .ok (setCell d a.1 a.2 (some x)) else .error .ub
  | none => .error .ub

/-- `_Alty_traits::destroy(_Getal(), _Address_subscript(o))`. -/
def destroy (B : Nat) (d : Dq T) (o : Nat) : R (Dq T) := do
  let a ← addr B d o
  match d.blk a.1 with
  | some c => if (c a.2).isSome then .ok (setCell d a.1 a.2 none) else .error .ub
  | none => .error .ub

/-- `size_type` subtraction. -/
def wsub (a b : Nat) : Nat := if b ≤ a then a - b else 2 ^ 64 + a - b

/-- The `while` of `_Growmap`, `deque:1608-1615`; `none`: `_Xlen()`. -/
def growSize (maxB M : Nat) : Nat → Nat → R (Option Nat)
  | 0, _ => .error .fuel
  | f + 1, n =>
    if n - M < 1 ∨ n < 8 then
      if wsub maxB n < n then .ok none else growSize maxB M f (n * 2)
    else .ok (some n)

/-- `_Growmap(1)`, `deque:1603-1650`. The copies are made at `_Newmap + _Map_off` (and `_Newmap`); `_Map_off > _Mapsize`
would be undefined behaviour. -/
def growmap (B maxsz : Nat) (d : Dq T) (f : Fail) : R (Dq T × Option Exc) := do
  let M := d.map.length
  let r ← growSize (maxsz / B) M 64 (if M > 0 then M else 1)
  match r with
  | none => .ok (d, some .lengthError)
  | some newsize =>
    if f = .mapAlloc then .ok (d, some .badAlloc)
    else
      let myboff := d.off / B
      let count := newsize - M
      if M < myboff then .error .ub
      else
        let newmap :=
          if myboff ≤ count then
            List.replicate myboff none ++ d.map.drop myboff ++ d.map.take myboff ++ List.replicate (count - myboff) none
          else
            (d.map.take myboff).drop count ++ List.replicate count none ++ d.map.drop myboff ++ d.map.take count
        .ok (⟨newmap, d.off, d.size, d.blk, d.next⟩, none)

/-- `_Getal().allocate(_Block_size)` into `_Map()[j]`. -/
def allocBlk (d : Dq T) (j : Nat) : Dq T :=
  ⟨d.map.set j (some d.next), d.off, d.size, fun b => if b = d.next then some (fun _ => none) else d.blk b, d.next + 1⟩

/-- `deque:1150-1155` (and `1167-1172`): allocate the block if necessary, construct the element. -/
def place (B : Nat) (d : Dq T) (newoff : Nat) (x : T) (f : Fail) : R (Dq T × Option Exc) := do
  let r ← (match d.map[getblock B d newoff]? with
    | some (some _) => .ok (d, none)
    | some none => if f = .blkAlloc then .ok (d, some .badAlloc) else .ok (allocBlk d (getblock B d newoff), none)
    | none => .error .ub : R (Dq T × Option Exc))
  match r.2 with
  | some e => .ok (r.1, some e)
  | none => if f = .ctor then .ok (r.1, some .user) else do
      let d' ← construct B r.1 newoff x
      .ok (d', none)

/-- `_Myoff() &= _Mapsize() * _Block_size - 1`. -/
def maskOff (B : Nat) (d : Dq T) : Dq T := ⟨d.map, d.off &&& (d.map.length * B - 1), d.size, d.blk, d.next⟩

/-- `_Emplace_back_internal`, `deque:1144-1158`. -/
def emplaceBack (B maxsz : Nat) (d : Dq T) (x : T) (f : Fail) : R (Dq T × Option Exc) := do
  let r ← (if (d.off + d.size) % B = 0 ∧ d.map.length ≤ (d.size + B) / B then growmap B maxsz d f else .ok (d, none) : R (Dq T × Option Exc))
  match r.2 with
  | some e => .ok (r.1, some e)
  | none => do
    let d := maskOff B r.1
    let r ← place B d (d.off + d.size) x f
    match r.2 with
    | some e => .ok (r.1, some e)
    | none => .ok (⟨r.1.map, r.1.off, r.1.size + 1, r.1.blk, r.1.next⟩, none)

/-- `_Emplace_front_internal`, `deque:1161-1176`. -/
def emplaceFront (B maxsz : Nat) (d : Dq T) (x : T) (f : Fail) : R (Dq T × Option Exc) := do
  let r ← (if d.off % B = 0 ∧ d.map.length ≤ (d.size + B) / B then growmap B maxsz d f else .ok (d, none) : R (Dq T × Option Exc))
  match r.2 with
  | some e => .ok (r.1, some e)
  | none => do
    let d := maskOff B r.1
    let newoff := (if d.off ≠ 0 then d.off else d.map.length * B) - 1
    let r ← place B d newoff x f
    match r.2 with
    | some e => .ok (r.1, some e)
    | none => .ok (⟨r.1.map, newoff, r.1.size + 1, r.1.blk, r.1.next⟩, none)

/-- `pop_front`, `deque:1488-1502`. -/
def popFront (B : Nat) (d : Dq T) : R (Dq T) := do
  let d ← destroy B d d.off
  let size := d.size - 1
  .ok ⟨d.map, if size = 0 then 0 else d.off + 1, size, d.blk, d.next⟩

/-- `pop_back`, `deque:1504-1517`. -/
def popBack (B : Nat) (d : Dq T) : R (Dq T) := do
  let d ← destroy B d (d.off + d.size - 1)
  let size := d.size - 1
  .ok ⟨d.map, if size = 0 then 0 else d.off, size, d.blk, d.next⟩

/-- `for (; n > 0; --n) pop_back()` (`_Erase_last_n`, `deque:1569-1573`). -/
def popBackN (B : Nat) : Nat → Dq T → R (Dq T)
  | 0, d => .ok d
  | n + 1, d => do
    let d ← popBack B d
    popBackN B n d

/-- `for (; n > 0; --n) pop_front()`. -/
def popFrontN (B : Nat) : Nat → Dq T → R (Dq T)
  | 0, d => .ok d
  | n + 1, d => do
    let d ← popFront B d
    popFrontN B n d

/-- `_Getal().deallocate(_Map()[j], _Block_size); _Map()[j] = nullptr` if the pointer is not null. -/
def freeBlk (B : Nat) (d : Dq T) (j : Nat) : R (Dq T) :=
  match d.map[j]? with
  | some (some b) =>
    match d.blk b with
    | some c =>
      if ∀ k < B, (c k).isNone then
        .ok ⟨d.map.set j none, d.off, d.size, fun b' => if b' = b then none else d.blk b', d.next⟩
      else .error .ub
    | none => .error .ub
  | some none => .ok d
  | none => .error .ub

/-- `_Reset_map`, the loop, `deque:1655-1662`. -/
def freeAll (B : Nat) : Nat → Dq T → R (Dq T)
  | 0, d => .ok d
  | n + 1, d => do
    let d ← freeBlk B d n
    freeAll B n d

/-- `_Reset_map`, `deque:1652-1669`. -/
def resetMap (B : Nat) (d : Dq T) : R (Dq T) := do
  let d ← freeAll B d.map.length d
  .ok ⟨[], d.off, d.size, d.blk, d.next⟩

/-- `_Tidy` (`clear`, the destructor), `deque:1671-1683`. -/
def tidy (B : Nat) (d : Dq T) : R (Dq T) := do
  let d ← popBackN B d.size d
  if d.map ≠ [] then resetMap B d else .ok d

/-- The loop of `shrink_to_fit` that frees unused blocks, `deque:1030-1037`. -/
def freeUnused (B mask stop : Nat) : Nat → Nat → Dq T → R (Dq T)
  | 0, _, _ => .error .fuel
  | f + 1, i, d =>
    if i ≠ stop then do
      let d ← freeBlk B d i
      freeUnused B mask stop f ((i + 1) &&& mask) d
    else .ok d

/-- `_New_block_count`, `deque:1042-1046`. -/
def newCount (used : Nat) : Nat → Nat → R Nat
  | 0, _ => .error .fuel
  | f + 1, n => if n < used then newCount used f (n * 2) else .ok n

/-- The new map of `shrink_to_fit`, `deque:1059-1067`. -/
def shrunkMap (map : List (Option Nat)) (first mask used n : Nat) : List (Option Nat) :=
  (List.range used).map (fun b => (map[(first + b) &&& mask]?).join) ++ List.replicate (n - used) none

/-- `shrink_to_fit`, `deque:1005-1080`. -/
def shrink (B : Nat) (d : Dq T) (f : Fail) : R (Dq T × Option Exc) := do
  if d.size = 0 then
    if d.map ≠ [] then do
      let d ← resetMap B d
      .ok (d, none)
    else .ok (d, none)
  else do
    let mask := d.map.length - 1
    let ufirst := d.off / B
    let first := ufirst &&& mask
    let uunused := (d.off + d.size - 1) / B + 1
    let unused := uunused &&& mask
    let d ← freeUnused B mask first (d.map.length + 1) unused d
    let used := uunused - ufirst
    let n ← newCount used (used + 1) 8
    if n ≥ d.map.length then .ok (d, none)
    else if f = .mapAlloc then .ok (d, some .badAlloc)
    else .ok (⟨shrunkMap d.map first mask used n, d.off % B, d.size, d.blk, d.next⟩, none)

/-- Append the values one by one (`_Construct`, `append_range`, loops in `insert`, `resize`, `assign`); `fs i`: what throws in
the push of the `i`-th value. Stops at the first exception. -/
def pushBacks (B maxsz : Nat) (fs : Nat → Fail) : List T → Dq T → R (Dq T × Option Exc)
  | [], d => .ok (d, none)
  | x :: xs, d => do
    let r ← emplaceBack B maxsz d x (fs 0)
    match r.2 with
    | some e => .ok (r.1, some e)
    | none => pushBacks B maxsz (fun i => fs (i + 1)) xs r.1

/-- Prepend the values one by one. -/
def pushFronts (B maxsz : Nat) (fs : Nat → Fail) : List T → Dq T → R (Dq T × Option Exc)
  | [], d => .ok (d, none)
  | x :: xs, d => do
    let r ← emplaceFront B maxsz d x (fs 0)
    match r.2 with
    | some e => .ok (r.1, some e)
    | none => pushFronts B maxsz (fun i => fs (i + 1)) xs r.1

/-- `resize(n, x)`, `deque:994-1003`. -/
def resize (B maxsz : Nat) (fs : Nat → Fail) (d : Dq T) (n : Nat) (x : T) : R (Dq T × Option Exc) := do
  let r ← pushBacks B maxsz fs (List.replicate (n - d.size) x) d
  match r.2 with
  | some e => .ok (r.1, some e)
  | none => do
    let d ← popBackN B (r.1.size - n) r.1
    .ok (d, none)

end

/-! ## Operations in the middle

The elements are objects of type `Option α`, `none` being a moved-from object. Algorithms on iterators (`move`,
`move_backward`, `fill`, `rotate`, `reverse`) are the models of the flat algorithms, run on the sequence of the objects
`*(begin() + i)` (`view`) and written back object by object (`store`). -/

section
variable {α : Type _}

/-- `*(begin() + i)` for `i = i, …, i + n - 1`. -/
def viewFrom (B : Nat) (d : Dq (Option α)) (i : Nat) : Nat → R (Mem α)
  | 0 => .ok []
  | n + 1 => do
    let x ← load B d (d.off + i)
    let r ← viewFrom B d (i + 1) n
    .ok (x :: r)

def view (B : Nat) (d : Dq (Option α)) : R (Mem α) := viewFrom B d 0 d.size

def storeFrom (B : Nat) (d : Dq (Option α)) (i : Nat) : Mem α → R (Dq (Option α))
  | [] => .ok d
  | x :: r => do
    let d ← assign B d (d.off + i) x
    storeFrom B d (i + 1) r

/-- Run an algorithm on the elements. -/
def onView (B : Nat) (d : Dq (Option α)) (g : Mem α → R (Mem α)) : R (Dq (Option α)) := do
  let m ← view B d
  let m ← g m
  storeFrom B d 0 m

/-- `fill(first, last, x)`. -/
def fill (m : Mem α) (x : α) (first : Nat) : Nat → R (Mem α)
  | 0 => .ok m
  | n + 1 => do
    let m ← wr m first x
    fill m x (first + 1) n

/-- A moved value. -/
def taken (x : Option α) : R α := match x with | some a => .ok a | none => .error .ub

/-- `emplace(begin() + p, x)` (`insert` of one element), `deque:1199-1236`. -/
def emplace (B maxsz : Nat) (d : Dq (Option α)) (p : Nat) (x : α) (f : Fail) : R (Dq (Option α) × Option Exc) :=
  if p = 0 then emplaceFront B maxsz d (some x) f
  else if p = d.size then emplaceBack B maxsz d (some x) f
  else if p ≤ d.size / 2 then do
    let y ← load B d d.off
    let y ← taken y
    let r ← emplaceFront B maxsz d (some y) f
    match r.2 with
    | some e => .ok (r.1, some e)
    | none => do
      let d ← onView B r.1 (fun m => do
        let m := m.set 1 none
        let r ← moveFwd m 2 (1 + p) 1
        wr r.1 r.2 x)
      .ok (d, none)
  else do
    let y ← load B d (d.off + d.size - 1)
    let y ← taken y
    let r ← emplaceBack B maxsz d (some y) f
    match r.2 with
    | some e => .ok (r.1, some e)
    | none => do
      let n := r.1.size
      let d ← onView B r.1 (fun m => do
        let m := m.set (n - 2) none
        let m ← moveBackward m p (n - 2) (n - 1)
        wr m p x)
      .ok (d, none)

/-- `erase(begin() + p, begin() + q)`, `deque:1523-1566`. -/
def erase (B : Nat) (d : Dq (Option α)) (p q : Nat) : R (Dq (Option α)) :=
  if q - p = 0 then .ok d
  else if p < d.size - q then do
    let d ← onView B d (fun m => moveBackward m 0 p q)
    popFrontN B (q - p) d
  else do
    let n := d.size
    let d ← onView B d (fun m => do
      let r ← moveFwd m q n p
      .ok r.1)
    popBackN B (q - p) d

/-- `_Insert_range`, `deque:1369-1421`, with `_Restore_old_size_guard`, `deque:1349-1364`; `bidi`: the iterators are
bidirectional. -/
def insertRange (B maxsz : Nat) (bidi : Bool) (fs : Nat → Fail) (d : Dq (Option α)) (p : Nat) (xs : List α) :
    R (Dq (Option α) × Option Exc) :=
  if xs = [] then .ok (d, none)
  else if p ≤ d.size / 2 then do
    let oldsize := d.size
    let r ← pushFronts B maxsz fs (if bidi then (full xs).reverse else full xs) d
    match r.2 with
    | some e => do
      let d ← popFrontN B (r.1.size - oldsize) r.1
      .ok (d, some e)
    | none => do
      let num := r.1.size - oldsize
      let d ← onView B r.1 (fun m => do
        let m ← (if bidi then .ok m else reverse m 0 num : R (Mem α))
        let r ← rotateRA m 0 num (num + p)
        .ok r.1)
      .ok (d, none)
  else do
    let oldsize := d.size
    let r ← pushBacks B maxsz fs (full xs) d
    match r.2 with
    | some e => do
      let d ← popBackN B (r.1.size - oldsize) r.1
      .ok (d, some e)
    | none => do
      let n := r.1.size
      let d ← onView B r.1 (fun m => do
        let r ← rotateRA m p oldsize n
        .ok r.1)
      .ok (d, none)

/-- `for (n = count; n > 0; --n) push_front(_Subscript(idx))`: copies of the element at index `idx`. -/
def pushFrontCopies (B maxsz : Nat) (fs : Nat → Fail) (idx : Nat) : Nat → Dq (Option α) → R (Dq (Option α) × Option Exc)
  | 0, d => .ok (d, none)
  | n + 1, d => do
    let y ← load B d (d.off + idx)
    let y ← taken y
    let r ← emplaceFront B maxsz d (some y) (fs 0)
    match r.2 with
    | some e => .ok (r.1, some e)
    | none => pushFrontCopies B maxsz (fun i => fs (i + 1)) idx n r.1

/-- `for (n = 0; n < count; ++n) _Emplace_back_internal(_Subscript(idx + n))`. -/
def pushBackCopies (B maxsz : Nat) (fs : Nat → Fail) (idx : Nat) : Nat → Dq (Option α) → R (Dq (Option α) × Option Exc)
  | 0, d => .ok (d, none)
  | n + 1, d => do
    let y ← load B d (d.off + idx)
    let y ← taken y
    let r ← emplaceBack B maxsz d (some y) (fs 0)
    match r.2 with
    | some e => .ok (r.1, some e)
    | none => pushBackCopies B maxsz (fun i => fs (i + 1)) (idx + 1) n r.1

/-- The first half of the front case of `_Insert_n`, `deque:1438-1450`: the pushes. -/
def insertNPushFront (B maxsz : Nat) (fs : Nat → Fail) (d : Dq (Option α)) (p count : Nat) (x : α) :
    R (Dq (Option α) × Option Exc) :=
  if p < count then do
    let r ← pushFronts B maxsz fs (List.replicate (count - p) (some x)) d
    match r.2 with
    | some e => .ok (r.1, some e)
    | none => pushFrontCopies B maxsz (fun i => fs (count - p + i)) (count - 1) p r.1
  else pushFrontCopies B maxsz fs (count - 1) count d

/-- The pushes of the back case of `_Insert_n`, `deque:1464-1476`. -/
def insertNPushBack (B maxsz : Nat) (fs : Nat → Fail) (d : Dq (Option α)) (p count rem : Nat) (x : α) :
    R (Dq (Option α) × Option Exc) :=
  if rem < count then do
    let r ← pushBacks B maxsz fs (List.replicate (count - rem) (some x)) d
    match r.2 with
    | some e => .ok (r.1, some e)
    | none => pushBackCopies B maxsz (fun i => fs (count - rem + i)) p rem r.1
  else pushBackCopies B maxsz fs (p + rem - count) count d

/-- `_Insert_n`, `deque:1423-1485` (`insert(begin() + p, count, x)`, `x` not an element of the deque). -/
def insertN (B maxsz : Nat) (fs : Nat → Fail) (d : Dq (Option α)) (p count : Nat) (x : α) : R (Dq (Option α) × Option Exc) :=
  let oldsize := d.size
  let rem := oldsize - p
  if p < rem then do
    let r ← insertNPushFront B maxsz fs d p count x
    match r.2 with
    | some e => do
      let d ← popFrontN B (r.1.size - oldsize) r.1
      .ok (d, some e)
    | none => do
      let d ← onView B r.1 (fun m =>
        if p < count then fill m x count p
        else do
          let r ← moveFwd m (count + count) (count + p) count
          fill r.1 x p count)
      .ok (d, none)
  else do
    let r ← insertNPushBack B maxsz fs d p count rem x
    match r.2 with
    | some e => do
      let d ← popBackN B (r.1.size - oldsize) r.1
      .ok (d, some e)
    | none => do
      let d ← onView B r.1 (fun m =>
        if rem < count then fill m x p rem
        else do
          let m ← moveBackward m p (p + (rem - count)) (p + rem)
          fill m x p count)
      .ok (d, none)

end

end STL.Deque
