import Verif.Base

/-!
# Model of `vector` (stl/inc/vector, stl/inc/xmemory)

Memory is explicit. An allocation returns a new buffer with a number of cells; a cell is raw (`none`) or holds an object. Constructing an object
in a cell that is not raw, destroying or reading or assigning to one that is, touching a cell outside a live buffer, deallocating with the
wrong size, twice, or while there are still objects in the buffer are all undefined behaviour. A pointer into the buffer is its number and an
index. Buffer numbers are never used again (so a dangling pointer is always recognised as one).

Exceptions are real: every construction and assignment that may throw looks at a tape that decides whether it does, allocations look at
another tape. The state survives the exception, destructors of guards run (`onExc`).

Element type: `Par` says which special members may throw and what a moved-from object, or one whose assignment failed, looks like. The
`memcpy`/`memmove`/`memset` branches, taken for trivial types only, do what the loops do for such types (`mv = id`, nothing throws).
Simplifications: ranges that are inserted are given by the list of their elements (they may not come from the vector itself, by the
preconditions of the standard); allocators are always equal; iterator debugging and address sanitizer annotations are left out.
-/

namespace STL.Vec
open STL

/-- The element type and the allocator. -/
structure Par (α : Type) where
  /-- `is_nothrow_move_constructible_v<_Ty>` -/
  nmc : Bool
  /-- `is_nothrow_move_assignable_v<_Ty>` -/
  nma : Bool
  /-- `is_copy_constructible_v<_Ty>` -/
  cc : Bool
  /-- the value of a moved-from object -/
  mv : α → α
  /-- the value of an object left behind by an operation that failed -/
  bad : α → α
  /-- the value-initialized object -/
  dflt : α
  /-- `max_size()` -/
  max : Nat

/-- `_Vector_val` (vector:370-426): `_Myfirst` is the cell 0 of `buf` (0 for the null pointer), `_Mylast` the cell `size`, `_Myend` the cell
`cap`. -/
structure V where
  buf : Nat
  size : Nat
  cap : Nat
  deriving DecidableEq

/-- The state. -/
structure W (α : Type) where
  /-- the live buffers, with the number of cells they were allocated with -/
  caps : Nat → Option Nat
  /-- the cells -/
  cel : Nat → Nat → Option α
  /-- the next new buffer -/
  nxt : Nat
  /-- the vector that is being worked on -/
  v : V
  /-- what the allocator will answer: failure, or by how many cells more it gives than asked for; success if the tape is at its end -/
  ans : List (Option Nat)
  /-- whether the next operations that may throw do throw -/
  tape : List Bool

inductive Res (α β : Type) where
  | ok (b : β) (w : W α)
  | exc (e : Exc) (w : W α)
  | ub

/-- Computations with state and exceptions. -/
def M (α β : Type) := W α → Res α β

namespace M
variable {α β γ : Type}
def pure (b : β) : M α β := fun w => .ok b w
def bind (m : M α β) (f : β → M α γ) : M α γ := fun w =>
  match m w with
  | .ok b w => f b w
  | .exc e w => .exc e w
  | .ub => .ub
instance : Monad (M α) where
  pure := pure
  bind := bind
end M

variable {α β : Type}

def ub : M α β := fun _ => .ub
def throw (e : Exc) : M α β := fun w => .exc e w
def getV : M α V := fun w => .ok w.v w
def setV (v : V) : M α Unit := fun w => .ok () { w with v := v }
/-- `_Mylast = _Myfirst + n` -/
def setSize (n : Nat) : M α Unit := fun w => .ok () { w with v := { w.v with size := n } }

/-- A guard: if `m` throws, run the destructor. A destructor that throws terminates the program. -/
def onExc (m : M α β) (d : M α Unit) : M α β := fun w =>
  match m w with
  | .exc e w => match d w with
    | .ok _ w => .exc e w
    | _ => .ub
  | r => r

/-- `_TRY_BEGIN m _CATCH_ALL h _RERAISE _CATCH_END`. -/
def catchAll (m : M α β) (h : M α Unit) : M α β := fun w =>
  match m w with
  | .exc e w => match h w with
    | .ok _ w => .exc e w
    | .exc e w => .exc e w
    | .ub => .ub
  | r => r

/-! ## Memory -/

/-- A cell of a live buffer. -/
def cell (b i : Nat) : M α (Option α) := fun w =>
  match w.caps b with
  | some n => if i < n then .ok (w.cel b i) w else .ub
  | none => .ub

def put (c : Nat → Nat → Option α) (b i : Nat) (x : Option α) : Nat → Nat → Option α := fun q j => if q = b ∧ j = i then x else c q j

def setCell (b i : Nat) (x : Option α) : M α Unit := fun w => .ok () { w with cel := put w.cel b i x }

/-- Read an object. -/
def rd (b i : Nat) : M α α := do
  match ← cell b i with
  | some x => pure x
  | none => ub

/-- Begin the life of an object. -/
def construct (b i : Nat) (x : α) : M α Unit := do
  match ← cell b i with
  | some _ => ub
  | none => setCell b i (some x)

/-- `destroy` (a destructor never throws). -/
def destroy (b i : Nat) : M α Unit := do
  match ← cell b i with
  | some _ => setCell b i none
  | none => ub

/-- Give an object another value. -/
def write (b i : Nat) (x : α) : M α Unit := do
  match ← cell b i with
  | some _ => setCell b i (some x)
  | none => ub

/-- Does the next operation throw? `may`: it is one that may. -/
def tick (may : Bool) : M α Bool := fun w =>
  if may then .ok (w.tape.headD false) { w with tape := w.tape.tail } else .ok false w

/-- `_Allocate_at_least_helper` (xmemory:2316-2337): the buffer and its size. `least` is `false` for `allocate`. -/
def allocate (P : Par α) (least : Bool) (n : Nat) : M α (Nat × Nat) := fun w =>
  match w.ans.headD (some 0) with
  | none => .exc .badAlloc { w with ans := w.ans.tail }
  | some k =>
    let m := if least ∧ n + k ≤ P.max then n + k else n
    .ok (w.nxt, m) { w with ans := w.ans.tail, nxt := w.nxt + 1, caps := fun q => if q = w.nxt then some m else w.caps q }

/-- `deallocate(pointer, n)`. -/
def deallocate (b n : Nat) : M α Unit := fun w =>
  if w.caps b = some n ∧ ∀ i < n, w.cel b i = none then .ok () { w with caps := fun q => if q = b then none else w.caps q } else .ub

/-! ## Constructions and assignments -/

/-- Copy construction from a value. -/
def copyC (x : α) (b i : Nat) : M α Unit := do
  if ← tick true then throw .user else construct b i x

/-- Move construction of the cell `b i` from the object in `c k`. -/
def moveC (P : Par α) (c k b i : Nat) : M α Unit := do
  let x ← rd c k
  if ← tick (!P.nmc) then do
    write c k (P.bad x)
    throw .user
  else do
    construct b i x
    write c k (P.mv x)

/-- Copy assignment. -/
def copyA (P : Par α) (x : α) (b i : Nat) : M α Unit := do
  if ← tick true then do
    let y ← rd b i
    write b i (P.bad y)
    throw .user
  else write b i x

/-- Move assignment. -/
def moveA (P : Par α) (c k b i : Nat) : M α Unit := do
  let x ← rd c k
  if ← tick (!P.nma) then do
    let y ← rd b i
    write b i (P.bad y)
    write c k (P.bad x)
    throw .user
  else do
    write b i x
    write c k (P.mv x)

/-- `_Destroy_range` (xmemory:1101-1110) of `n` objects from `b i`. -/
def destroyRange (b : Nat) : Nat → Nat → M α Unit
  | _, 0 => pure ()
  | i, n + 1 => do
    destroy b i
    destroyRange b (i + 1) n

/-- `_Uninitialized_move` (xmemory:1999-2027) with `_Uninitialized_backout_al` (xmemory:1849-1881); `k` objects are there already. -/
def uninitMoveFrom (P : Par α) (c s b d : Nat) : Nat → Nat → M α Unit
  | _, 0 => pure ()
  | k, n + 1 => do
    onExc (moveC P c (s + k) b (d + k)) (destroyRange b d k)
    uninitMoveFrom P c s b d (k + 1) n

def uninitMove (P : Par α) (c s n b d : Nat) : M α Unit := uninitMoveFrom P c s b d 0 n

/-- `_Uninitialized_copy` (xmemory:1883-1930) from objects in a buffer. -/
def uninitCopyFrom (c s b d : Nat) : Nat → Nat → M α Unit
  | _, 0 => pure ()
  | k, n + 1 => do
    let x ← rd c (s + k)
    onExc (copyC x b (d + k)) (destroyRange b d k)
    uninitCopyFrom c s b d (k + 1) n

def uninitCopy (c s n b d : Nat) : M α Unit := uninitCopyFrom c s b d 0 n

/-- `_Uninitialized_copy_n` (xmemory:1932-1962) from a range outside. -/
def uninitListFrom (b d : Nat) : Nat → List α → M α Unit
  | _, [] => pure ()
  | k, x :: xs => do
    onExc (copyC x b (d + k)) (destroyRange b d k)
    uninitListFrom b d (k + 1) xs

def uninitList (xs : List α) (b d : Nat) : M α Unit := uninitListFrom b d 0 xs

/-- An argument of type `const _Ty&`: an object outside, or the element `i` of the vector (in the buffer `b`). -/
inductive Src (α : Type) where
  | ext (x : α)
  | self (i : Nat)

/-- Read the argument. -/
def rdSrc (b : Nat) : Src α → M α α
  | .ext x => pure x
  | .self i => rd b i

/-- `_Uninitialized_fill_n` (xmemory:2029-2061), `_Uninitialized_value_construct_n` (xmemory:2100-2123). The argument lives in the buffer
`o`. -/
def uninitFillFrom (o : Nat) (src : Src α) (b d : Nat) : Nat → Nat → M α Unit
  | _, 0 => pure ()
  | k, n + 1 => do
    let x ← rdSrc o src
    onExc (copyC x b (d + k)) (destroyRange b d k)
    uninitFillFrom o src b d (k + 1) n

def uninitFill (o : Nat) (src : Src α) (n b d : Nat) : M α Unit := uninitFillFrom o src b d 0 n

/-- `_Move_unchecked` (xutility): move-assign `n` objects from `b s` on to `b d` on, in increasing order. -/
def moveFwd (P : Par α) (b : Nat) : Nat → Nat → Nat → M α Unit
  | _, _, 0 => pure ()
  | s, d, n + 1 => do
    moveA P b s b d
    moveFwd P b (s + 1) (d + 1) n

/-- `_Move_backward_unchecked` (xutility): move-assign the `n` objects from `b s` on to `b d` on, in decreasing order. -/
def moveBwd (P : Par α) (b s d : Nat) : Nat → M α Unit
  | 0 => pure ()
  | n + 1 => do
    moveA P b (s + n) b (d + n)
    moveBwd P b s d n

/-- `fill` (xutility): copy-assign `x` to `n` objects. -/
def fill (P : Par α) (b : Nat) (x : α) : Nat → Nat → M α Unit
  | _, 0 => pure ()
  | i, n + 1 => do
    copyA P x b i
    fill P b x (i + 1) n

/-- Copy-assign the elements of a range. -/
def copyList (P : Par α) (b : Nat) : Nat → List α → M α Unit
  | _, [] => pure ()
  | i, x :: xs => do
    copyA P x b i
    copyList P b (i + 1) xs

/-! ## The array -/

/-- `_Calculate_growth` (vector:2012-2028). -/
def calcGrowth (P : Par α) (cap newsize : Nat) : Nat :=
  if cap > P.max - cap / 2 then P.max
  else
    let g := cap + cap / 2
    if g < newsize then newsize else g

/-- `if (_Myfirst) { // destroy and deallocate old array` (vector:2074-2078). -/
def dropArray (v : V) : M α Unit :=
  if v.buf ≠ 0 then do
    destroyRange v.buf 0 v.size
    deallocate v.buf v.cap
  else pure ()

/-- `_Change_array` (vector:2062-2083). -/
def changeArray (nb newsize ncap : Nat) : M α Unit := do
  let v ← getV
  dropArray v
  setV { buf := nb, size := newsize, cap := ncap }

/-- `_Tidy` (vector:2085-2104). -/
def tidy : M α Unit := do
  let v ← getV
  if v.buf ≠ 0 then do
    destroyRange v.buf 0 v.size
    deallocate v.buf v.cap
    setV { buf := 0, size := 0, cap := 0 }
  else pure ()

/-- `_Buy_raw` (vector:2030-2044). -/
def buyRaw (P : Par α) (n : Nat) : M α Unit := do
  let r ← allocate P true n
  setV { buf := r.1, size := 0, cap := r.2 }

/-- `_Clear_and_reserve_geometric` (vector:1695-1724). -/
def clearAndReserve (P : Par α) (newsize : Nat) : M α Unit := do
  if newsize > P.max then throw .lengthError
  else do
    let v ← getV
    let nc := calcGrowth P v.cap newsize
    tidy
    buyRaw P nc

/-- `if constexpr (is_nothrow_move_constructible_v<_Ty> || !is_copy_constructible_v<_Ty>) _Uninitialized_move(...) else
_Uninitialized_copy(...)`. -/
def moveOrCopy (P : Par α) (c n b : Nat) : M α Unit :=
  if P.nmc || !P.cc then uninitMove P c 0 n b 0 else uninitCopy c 0 n b 0

/-- The destructor of `_Reallocation_guard2` (vector:625-643). -/
def guard2 (nb ncap first last : Nat) : M α Unit := do
  destroyRange nb first (last - first)
  deallocate nb ncap

/-- The old elements go around the `cnt` new ones at `off` (vector:905-916, for instance). -/
def placeOld (P : Par α) (v : V) (nb ncap off cnt : Nat) (strong : Bool) : M α Unit :=
  if strong then
    onExc (moveOrCopy P v.buf v.size nb) (guard2 nb ncap off (off + cnt))
  else do
    onExc (uninitMove P v.buf 0 off nb 0) (guard2 nb ncap off (off + cnt))
    onExc (uninitMove P v.buf off (v.size - off) nb (off + cnt)) (guard2 nb ncap 0 (off + cnt))

/-- The common part of `_Emplace_reallocate` (vector:890-920), `_Append_counted_range` (vector:983-1000), `insert` (vector:1093-1120),
`_Insert_counted_range` (vector:1197-1225) and `_Resize_reallocate` (vector:1563-1587): allocate, construct the `cnt` new objects at `off`
(`mk`, which leaves nothing behind if it fails), move or copy the old ones around them, change the array. `strong`: the objects are at the back and
there is a strong guarantee. -/
def reallocInsert (P : Par α) (newsize off cnt : Nat) (strong : Bool) (mk : Nat → M α Unit) : M α Unit := do
  let v ← getV
  let r ← allocate P true (calcGrowth P v.cap newsize)
  onExc (mk r.1) (guard2 r.1 r.2 (off + cnt) (off + cnt))
  placeOld P v r.1 r.2 off cnt strong
  changeArray r.1 newsize r.2

/-! ## Adding elements -/

/-- What an element is constructed from: something outside the vector, a copy of its element `i`, or its element `i` as an rvalue. -/
inductive Arg (α : Type) where
  | ext (x : α)
  | copy (i : Nat)
  | move (i : Nat)

/-- `_Alty_traits::construct(_Al, p, forward<_Valty>(_Val)...)`, `p` being `b k` and the vector in the buffer `o`. -/
def constructArg (P : Par α) (o : Nat) (a : Arg α) (b k : Nat) : M α Unit :=
  match a with
  | .ext x => copyC x b k
  | .copy i => do
    let x ← rd o i
    copyC x b k
  | .move i => moveC P o i b k

/-- `_Emplace_back_with_unused_capacity` (vector:849-872). -/
def emplaceUnused (P : Par α) (a : Arg α) : M α Unit := do
  let v ← getV
  constructArg P v.buf a v.buf v.size
  setSize (v.size + 1)

/-- `_Emplace_reallocate` (vector:874-921). -/
def emplaceRealloc (P : Par α) (off : Nat) (a : Arg α) : M α Unit := do
  let v ← getV
  if v.size = P.max then throw .lengthError
  else reallocInsert P (v.size + 1) off 1 (off == v.size) (fun nb => constructArg P v.buf a nb off)

/-- `push_back`, `emplace_back` (vector:924-942), `_Emplace_one_at_back` (vector:836-847). -/
def emplaceBack (P : Par α) (a : Arg α) : M α Unit := do
  let v ← getV
  if v.size ≠ v.cap then emplaceUnused P a else emplaceRealloc P v.size a

/-- The constructor of `_Alloc_temporary2` (xmemory:2279-2284): the value of the temporary. -/
def temporary (P : Par α) (o : Nat) (a : Arg α) : M α α :=
  match a with
  | .ext x => do
    if ← tick true then throw .user else pure x
  | .copy i => do
    let x ← rd o i
    if ← tick true then throw .user else pure x
  | .move i => do
    let x ← rd o i
    if ← tick (!P.nmc) then do
      write o i (P.bad x)
      throw .user
    else do
      write o i (P.mv x)
      pure x

/-- Move assignment from an object that is not in a buffer. -/
def moveAX (P : Par α) (x : α) (b i : Nat) : M α Unit := do
  if ← tick (!P.nma) then do
    let y ← rd b i
    write b i (P.bad y)
    throw .user
  else write b i x

/-- `emplace(pos, args...)`, `insert(pos, val)` (vector:1028-1064). -/
def emplace (P : Par α) (pos : Nat) (a : Arg α) : M α Unit := do
  let v ← getV
  if v.size ≠ v.cap then do
    if pos = v.size then emplaceUnused P a
    else do
      let x ← temporary P v.buf a
      moveC P v.buf (v.size - 1) v.buf v.size
      setSize (v.size + 1)
      moveBwd P v.buf pos (pos + 1) (v.size - 1 - pos)
      moveAX P x v.buf pos
  else emplaceRealloc P pos a

/-- As an argument of a construction. -/
def Src.arg : Src α → Arg α
  | .ext x => .ext x
  | .self i => .copy i

/-- `insert(pos, n, val)` (vector:1066-1141). -/
def insertN (P : Par α) (pos n : Nat) (src : Src α) : M α Unit := do
  let v ← getV
  let oneAtBack := n == 1 && pos == v.size
  if n = 0 then pure ()
  else if n > v.cap - v.size then do
    if n > P.max - v.size then throw .lengthError
    else reallocInsert P (v.size + n) pos n oneAtBack (fun nb => uninitFill v.buf src n nb pos)
  else if oneAtBack then emplaceUnused P src.arg
  else do
    let x ← temporary P v.buf src.arg
    let affected := v.size - pos
    if n > affected then do
      uninitFill v.buf (.ext x) (n - affected) v.buf v.size
      setSize (v.size + (n - affected))
      uninitMove P v.buf pos affected v.buf (v.size + (n - affected))
      setSize (v.size + n)
      fill P v.buf x pos affected
    else do
      uninitMove P v.buf (v.size - n) n v.buf v.size
      setSize (v.size + n)
      moveBwd P v.buf pos (pos + n) (affected - n)
      fill P v.buf x pos n

/-- `_Append_uncounted_range` (vector:945-957). -/
def appendInput (P : Par α) : List α → M α Unit
  | [] => pure ()
  | x :: xs => do
    emplaceBack P (.ext x)
    appendInput P xs

/-- `_Append_counted_range` (vector:960-1012). -/
def append (P : Par α) (xs : List α) : M α Unit := do
  let v ← getV
  if xs.length = 0 then pure ()
  else if xs.length > v.cap - v.size then do
    if xs.length > P.max - v.size then throw .lengthError
    else reallocInsert P (v.size + xs.length) v.size xs.length (xs.length == 1) (fun nb => uninitList xs nb v.size)
  else do
    uninitList xs v.buf v.size
    setSize (v.size + xs.length)


/-- The cells after a rotation of `[s, s + n)` of the buffer `b` that brings `s + m` to the front. -/
def rotated (c : Nat → Nat → Option α) (b s m n : Nat) : Nat → Nat → Option α := fun q j =>
  if q = b ∧ s ≤ j ∧ j < s + n then (if j - s < n - m then c q (j + m) else c q (j - (n - m))) else c q j

/-- The cells when the values of the elements of `[s, s + n)` are lost. -/
def ruined (P : Par α) (c : Nat → Nat → Option α) (b s n : Nat) : Nat → Nat → Option α := fun q j =>
  if q = b ∧ s ≤ j ∧ j < s + n then (c q j).map P.bad else c q j

/-- Another memory. -/
def setCells (f : (Nat → Nat → Option α) → Nat → Nat → Option α) : M α Unit := fun w => .ok () { w with cel := f w.cel }

/-- `rotate` (algorithm) of `[s, s + n)` so that `s + m` comes first. Simplification: what it does is taken from its specification (proved
about the code in Verif/Reorder), and if one of its moves throws the values of all the elements of the range are lost. -/
def rotate (P : Par α) (b s m n : Nat) : M α Unit := do
  if ← tick (!(P.nmc && P.nma)) then do
    setCells (ruined P · b s n)
    throw .user
  else
    setCells (rotated · b s m n)

/-- `_Insert_uncounted_range` (vector:1144-1164). -/
def insertInput (P : Par α) (pos : Nat) (xs : List α) : M α Unit := do
  if xs.length = 0 then pure ()
  else do
    let v ← getV
    appendInput P xs
    let v' ← getV
    rotate P v'.buf pos (v.size - pos) (v'.size - pos)

/-- The destructor of `_Vaporization_guard` (vector:645-664). -/
def vaporize (first destroyed : Nat) : M α Unit := do
  let v ← getV
  destroyRange v.buf destroyed (v.size - destroyed)
  setSize first

/-- `_Insert_counted_range` (vector:1166-1271). -/
def insertRange (P : Par α) (pos : Nat) (xs : List α) : M α Unit := do
  let v ← getV
  let n := xs.length
  if n = 0 then pure ()
  else if n > v.cap - v.size then do
    if n > P.max - v.size then throw .lengthError
    else reallocInsert P (v.size + n) pos n (n == 1 && pos == v.size) (fun nb => uninitList xs nb pos)
  else do
    let affected := v.size - pos
    if n < affected then do
      uninitMove P v.buf (v.size - n) n v.buf v.size
      setSize (v.size + n)
      moveBwd P v.buf pos (pos + n) (affected - n)
      destroyRange v.buf pos n
      catchAll (uninitList xs v.buf pos) (do
        onExc (uninitMove P v.buf (pos + n) n v.buf pos) (vaporize pos (pos + n))
        moveFwd P v.buf (pos + 2 * n) (pos + n) (v.size + n - (pos + 2 * n))
        destroyRange v.buf v.size n
        setSize v.size)
    else do
      uninitMove P v.buf pos affected v.buf (pos + n)
      setSize (pos + n + affected)
      destroyRange v.buf pos affected
      catchAll (uninitList xs v.buf pos) (do
        onExc (uninitMove P v.buf (pos + n) affected v.buf pos) (vaporize pos (pos + n))
        destroyRange v.buf (pos + n) affected
        setSize v.size)

/-! ## Assignment -/

/-- `assign(n, val)` (vector:1333-1390). -/
def assignN (P : Par α) (n : Nat) (x : α) : M α Unit := do
  let v ← getV
  if n > v.cap then do
    clearAndReserve P n
    let v ← getV
    uninitFill v.buf (.ext x) n v.buf 0
    setSize n
  else if n > v.size then do
    fill P v.buf x 0 v.size
    uninitFill v.buf (.ext x) (n - v.size) v.buf v.size
    setSize n
  else do
    fill P v.buf x 0 n
    destroyRange v.buf n (v.size - n)
    setSize n

/-- `_Assign_uncounted_range` (vector:1393-1421). -/
def assignInput (P : Par α) (xs : List α) : M α Unit := do
  let v ← getV
  let k := min xs.length v.size
  copyList P v.buf 0 (xs.take k)
  destroyRange v.buf k (v.size - k)
  setSize k
  appendInput P (xs.drop k)

/-- `_Assign_counted_range` (vector:1423-1487). -/
def assignRange (P : Par α) (xs : List α) : M α Unit := do
  let v ← getV
  let n := xs.length
  if n > v.cap then do
    clearAndReserve P n
    let v ← getV
    uninitList xs v.buf 0
    setSize n
  else if n > v.size then do
    copyList P v.buf 0 (xs.take v.size)
    uninitList (xs.drop v.size) v.buf v.size
    setSize n
  else do
    copyList P v.buf 0 xs
    destroyRange v.buf n (v.size - n)
    setSize n

/-! ## Size and capacity -/

/-- `_Resize` (vector:1591-1627) with `_Resize_reallocate` (vector:1554-1588); without an argument the new elements are value-initialized. -/
def resize (P : Par α) (n : Nat) (src : Src α) : M α Unit := do
  let v ← getV
  if n < v.size then do
    destroyRange v.buf n (v.size - n)
    setSize n
  else if n > v.size then do
    if n > v.cap then do
      if n > P.max then throw .lengthError
      else reallocInsert P n v.size (n - v.size) true (fun nb => uninitFill v.buf src (n - v.size) nb v.size)
    else do
      uninitFill v.buf src (n - v.size) v.buf v.size
      setSize n
  else pure ()

/-- `_Reallocate` (vector:1643-1678). -/
def reallocate (P : Par α) (least : Bool) (nc : Nat) : M α Unit := do
  let v ← getV
  let r ← allocate P least nc
  onExc (moveOrCopy P v.buf v.size r.1) (deallocate r.1 r.2)
  changeArray r.1 v.size r.2

/-- `reserve` (vector:1727-1736). -/
def reserve (P : Par α) (n : Nat) : M α Unit := do
  let v ← getV
  if n > v.cap then do
    if n > P.max then throw .lengthError else reallocate P true n
  else pure ()

/-- `shrink_to_fit` (vector:1738-1750). -/
def shrinkToFit (P : Par α) : M α Unit := do
  let v ← getV
  if v.size ≠ v.cap then do
    if v.size = 0 then tidy else reallocate P false v.size
  else pure ()

/-! ## Removing elements -/

/-- `pop_back` (vector:1752-1764). -/
def popBack : M α Unit := do
  let v ← getV
  destroy v.buf (v.size - 1)
  setSize (v.size - 1)

/-- `erase(pos)` (vector:1766-1784). -/
def eraseOne (P : Par α) (pos : Nat) : M α Unit := do
  let v ← getV
  moveFwd P v.buf (pos + 1) pos (v.size - (pos + 1))
  destroy v.buf (v.size - 1)
  setSize (v.size - 1)

/-- `erase(first, last)` (vector:1786-1811). -/
def eraseRange (P : Par α) (first last : Nat) : M α Unit := do
  let v ← getV
  if first ≠ last then do
    moveFwd P v.buf last first (v.size - last)
    let nl := first + (v.size - last)
    destroyRange v.buf nl (v.size - nl)
    setSize nl
  else pure ()

/-- `clear` (vector:1813-1830). -/
def clear : M α Unit := do
  let v ← getV
  if v.size = 0 then pure ()
  else do
    destroyRange v.buf 0 v.size
    setSize 0

/-! ## Construction -/

/-- `_Construct_n` (vector:2106-2138) with `_Buy_nonzero` (vector:2046-2060); `mk` constructs the elements. -/
def constructN (P : Par α) (n : Nat) (mk : Nat → M α Unit) : M α Unit := do
  if n ≠ 0 then do
    if n > P.max then throw .lengthError
    else do
      buyRaw P n
      let v ← getV
      onExc (do
        mk v.buf
        setSize n) tidy
  else pure ()

/-- `vector(n)`, `vector(n, val)`. -/
def ctorN (P : Par α) (n : Nat) (x : α) : M α Unit := constructN P n (fun b => uninitFill b (.ext x) n b 0)

/-- `vector(first, last)` for forward iterators, `vector(initializer_list)`, `vector(const vector&)`. -/
def ctorRange (P : Par α) (xs : List α) : M α Unit := constructN P xs.length (fun b => uninitList xs b 0)

/-- `vector(first, last)` for input iterators (vector:710-720). -/
def ctorInput (P : Par α) (xs : List α) : M α Unit := onExc (appendInput P xs) tidy

/-! ## Access -/

/-- `at` (vector:1955-1971). -/
def at_ (i : Nat) : M α α := do
  let v ← getV
  if v.size ≤ i then throw .outOfRange else rd v.buf i

end STL.Vec
