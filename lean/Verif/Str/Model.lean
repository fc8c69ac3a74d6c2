import Verif.Base

/-!
# Model of `basic_string` (stl/inc/xstring)

Memory is explicit: a place is the small buffer of a string or an allocation; it has a number of characters and a content, where `none` is a
character that has not been written. The small buffer of a string exists only while the string does not hold a pointer (the union
`_Bxty`). Accesses outside a place, `_Traits::copy` between overlapping ranges, freeing with the wrong size and using the wrong member of the union are
undefined behaviour.

Characters are any type with a null character. Simplifications: allocators are always equal, constant evaluation, iterator debugging and
address sanitizer annotations are left out; `size_t` does not overflow because all sizes are at most `max_size()`, the one
subtraction that may wrap around is marked.
-/

namespace STL.Str
open STL

/-- The character type and the allocator. -/
structure Par (α : Type) where
  /-- `_Small_string_capacity` (xstring:424-434); 15 for `char`, 7 for `wchar_t`, 0 for characters of 9 bytes and more -/
  small : Nat
  /-- `_Alloc_mask` -/
  mask : Nat
  /-- `max_size()` (xstring:2304-2312) -/
  max : Nat
  /-- `_Elem()` -/
  nul : α
  /-- `_Can_memcpy_val` (xstring:648-649) -/
  memcpy : Bool
  /-- "can always store small string" -/
  le : small ≤ max

/-- Where characters are. -/
inductive Place where
  | small (k : Nat)
  | heap (b : Nat)
  deriving DecidableEq

/-- A pointer: into a place, or to an array that no string owns. -/
inductive Ptr (α : Type) where
  | at (p : Place) (i : Nat)
  | arr (xs : List α)

/-- `_String_val` (xstring:388-520): the pointer, if it is the active member of the union, `_Mysize`, `_Myres`. -/
structure S where
  ptr : Option Nat
  size : Nat
  res : Nat
  deriving DecidableEq

/-- The state. -/
structure W (α : Type) where
  /-- the places, with the number of characters -/
  ext : Place → Option Nat
  cel : Place → Nat → Option α
  nxt : Nat
  ss : Nat → S
  /-- what the allocator will answer: failure, or by how many characters more it gives than asked for -/
  ans : List (Option Nat)

inductive Res (α β : Type) where
  | ok (b : β) (w : W α)
  | exc (e : Exc) (w : W α)
  | ub

def M (α β : Type) := W α → Res α β

namespace M
variable {α β γ : Type}
def pure (b : β) : M α β := fun w => .ok b w
def bind (m : M α β) (f : β → M α γ) : M α γ := fun w =>
  match m w with
  | .ok b w => f b w
  | .exc e w => .exc e w
  | .ub => .ub
instance : Monad (M α) where
  pure := pure
  bind := bind
end M

variable {α β : Type}

def ub : M α β := fun _ => .ub
def throw (e : Exc) : M α β := fun w => .exc e w
def get (k : Nat) : M α S := fun w => .ok (w.ss k) w

def updF {γ : Type} (f : Nat → γ) (k : Nat) (x : γ) : Nat → γ := fun m => if m = k then x else f m
def updE (f : Place → Option Nat) (p : Place) (x : Option Nat) : Place → Option Nat := fun q => if q = p then x else f q

/-- `_Mysize = n` -/
def setSize (k n : Nat) : M α Unit := fun w => .ok () { w with ss := updF w.ss k { w.ss k with size := n } }
/-- `_Myres = n` -/
def setRes (k n : Nat) : M α Unit := fun w => .ok () { w with ss := updF w.ss k { w.ss k with res := n } }

/-! ## Memory -/

/-- The cells when `n` characters from `p i` on become `f 0, f 1, ...`. -/
def blk (c : Place → Nat → Option α) (p : Place) (i n : Nat) (f : Nat → Option α) : Place → Nat → Option α :=
  fun q j => if q = p ∧ i ≤ j ∧ j < i + n then f (j - i) else c q j

/-- Read `n` characters. -/
def rdBlk (q : Ptr α) (n : Nat) : M α (Nat → Option α) := fun w =>
  if n = 0 then .ok (fun _ => none) w
  else match q with
    | .at p i => match w.ext p with
      | some e => if i + n ≤ e then .ok (fun j => w.cel p (i + j)) w else .ub
      | none => .ub
    | .arr xs => if n ≤ xs.length then .ok (fun j => xs[j]?) w else .ub

/-- Write `n` characters. -/
def wrBlk (p : Place) (i n : Nat) (f : Nat → Option α) : M α Unit := fun w =>
  if n = 0 then .ok () w
  else match w.ext p with
    | some e => if i + n ≤ e then .ok () { w with cel := blk w.cel p i n f } else .ub
    | none => .ub

def Ptr.add (q : Ptr α) (n : Nat) : Ptr α :=
  match q with
  | .at p i => .at p (i + n)
  | .arr xs => .arr (xs.drop n)

/-- `_Traits::move`, `_Traits_move_batch`. -/
def move (p : Place) (i : Nat) (q : Ptr α) (n : Nat) : M α Unit := do
  let f ← rdBlk q n
  wrBlk p i n f

/-- Do two ranges of `n` characters overlap? -/
def overlap (p : Place) (i : Nat) (q : Ptr α) (n : Nat) : Bool :=
  match q with
  | .at p' i' => decide (p = p' ∧ i < i' + n ∧ i' < i + n)
  | .arr _ => false

/-- `_Traits::copy`, `_Traits_copy_batch`: the ranges must not overlap. -/
def copy (p : Place) (i : Nat) (q : Ptr α) (n : Nat) : M α Unit :=
  if overlap p i q n then ub else move p i q n

/-- `_Traits::assign(ptr, n, ch)`. -/
def fill (p : Place) (i n : Nat) (ch : α) : M α Unit := wrBlk p i n (fun _ => some ch)

/-- `_Traits::assign(ptr[i], ch)`. -/
def set1 (p : Place) (i : Nat) (ch : α) : M α Unit := fill p i 1 ch

/-- `_Allocate_for_capacity` (xstring:872-897): the allocation and its capacity. -/
def allocate (P : Par α) (least : Bool) (cap : Nat) : M α (Nat × Nat) := fun w =>
  match w.ans.headD (some 0) with
  | none => .exc .badAlloc { w with ans := w.ans.tail }
  | some e =>
    let m := if least ∧ cap + e ≤ P.max then cap + e else cap
    .ok (w.nxt, m) { w with ans := w.ans.tail, nxt := w.nxt + 1, ext := updE w.ext (.heap w.nxt) (some (m + 1)),
                            cel := fun q j => if q = .heap w.nxt then none else w.cel q j }

/-- `_Deallocate_for_capacity` (xstring:899-903). -/
def deallocate (b cap : Nat) : M α Unit := fun w =>
  if w.ext (.heap b) = some (cap + 1) then .ok () { w with ext := updE w.ext (.heap b) none } else .ub

/-- `_Large_mode_engaged` (xstring:452-454). -/
def large (P : Par α) (s : S) : Bool := decide (s.res > P.small)

/-- `_Myptr` (xstring:436-450). -/
def myptr (P : Par α) (k : Nat) : M α Place := do
  let s ← get k
  match large P s, s.ptr with
  | true, some b => pure (.heap b)
  | false, none => pure (.small k)
  | _, _ => ub

/-- `_Bx._Ptr` is read. -/
def bxPtr (k : Nat) : M α Nat := do
  let s ← get k
  match s.ptr with
  | some b => pure b
  | none => ub

/-- `_Construct_in_place(_Bx._Ptr, b)`, `_Bx._Ptr = b`: the pointer is the active member now. -/
def setPtr (k b : Nat) : M α Unit := fun w =>
  .ok () { w with ss := updF w.ss k { w.ss k with ptr := some b }, ext := updE w.ext (.small k) none }

/-- `_Bx._Switch_to_buf()` (xstring:501-511): the characters of the small buffer are not initialized. -/
def switchToBuf (P : Par α) (k : Nat) : M α Unit := fun w =>
  .ok () { w with ss := updF w.ss k { w.ss k with ptr := none }, ext := updE w.ext (.small k) (some (P.small + 1)),
                  cel := fun q j => if q = .small k then none else w.cel q j }

/-- `_Clamp_suffix_size` (xstring:485-488). -/
def clamp (s : S) (off n : Nat) : Nat := min n (s.size - off)

/-! ## Reallocation -/

/-- `_Calculate_growth` (xstring:2950-2966). -/
def calcGrowth (P : Par α) (requested old : Nat) : Nat :=
  let masked := requested ||| P.mask
  if masked > P.max then P.max
  else if old > P.max - old / 2 then P.max
  else max masked (old + old / 2)

/-- `_Reallocate_for` (xstring:2968-2995); `fn` prepares the new buffer. -/
def reallocFor (P : Par α) (k newSize : Nat) (fn : Place → M α Unit) : M α Unit := do
  if newSize > P.max then throw .lengthError
  else do
    let s ← get k
    let r ← allocate P true (calcGrowth P newSize s.res)
    setSize k newSize
    setRes k r.2
    fn (.heap r.1)
    if s.res > P.small then do
      let b ← bxPtr k
      deallocate b s.res
      setPtr k r.1
    else setPtr k r.1

/-- `_Reallocate_grow_by` (xstring:2997-3030); `fn` gets the new and the old buffer. -/
def reallocGrow (P : Par α) (k inc : Nat) (fn : Place → Place → Nat → M α Unit) : M α Unit := do
  let s ← get k
  if P.max - s.size < inc then throw .lengthError
  else do
    let r ← allocate P true (calcGrowth P (s.size + inc) s.res)
    setSize k (s.size + inc)
    setRes k r.2
    if s.res > P.small then do
      let b ← bxPtr k
      fn (.heap r.1) (.heap b) s.size
      deallocate b s.res
      setPtr k r.1
    else do
      fn (.heap r.1) (.small k) s.size
      setPtr k r.1

/-- `_Become_small` (xstring:3032-3046). -/
def becomeSmall (P : Par α) (k : Nat) : M α Unit := do
  let s ← get k
  let b ← bxPtr k
  switchToBuf P k
  copy (.small k) 0 (.at (.heap b) 0) (s.size + 1)
  deallocate b s.res
  setRes k P.small

/-- `_Eos` (xstring:3048-3052). -/
def eos (P : Par α) (k n : Nat) : M α Unit := do
  setSize k n
  let p ← myptr P k
  set1 p n P.nul

/-- The small buffer is destroyed or reset, as the last part of `_Tidy_deallocate` (xstring:3234-3249). -/
def resetBuf (P : Par α) (k : Nat) : M α Unit := do
  setSize k 0
  setRes k P.small
  set1 (.small k) 0 P.nul

/-- `_Tidy_deallocate` (xstring:3234-3249). -/
def tidy (P : Par α) (k : Nat) : M α Unit := do
  let s ← get k
  if large P s then do
    let b ← bxPtr k
    deallocate b s.res
    switchToBuf P k
    resetBuf P k
  else resetBuf P k

/-! ## Appending and assigning -/

/-- `_Append` (xstring:3054-3082). -/
def append (P : Par α) (k : Nat) (q : Ptr α) (n : Nat) : M α Unit := do
  let s ← get k
  if n ≤ s.res - s.size then do
    setSize k (s.size + n)
    let p ← myptr P k
    move p s.size q n
    set1 p (s.size + n) P.nul
  else reallocGrow P k n fun new old size => do
    copy new 0 (.at old 0) size
    copy new size q n
    set1 new (size + n) P.nul

/-- `append(n, ch)` (xstring:1575-1600). -/
def appendN (P : Par α) (k n : Nat) (ch : α) : M α Unit := do
  let s ← get k
  if n ≤ s.res - s.size then do
    setSize k (s.size + n)
    let p ← myptr P k
    fill p s.size n ch
    set1 p (s.size + n) P.nul
  else reallocGrow P k n fun new old size => do
    copy new 0 (.at old 0) size
    fill new size n ch
    set1 new (size + n) P.nul

/-- `push_back` (xstring:2219-2240). -/
def pushBack (P : Par α) (k : Nat) (ch : α) : M α Unit := do
  let s ← get k
  if s.size < s.res then do
    setSize k (s.size + 1)
    let p ← myptr P k
    set1 p s.size ch
    set1 p (s.size + 1) P.nul
  else reallocGrow P k 1 fun new old size => do
    copy new 0 (.at old 0) size
    set1 new size ch
    set1 new (size + 1) P.nul

/-- `_Assign` (xstring:3084-3107). -/
def assign (P : Par α) (k : Nat) (q : Ptr α) (n : Nat) : M α Unit := do
  let s ← get k
  if n ≤ s.res then do
    let p ← myptr P k
    setSize k n
    move p 0 q n
    set1 p n P.nul
  else reallocFor P k n fun new => do
    copy new 0 q n
    set1 new n P.nul

/-- `assign(n, ch)` (xstring:1674-1695). -/
def assignN (P : Par α) (k n : Nat) (ch : α) : M α Unit := do
  let s ← get k
  if n ≤ s.res then do
    let p ← myptr P k
    setSize k n
    fill p 0 n ch
    set1 p n P.nul
  else reallocFor P k n fun new => do
    fill new 0 n ch
    set1 new n P.nul

/-- `operator=(ch)` (xstring:1502-1509). -/
def assignChar (P : Par α) (k : Nat) (ch : α) : M α Unit := do
  setSize k 1
  let p ← myptr P k
  set1 p 0 ch
  set1 p 1 P.nul

/-! ## Inserting and replacing -/

/-- `_Ptr + n <= p + i`: for pointers into different arrays the answer depends on where they happen to be; `lo`: the array of `q` is below. -/
def endsBefore (lo : Bool) (q : Ptr α) (n : Nat) (p : Place) (i : Nat) : Bool :=
  match q with
  | .at p' i' => if p' = p then decide (i' + n ≤ i) else lo
  | .arr _ => lo

/-- `_Ptr > p + i` -/
def startsAfter (lo : Bool) (q : Ptr α) (p : Place) (i : Nat) : Bool :=
  match q with
  | .at p' i' => if p' = p then decide (i' > i) else !lo
  | .arr _ => !lo

/-- `p + i <= _Ptr` -/
def startsFrom (lo : Bool) (q : Ptr α) (p : Place) (i : Nat) : Bool :=
  match q with
  | .at p' i' => if p' = p then decide (i ≤ i') else !lo
  | .arr _ => !lo

/-- `(p + i) - _Ptr` -/
def distTo (q : Ptr α) (i : Nat) : Nat :=
  match q with
  | .at _ i' => i - i'
  | .arr _ => 0

/-- `_Ptr_shifted_after` (xstring:3130-3140, 3191-3198): `at` is where the new characters go, `suffix` where the part that shifts begins. -/
def shiftedAfter (lo : Bool) (q : Ptr α) (n : Nat) (p : Place) (at' suffix size : Nat) : Nat :=
  if endsBefore lo q n p at' || startsAfter lo q p size then n
  else if startsFrom lo q p suffix then 0
  else distTo q suffix

/-- `_Insert` (xstring:3109-3157). -/
def insert (P : Par α) (lo : Bool) (k off : Nat) (q : Ptr α) (n : Nat) : M α Unit := do
  let s ← get k
  if s.size < off then throw .outOfRange
  else if n ≤ s.res - s.size then do
    setSize k (s.size + n)
    let p ← myptr P k
    let sh := shiftedAfter lo q n p off off s.size
    move p (off + n) (.at p off) (s.size - off + 1)
    copy p off q sh
    copy p (off + sh) (q.add (n + sh)) (n - sh)
  else reallocGrow P k n fun new old size => do
    copy new 0 (.at old 0) off
    copy new off q n
    copy new (off + n) (.at old off) (size - off + 1)

/-- `insert(off, n, ch)` (xstring:1772-1803). -/
def insertN (P : Par α) (k off n : Nat) (ch : α) : M α Unit := do
  let s ← get k
  if s.size < off then throw .outOfRange
  else if n ≤ s.res - s.size then do
    setSize k (s.size + n)
    let p ← myptr P k
    move p (off + n) (.at p off) (s.size - off + 1)
    fill p off n ch
  else reallocGrow P k n fun new old size => do
    copy new 0 (.at old 0) off
    fill new off n ch
    copy new (off + n) (.at old off) (size - off + 1)

/-- The last part of `_Replace`: the second piece of the source. `n - sh` is computed with `size_t`; if it wraps around, far more characters
than there can be are copied. -/
def copyRest (p : Place) (i : Nat) (q : Ptr α) (n sh : Nat) : M α Unit :=
  if n < sh then ub else copy p i q (n - sh)

/-- `_Replace` (xstring:3159-3232). -/
def replace (P : Par α) (lo : Bool) (k off nx0 : Nat) (q : Ptr α) (n : Nat) : M α Unit := do
  let s ← get k
  if s.size < off then throw .outOfRange
  else do
    let nx := clamp s off nx0
    if nx = n then do
      let p ← myptr P k
      move p off q n
    else if n < nx then do
      let p ← myptr P k
      move p off q n
      move p (off + n) (.at p (off + nx)) (s.size - nx - off + 1)
      setSize k (s.size - (nx - n))
    else if n - nx ≤ s.res - s.size then do
      setSize k (s.size + (n - nx))
      let p ← myptr P k
      let sh := shiftedAfter lo q n p off (off + nx) s.size
      move p (off + nx + (n - nx)) (.at p (off + nx)) (s.size - nx - off + 1)
      move p off q sh
      copyRest p (off + sh) (q.add (n - nx + sh)) n sh
    else reallocGrow P k (n - nx) fun new old size => do
      copy new 0 (.at old 0) off
      copy new off q n
      copy new (off + n) (.at old (off + nx)) (size - nx - off + 1)

/-- `replace(off, nx, n, ch)` (xstring:1956-1991). -/
def replaceN (P : Par α) (k off nx0 n : Nat) (ch : α) : M α Unit := do
  let s ← get k
  if s.size < off then throw .outOfRange
  else do
    let nx := clamp s off nx0
    if n = nx then do
      let p ← myptr P k
      fill p off n ch
    else if n < nx ∨ n - nx ≤ s.res - s.size then do
      setSize k (s.size + n - nx)
      let p ← myptr P k
      move p (off + n) (.at p (off + nx)) (s.size - nx - off + 1)
      fill p off n ch
    else reallocGrow P k (n - nx) fun new old size => do
      copy new 0 (.at old 0) off
      fill new off n ch
      copy new (off + n) (.at old (off + nx)) (size - nx - off + 1)

/-! ## Removing -/

/-- `erase(off)` (xstring:1863-1867). -/
def eraseFrom (P : Par α) (k off : Nat) : M α Unit := do
  let s ← get k
  if s.size < off then throw .outOfRange else eos P k off

/-- `erase(off, n)` (xstring:1886-1890) with `_Erase_noexcept` (xstring:1870-1883). -/
def erase (P : Par α) (k off n0 : Nat) : M α Unit := do
  let s ← get k
  if s.size < off then throw .outOfRange
  else do
    let n := clamp s off n0
    let p ← myptr P k
    move p off (.at p (off + n)) (s.size - n - off + 1)
    setSize k (s.size - n)

/-- `clear` (xstring:1909-1911). -/
def clear (P : Par α) (k : Nat) : M α Unit := eos P k 0

/-- `pop_back` (xstring:2242-2250). -/
def popBack (P : Par α) (k : Nat) : M α Unit := do
  let s ← get k
  eos P k (s.size - 1)

/-! ## Size and capacity -/

/-- `resize` (xstring:2314-2322). -/
def resize (P : Par α) (k n : Nat) (ch : α) : M α Unit := do
  let s ← get k
  if n ≤ s.size then eos P k n else appendN P k (n - s.size) ch

/-- Make room for `n` characters (xstring:2333-2342). -/
def overwriteRoom (P : Par α) (k n : Nat) (s : S) : M α Unit :=
  if s.res < n then reallocGrow P k (n - s.size) fun new old size => copy new 0 (.at old 0) (size + 1)
  else setSize k n

/-- `resize_and_overwrite` (xstring:2324-2359). `op` sees the characters that are there and returns those it wants; how many, is its result. -/
def resizeOverwrite (P : Par α) (k n : Nat) (op : List (Option α) → List α) : M α Unit := do
  let s ← get k
  overwriteRoom P k n s
  let p ← myptr P k
  let f ← rdBlk (.at p 0) n
  let ys := op ((List.range n).map f)
  move p 0 (.arr ys) ys.length
  eos P k ys.length

/-- `reserve` since C++20 (xstring:2373-2390). -/
def reserve (P : Par α) (k n : Nat) : M α Unit := do
  let s ← get k
  if s.res ≥ n then pure ()
  else do
    reallocGrow P k (n - s.size) fun new old size => copy new 0 (.at old 0) (size + 1)
    setSize k s.size

/-- `reserve()` (xstring:2392-2396). -/
def reserve0 (P : Par α) (k : Nat) : M α Unit := do
  let s ← get k
  if s.size = 0 ∧ large P s = true then becomeSmall P k else pure ()

/-- `reserve` before C++20 (xstring:2397-2430). -/
def reserve17 (P : Par α) (k n : Nat) : M α Unit := do
  let s ← get k
  if s.size > n then pure ()
  else if s.res = n then pure ()
  else if s.res < n then do
    reallocGrow P k (n - s.size) fun new old size => copy new 0 (.at old 0) (size + 1)
    setSize k s.size
  else if n ≤ P.small ∧ large P s = true then becomeSmall P k
  else pure ()

/-- `shrink_to_fit` (xstring:2158-2187). -/
def shrink (P : Par α) (k : Nat) : M α Unit := do
  let s ← get k
  if !large P s then pure ()
  else if s.size ≤ P.small then becomeSmall P k
  else do
    let target := min (s.size ||| P.mask) P.max
    if target < s.res then do
      let r ← allocate P false target
      let b ← bxPtr k
      copy (.heap r.1) 0 (.at (.heap b) 0) (s.size + 1)
      deallocate b s.res
      setPtr k r.1
      setRes k target
    else pure ()

/-! ## Construction. The new string is an empty small one before. -/

/-- `_Construct` (xstring:918-979): `mk` writes the characters and the null character. -/
def construct (P : Par α) (k n : Nat) (mk : Place → M α Unit) : M α Unit := do
  if n > P.max then throw .lengthError
  else if n ≤ P.small then do
    setSize k n
    setRes k P.small
    mk (.small k)
  else do
    let r ← allocate P true (calcGrowth P n P.small)
    setPtr k r.1
    setSize k n
    setRes k r.2
    mk (.heap r.1)

/-- `basic_string(n, ch)`. -/
def ctorN (P : Par α) (k n : Nat) (ch : α) : M α Unit := construct P k n fun p => do
  fill p 0 n ch
  set1 p n P.nul

/-- `basic_string(ptr, n)`. -/
def ctorPtr (P : Par α) (k : Nat) (q : Ptr α) (n : Nat) : M α Unit := construct P k n fun p => do
  copy p 0 q n
  set1 p n P.nul

/-- `basic_string(const basic_string&)`: the whole small buffer is copied, or the characters and the null character. -/
def ctorCopy (P : Par α) (k l : Nat) : M α Unit := do
  let s ← get l
  let q ← myptr P l
  construct P k s.size fun p => copy p 0 (.at q 0) (if s.size ≤ P.small then P.small + 1 else s.size + 1)

/-- The new storage replaces the old one (xstring:1034-1041). -/
def adopt (P : Par α) (k : Nat) (s : S) (nb ncap : Nat) : M α Unit :=
  if large P s then do
    let b ← bxPtr k
    deallocate b s.res
    setPtr k nb
    setRes k ncap
  else do
    setPtr k nb
    setRes k ncap

/-- One character more, in `_Construct_from_iter` (xstring:1022-1049). -/
def iterPush (P : Par α) (k : Nat) (ch : α) : M α Unit := do
  let s ← get k
  if s.size = s.res then do
    if s.size = P.max then throw .lengthError
    else do
      let old ← myptr P k
      let r ← allocate P true (calcGrowth P (s.size + 1) s.res)
      copy (.heap r.1) 0 (.at old 0) s.size
      adopt P k s r.1 r.2
      let p ← myptr P k
      set1 p s.size ch
      setSize k (s.size + 1)
  else do
    let p ← myptr P k
    set1 p s.size ch
    setSize k (s.size + 1)

def iterLoop (P : Par α) (k : Nat) : List α → M α Unit
  | [] => do
    let s ← get k
    let p ← myptr P k
    set1 p s.size P.nul
  | x :: xs => do
    iterPush P k x
    iterLoop P k xs

/-- A guard: if `m` throws, run the destructor. -/
def onExc (m : M α β) (d : M α Unit) : M α β := fun w =>
  match m w with
  | .exc e w => match d w with
    | .ok _ w => .exc e w
    | _ => .ub
  | r => r

/-- `_Construct_from_iter` without a count (xstring:981-1055), with its `_Tidy_deallocate_guard`. -/
def ctorIter (P : Par α) (k : Nat) (xs : List α) : M α Unit := do
  setSize k 0
  setRes k P.small
  onExc (iterLoop P k xs) (tidy P k)

/-- The `memcpy` of the members of a string (xstring:1332-1336). -/
def takeBytes (k l : Nat) : M α Unit := fun w => .ok () { w with
  ss := updF w.ss k (w.ss l)
  ext := updE w.ext (.small k) (w.ext (.small l))
  cel := fun q j => if q = .small k then w.cel (.small l) j else w.cel q j }

/-- The small buffer becomes the active member (xstring:1340-1341). -/
def bufAgain (P : Par α) (l : Nat) : M α Unit := fun w =>
  match (w.ss l).ptr with
  | some _ => switchToBuf P l w
  | none => .ok () w

/-- "steal buffer", "copy small string buffer" (xstring:1347-1357). -/
def takeBx (P : Par α) (k l : Nat) (r : S) : M α Unit :=
  if large P r then do
    let b ← bxPtr l
    setPtr k b
    switchToBuf P l
  else copy (.small k) 0 (.at (.small l) 0) (r.size + 1)

/-- `_Take_contents` (xstring:1308-1365): both ways of doing it. -/
def takeContents (P : Par α) (k l : Nat) : M α Unit := do
  let r ← get l
  if P.memcpy then do
    takeBytes k l
    bufAgain P l
    resetBuf P l
  else do
    takeBx P k l r
    setRes k r.res
    setSize k r.size
    resetBuf P l

/-- `if (_Roff != 0) _Traits::move(...)` (xstring:1378-1380). -/
def shiftDown (p : Place) (off n : Nat) : M α Unit := if off ≠ 0 then move p 0 (.at p off) n else pure ()

/-- `_Move_construct_from_substr` (xstring:1367-1388). -/
def ctorSubstr (P : Par α) (k l off n0 : Nat) : M α Unit := do
  let r ← get l
  if r.size < off then throw .outOfRange
  else do
    let n := clamp r off n0
    let p ← myptr P l
    if n > P.small then do
      shiftDown p off n
      eos P l n
      takeContents P k l
    else ctorPtr P k (.at p off) n

/-- `operator+(const basic_string&, const basic_string&)` (xstring:3309-3318) and the constructor it uses (xstring:1098-1127). -/
def concat (P : Par α) (k l m : Nat) : M α Unit := do
  let a ← get l
  let b ← get m
  let pl ← myptr P l
  let pm ← myptr P m
  if P.max - a.size < b.size then throw .lengthError
  else if P.small < a.size + b.size then do
    let r ← allocate P true (calcGrowth P (a.size + b.size) P.small)
    setPtr k r.1
    setSize k (a.size + b.size)
    setRes k r.2
    copy (.heap r.1) 0 (.at pl 0) a.size
    copy (.heap r.1) a.size (.at pm 0) b.size
    set1 (.heap r.1) (a.size + b.size) P.nul
  else do
    setSize k (a.size + b.size)
    setRes k P.small
    copy (.small k) 0 (.at pl 0) a.size
    copy (.small k) a.size (.at pm 0) b.size
    set1 (.small k) (a.size + b.size) P.nul

/-- `operator+(basic_string&&, basic_string&&)` (xstring:3380-3391) and the constructor it uses (xstring:1129-1196). -/
def concatMove (P : Par α) (k l m : Nat) : M α Unit := do
  let a ← get l
  let b ← get m
  if b.size ≤ a.res - a.size ∧ b.res ≤ a.res then do
    takeContents P k l
    let p ← myptr P k
    let pm ← myptr P m
    copy p a.size (.at pm 0) (b.size + 1)
    setSize k (a.size + b.size)
  else if a.size ≤ b.res - b.size then do
    takeContents P k m
    let c ← bxPtr k
    move (.heap c) a.size (.at (.heap c) 0) (b.size + 1)
    let pl ← myptr P l
    copy (.heap c) 0 (.at pl 0) a.size
    setSize k (a.size + b.size)
  else if P.max - a.size < b.size then throw .lengthError
  else do
    let r ← allocate P true (calcGrowth P (a.size + b.size) P.small)
    setPtr k r.1
    setSize k (a.size + b.size)
    setRes k r.2
    let pl ← myptr P l
    copy (.heap r.1) 0 (.at pl 0) a.size
    let pm ← myptr P m
    copy (.heap r.1) a.size (.at pm 0) (b.size + 1)

/-- `operator=(basic_string&&)` (xstring:1274-1300). -/
def moveAssign (P : Par α) (k l : Nat) : M α Unit := do
  if k = l then pure ()
  else do
    tidy P k
    takeContents P k l

/-- `operator=(const basic_string&)` (xstring:1443-1486). -/
def copyAssign (P : Par α) (k l : Nat) : M α Unit := do
  if k = l then pure ()
  else do
    let s ← get l
    let q ← myptr P l
    assign P k (.at q 0) s.size

/-- `_Swap_bx_large_with_small` (xstring:2455-2462). -/
def swapLargeSmall (P : Par α) (l k : Nat) : M α Unit := do
  let b ← bxPtr l
  switchToBuf P l
  copy (.small l) 0 (.at (.small k) 0) (P.small + 1)
  setPtr k b

/-- Exchange `_Mysize` and `_Myres`. -/
def swapSizes (k l : Nat) : M α Unit := do
  let a ← get k
  let b ← get l
  setSize k b.size
  setSize l a.size
  setRes k b.res
  setRes l a.res

/-- The three `memcpy`s of the members of two strings (xstring:2476-2484). -/
def swapBytes (k l : Nat) : M α Unit := fun w => .ok () { w with
  ss := updF (updF w.ss k (w.ss l)) l (w.ss k)
  ext := updE (updE w.ext (.small k) (w.ext (.small l))) (.small l) (w.ext (.small k))
  cel := fun q j => if q = .small l then w.cel (.small k) j else if q = .small k then w.cel (.small l) j else w.cel q j }

/-- The exchange of the unions (xstring:2490-2504). -/
def swapBx (P : Par α) (k l : Nat) (a b : S) : M α Unit :=
  match large P a, large P b with
  | true, true => do
    let x ← bxPtr k
    let y ← bxPtr l
    setPtr k y
    setPtr l x
  | true, false => swapLargeSmall P k l
  | false, true => swapLargeSmall P l k
  | false, false => do
    let f ← rdBlk (.at (.small k) 0) (a.size + 1)
    copy (.small k) 0 (.at (.small l) 0) (b.size + 1)
    wrBlk (.small l) 0 (a.size + 1) f

/-- `_Swap_data` (xstring:2464-2509): bytewise, or member by member. -/
def swapData (P : Par α) (k l : Nat) : M α Unit := do
  let a ← get k
  let b ← get l
  if P.memcpy then swapBytes k l
  else do
    swapBx P k l a b
    swapSizes k l

/-- `swap` (xstring:2511-2531). -/
def swap (P : Par α) (k l : Nat) : M α Unit := if k = l then pure () else swapData P k l

/-! ## Access -/

/-- Read one character; an uninitialized one cannot be used. -/
def rd1 (p : Place) (i : Nat) : M α α := do
  let f ← rdBlk (.at p i) 1
  match f 0 with
  | some x => pure x
  | none => ub

/-- `at` (xstring:2189-2197). -/
def at_ (P : Par α) (k i : Nat) : M α α := do
  let s ← get k
  if s.size ≤ i then throw .outOfRange
  else do
    let p ← myptr P k
    rd1 p i

/-- `operator[]` (xstring:2199-2213): the character after the last one may be read. -/
def index (P : Par α) (k i : Nat) : M α α := do
  let p ← myptr P k
  rd1 p i

/-- Write through `operator[]`, an iterator or a pointer. -/
def store (P : Par α) (k i : Nat) (ch : α) : M α Unit := do
  let p ← myptr P k
  set1 p i ch

end STL.Str
