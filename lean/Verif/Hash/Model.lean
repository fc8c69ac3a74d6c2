import Verif.DList.Props

/-!
# Model of the unordered containers (stl/inc/xhash)

The elements are in a doubly linked list, `_List`, whose nodes live in the explicit heap of `Verif/DList/Model.lean`; `_Vec` is an array of
node pointers, two for each bucket: the first and the last node of the bucket, or the head of the list for an empty bucket. Reading or
writing outside the array is undefined behaviour, as is everything that is undefined for the heap.

Parameters: the hash function and the key equality are arbitrary functions. The floating-point computations with the maximum load factor are
arbitrary functions (`LF`), so that the theorems hold for every load factor and every rounding. `size_t` arithmetic does not wrap around:
sizes are bounded by `max_size`, bucket counts by `_Max_storage_buckets`.

Exceptions: allocation of a node or of the bucket array may fail; hash function and key equality may throw while `_Forced_rehash` processes
any element. Elsewhere they do not throw (those calls come before all changes, except in `_Unchecked_erase` of a range). Iterator debugging
is left out.
-/

namespace STL.UH
open STL STL.DL

/-- What the container is instantiated with. -/
structure Par (α K : Type) where
  /-- `_Traits::_Kfn` -/
  kfn : α → K
  /-- `_Traitsobj(key)` -/
  hash : K → Nat
  /-- `!_Traitsobj(key1, key2)` (xhash:86-90: the call tells whether the keys differ) -/
  eq : K → K → Bool
  /-- `_Multi` -/
  multi : Bool
  /-- `_Nothrow_hash` -/
  nothrowHash : Bool
  /-- `_List.max_size()` -/
  maxSize : Nat
  /-- `_Vec.max_size()` -/
  vecMax : Nat

/-- The computations with the maximum load factor. -/
structure LF where
  /-- `max_load_factor() < static_cast<float>(_Newsize) / static_cast<float>(bucket_count())` (xhash:1572) -/
  need : Nat → Nat → Bool
  /-- `_Min_load_factor_buckets` (xhash:1599-1602) -/
  minBk : Nat → Nat

/-- `_Hash` (xhash:1874-1880). -/
structure Tab where
  /-- `_List` -/
  con : Con
  /-- `_Vec` -/
  vec : List Nat
  /-- `_Mask` -/
  mask : Nat
  /-- `_Maxidx` -/
  maxidx : Nat
  /-- `_Max_bucket_size()` -/
  lf : LF

variable {α K : Type}

/-- `_Vec._Mypair._Myval2._Myfirst[i]` -/
def vget (v : List Nat) (i : Nat) : R Nat := match v[i]? with | some x => .ok x | none => .error .ub
/-- `_Vec._Mypair._Myval2._Myfirst[i] = x` -/
def vset (v : List Nat) (i x : Nat) : R (List Nat) := if i < v.length then .ok (v.set i x) else .error .ub

/-- `_Floor_of_log_2` (xbit_ops.h:24-49); `_BitScanReverse64` gives the position of the highest one bit. -/
def floorLog2 (v : Nat) : Nat := Nat.log2 (v ||| 1)
/-- `_Ceiling_of_log_2` (xbit_ops.h:51-54). -/
def ceilLog2 (v : Nat) : Nat := 1 + floorLog2 (v - 1)

/-- `_Hash_vec::_Assign_grow` (xhash:221-243). `ok`: the allocation succeeds. -/
def assignGrow (v : List Nat) (cells x : Nat) (ok : Bool) : Option (List Nat) :=
  if v.length < cells then (if ok then some (List.replicate cells x) else none)
  else some (List.replicate v.length x)

/-- The constructor (xhash:306-314), after the head of the list has been allocated. -/
def newTab (c : Con) (lf : LF) : Tab := ⟨c, List.replicate (8 * 2) c.hd, 8 - 1, 8, lf⟩

/-! ## Searching -/

/-- The loop of `_Find_last` (xhash:1504-1515): `_Insert_before` and `_Duplicate`. -/
def findBack (P : Par α K) (h : Hp α) (key : K) (lo : Nat) : Nat → Nat → R (Nat × Option Nat)
  | 0, _ => .error .fuel
  | f + 1, w => do
    let v ← valAt h w
    if P.eq key (P.kfn v) then do
      let n ← nd h w
      .ok (n.next, some w)
    else if w = lo then .ok (w, none)
    else do
      let n ← nd h w
      findBack P h key lo f n.prev

/-- `_Find_last` (xhash:1493-1516). -/
def findLast (P : Par α K) (h : Hp α) (t : Tab) (key : K) (hv : Nat) : R (Nat × Option Nat) := do
  let b := hv &&& t.mask
  let w ← vget t.vec ((b <<< 1) + 1)
  if w = t.con.hd then .ok (t.con.hd, none)
  else do
    let lo ← vget t.vec (b <<< 1)
    findBack P h key lo (t.con.size + 1) w

/-- `_Find_hint` (xhash:1518-1529). -/
def findHint (P : Par α K) (h : Hp α) (t : Tab) (hint : Nat) (key : K) (hv : Nat) : R (Nat × Option Nat) := do
  let same ← (if hint ≠ t.con.hd then do
      let v ← valAt h hint
      .ok (P.eq (P.kfn v) key)
    else .ok false : R Bool)
  if same then do
    let n ← nd h hint
    .ok (n.next, some hint)
  else findLast P h t key hv

/-- The loop of `_Find_first` (xhash:1118-1128). -/
def findFwd (P : Par α K) (h : Hp α) (key : K) (hd hi : Nat) : Nat → Nat → R Nat
  | 0, _ => .error .fuel
  | f + 1, w => do
    let v ← valAt h w
    if P.eq (P.kfn v) key then .ok w
    else if w = hi then .ok hd
    else do
      let n ← nd h w
      findFwd P h key hd hi f n.next

/-- `_Find_first` (xhash:1107-1129). -/
def findFirst (P : Par α K) (h : Hp α) (t : Tab) (key : K) (hv : Nat) : R Nat := do
  let b := hv &&& t.mask
  let w ← vget t.vec (b <<< 1)
  if w = t.con.hd then .ok t.con.hd
  else do
    let hi ← vget t.vec ((b <<< 1) + 1)
    findFwd P h key t.con.hd hi (t.con.size + 1) w

/-- `find` (xhash:1131-1149). -/
def find (P : Par α K) (h : Hp α) (t : Tab) (key : K) : R Nat :=
  if P.multi then findFirst P h t key (P.hash key)
  else do
    let r ← findLast P h t key (P.hash key)
    match r.2 with
    | some d => .ok d
    | none => .ok t.con.hd

/-- `contains` (xhash:1170-1172). -/
def contains (P : Par α K) (h : Hp α) (t : Tab) (key : K) : R Bool := do
  let r ← findLast P h t key (P.hash key)
  .ok r.2.isSome

/-- The second loop of `_Equal_range` (xhash:1230-1242): the end of the range and its length. -/
def eqLoop (P : Par α K) (h : Hp α) (key : K) (hi : Nat) : Nat → Nat → Nat → R (Nat × Nat)
  | 0, _, _ => .error .fuel
  | f + 1, w, d => do
    let n ← nd h w
    if w = hi then .ok (n.next, d + 1)
    else do
      let v ← valAt h n.next
      if P.eq key (P.kfn v) then eqLoop P h key hi f n.next (d + 1)
      else .ok (n.next, d + 1)

/-- `_Equal_range` (xhash:1210-1249). The first loop is the one of `_Find_first`, with the same results. -/
def equalRange (P : Par α K) (h : Hp α) (t : Tab) (key : K) : R (Nat × Nat × Nat) := do
  let b := P.hash key &&& t.mask
  let w ← vget t.vec (b <<< 1)
  if w = t.con.hd then .ok (t.con.hd, t.con.hd, 0)
  else do
    let hi ← vget t.vec ((b <<< 1) + 1)
    let f ← findFwd P h key t.con.hd hi (t.con.size + 1) w
    if f = t.con.hd then .ok (t.con.hd, t.con.hd, 0)
    else if P.multi then do
      let r ← eqLoop P h key hi (t.con.size + 1) f 0
      .ok (f, r.1, r.2)
    else do
      let n ← nd h f
      .ok (f, n.next, 1)

/-- `count` (xhash:1181-1188). -/
def count (P : Par α K) (h : Hp α) (t : Tab) (key : K) : R Nat :=
  if P.multi then do
    let r ← equalRange P h t key
    .ok r.2.2
  else do
    let r ← findLast P h t key (P.hash key)
    .ok (if r.2.isSome then 1 else 0)

/-- `bucket` (xhash:780-783). -/
def bucket (P : Par α K) (t : Tab) (key : K) : Nat := P.hash key &&& t.mask

/-- `begin(_Bucket)` (xhash:794-796). -/
def beginB (t : Tab) (b : Nat) : R Nat := vget t.vec (b <<< 1)

/-- `end(_Bucket)` (xhash:802-809). -/
def endB (h : Hp α) (t : Tab) (b : Nat) : R Nat := do
  let hi ← vget t.vec ((b <<< 1) + 1)
  if hi ≠ t.con.hd then do
    let n ← nd h hi
    .ok n.next
  else .ok hi

/-- `std::distance(first, last)`. -/
def dist (h : Hp α) : Nat → Nat → Nat → R Nat
  | 0, _, _ => .error .fuel
  | f + 1, p, q =>
    if p = q then .ok 0
    else do
      let n ← nd h p
      let r ← dist h f n.next q
      .ok (r + 1)

/-- `bucket_size` (xhash:785-792). -/
def bucketSize (h : Hp α) (t : Tab) (b : Nat) : R Nat := do
  let lo ← vget t.vec (b <<< 1)
  if lo = t.con.hd then .ok 0
  else do
    let hi ← vget t.vec ((b <<< 1) + 1)
    let d ← dist h (t.con.size + 1) lo hi
    .ok (d + 1)

/-! ## Changing the table -/

/-- `_Insert_new_node_before` (xhash:1531-1560). -/
def insertNew (h : Hp α) (t : Tab) (hv before x : Nat) : R (Hp α × Tab) := do
  let bn ← nd h before
  let after := bn.prev
  let h ← setN h x before
  let h ← setP h x after
  let h ← setN h after x
  let h ← setP h before x
  let b := hv &&& t.mask
  let lo ← vget t.vec (b <<< 1)
  let hi ← vget t.vec ((b <<< 1) + 1)
  let vec ← (if lo = t.con.hd then do
      let v ← vset t.vec (b <<< 1) x
      vset v ((b <<< 1) + 1) x
    else if lo = before then vset t.vec (b <<< 1) x
    else if hi = after then vset t.vec ((b <<< 1) + 1) x
    else .ok t.vec : R (List Nat))
  .ok (h, { t with con := ⟨t.con.hd, t.con.size + 1⟩, vec := vec })

/-- `_Erase_bucket` (xhash:1581-1597). -/
def eraseBucket (h : Hp α) (t : Tab) (p b : Nat) : R Tab := do
  let lo ← vget t.vec (b <<< 1)
  let hi ← vget t.vec ((b <<< 1) + 1)
  if hi = p then
    if lo = p then do
      let v ← vset t.vec (b <<< 1) t.con.hd
      let v ← vset v ((b <<< 1) + 1) t.con.hd
      .ok { t with vec := v }
    else do
      let n ← nd h p
      let v ← vset t.vec ((b <<< 1) + 1) n.prev
      .ok { t with vec := v }
  else if lo = p then do
    let n ← nd h p
    let v ← vset t.vec (b <<< 1) n.next
    .ok { t with vec := v }
  else .ok t

/-- `_Unchecked_erase` of one node (xhash:903-907) and the part of `_Erase` after the search (xhash:1041-1042). -/
def eraseNode (h : Hp α) (t : Tab) (p b : Nat) : R (Hp α × Tab × Nat) := do
  let t ← eraseBucket h t p b
  let r ← uncheckedErase h t.con p
  .ok (r.1, { t with con := r.2.1 }, r.2.2)

/-- `erase(iterator)` (xhash:1052-1058). -/
def eraseAt (P : Par α K) (h : Hp α) (t : Tab) (p : Nat) : R (Hp α × Tab × Nat) := do
  let v ← valAt h p
  eraseNode h t p (bucket P t (P.kfn v))

/-- The loops that "remove elements until we hit the end of the bucket" (xhash:970-985, 1006-1018), with `_Bump_erased` (xhash:935-940): the
heap, `_Eraser._Next`, the number of elements freed and whether `_Last` was hit. -/
def eraseIn (oldHi last : Nat) : Nat → Hp α → Nat → Nat → R (Hp α × Nat × Nat × Bool)
  | 0, _, _, _ => .error .fuel
  | f + 1, h, p, c => do
    let n ← nd h p
    let h ← free h p
    if p = oldHi then .ok (h, n.next, c + 1, false)
    else if n.next = last then .ok (h, n.next, c + 1, true)
    else eraseIn oldHi last f h n.next (c + 1)

/-- "hereafter we are always erasing buckets' prefixes" (xhash:997-1023): the heap, `_Vec`, `_Eraser._Next` and the number of elements freed.
`size` bounds the length of the inner loop. -/
def eraseMore (P : Par α K) (hd last mask size : Nat) : Nat → Hp α → List Nat → Nat → Nat → R (Hp α × List Nat × Nat × Nat)
  | 0, _, _, _, _ => .error .fuel
  | f + 1, h, vec, p, c =>
    if p ≠ last then do
      let v ← valAt h p
      let b := P.hash (P.kfn v) &&& mask
      let hi ← vget vec ((b <<< 1) + 1)
      let r ← eraseIn hi last size h p c
      if r.2.2.2 then do
        let vec ← vset vec (b <<< 1) r.2.1
        .ok (r.1, vec, r.2.1, r.2.2.1)
      else do
        let vec ← vset vec (b <<< 1) hd
        let vec ← vset vec ((b <<< 1) + 1) hd
        eraseMore P hd last mask size f r.1 vec r.2.1 r.2.2.1
    else .ok (h, vec, p, c)

/-- `_Unchecked_erase` of a range (xhash:953-1026) with `_Range_eraser` (xhash:930-950). -/
def eraseRange (P : Par α K) (h : Hp α) (t : Tab) (first last : Nat) : R (Hp α × Tab) :=
  if first = last then .ok (h, t)
  else do
    let n ← nd h first
    let pred := n.prev
    let v ← valAt h first
    let b := bucket P t (P.kfn v)
    let lo ← vget t.vec (b <<< 1)
    let hi ← vget t.vec ((b <<< 1) + 1)
    let r ← eraseIn hi last t.con.size h first 0
    let q ← (if r.2.2.2 then
        if lo = first then do
          let vec ← vset t.vec (b <<< 1) r.2.1
          .ok (r.1, vec, r.2.1, r.2.2.1)
        else .ok (r.1, t.vec, r.2.1, r.2.2.1)
      else do
        let vec ← (if lo = first then do
            let vec ← vset t.vec (b <<< 1) t.con.hd
            vset vec ((b <<< 1) + 1) t.con.hd
          else vset t.vec ((b <<< 1) + 1) pred : R (List Nat))
        eraseMore P t.con.hd last t.mask t.con.size (t.con.size + 1) r.1 vec r.2.1 r.2.2.1 : R (Hp α × List Nat × Nat × Nat))
    let h ← setN q.1 pred q.2.2.1
    let h ← setP h q.2.2.1 pred
    .ok (h, { t with con := ⟨t.con.hd, t.con.size - q.2.2.2⟩, vec := q.2.1 })

/-- `_Erase` (xhash:1032-1048); `erase(key)`. -/
def eraseKey (P : Par α K) (h : Hp α) (t : Tab) (key : K) : R (Hp α × Tab × Nat) :=
  if P.multi then do
    let r ← equalRange P h t key
    let q ← eraseRange P h t r.1 r.2.1
    .ok (q.1, q.2, r.2.2)
  else do
    let r ← findLast P h t key (P.hash key)
    match r.2 with
    | some d => do
      let q ← eraseNode h t d (P.hash key &&& t.mask)
      .ok (q.1, q.2.1, 1)
    | none => .ok (h, t, 0)

/-- `clear` (xhash:1077-1104). -/
def clearTab (P : Par α K) (h : Hp α) (t : Tab) : R (Hp α × Tab) :=
  if t.con.size = 0 then .ok (h, t)
  else if P.nothrowHash ∧ t.maxidx / 8 > t.con.size then do
    let n ← nd h t.con.hd
    eraseRange P h t n.next t.con.hd
  else do
    let r ← clear h t.con
    .ok (r.1, { t with con := r.2, vec := List.replicate t.vec.length t.con.hd })

/-- The search for the insertion point in `_Forced_rehash` (xhash:1688-1707), entered with `_Insert_before` = `w`, whose key is known to
differ: the node before which to insert, and whether it is the new first one of the bucket. -/
def rehashBack (P : Par α K) (h : Hp α) (key : K) (lo : Nat) : Nat → Nat → R (Nat × Bool)
  | 0, _ => .error .fuel
  | f + 1, w =>
    if lo = w then .ok (w, true)
    else do
      let n ← nd h w
      let v ← valAt h n.prev
      if P.eq key (P.kfn v) then do
        let m ← nd h n.prev
        .ok (m.next, false)
      else rehashBack P h key lo f n.prev

/-- The body of the loop of `_Forced_rehash` (xhash:1654-1708) for the element `_Inserted` = `p`, with `_Next_inserted` = `nxt`. -/
def rehashOne (P : Par α K) (h : Hp α) (t : Tab) (p nxt : Nat) : R (Hp α × List Nat) := do
  let v ← valAt h p
  let key := P.kfn v
  let b := bucket P t key
  let lo ← vget t.vec (b <<< 1)
  if lo = t.con.hd then do
    let vec ← vset t.vec (b <<< 1) p
    let vec ← vset vec ((b <<< 1) + 1) p
    .ok (h, vec)
  else do
    let hi ← vget t.vec ((b <<< 1) + 1)
    let w ← valAt h hi
    if P.eq key (P.kfn w) then do
      let n ← nd h hi
      let h ← (if n.next ≠ p then uncheckedSplice h n.next p nxt else .ok h : R (Hp α))
      let vec ← vset t.vec ((b <<< 1) + 1) p
      .ok (h, vec)
    else do
      let r ← rehashBack P h key lo (t.con.size + 1) hi
      let h ← uncheckedSplice h r.1 p nxt
      if r.2 then do
        let vec ← vset t.vec (b <<< 1) p
        .ok (h, vec)
      else .ok (h, t.vec)

/-- The loop of `_Forced_rehash` (xhash:1651-1709). `thr`: after how many elements the hash function or the key equality throws. The flag
tells whether they did. -/
def rehashLoop (P : Par α K) : Nat → Hp α → Tab → Nat → Option Nat → R (Hp α × Tab × Bool)
  | 0, _, _, _, _ => .error .fuel
  | f + 1, h, t, p, thr =>
    if p ≠ t.con.hd then do
      let n ← nd h p
      if thr = some 0 then .ok (h, t, true)
      else do
        let r ← rehashOne P h t p n.next
        rehashLoop P f r.1 { t with vec := r.2 } n.next (thr.map (· - 1))
    else .ok (h, t, false)

/-- `_Forced_rehash` (xhash:1625-1716). `vok`: the bucket array can be allocated. `_Clear_guard` clears the container if an exception leaves
the loop. -/
def forcedRehash (P : Par α K) (h : Hp α) (t : Tab) (buckets : Nat) (vok : Bool) (thr : Option Nat) : R (Hp α × Tab × Option Exc) :=
  if buckets > 1 <<< floorLog2 (P.vecMax >>> 1) then .ok (h, t, some .lengthError)
  else
    let buckets := 1 <<< ceilLog2 buckets
    match assignGrow t.vec (buckets <<< 1) t.con.hd vok with
    | none => .ok (h, t, some .badAlloc)
    | some vec => do
      let t := { t with vec := vec, mask := buckets - 1, maxidx := buckets }
      let n ← nd h t.con.hd
      let r ← rehashLoop P (t.con.size + 1) h t n.next thr
      if r.2.2 then do
        let q ← clearTab P r.1 r.2.1
        .ok (q.1, q.2, some .user)
      else .ok (r.1, r.2.1, none)

/-- `_Desired_grow_bucket_count` (xhash:1604-1619). -/
def desiredBuckets (t : Tab) (forSize : Nat) : Nat :=
  let old := t.maxidx
  let req := max 8 (t.lf.minBk forSize)
  if old ≥ req then old
  else if old < 512 ∧ old * 8 ≥ req then old * 8
  else req

/-- `_Rehash_for_1` (xhash:1575-1579). -/
def rehashFor1 (P : Par α K) (h : Hp α) (t : Tab) (vok : Bool) (thr : Option Nat) : R (Hp α × Tab × Option Exc) :=
  forcedRehash P h t (desiredBuckets t (t.con.size + 1)) vok thr

/-- `rehash` (xhash:846-854). -/
def rehash (P : Par α K) (h : Hp α) (t : Tab) (n : Nat) (vok : Bool) (thr : Option Nat) : R (Hp α × Tab × Option Exc) :=
  let buckets := max (t.lf.minBk t.con.size) n
  if buckets ≤ t.maxidx then .ok (h, t, none)
  else forcedRehash P h t buckets vok thr

/-- `reserve` (xhash:856-858). -/
def reserve (P : Par α K) (h : Hp α) (t : Tab) (n : Nat) (vok : Bool) (thr : Option Nat) : R (Hp α × Tab × Option Exc) :=
  rehash P h t (t.lf.minBk n) vok thr

/-! ## Insertion -/

/-- The environment of an insertion: what the node allocator answers, whether the bucket array can be allocated, when a rehash is left by an
exception. -/
structure Env where
  x : Option Nat
  vok : Bool
  thr : Option Nat

/-- `_Find_last` or, with a hint, `_Find_hint`. -/
def look (P : Par α K) (hint : Option Nat) (key : K) (h : Hp α) (t : Tab) : R (Nat × Option Nat) :=
  match hint with
  | none => findLast P h t key (P.hash key)
  | some p => findHint P h t p key (P.hash key)

/-- The end of all insertions once a node `x` is there (xhash:517-523, 533-539, 551-557, 638-643): rehash if required and look for the
insertion point again, otherwise use `tgt`. `search` is `_Find_last` or `_Find_hint`. -/
def placeNode (P : Par α K) (search : Hp α → Tab → R (Nat × Option Nat)) (h : Hp α) (t : Tab) (hv : Nat) (tgt : Nat) (x : Nat) (vok : Bool)
    (thr : Option Nat) : R (Hp α × Tab × Option Exc) :=
  if t.lf.need (t.con.size + 1) t.maxidx then do
    let r ← rehashFor1 P h t vok thr
    match r.2.2 with
    | some e => .ok r
    | none => do
      let g ← search r.1 r.2.1
      let q ← insertNew r.1 r.2.1 hv g.1 x
      .ok (q.1, q.2, none)
  else do
    let q ← insertNew h t hv tgt x
    .ok (q.1, q.2, none)

/-- `_List_node_emplace_op2`'s destructor frees the node if it was not released. -/
def orFree (x : Nat) (r : Hp α × Tab × Option Exc) : R (Hp α × Tab × Nat × Bool × Option Exc) :=
  match r.2.2 with
  | none => .ok (r.1, r.2.1, x, true, none)
  | some e => do
    let h ← free r.1 x
    .ok (h, r.2.1, 0, false, some e)

/-- `emplace` of the multi containers (xhash:509-521) and `emplace_hint` (xhash:572-583). The target is looked up after the rehash. -/
def emplaceMulti (P : Par α K) (hint : Option Nat) (h : Hp α) (t : Tab) (v : α) (e : Env) : R (Hp α × Tab × Nat × Bool × Option Exc) :=
  if t.con.size = P.maxSize then .ok (h, t, 0, false, some .lengthError)
  else match e.x with
    | none => .ok (h, t, 0, false, some .badAlloc)
    | some x => do
      let h ← alloc h x (some v)
      let key := P.kfn v
      let hv := P.hash key
      if t.lf.need (t.con.size + 1) t.maxidx then do
        let r ← placeNode P (look P hint key) h t hv 0 x e.vok e.thr
        orFree x r
      else do
        let g ← look P hint key h t
        let r ← placeNode P (look P hint key) h t hv g.1 x e.vok e.thr
        orFree x r

/-- `emplace` of the unique containers when the key can be taken from the arguments (xhash:522-541), `emplace_hint` (xhash:584-601),
`_Try_emplace` (xhash:621-643) and `_Try_emplace_hint` (xhash:645-662). -/
def emplaceUnique (P : Par α K) (hint : Option Nat) (h : Hp α) (t : Tab) (v : α) (e : Env) : R (Hp α × Tab × Nat × Bool × Option Exc) := do
  let key := P.kfn v
  let hv := P.hash key
  let g ← look P hint key h t
  match g.2 with
  | some d => .ok (h, t, d, false, none)
  | none =>
    if t.con.size = P.maxSize then .ok (h, t, 0, false, some .lengthError)
    else match e.x with
      | none => .ok (h, t, 0, false, some .badAlloc)
      | some x => do
        let h ← alloc h x (some v)
        let r ← placeNode P (look P hint key) h t hv g.1 x e.vok e.thr
        orFree x r

/-- `emplace` of the unique containers otherwise (xhash:542-561), `emplace_hint` (xhash:602-618): the node is built first. -/
def emplaceUniqueNode (P : Par α K) (hint : Option Nat) (h : Hp α) (t : Tab) (v : α) (e : Env) : R (Hp α × Tab × Nat × Bool × Option Exc) :=
  match e.x with
  | none => .ok (h, t, 0, false, some .badAlloc)
  | some x => do
    let h ← alloc h x (some v)
    let key := P.kfn v
    let hv := P.hash key
    let g ← look P hint key h t
    match g.2 with
    | some d => do
      let h ← free h x
      .ok (h, t, d, false, none)
    | none =>
      if t.con.size = P.maxSize then do
        let h ← free h x
        .ok (h, t, 0, false, some .lengthError)
      else do
        let r ← placeNode P (look P hint key) h t hv g.1 x e.vok e.thr
        orFree x r

/-! ## Node handles -/

/-- `_Extract(_Where)` (xhash:1424-1428); `extract(iterator)`. -/
def extractAt (P : Par α K) (h : Hp α) (t : Tab) (p : Nat) : R (Hp α × Tab) := do
  let v ← valAt h p
  let t ← eraseBucket h t p (bucket P t (P.kfn v))
  let r ← unlinkNode h t.con p
  .ok (r.1, { t with con := r.2 })

/-- `_Extract(_Keyval)` (xhash:1430-1449); `extract(key)`. -/
def extractKey (P : Par α K) (h : Hp α) (t : Tab) (key : K) : R (Hp α × Tab × Option Nat) := do
  let hv := P.hash key
  let tgt ← (if P.multi then do
      let p ← findFirst P h t key hv
      .ok (if p = t.con.hd then none else some p)
    else do
      let r ← findLast P h t key hv
      .ok r.2 : R (Option Nat))
  match tgt with
  | none => .ok (h, t, none)
  | some p => do
    let t ← eraseBucket h t p (hv &&& t.mask)
    let r ← unlinkNode h t.con p
    .ok (r.1, { t with con := r.2 }, some p)

/-- `insert(node_type&&)` (xhash:1452-1489) and `insert(hint, node_type&&)` (xhash:1324-1353) for a nonempty handle with the node `x`: the
node that holds the key, and whether `x` was inserted. -/
def insertNode (P : Par α K) (hint : Option Nat) (h : Hp α) (t : Tab) (x : Nat) (vok : Bool) (thr : Option Nat) :
    R (Hp α × Tab × Nat × Bool × Option Exc) := do
  let v ← valAt h x
  let key := P.kfn v
  let hv := P.hash key
  let g ← look P hint key h t
  match (if P.multi then none else g.2) with
  | some d => .ok (h, t, d, false, none)
  | none =>
    if t.con.size = P.maxSize then .ok (h, t, 0, false, some .lengthError)
    else do
      let r ← placeNode P (look P hint key) h t hv g.1 x vok thr
      match r.2.2 with
      | none => .ok (r.1, r.2.1, x, true, none)
      | some e => .ok (r.1, r.2.1, 0, false, some e)

/-! ## `merge` -/

/-- The body of the loop of `merge` (xhash:1383-1409) for the node `p` of `_That` = `u`. `P` describes `*this`; `_That` may have another hash
function and another key equality. The bucket of the node in `_That` is computed from the hash value of `*this` (xhash:1398). The four lines
that take the node out of the list are those of `_Unlinknode` (list:403-415). -/
def mergeOne (P : Par α K) (h : Hp α) (t u : Tab) (p : Nat) (vok : Bool) (thr : Option Nat) : R (Hp α × Tab × Tab × Option Exc) := do
  let v ← valAt h p
  let key := P.kfn v
  let hv := P.hash key
  let g ← findLast P h t key hv
  match (if P.multi then none else g.2) with
  | some _ => .ok (h, t, u, none)
  | none =>
    if t.con.size = P.maxSize then .ok (h, t, u, some .lengthError)
    else do
      let r ← (if t.lf.need (t.con.size + 1) t.maxidx then do
          let r ← rehashFor1 P h t vok thr
          match r.2.2 with
          | some e => .ok (r.1, r.2.1, 0, some e)
          | none => do
            let g ← findLast P r.1 r.2.1 key hv
            .ok (r.1, r.2.1, g.1, none)
        else .ok (h, t, g.1, none) : R (Hp α × Tab × Nat × Option Exc))
      match r.2.2.2 with
      | some e => .ok (r.1, r.2.1, u, some e)
      | none => do
        let u ← eraseBucket r.1 u p (hv &&& u.mask)
        let m ← unlinkNode r.1 u.con p
        let q ← insertNew m.1 r.2.1 hv r.2.2.1 p
        .ok (q.1, q.2, { u with con := m.2 }, none)

/-- The loop of `merge` (xhash:1378-1410). `env`: the environment of each pass. -/
def mergeLoop (P : Par α K) : Nat → Hp α → Tab → Tab → Nat → List (Bool × Option Nat) → R (Hp α × Tab × Tab × Option Exc)
  | 0, _, _, _, _, _ => .error .fuel
  | f + 1, h, t, u, p, env =>
    if p ≠ u.con.hd then do
      let n ← nd h p
      let e := env.headD (true, none)
      let r ← mergeOne P h t u p e.1 e.2
      match r.2.2.2 with
      | some _ => .ok r
      | none => mergeLoop P f r.1 r.2.1 r.2.2.1 n.next env.tail
    else .ok (h, t, u, none)

/-- `merge` (xhash:1357-1411) with `this != &_That`. -/
def merge (P : Par α K) (h : Hp α) (t u : Tab) (env : List (Bool × Option Nat)) : R (Hp α × Tab × Tab × Option Exc) := do
  let n ← nd h u.con.hd
  mergeLoop P (u.con.size + 1) h t u n.next env

end STL.UH
