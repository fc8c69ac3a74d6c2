import Verif.Pmr.Model

/-!
# Model of `pmr::unsynchronized_pool_resource`

`/repo/stl/inc/memory_resource:104-214` (intrusive list and stack), `228-564` (the resource); 64-bit target.

Memory is an array of 8-byte words addressed by their first byte (as in `Verif.Pmr.Model`); the headers of chunks, the links in free blocks, the pointers from
blocks to chunks and the headers of oversized allocations are words of this memory, so that overlapping uses of a word are visible. Reading or writing a word
that is misaligned or does not lie in memory obtained from upstream and not yet given back (or in the list head inside the resource itself) is undefined
behaviour, as is giving upstream something else than an outstanding block. `size_t` wraps at `2 ^ 64`; simplified: `_Id` does not wrap (it would need `2 ^ 64`
chunk allocations), and the elements of the vector `_Pools` are kept in a list next to the memory (the buffer of the vector is an upstream block).
A loop that runs more often than there are outstanding upstream blocks is reported as `fuel`; the theorems exclude it.
-/

namespace STL.PoolRes
open STL STL.Pmr

/-- `PTRDIFF_MAX` -/
def ptrdiffMax : Nat := 2 ^ 63 - 1

/-- `_Floor_of_log_2`, `/repo/stl/inc/xbit_ops.h:22-49`. -/
def floorLog2 (v : Nat) : Nat := Nat.log2 (v ||| 1)
/-- `_Ceiling_of_log_2`, `/repo/stl/inc/xbit_ops.h:51-54`. -/
def ceilLog2 (v : Nat) : Nat := 1 + floorLog2 (wrap 8 ((v : Int) - 1))

/-- `pool_options`, `memory_resource:216-219`. -/
structure Opts where
  maxBlocks : Nat
  largest : Nat
  deriving DecidableEq

/-- `_Setup_options`, `memory_resource:531-549`. -/
def setupOptions (o : Opts) : Opts :=
  let maxLimit := ptrdiffMax
  let largestLimit := ptrdiffMax / 2 ^ 4 + 1
  let maxBlocks := if wrap 8 ((o.maxBlocks : Int) - 1) ≥ maxLimit then maxLimit else o.maxBlocks
  let largest :=
    if wrap 8 ((o.largest : Int) - 1) < 8 then 8
    else if wrap 8 ((o.largest : Int) - 1) ≥ largestLimit then largestLimit
    else 2 ^ ceilLog2 o.largest
  ⟨maxBlocks, largest⟩

/-- The upstream resource: the reply to `allocate(size, align)` when the blocks in the list are outstanding; `none`: it throws. -/
abbrev Up := List Blk → Nat → Nat → Option Nat

/-- The word at `a` may be accessed: it lies in the list head `_Chunks._Head` (two words at `self`) or in an outstanding upstream block. -/
def can (self : Nat) (h : Heap) (a : Nat) : Bool := a = self || a = self + 8 || h.owns 8 a
/-- Read a word. -/
def ld (self : Nat) (h : Heap) (a : Nat) : R Nat := if can self h a then .ok (h.mem a) else .error .ub
/-- Memory with one word changed. -/
def upd (m : Words) (a v : Nat) : Words := fun x => if x = a then v else m x
/-- Write a word. -/
def st (self : Nat) (h : Heap) (a v : Nat) : R Heap := if can self h a then .ok ⟨upd h.mem a v, h.ups⟩ else .error .ub

/-! ## `_Intrusive_list` (links: `_Next` at 0, `_Prev` at 8) -/

/-- `_Push_front`, `memory_resource:132-138`. -/
def pushFront (self : Nat) (h : Heap) (p : Nat) : R Heap := do
  let nx ← ld self h self
  let h ← st self h p nx
  let nx ← ld self h self
  let h ← st self h (nx + 8) p
  let h ← st self h (p + 8) self
  st self h self p

/-- `_Remove`, `memory_resource:140-144`. -/
def removeDouble (self : Nat) (h : Heap) (p : Nat) : R Heap := do
  let nx ← ld self h p
  let pv ← ld self h (p + 8)
  let h ← st self h (nx + 8) pv
  let pv ← ld self h (p + 8)
  let nx ← ld self h p
  st self h pv nx

/-! ## Oversized allocations: `_Oversized_header` is `_Next`, `_Prev`, `_Size`, `_Align` -/

/-- `_Prepare_oversized`, `memory_resource:325-341`: the adjusted size and alignment. -/
def prepareOversized (bytes al : Nat) : Option (Nat × Nat) :=
  let al := max al 8
  if bytes > wrap 8 ((2 ^ 64 - 1 : Int) - 32 - 8 + 1) then none
  else some (wrap 8 ((bytes : Int) + 32 + 8 - 1) &&& (2 ^ 64 - 1 - (8 - 1)), al)

/-- `_Allocate_oversized`, `memory_resource:343-360`. -/
def allocateOversized (self : Nat) (h : Heap) (bytes al : Nat) (up : Up) : R (Heap × Except Exc Nat) :=
  match prepareOversized bytes al with
  | none => .ok (h, .error .badAlloc)
  | some (bytes, al) =>
    match up h.ups bytes al with
    | none => .ok (h, .error .badAlloc)
    | some p => do
      let h : Heap := ⟨h.mem, ⟨p, bytes, al⟩ :: h.ups⟩
      let hdr := p + bytes - 32
      let h ← st self h (hdr + 16) bytes
      let h ← st self h (hdr + 24) al
      let h ← pushFront self h hdr
      .ok (h, .ok p)

/-- `_Deallocate_oversized`, `memory_resource:362-376`. -/
def deallocateOversized (self : Nat) (h : Heap) (p bytes al : Nat) : R Heap :=
  match prepareOversized bytes al with
  | none => .error .ub
  | some (bytes, al) => do
    let hdr := p + bytes - 32
    let sz ← ld self h (hdr + 16)
    let a ← ld self h (hdr + 24)
    -- `_STL_ASSERT`
    if ¬(sz = bytes ∧ a = al) then .error .ub
    else do
      let h ← removeDouble self h hdr
      h.dealloc p bytes al

/-! ## Pools. `_Chunk` is `_Next`, `_Free_blocks`, `_Free_count`, `_Capacity`, `_Base`, `_Next_available`, `_Id` -/

/-- The members of `_Pool`, `memory_resource:397-403`. -/
structure PoolRec where
  unfull : Nat
  head : Nat
  nextCap : Nat
  bsize : Nat
  log : Nat
  empty : Nat
  deriving DecidableEq

/-- `_Pool(size_t)`, `memory_resource:408-411`. -/
def PoolRec.make (log : Nat) : PoolRec := ⟨0, 0, 4, 2 ^ log % 2 ^ 64, log, 0⟩

/-- `_Size_for_capacity`, `memory_resource:503-506`. -/
def sizeFor (log cap : Nat) : Nat := wrap 8 ((wrap 8 (cap * 2 ^ log) : Nat) + 56)

/-- The `_Id` of a new chunk, `memory_resource:389`. -/
def newId (self : Nat) (h : Heap) (head : Nat) : R Nat :=
  if head = 0 then .ok 0 else do
    let i ← ld self h (head + 48)
    .ok (i + 1)

/-- `_Increase_capacity`, `memory_resource:508-528`, with the constructor of `_Chunk`, `memory_resource:387-391`, and `_Push`, `191-195`. -/
def increaseCapacity (self : Nat) (o : Opts) (h : Heap) (p : PoolRec) (up : Up) : R (Heap × PoolRec × Except Exc Unit) :=
  let nc := if p.nextCap > o.maxBlocks then o.maxBlocks else p.nextCap
  let size := sizeFor p.log nc
  match up h.ups size p.bsize with
  | none => .ok (h, ⟨p.unfull, p.head, nc, p.bsize, p.log, p.empty⟩, .error .badAlloc)
  | some b => do
    let h : Heap := ⟨h.mem, ⟨b, size, p.bsize⟩ :: h.ups⟩
    let c := b + size - 56
    let h ← st self h (c + 8) 0
    let h ← st self h (c + 16) nc
    let h ← st self h (c + 24) nc
    let h ← st self h (c + 32) b
    let h ← st self h (c + 40) 0
    let id ← newId self h p.head
    let h ← st self h (c + 48) id
    let h ← st self h c p.head
    let next := min (wrap 8 (nc * 2)) (min ((ptrdiffMax - 56) / 2 ^ p.log) o.maxBlocks)
    .ok (h, ⟨c, c, next, p.bsize, p.log, c⟩, .ok ())

/-- `if (_Unfull_chunk == _Empty_chunk) _Empty_chunk = nullptr; --_Unfull_chunk->_Free_count;`, `memory_resource:449-452`, `457-460`. -/
def takeOne (self : Nat) (h : Heap) (p : PoolRec) : R (Heap × PoolRec) := do
  let fc ← ld self h (p.unfull + 16)
  let h ← st self h (p.unfull + 16) (wrap 8 ((fc : Int) - 1))
  .ok (h, ⟨p.unfull, p.head, p.nextCap, p.bsize, p.log, if p.unfull = p.empty then 0 else p.empty⟩)

/-- The second part of the body of the loop of `_Allocate`, `memory_resource:456-465`: `none` if the chunk has no block that has never been allocated. -/
def bump (self : Nat) (h : Heap) (p : PoolRec) : R (Option (Heap × PoolRec × Nat)) := do
  let na ← ld self h (p.unfull + 40)
  let cap ← ld self h (p.unfull + 24)
  if na < cap then do
    let (h, p) ← takeOne self h p
    let base ← ld self h (p.unfull + 32)
    let na ← ld self h (p.unfull + 40)
    let block := base + na * p.bsize
    let h ← st self h (p.unfull + 40) (na + 1)
    let h ← st self h (block + p.bsize - 8) p.unfull
    .ok (some (h, p, block))
  else .ok none

/-- The loop of `_Allocate`, `memory_resource:444-467`; `_Pop`, `197-201`. -/
def allocLoop (self : Nat) (o : Opts) (up : Up) : Nat → Heap → PoolRec → R (Heap × PoolRec × Except Exc Nat)
  | 0, _, _ => .error .fuel
  | f + 1, h, p => do
    if p.unfull = 0 then do
      let (h, p, r) ← increaseCapacity self o h p up
      match r with
      | .error e => .ok (h, p, .error e)
      | .ok () => do
        match ← bump self h p with
        | some (h, p, b) => .ok (h, p, .ok b)
        | none => do
          let nx ← ld self h p.unfull
          allocLoop self o up f h ⟨nx, p.head, p.nextCap, p.bsize, p.log, p.empty⟩
    else do
      let fb ← ld self h (p.unfull + 8)
      if fb ≠ 0 then do
        let (h, p) ← takeOne self h p
        let b ← ld self h (p.unfull + 8)
        let nx ← ld self h b
        let h ← st self h (p.unfull + 8) nx
        .ok (h, p, .ok b)
      else do
        match ← bump self h p with
        | some (h, p, b) => .ok (h, p, .ok b)
        | none => do
          let nx ← ld self h p.unfull
          allocLoop self o up f h ⟨nx, p.head, p.nextCap, p.bsize, p.log, p.empty⟩

/-- `*_Link`: the link is `&_Head` if `prev = 0`, otherwise `&prev->_Next`. -/
def linkOf (self : Nat) (h : Heap) (head prev : Nat) : R Nat := if prev = 0 then .ok head else ld self h prev

/-- The loop of `_Remove` of the stack `_All_chunks`, `memory_resource:203-211`: `prev = 0` stands for `&_Head`, otherwise the link is `&prev->_Next`; the
result is the new `_Head`. -/
def removeLoop (self : Nat) (item : Nat) : Nat → Heap → Nat → Nat → R (Heap × Nat)
  | 0, _, _, _ => .error .fuel
  | f + 1, h, head, prev => do
    let cur ← linkOf self h head prev
    if cur = 0 then .ok (h, head)
    else if cur = item then do
      let nx ← ld self h item
      if prev = 0 then .ok (h, nx)
      else do
        let h ← st self h prev nx
        .ok (h, head)
    else removeLoop self item f h head cur

/-- `_Deallocate`, `memory_resource:469-501`, with `_Push`, `191-195`. -/
def poolDealloc (self : Nat) (h : Heap) (p : PoolRec) (ptr : Nat) : R (Heap × PoolRec) := do
  let cur ← ld self h (ptr + p.bsize - 8)
  let hd ← ld self h (cur + 8)
  let h ← st self h ptr hd
  let h ← st self h (cur + 8) ptr
  let fc ← ld self h (cur + 16)
  let h ← st self h (cur + 16) (wrap 8 ((fc : Int) + 1))
  if fc = 0 then do
    if p.unfull = 0 then .ok (h, ⟨cur, p.head, p.nextCap, p.bsize, p.log, p.empty⟩)
    else do
      let a ← ld self h (p.unfull + 48)
      let b ← ld self h (cur + 48)
      if a < b then .ok (h, ⟨cur, p.head, p.nextCap, p.bsize, p.log, p.empty⟩) else .ok (h, p)
  else do
    let fc ← ld self h (cur + 16)
    let cap ← ld self h (cur + 24)
    if fc < cap then .ok (h, p)
    else if p.empty = 0 then .ok (h, ⟨p.unfull, p.head, p.nextCap, p.bsize, p.log, cur⟩)
    else do
      let a ← ld self h (p.empty + 48)
      let b ← ld self h (cur + 48)
      let gone := if a < b then p.empty else cur
      let keep := if a < b then cur else p.empty
      let (h, head) ← removeLoop self gone (h.ups.length + 1) h p.head 0
      let base ← ld self h (gone + 32)
      let cap ← ld self h (gone + 24)
      let h ← h.dealloc base (sizeFor p.log cap) p.bsize
      .ok (h, ⟨p.unfull, head, p.nextCap, p.bsize, p.log, keep⟩)

/-- The loop of `_Clear`, `memory_resource:429-442`, on the stack taken out of the pool. -/
def clearLoop (self : Nat) (log bsize : Nat) : Nat → Heap → Nat → R Heap
  | 0, _, _ => .error .fuel
  | f + 1, h, c =>
    if c = 0 then .ok h
    else do
      let nx ← ld self h c
      let base ← ld self h (c + 32)
      let cap ← ld self h (c + 24)
      let h ← h.dealloc base (sizeFor log cap) bsize
      clearLoop self log bsize f h nx

/-! ## The resource -/

/-- The members of the resource other than the list head (which is in memory at `self`), `memory_resource:561-563`; `vaddr`, `vcap`: buffer and capacity of
the vector `_Pools`. -/
structure Res where
  opts : Opts
  vaddr : Nat
  vcap : Nat
  pools : List PoolRec
  deriving DecidableEq

/-- `_Find_pool`, the wanted `_Log_of_size`, `memory_resource:551-555`. -/
def logOf (bytes al : Nat) : Nat := ceilLog2 (max (wrap 8 (bytes + 8)) al) % 2 ^ 8

/-- `_Find_pool`, the position: `lower_bound` on the pools, which are sorted by `_Log_of_size` (`memory_resource:556-558`; see C05 for `lower_bound`). -/
def findPool (pools : List PoolRec) (lg : Nat) : Nat := pools.findIdx fun p => ¬ p.log < lg

/-- The vector `_Pools` gives its buffer back. -/
def freeVec (h : Heap) (s : Res) : R Heap := if s.vcap = 0 then .ok h else h.dealloc s.vaddr (s.vcap * 48) 8

/-- `_Pools.emplace(where, log)`, `vector:877-919` (reallocation: `_Calculate_growth`, the new buffer is obtained before the old one is given back). `none`:
the upstream resource throws and nothing has changed. `sizeof(_Pool)` is 48. -/
def emplacePool (h : Heap) (s : Res) (i lg : Nat) (up : Up) : R (Option (Heap × Res)) :=
  if s.pools.length = s.vcap then
    let newCap := max (s.vcap + s.vcap / 2) (s.pools.length + 1)
    match up h.ups (newCap * 48) 8 with
    | none => .ok none
    | some a => do
      let h : Heap := ⟨h.mem, ⟨a, newCap * 48, 8⟩ :: h.ups⟩
      let h ← freeVec h s
      .ok (some (h, ⟨s.opts, a, newCap, s.pools.insertIdx i (PoolRec.make lg)⟩))
  else .ok (some (h, ⟨s.opts, s.vaddr, s.vcap, s.pools.insertIdx i (PoolRec.make lg)⟩))

/-- `_Result.first->_Allocate(*this)` -/
def allocIn (self : Nat) (h : Heap) (s : Res) (i : Nat) (up : Up) : R (Heap × Res × Except Exc Nat) :=
  match s.pools[i]? with
  | none => .error .ub
  | some p => do
    let (h, p, r) ← allocLoop self s.opts up (h.ups.length + 2) h p
    .ok (h, ⟨s.opts, s.vaddr, s.vcap, s.pools.set i p⟩, r)

/-- `do_allocate`, `memory_resource:285-296`. -/
def doAllocate (self : Nat) (h : Heap) (s : Res) (bytes al : Nat) (up : Up) : R (Heap × Res × Except Exc Nat) :=
  if bytes ≤ s.opts.largest then
    let lg := logOf bytes al
    let i := findPool s.pools lg
    if (s.pools[i]?).map (·.log) = some lg then allocIn self h s i up
    else do
      match ← emplacePool h s i lg up with
      | none => .ok (h, s, .error .badAlloc)
      | some (h, s) => allocIn self h s i up
  else do
    let (h, r) ← allocateOversized self h bytes al up
    .ok (h, s, r)

/-- `do_deallocate`, `memory_resource:298-308`. -/
def doDeallocate (self : Nat) (h : Heap) (s : Res) (ptr bytes al : Nat) : R (Heap × Res) :=
  if bytes ≤ s.opts.largest then
    let lg := logOf bytes al
    let i := findPool s.pools lg
    match s.pools[i]? with
    | none => .ok (h, s)
    | some p =>
      if p.log = lg then do
        let (h, p) ← poolDealloc self h p ptr
        .ok (h, ⟨s.opts, s.vaddr, s.vcap, s.pools.set i p⟩)
      else .ok (h, s)
  else do
    let h ← deallocateOversized self h ptr bytes al
    .ok (h, s)

/-- `_Al._Clear(*this)` for every pool, `memory_resource:268-270`. -/
def clearPools (self : Nat) (h : Heap) : List PoolRec → R Heap
  | [] => .ok h
  | p :: ps => do
    let h ← clearLoop self p.log p.bsize (h.ups.length + 1) h p.head
    clearPools self h ps

/-- The loop over the oversized allocations, `memory_resource:277-281`; `_Base_address`, `316-318`. -/
def overLoop (self : Nat) : Nat → Heap → Nat → R Heap
  | 0, _, _ => .error .fuel
  | f + 1, h, c =>
    if c = self then .ok h
    else do
      let nx ← ld self h c
      let size ← ld self h (c + 16)
      let al ← ld self h (c + 24)
      let h ← h.dealloc (c + 32 - size) size al
      overLoop self f h nx

/-- `release`, `memory_resource:266-282`; also the destructor, `251-254`. -/
def release (self : Nat) (h : Heap) (s : Res) : R (Heap × Res) := do
  let h ← clearPools self h s.pools
  -- `_Pools.clear(); _Pools.shrink_to_fit();`
  let h ← freeVec h s
  let p ← ld self h self
  -- `_Chunks._Clear()`, `memory_resource:146-149`
  let h ← st self h self self
  let h ← st self h (self + 8) self
  let h ← overLoop self (h.ups.length + 1) h p
  .ok (h, ⟨s.opts, 0, 0, []⟩)

/-- The constructors, `memory_resource:229-246`: `_Chunks._Head` points to itself. -/
def make (self : Nat) (m : Words) (o : Opts) : Heap × Res := (⟨upd (upd m self self) (self + 8) self, []⟩, ⟨setupOptions o, 0, 0, []⟩)

end STL.PoolRes
