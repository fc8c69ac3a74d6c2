import Verif.Base

/-!
# Model of `pmr::monotonic_buffer_resource`

`/repo/stl/inc/memory_resource:592-748`, `std::align` in `/repo/stl/inc/xmemory:2732-2747`.

Memory is an array of machine words of `ws` bytes (`ws` = 4 or 8) addressed by their first byte; the address 0 is the null pointer; `size_t` wraps at
`2 ^ (8 * ws)`. The upstream resource is an arbitrary function from a request to an address or failure; its bookkeeping (`ups`: the blocks it has given to this
resource and not got back) is part of the state, and giving back something else than an outstanding block is undefined behaviour. Reading or writing a word
which is misaligned or not inside an outstanding block is undefined behaviour.
-/

namespace STL.Pmr
open STL

/-- A block of memory: address, size and alignment. -/
structure Blk where
  addr : Nat
  size : Nat
  align : Nat
  deriving DecidableEq

/-- Memory words. -/
abbrev Words := Nat → Nat

/-- Memory and the outstanding upstream blocks. -/
structure Heap where
  mem : Words
  ups : List Blk

/-- The word at `a` lies inside an outstanding block and is aligned. -/
def Heap.owns (ws : Nat) (h : Heap) (a : Nat) : Bool := a % ws = 0 && h.ups.any fun b => b.addr ≤ a && a + ws ≤ b.addr + b.size

/-- Read a word. -/
def Heap.ld (ws : Nat) (h : Heap) (a : Nat) : R Nat := if h.owns ws a then .ok (h.mem a) else .error .ub
/-- Write a word. -/
def Heap.st (ws : Nat) (h : Heap) (a v : Nat) : R Heap := if h.owns ws a then .ok ⟨fun x => if x = a then v else h.mem x, h.ups⟩ else .error .ub

/-- The upstream resource: reply to `allocate(size, align)`. -/
abbrev Upstream := Nat → Nat → Option Nat

/-- `_Resource->deallocate(p, size, align)` -/
def Heap.dealloc (h : Heap) (p size align : Nat) : R Heap :=
  if ⟨p, size, align⟩ ∈ h.ups then .ok ⟨h.mem, h.ups.erase ⟨p, size, align⟩⟩ else .error .ub

/-- `size_t` arithmetic. -/
def wrap (ws : Nat) (v : Int) : Nat := (v % 2 ^ (8 * ws)).toNat

/-- `align`, `xmemory:2732-2747`: the new pointer and space; `none` if the result is a null pointer (then nothing has changed unless the pointer was null). -/
def align (ws bound size ptr space : Nat) : Option (Nat × Nat) :=
  let off := ptr &&& wrap ws ((bound : Int) - 1)
  let off := if off ≠ 0 then wrap ws ((bound : Int) - off) else off
  if space < off ∨ wrap ws ((space : Int) - off) < size then none
  else if ptr + off = 0 then none
  else some (ptr + off, wrap ws ((space : Int) - off))

/-! ## `monotonic_buffer_resource` -/

/-- `sizeof(_Header)`, `memory_resource:667-676`: three words. -/
def hdrSize (ws : Nat) : Nat := 3 * ws
/-- `_Min_allocation`, `memory_resource:678`. -/
def minAllocation (ws : Nat) : Nat := 2 * hdrSize ws
/-- `_Max_allocation`, `memory_resource:679`; `alignof(_Header)` is `ws`. -/
def maxAllocation (ws : Nat) : Nat := wrap ws (0 - (ws : Int))

/-- `_Round`, `memory_resource:681-695`. -/
def round (ws size : Nat) : Nat :=
  if size < minAllocation ws then minAllocation ws
  else if size ≥ maxAllocation ws then maxAllocation ws
  else wrap ws (size + ws - 1) &&& maxAllocation ws

/-- `_Scale`, `memory_resource:697-710`. -/
def scale (ws size : Nat) : Nat :=
  let maxSize := wrap ws (wrap ws ((maxAllocation ws : Int) - ws + 1) / 3 * 2)
  if size ≥ maxSize then maxAllocation ws
  else wrap ws (size + (size + 1) / 2 + ws - 1) &&& maxAllocation ws

/-- The members, `memory_resource:738-742`. -/
structure Mono where
  cur : Nat
  space : Nat
  next : Nat
  head : Nat

/-- The constructors without a buffer, `memory_resource:594-601`, `611-614` (`none`: no initial size given). -/
def Mono.make (ws : Nat) (initial : Option Nat) : Mono :=
  ⟨0, 0, match initial with
    | none => minAllocation ws
    | some n => round ws n, 0⟩

/-- The constructors with a buffer, `memory_resource:603-609`, `616-620`. -/
def Mono.makeBuf (ws buf size : Nat) : Mono := ⟨buf, size, if size ≠ 0 then scale ws size else minAllocation ws, 0⟩

/-- `_Increase_capacity`, `memory_resource:712-736`. A failed upstream allocation throws before anything is changed. -/
def increaseCapacity (ws : Nat) (h : Heap) (s : Mono) (bytes al : Nat) (up : Upstream) : R (Heap × Except Exc Mono) :=
  if bytes > wrap ws ((maxAllocation ws : Int) - hdrSize ws) then .ok (h, .error .badAlloc)
  else
    let newSize := if s.next < wrap ws (bytes + hdrSize ws) then wrap ws (bytes + hdrSize ws + ws - 1) &&& maxAllocation ws else s.next
    let newAlign := max ws al
    match up newSize newAlign with
    | none => .ok (h, .error .badAlloc)
    | some p => do
      let h : Heap := ⟨h.mem, ⟨p, newSize, newAlign⟩ :: h.ups⟩
      let space := wrap ws ((newSize : Int) - hdrSize ws)
      let hdr := p + space
      -- `::new (_New_buffer) _Header{_New_size, _New_align}`, then `_Push` (`memory_resource:195-199`)
      let h ← h.st ws (hdr + ws) newSize
      let h ← h.st ws (hdr + 2 * ws) newAlign
      let h ← h.st ws hdr s.head
      .ok (h, .ok ⟨p, space, scale ws newSize, hdr⟩)

/-- `do_allocate`, `memory_resource:652-662`. -/
def doAllocate (ws : Nat) (h : Heap) (s : Mono) (bytes al : Nat) (up : Upstream) : R (Heap × Mono × Except Exc Nat) :=
  match align ws al bytes s.cur s.space with
  | some (p, sp) => .ok (h, ⟨p + bytes, wrap ws ((sp : Int) - bytes), s.next, s.head⟩, .ok p)
  | none => do
    let (h, r) ← increaseCapacity ws h s bytes al up
    match r with
    | .error e => .ok (h, s, .error e)
    | .ok s => .ok (h, ⟨s.cur + bytes, wrap ws ((s.space : Int) - bytes), s.next, s.head⟩, .ok s.cur)

/-- The loop of `release`, `memory_resource:639-642`: pop a header (`_Pop`, `memory_resource:201-205`), give its block back. -/
def releaseLoop (ws : Nat) : Nat → Heap → Nat → R Heap
  | 0, _, _ => .error .fuel
  | f + 1, h, p =>
    if p = 0 then .ok h
    else do
      let nx ← h.ld ws p
      let size ← h.ld ws (p + ws)
      let al ← h.ld ws (p + 2 * ws)
      -- `_Base_address`, `memory_resource:673-675`
      let h ← h.dealloc (wrap ws ((p : Int) + hdrSize ws - size)) size al
      releaseLoop ws f h nx

/-- `release`, `memory_resource:626-644`; also the destructor, `622-624`. The fuel is the number of outstanding blocks plus one. -/
def release (ws : Nat) (h : Heap) (s : Mono) : R (Heap × Mono) :=
  if s.head = 0 then .ok (h, s)
  else do
    let unscaled := wrap ws (s.next / 3 * 2 + ws - 1) &&& maxAllocation ws
    let h ← releaseLoop ws (h.ups.length + 1) h s.head
    .ok (h, ⟨0, 0, max unscaled (minAllocation ws), 0⟩)

end STL.Pmr
