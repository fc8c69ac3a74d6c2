/-!
# C53: vector<bool> (stl/inc/vector)

Memory is a function from word indices to words of 32 bits; `n` words exist, and every access checks that. Undefined
behaviour (accesses outside, shift counts of 32 or more, differences below zero) is `none`. Source and destination of a
copy lie in one memory: two vectors are two disjoint parts of it.
-/

namespace STL.VBool

/-- `_Vbase` is `unsigned int` (stl/inc/vector:2269). -/
abbrev Word := BitVec 32
abbrev Mem := Nat → Word

/-- Checked load. -/
def ld (n : Nat) (m : Mem) (p : Nat) : Option Word := if p < n then some (m p) else none
/-- Checked store. -/
def st (n : Nat) (m : Mem) (p : Nat) (v : Word) : Option Mem :=
  if p < n then some (fun q => if q = p then v else m q) else none
/-- `x << k`. -/
def shl (x : Word) (k : Nat) : Option Word := if k < 32 then some (x <<< k) else none
/-- `x >> k`. -/
def shr (x : Word) (k : Nat) : Option Word := if k < 32 then some (x >>> k) else none
/-- A difference of unsigned numbers that is used as a shift count. -/
def sub (a b : Nat) : Option Nat := if b ≤ a then some (a - b) else none

/-- stl/inc/vector:2430-2470 `_Vb_iter_base`: `_Myptr` and `_Myoff`. -/
structure It where
  ptr : Nat
  off : Nat
deriving DecidableEq

/-- stl/inc/vector:2607-2615 `operator+=` with a non-negative argument. -/
def It.add (it : It) (k : Nat) : It := ⟨it.ptr + (it.off + k) / 32, (it.off + k) % 32⟩
/-- stl/inc/vector:2641-2645 `operator-` of iterators in order. -/
def It.diff (a b : It) : Nat := 32 * a.ptr + a.off - (32 * b.ptr + b.off)
/-- stl/inc/vector:3171-3177, 3246-3255: `begin() + i`. -/
def It.at (i : Nat) : It := It.add ⟨0, 0⟩ i

/-- `static_cast<_Vbase>(-1)`. -/
def ones : Word := BitVec.allOnes 32

/-! ## the algorithms -/

/-- The loop of memset over whole words. -/
def setWords (n : Nat) (v : Word) : (cnt p : Nat) → Mem → Option Mem
  | 0, _, m => some m
  | cnt + 1, p, m => (st n m p v).bind (setWords n v cnt (p + 1))

/-- stl/inc/vector:3685-3733 `_Fill_vbool`. -/
def fillVb (n : Nat) (m : Mem) (f l : It) (val : Bool) : Option Mem :=
  if f = l then some m else do
    let fsm ← shl ones f.off
    let fdm := ~~~fsm
    let fv : Word := if val then ones else 0#32
    if f.ptr = l.ptr then
      let k ← sub 32 l.off
      let lsm ← shr ones k
      let x ← ld n m f.ptr
      st n m f.ptr ((x &&& (fdm ||| ~~~lsm)) ||| (fv &&& (fsm &&& lsm)))
    else
      let x ← ld n m f.ptr
      let m ← st n m f.ptr ((x &&& fdm) ||| (fv &&& fsm))
      let c ← sub l.ptr (f.ptr + 1)
      let m ← setWords n fv c (f.ptr + 1) m
      if l.off ≠ 0 then
        let k ← sub 32 l.off
        let lsm ← shr ones k
        let x ← ld n m l.ptr
        st n m l.ptr ((x &&& ~~~lsm) ||| (fv &&& lsm))
      else some m

/-- stl/inc/vector:3857-3877: source within one word. -/
def copyOne (n : Nat) (m : Mem) (f l d e : It) (fsm fdm lsm ldm : Word) (right singleDest : Bool) : Option Mem := do
  let sm := fsm &&& lsm
  let ss ← if right then sub f.off d.off else sub d.off f.off
  let x ← ld n m f.ptr
  let sv ← if right then shr (x &&& sm) ss else shl (x &&& sm) ss
  if singleDest then
    let dm := fdm ||| (if e.off = 0 then 0#32 else ldm)
    let y ← ld n m d.ptr
    st n m d.ptr ((y &&& dm) ||| sv)
  else
    let y ← ld n m d.ptr
    let m ← st n m d.ptr ((y &&& fdm) ||| sv)
    let ls ← sub l.off e.off
    let x ← ld n m f.ptr
    let lsv ← shr (x &&& sm) ls
    let y ← ld n m (d.ptr + 1)
    st n m (d.ptr + 1) ((y &&& ldm) ||| lsv)

/-- stl/inc/vector:3878-3894: source in several words, destination within one. -/
def copyToOne (n : Nat) (m : Mem) (f l d e : It) (fsm fdm lsm ldm : Word) (right : Bool) : Option Mem := do
  let ss ← if right then sub f.off d.off else sub d.off f.off
  let x ← ld n m f.ptr
  let sv ← if right then shr (x &&& fsm) ss else shl (x &&& fsm) ss
  let dm := fdm ||| (if e.off = 0 then 0#32 else ldm)
  if l.off ≠ 0 then
    let ls ← if e.off ≠ 0 then sub e.off l.off else sub 32 l.off
    let z ← ld n m l.ptr
    let lsv ← shl (z &&& lsm) ls
    let y ← ld n m d.ptr
    st n m d.ptr ((y &&& dm) ||| sv ||| lsv)
  else
    let y ← ld n m d.ptr
    st n m d.ptr ((y &&& dm) ||| sv)

/-- stl/inc/vector:3904-3907: word by word, forwards. -/
def copyWords (n : Nat) : (cnt s d : Nat) → Mem → Option Mem
  | 0, _, _, m => some m
  | cnt + 1, s, d, m => (ld n m s).bind fun x => (st n m d x).bind (copyWords n cnt (s + 1) (d + 1))

/-- stl/inc/vector:3898-3916: the path of constant evaluation for equal offsets. -/
def copyAligned (n : Nat) (m : Mem) (f l d : It) (fsm fdm lsm ldm : Word) : Option Mem := do
  let x ← ld n m f.ptr
  let y ← ld n m d.ptr
  let m ← st n m d.ptr ((y &&& fdm) ||| (x &&& fsm))
  let c ← sub l.ptr (f.ptr + 1)
  let m ← copyWords n c (f.ptr + 1) (d.ptr + 1) m
  if l.off ≠ 0 then
    let x ← ld n m l.ptr
    let y ← ld n m (d.ptr + 1 + c)
    st n m (d.ptr + 1 + c) ((y &&& ldm) ||| (x &&& lsm))
  else some m

/-- Byte `b` of the memory (little-endian). -/
def ldByte (n : Nat) (m : Mem) (b : Nat) : Option (BitVec 8) :=
  if b / 4 < n then some (((m (b / 4)) >>> (8 * (b % 4))).setWidth 8) else none
/-- Store byte `b`. -/
def stByte (n : Nat) (m : Mem) (b : Nat) (v : BitVec 8) : Option Mem :=
  if b / 4 < n then
    some (fun q => if q = b / 4 then
      (m q &&& ~~~((0xFF#32) <<< (8 * (b % 4)))) ||| (v.setWidth 32 <<< (8 * (b % 4))) else m q)
  else none

/-- `_Copy_unchecked` of bytes is memmove: every byte is read from the memory before the call (`m0`). -/
def memmove (n : Nat) (m0 : Mem) : (cnt s d : Nat) → Mem → Option Mem
  | 0, _, _, m => some m
  | cnt + 1, s, d, m => (ldByte n m0 s).bind fun x => (stByte n m d x).bind (memmove n m0 cnt (s + 1) (d + 1))

/-- stl/inc/vector:3919-3951: the path that copies bytes. -/
def copyBytes (n : Nat) (m : Mem) (f l d : It) : Option Mem := do
  let ub := f.off % 8
  let ul := l.off % 8
  let bf := 4 * f.ptr + (f.off - ub) / 8
  let bl := 4 * l.ptr + (l.off - ul) / 8
  let bd := 4 * d.ptr + (d.off - ub) / 8
  let (m, bf, bd) ← if ub ≠ 0 then do
      let y ← ldByte n m bd
      let x ← ldByte n m bf
      let m ← stByte n m bd ((y &&& (BitVec.allOnes 8 >>> (8 - ub))) ||| (x &&& (BitVec.allOnes 8 <<< ub)))
      pure (m, bf + 1, bd + 1)
    else pure (m, bf, bd)
  let c ← sub bl bf
  let m ← memmove n m c bf bd m
  if ul ≠ 0 then
    let y ← ldByte n m (bd + c)
    let x ← ldByte n m bl
    stByte n m (bd + c) ((y &&& (BitVec.allOnes 8 <<< ul)) ||| (x &&& (BitVec.allOnes 8 >>> (8 - ul))))
  else some m

/-- stl/inc/vector:3966-3973: the loop of the right shift. -/
def rightLoop (n : Nat) (s k : Nat) (cm : Word) : (cnt sp dp : Nat) → Mem → Option Mem
  | 0, _, _, m => some m
  | cnt + 1, sp, dp, m => do
    let x ← ld n m sp
    let cv ← shl x k
    let y ← ld n m dp
    let m ← st n m dp ((y &&& cm) ||| cv)
    let x ← ld n m sp
    let sv ← shr x s
    let y ← ld n m (dp + 1)
    let m ← st n m (dp + 1) ((y &&& ~~~cm) ||| sv)
    rightLoop n s k cm cnt (sp + 1) (dp + 1) m

/-- stl/inc/vector:3956-3992: copy with a shift to the right. -/
def copyRight (n : Nat) (m : Mem) (f l d : It) (fsm fdm lsm ldm : Word) : Option Mem := do
  let s ← sub f.off d.off
  let k ← sub 32 s
  let cm ← shr ones s
  let x ← ld n m f.ptr
  let v ← shr (x &&& fsm) s
  let y ← ld n m d.ptr
  let m ← st n m d.ptr ((y &&& fdm) ||| v)
  let c ← sub l.ptr (f.ptr + 1)
  let m ← rightLoop n s k cm c (f.ptr + 1) d.ptr m
  let dp := d.ptr + c
  if l.off ≠ 0 then
    let x ← ld n m l.ptr
    let cv ← shl (x &&& lsm) k
    if s ≤ l.off then
      let y ← ld n m dp
      let m ← st n m dp ((y &&& cm) ||| cv)
      if l.off ≠ s then
        let x ← ld n m l.ptr
        let sv ← shr (x &&& lsm) s
        let y ← ld n m (dp + 1)
        st n m (dp + 1) ((y &&& ldm) ||| sv)
      else some m
    else
      let y ← ld n m dp
      st n m dp ((y &&& (cm ||| ldm)) ||| cv)
  else some m

/-- stl/inc/vector:4003-4008: the loop of the left shift. -/
def leftLoop (n : Nat) (s k : Nat) : (cnt sp dp : Nat) → Word → Mem → Option (Mem × Word)
  | 0, _, _, cv, m => some (m, cv)
  | cnt + 1, sp, dp, cv, m => do
    let x ← ld n m sp
    let sv ← shl x s
    let m ← st n m dp (cv ||| sv)
    let x ← ld n m sp
    let cv ← shr x k
    leftLoop n s k cnt (sp + 1) (dp + 1) cv m

/-- stl/inc/vector:3993-4028: copy with a shift to the left. -/
def copyLeft (n : Nat) (m : Mem) (f l d : It) (fsm fdm lsm ldm : Word) : Option Mem := do
  let s ← sub d.off f.off
  let k ← sub 32 s
  let x ← ld n m f.ptr
  let v ← shl (x &&& fsm) s
  let y ← ld n m d.ptr
  let m ← st n m d.ptr ((y &&& fdm) ||| v)
  let x ← ld n m f.ptr
  let cv ← shr x k
  let c ← sub l.ptr (f.ptr + 1)
  let (m, cv) ← leftLoop n s k c (f.ptr + 1) (d.ptr + 1) cv m
  let dp := d.ptr + 1 + c
  if k ≤ l.off then
    let x ← ld n m l.ptr
    let sv ← shl x s
    let m ← st n m dp (cv ||| sv)
    let x ← ld n m l.ptr
    let cv ← shr x k
    if l.off ≠ k then
      let y ← ld n m (dp + 1)
      st n m (dp + 1) ((y &&& ldm) ||| (cv &&& ~~~ldm))
    else some m
  else if l.off ≠ 0 then
    let x ← ld n m l.ptr
    let lsv ← shl (x &&& lsm) s
    let y ← ld n m dp
    st n m dp ((y &&& ldm) ||| cv ||| lsv)
  else
    let y ← ld n m dp
    st n m dp ((y &&& ldm) ||| cv)

/-- stl/inc/vector:3845-3846 `_FirstDestMask`, `_LastSourceMask`. -/
def lowBits (o : Nat) : Option Word := if o = 0 then some 0#32 else (sub 32 o).bind (shr ones)

/-- stl/inc/vector:3832-4032 `_Copy_vbool`; `ce` is `is_constant_evaluated()`. -/
def copyVb (ce : Bool) (n : Nat) (m : Mem) (f l d : It) : Option Mem :=
  if f = l then some m else do
    let e := d.add (l.diff f)
    let fsm ← shl ones f.off
    let fdm ← lowBits d.off
    let lsm ← lowBits l.off
    let ldm ← shl ones e.off
    let right := decide (d.off < f.off)
    let singleDest := decide (d.ptr + (if e.off = 0 then 1 else 0) = e.ptr)
    if f.ptr = l.ptr then copyOne n m f l d e fsm fdm lsm ldm right singleDest
    else if singleDest then copyToOne n m f l d e fsm fdm lsm ldm right
    else if ce = true ∧ d.off = f.off then copyAligned n m f l d fsm fdm lsm ldm
    else if ce = false ∧ f.off % 8 = d.off % 8 then copyBytes n m f l d
    else if right then copyRight n m f l d fsm fdm lsm ldm
    else copyLeft n m f l d fsm fdm lsm ldm

end STL.VBool
