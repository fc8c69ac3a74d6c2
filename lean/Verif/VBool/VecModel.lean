import Verif.VBool.Model

/-!
The container `vector<bool>` (stl/inc/vector).
-/

namespace STL.VBool

/-- stl/inc/vector:2824-2909 `_Vb_val`: `_Myvec` (its size and words) and `_Mysize`. -/
structure Vb where
  n : Nat
  m : Mem
  size : Nat

/-- stl/inc/vector:2896-2898 `_Nw`. -/
def nw (count : Nat) : Nat := (count + 32 - 1) / 32

/-- stl/inc/vector:2472-2540 `_Vb_reference`: read. -/
def getBit (n : Nat) (m : Mem) (it : It) : Option Bool := do
  let x ← ld n m it.ptr
  let k ← shl 1#32 it.off
  pure (decide (x &&& k ≠ 0#32))
/-- stl/inc/vector:2479-2497 `_Vb_reference::operator=`. -/
def setBit (n : Nat) (m : Mem) (it : It) (b : Bool) : Option Mem := do
  let x ← ld n m it.ptr
  let k ← shl 1#32 it.off
  st n m it.ptr (if b then x ||| k else x &&& ~~~k)

/-- `_Myvec.resize(w, 0)` (the vector of words is the subject of C09). -/
def Vb.resizeWords (v : Vb) (w : Nat) : Vb := ⟨w, fun p => if p < v.n then v.m p else 0#32, v.size⟩

/-- stl/inc/vector:3617-3635 `_Trim`; `none` also stands for `_Xlen`, which no caller reaches. -/
def Vb.trim (mx : Nat) (v : Vb) (size : Nat) : Option Vb :=
  if mx < size then none
  else
    let words := nw size
    let v : Vb := ⟨if words < v.n then words else v.n, v.m, size⟩
    if 0 < size % 32 then do
      let k ← shl 1#32 (size % 32)
      let w ← sub words 1
      let x ← ld v.n v.m w
      let m ← st v.n v.m w (x &&& (k - 1#32))
      pure ⟨v.n, m, size⟩
    else some v

/-- `copy_backward` on bits: `cnt` bits ending before `s` go to the bits ending before `d` (stl/inc/xutility,
`_Copy_backward_unchecked`, the loop `*--_Dest = *--_Last`). -/
def copyBack (n : Nat) : (cnt s d : Nat) → Mem → Option Mem
  | 0, _, _, m => some m
  | cnt + 1, s, d, m =>
    (getBit n m (It.at (s - 1))).bind fun b => (setBit n m (It.at (d - 1)) b).bind (copyBack n cnt (s - 1) (d - 1))

/-- Result of an operation that may throw `length_error`. -/
inductive Res where
  | ok (v : Vb)
  | tooLong (v : Vb)

/-- stl/inc/vector:3543-3571 `_Insert_x(begin() + off, count)`; `mx` is `max_size()`. -/
def Vb.insertX (mx : Nat) (v : Vb) (off count : Nat) : Option Res :=
  if count ≠ 0 then
    if mx - v.size < count then some (.tooLong v)
    else
      let w := v.resizeWords (nw (v.size + count))
      if v.size = 0 then some (.ok ⟨w.n, w.m, count⟩)
      else (copyBack w.n (v.size - off) v.size (v.size + count) w.m).map fun m => .ok ⟨w.n, m, v.size + count⟩
  else some (.ok v)

/-- stl/inc/vector:3536-3541 `_Insert_n`: `insert(pos, count, val)`; also `push_back`, `insert(pos, val)`. -/
def Vb.insertN (mx : Nat) (v : Vb) (off count : Nat) (val : Bool) : Option Res :=
  (v.insertX mx off count).bind fun r => match r with
    | .tooLong v => some (.tooLong v)
    | .ok v => (fillVb v.n v.m (It.at off) ((It.at off).add count) val).map fun m => .ok ⟨v.n, m, v.size⟩

/-- Element-wise copy into the vector. -/
def putBits (n : Nat) : (l : List Bool) → (d : Nat) → Mem → Option Mem
  | [], _, m => some m
  | b :: l, d, m => (setBit n m (It.at d) b).bind (putBits n l (d + 1))

/-- stl/inc/vector:3421-3450 `insert(pos, first, last)` with forward iterators that are not of vector<bool>. -/
def Vb.insertRange (mx : Nat) (v : Vb) (off : Nat) (l : List Bool) : Option Res :=
  (v.insertX mx off l.length).bind fun r => match r with
    | .tooLong v => some (.tooLong v)
    | .ok v => (putBits v.n l off v.m).map fun m => .ok ⟨v.n, m, v.size⟩

/-- stl/inc/vector:3481-3497 `erase(pos)`; also `pop_back`. -/
def Vb.erase1 (ce : Bool) (mx : Nat) (v : Vb) (off : Nat) : Option Vb := do
  let m ← copyVb ce v.n v.m (It.at (off + 1)) (It.at v.size) (It.at off)
  let sz ← sub v.size 1
  Vb.trim mx ⟨v.n, m, v.size⟩ sz

/-- stl/inc/vector:3499-3520 `erase(first, last)`: the new size is the distance of the end of the copy from the begin. -/
def Vb.erase (ce : Bool) (mx : Nat) (v : Vb) (a b : Nat) : Option Vb :=
  if It.at a ≠ It.at b then do
    let m ← copyVb ce v.n v.m (It.at b) (It.at v.size) (It.at a)
    let next := (It.at a).add ((It.at v.size).diff (It.at b))
    Vb.trim mx ⟨v.n, m, v.size⟩ (next.diff (It.at 0))
  else some v

/-- stl/inc/vector:3191-3197 `resize(size, val)`. -/
def Vb.resize (ce : Bool) (mx : Nat) (v : Vb) (size : Nat) (val : Bool) : Option Res :=
  if v.size < size then v.insertN mx v.size (size - v.size) val
  else if size < v.size then (v.erase ce mx size v.size).map .ok
  else some (.ok v)

/-- stl/inc/vector:3522-3526 `clear()`. -/
def Vb.clear (v : Vb) : Vb := ⟨0, v.m, 0⟩

/-- stl/inc/vector:3528-3534 `flip()`. -/
def Vb.flip (mx : Nat) (v : Vb) : Option Vb := Vb.trim mx ⟨v.n, fun p => ~~~(v.m p), v.size⟩ v.size

/-- stl/inc/vector:3406-3409 `assign(count, val)`. -/
def Vb.assignN (mx : Nat) (v : Vb) (count : Nat) (val : Bool) : Option Res := v.clear.insertN mx 0 count val

/-- stl/inc/vector:2942-2955 `vector(count, val)`. -/
def Vb.make (mx : Nat) (count : Nat) (val : Bool) : Option Vb :=
  Vb.trim mx ⟨nw count, fun _ => if val then ones else 0#32, 0⟩ count

/-- stl/inc/vector:3246-3255 `operator[](i)`. -/
def Vb.get (v : Vb) (i : Nat) : Option Bool := getBit v.n v.m (It.at i)
/-- stl/inc/vector:3257-3266 `operator[](i) = b`. -/
def Vb.set (v : Vb) (i : Nat) (b : Bool) : Option Vb := (setBit v.n v.m (It.at i) b).map fun m => ⟨v.n, m, v.size⟩

/-- stl/inc/vector:2273-2281 `operator==` on `vector<bool>`: the sizes, then the words. -/
def Vb.eq (v w : Vb) : Bool := decide (v.size = w.size) && (List.range v.n).all fun p => decide (v.m p = w.m p)

end STL.VBool
