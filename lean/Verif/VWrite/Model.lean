import Verif.VAlg.Model

/-!
# Model of the vectorised algorithms that write

`/repo/stl/src/vector_algorithms.cpp`, the x64 paths: `remove` and `remove_copy` (9868-9883, 9902-9946, 10042-10252, 10305-10484), `unique` and `unique_copy`
(9885-9900, 10254-10299, 10486-10722), `_Replace_copy_impl` (9680-9744), `__std_replace_4/8` (9750-9830), `_Reverse_impl` (839-873), `_Reverse_copy_impl` (876-921)
with their traits (777-836) and tails (576-590), `__std_swap_ranges_trivially_swappable_noalias` (200-273).

An element is the list of its bytes, a range is the list of its elements, a pointer is the number of bytes from the beginning of the range. A load or
store outside of the range has no result (`none`), as has a loop that does not end. Source and destination of the `_copy` functions are different ranges.
-/

namespace STL.VWrite

open STL.VAlg (Cpu movemask full)

/-- The bytes of an element. -/
abbrev Elem := List Nat

/-- Load `V` bytes. -/
def ld (s : Nat) (a : List Elem) (p V : Nat) : Option (List Elem) :=
  if p % s = 0 ∧ p + V ≤ s * a.length then some ((a.drop (p / s)).take (V / s)) else none

/-- Store a register of whole elements. -/
def st (s : Nat) (a : List Elem) (p : Nat) (v : List Elem) : Option (List Elem) :=
  if p % s = 0 ∧ p + s * v.length ≤ s * a.length then some (a.take (p / s) ++ v ++ a.drop (p / s + v.length)) else none

/-- `_mm256_maskload_epi32/64` with the mask of the first `T` bytes. -/
def mld (s : Nat) (a : List Elem) (p T : Nat) : Option (List Elem) :=
  if p % s = 0 ∧ p + T ≤ s * a.length ∧ T ≤ 32 then some ((a.drop (p / s)).take (T / s) ++ List.replicate ((32 - T) / s) (List.replicate s 0)) else none

/-- `_mm256_maskstore_epi32/64`: the elements whose mask is set are stored, from index `k` on. -/
def mst (a : List Elem) (k : Nat) : List Bool → List Elem → Option (List Elem)
  | m :: ms, x :: xs => if m then (if k < a.length then mst (a.set k x) (k + 1) ms xs else none) else mst a (k + 1) ms xs
  | _, _ => some a

/-- Consecutive groups of `w`. -/
def grp (w : Nat) (l : List Nat) : List (List Nat) := (List.range (l.length / w)).map fun i => (l.drop (i * w)).take w

/-- `pshufb` on bytes (`w = 1`), `vpermd` on groups of four bytes: part `idx[i]` becomes part `i`. The index is taken modulo the number of parts. -/
def shuffle (ps : List (List Nat)) (idx : List Nat) : List (List Nat) := idx.map fun i => ps.getD (i % ps.length) []

/-! ## remove -/

/-- The inner loop of `_Make_tables`, `vector_algorithms.cpp:9924-9926`. -/
def shufPart (ew h : Nat) : List Nat := (List.range ew).map (h * ew + ·)

/-- The loop over the elements that are kept, `vector_algorithms.cpp:9919-9929`: entries and `_Nx`. The entries are written one after the other. -/
def tblKeep (ew vx : Nat) : Nat → Nat → List Nat × Nat
  | _, 0 => ([], 0)
  | h, n + 1 =>
    let r := tblKeep ew vx (h + 1) n
    if vx &&& (1 <<< h) = 0 then (shufPart ew h ++ r.1, r.2 + 1) else r

/-- The loop that fills the rest, `vector_algorithms.cpp:9938-9944`. -/
def tblFill (ew : Nat) : Nat → Nat → List Nat
  | _, 0 => []
  | nx, n + 1 => shufPart ew nx ++ tblFill ew (nx + 1) n

/-- `_Make_tables`, `vector_algorithms.cpp:9908-9949`: the row and the size for `_Vx`. All numbers are below 256. -/
def mkTable (sizeH mul ew vx : Nat) : List Nat × Nat :=
  let r := tblKeep ew vx 0 (sizeH / ew)
  (r.1 ++ tblFill ew r.2 (sizeH / ew - r.2), r.2 * mul)

/-- `_Sse_1` … `_Sse_8`: size of an element, step, the parameters of the table, size of a part that is shuffled. -/
structure Tr where
  s : Nat
  step : Nat
  sizeV : Nat
  sizeH : Nat
  mul : Nat
  ew : Nat
  w : Nat

/-- `vector_algorithms.cpp:10042`, `10049-10072` -/
def sse1 : Tr := ⟨1, 8, 256, 8, 1, 1, 1⟩
/-- `vector_algorithms.cpp:10043`, `10074-10098` -/
def sse2 : Tr := ⟨2, 16, 256, 16, 2, 2, 1⟩
/-- `vector_algorithms.cpp:10045`, `10100-10124` -/
def avx4 : Tr := ⟨4, 32, 256, 8, 4, 1, 4⟩
/-- `vector_algorithms.cpp:10044`, `10126-10150` -/
def sse4 : Tr := ⟨4, 16, 16, 16, 4, 4, 1⟩
/-- `vector_algorithms.cpp:10047`, `10152-10176` -/
def avx8 : Tr := ⟨8, 32, 16, 8, 8, 2, 4⟩
/-- `vector_algorithms.cpp:10046`, `10178-10202` -/
def sse8 : Tr := ⟨8, 16, 4, 16, 8, 8, 1⟩

/-- The choice in `__std_remove_1` … `__std_unique_copy_8`, `vector_algorithms.cpp:10316-10322`, `10338-10344`, `10359-10374`, `10382-10396` and the like. -/
def pick (c : Cpu) (s size : Nat) : Option Tr :=
  if s = 1 then if c.sse42 ∧ 8 ≤ size then some sse1 else none
  else if s = 2 then if c.sse42 ∧ 16 ≤ size then some sse2 else none
  else if s = 4 then if c.avx2 ∧ 32 ≤ size then some avx4 else if c.sse42 ∧ 16 ≤ size then some sse4 else none
  else if c.avx2 ∧ 32 ≤ size then some avx8 else if c.sse42 ∧ 16 ≤ size then some sse8 else none

/-- `_Store_masked`: memory and `_Out`. -/
def storeMasked (T : Tr) (a : List Elem) (out : Nat) (src : List Elem) (bingo : Nat) : Option (List Elem × Nat) :=
  if bingo < T.sizeV then
    let t := mkTable T.sizeH T.mul T.ew bingo
    let dest := grp T.s (shuffle (grp T.w src.flatten) t.1).flatten
    (st T.s a out dest).map fun a => (a, out + t.2)
  else none

/-- `_Mask`: one bit for each element. -/
def mask (x y : List Elem) : Nat := movemask 1 (List.zipWith (· == ·) x y)

/-- `_Remove_impl`, `vector_algorithms.cpp:10211-10224`. -/
def removeLoop (T : Tr) (val : Elem) (stop : Nat) : Nat → Nat → Nat → List Elem → Option (List Elem × Nat)
  | 0, _, _, _ => none
  | f + 1, p, out, a => do
    let src ← ld T.s a p T.step
    let bingo := mask src (List.replicate (T.step / T.s) val)
    let r ← storeMasked T a out src bingo
    let p := p + T.step
    if p ≠ stop then removeLoop T val stop f p r.2 r.1 else some r

/-- `_Remove_fallback` with source and destination in the same range, `vector_algorithms.cpp:9868-9883`. -/
def removeScalar (s : Nat) (val : Elem) : Nat → Nat → Nat → List Elem → Option (List Elem × Nat)
  | 0, _, _, _ => none
  | f + 1, p, out, a =>
    if p ≠ s * a.length then do
      let x ← ld s a p s
      if x ≠ [val] then
        let a ← st s a out x
        removeScalar s val f (p + s) (out + s) a
      else removeScalar s val f (p + s) out a
    else some (a, out)

/-- `__std_remove_1/2/4/8`, `vector_algorithms.cpp:10305-10398`: the range afterwards, and the pointer that is returned. -/
def remove (c : Cpu) (s : Nat) (a : List Elem) (val : Elem) : Option (List Elem × Nat) :=
  let size := s * a.length
  match pick c s size with
  | some T => do
    let r ← removeLoop T val (full size T.step) (size + 1) 0 0 a
    removeScalar s val (size + 1) (full size T.step) r.2 r.1
  | none => removeScalar s val (size + 1) 0 0 a

/-- `_Copy_buffer_size`, `vector_algorithms.cpp:10205`. -/
def bufSize : Nat := 512

/-- `memcpy` of the first `n` bytes of the buffer to `out`. -/
def flush (s : Nat) (buf : List Elem) (n : Nat) (d : List Elem) (out : Nat) : Option (List Elem) := if n ≤ s * buf.length then st s d out (buf.take (n / s)) else none

/-- `_Remove_copy_impl`, `vector_algorithms.cpp:10226-10252`: pointer, buffer, `_Buffer_out`, destination, `_Out`. -/
def removeCopyLoop (T : Tr) (a : List Elem) (val : Elem) (stop : Nat) : Nat → Nat → List Elem → Nat → List Elem → Nat → Option (List Elem × Nat)
  | 0, _, _, _, _, _ => none
  | f + 1, p, buf, bo, d, out => do
    let src ← ld T.s a p T.step
    let bingo := mask src (List.replicate (T.step / T.s) val)
    let r ← storeMasked T buf bo src bingo
    let p := p + T.step
    let (d, out, bo) ← if bufSize - T.step ≤ r.2 then (flush T.s r.1 r.2 d out).map fun d => (d, out + r.2, 0) else some (d, out, r.2)
    if p ≠ stop then removeCopyLoop T a val stop f p r.1 bo d out
    else (flush T.s r.1 bo d out).map fun d => (d, out + bo)

/-- `_Remove_fallback` with a different destination. -/
def removeCopyScalar (s : Nat) (a : List Elem) (val : Elem) : Nat → Nat → List Elem → Nat → Option (List Elem × Nat)
  | 0, _, _, _ => none
  | f + 1, p, d, out =>
    if p ≠ s * a.length then do
      let x ← ld s a p s
      if x ≠ [val] then
        let d ← st s d out x
        removeCopyScalar s a val f (p + s) d (out + s)
      else removeCopyScalar s a val f (p + s) d out
    else some (d, out)

/-- `__std_remove_copy_1/2/4/8`, `vector_algorithms.cpp:10400-10484`. `buf` is the buffer with its old content. -/
def removeCopy (c : Cpu) (s : Nat) (buf : List Elem) (a : List Elem) (val : Elem) (d : List Elem) : Option (List Elem × Nat) :=
  let size := s * a.length
  match pick c s size with
  | some T => do
    let r ← removeCopyLoop T a val (full size T.step) (size + 1) 0 buf 0 d 0
    removeCopyScalar s a val (size + 1) (full size T.step) r.1 r.2
  | none => removeCopyScalar s a val (size + 1) 0 d 0

/-! ## unique -/

/-- `_Unique_impl`, `vector_algorithms.cpp:10254-10270`. -/
def uniqueLoop (T : Tr) (stop : Nat) : Nat → Nat → Nat → List Elem → Option (List Elem × Nat)
  | 0, _, _, _ => none
  | f + 1, p, out, a =>
    if p < T.s then none
    else do
      let src ← ld T.s a p T.step
      let mat ← ld T.s a (p - T.s) T.step
      let bingo := mask src mat
      let r ← storeMasked T a out src bingo
      let p := p + T.step
      if p ≠ stop then uniqueLoop T stop f p r.2 r.1 else if r.2 < T.s then none else some (r.1, r.2 - T.s)

/-- `_Unique_fallback`, `vector_algorithms.cpp:9885-9900`. -/
def uniqueScalar (s : Nat) : Nat → Nat → Nat → List Elem → Option (List Elem × Nat)
  | 0, _, _, _ => none
  | f + 1, p, out, a =>
    if p ≠ s * a.length then do
      let x ← ld s a p s
      let y ← ld s a out s
      if x ≠ y then
        let a ← st s a (out + s) x
        uniqueScalar s f (p + s) (out + s) a
      else uniqueScalar s f (p + s) out a
    else some (a, out + s)

/-- The value of an element, lowest byte first. -/
def le : Elem → Nat
  | [] => 0
  | b :: bs => b + 256 * le bs

/-- `__std_unique_1/2/4/8`, `vector_algorithms.cpp:10486-10607`; `__std_adjacent_find_1/2/4/8` is modelled in `VAlg` (C49) on the values of the elements. -/
def unique (c : Cpu) (s : Nat) (a : List Elem) : Option (List Elem × Nat) := do
  let first ← STL.VAlg.adjacentFind c s (a.map le)
  if first = s * a.length then some (a, first)
  else
    let dest := first
    let first := first + s
    let size := s * a.length - first
    match pick c s size with
    | some T => do
      let stop := first + full size T.step
      let r ← uniqueLoop T stop (size + 1) first first a
      uniqueScalar s (size + 1) stop r.2 r.1
    | none => uniqueScalar s (size + 1) first dest a

/-- `_Unique_copy_impl`, `vector_algorithms.cpp:10272-10299`. -/
def uniqueCopyLoop (T : Tr) (a : List Elem) (stop : Nat) : Nat → Nat → List Elem → Nat → List Elem → Nat → Option (List Elem × Nat)
  | 0, _, _, _, _, _ => none
  | f + 1, p, buf, bo, d, out =>
    if p < T.s then none
    else do
      let src ← ld T.s a p T.step
      let mat ← ld T.s a (p - T.s) T.step
      let bingo := mask src mat
      let r ← storeMasked T buf bo src bingo
      let p := p + T.step
      let (d, out, bo) ← if bufSize - T.step ≤ r.2 then (flush T.s r.1 r.2 d (out + T.s)).map fun d => (d, out + r.2, 0) else some (d, out, r.2)
      if p ≠ stop then uniqueCopyLoop T a stop f p r.1 bo d out
      else (flush T.s r.1 bo d (out + T.s)).map fun d => (d, out + bo)

/-- `_Unique_fallback` with a different destination. -/
def uniqueCopyScalar (s : Nat) (a : List Elem) : Nat → Nat → List Elem → Nat → Option (List Elem × Nat)
  | 0, _, _, _ => none
  | f + 1, p, d, out =>
    if p ≠ s * a.length then do
      let x ← ld s a p s
      let y ← ld s d out s
      if x ≠ y then
        let d ← st s d (out + s) x
        uniqueCopyScalar s a f (p + s) d (out + s)
      else uniqueCopyScalar s a f (p + s) d out
    else some (d, out + s)

/-- `__std_unique_copy_1/2/4/8`, `vector_algorithms.cpp:10609-10722`. -/
def uniqueCopy (c : Cpu) (s : Nat) (buf : List Elem) (a : List Elem) (d : List Elem) : Option (List Elem × Nat) :=
  if s * a.length = 0 then some (d, 0)
  else do
    let x ← ld s a 0 s
    let d ← st s d 0 x
    let first := s
    let size := s * a.length - first
    match pick c s size with
    | some T => do
      let stop := first + full size T.step
      let r ← uniqueCopyLoop T a stop (size + 1) first buf 0 d 0
      uniqueCopyScalar s a (size + 1) stop r.1 r.2
    | none => uniqueCopyScalar s a (size + 1) first d 0

/-! ## replace -/

/-- `_mm256_blendv_epi8` with the mask of a comparison. -/
def blend (x y : List Elem) (m : List Bool) : List Elem := List.zipWith (fun (p : Elem × Elem) b => if b then p.2 else p.1) (x.zip y) m

/-- The loops of `_Replace_copy_impl`, `vector_algorithms.cpp:9692-9701`, `9725-9734`. -/
def replaceCopyLoop (s V : Nat) (a : List Elem) (old new : Elem) (stop : Nat) : Nat → Nat → List Elem → Option (Nat × List Elem)
  | 0, _, _ => none
  | f + 1, p, d => do
    let x ← ld s a p V
    let m := x.map (· == old)
    let d ← st s d p (blend x (List.replicate (V / s) new) m)
    let p := p + V
    if p ≠ stop then replaceCopyLoop s V a old new stop f p d else some (p, d)

/-- The AVX2 tail, `vector_algorithms.cpp:9703-9713`. -/
def replaceCopyTail (s : Nat) (a : List Elem) (old new : Elem) (p : Nat) (d : List Elem) : Option (Nat × List Elem) := do
  let tail := (s * a.length) &&& 0x1C
  if tail ≠ 0 then
    let x ← mld s a p tail
    let m := x.map (· == old)
    let d ← mst d (p / s) (STL.VAlg.tailMask s tail) (blend x (List.replicate (32 / s) new) m)
    some (p + tail, d)
  else some (p, d)

/-- The scalar loop, `vector_algorithms.cpp:9736-9742`. -/
def replaceCopyScalar (s : Nat) (a : List Elem) (old new : Elem) : Nat → Nat → List Elem → Option (List Elem)
  | 0, _, _ => none
  | f + 1, p, d =>
    if p ≠ s * a.length then do
      let x ← ld s a p s
      let d ← st s d p (if x = [old] then [new] else x)
      replaceCopyScalar s a old new f (p + s) d
    else some d

/-- `_Replace_copy_impl`, `vector_algorithms.cpp:9680-9744`. Source and destination pointer advance together. -/
def replaceCopy (c : Cpu) (s : Nat) (a : List Elem) (old new : Elem) (d : List Elem) : Option (List Elem) := do
  let size := s * a.length
  if full size 32 ≠ 0 ∧ c.avx2 then
    let r ← replaceCopyLoop s 32 a old new (full size 32) (size + 1) 0 d
    let r ← replaceCopyTail s a old new r.1 r.2
    if 4 ≤ s then some r.2 else replaceCopyScalar s a old new (size + 1) r.1 r.2
  else if full size 16 ≠ 0 ∧ c.sse42 then
    let r ← replaceCopyLoop s 16 a old new (full size 16) (size + 1) 0 d
    replaceCopyScalar s a old new (size + 1) r.1 r.2
  else replaceCopyScalar s a old new (size + 1) 0 d

/-- The loop of `__std_replace_4/8`, `vector_algorithms.cpp:9762-9768`, `9804-9810`. -/
def replaceLoop (s : Nat) (old new : Elem) (stop : Nat) : Nat → Nat → List Elem → Option (Nat × List Elem)
  | 0, _, _ => none
  | f + 1, p, a =>
    if p ≠ stop then do
      let x ← ld s a p 32
      let a ← mst a (p / s) (x.map (old == ·)) (List.replicate (32 / s) new)
      replaceLoop s old new stop f (p + 32) a
    else some (p, a)

/-- The scalar loop of `__std_replace_4/8`, `vector_algorithms.cpp:9781-9786`, `9823-9828`. -/
def replaceScalar (s : Nat) (old new : Elem) : Nat → Nat → List Elem → Option (List Elem)
  | 0, _, _ => none
  | f + 1, p, a =>
    if p ≠ s * a.length then do
      let x ← ld s a p s
      let a ← if x = [old] then st s a p [new] else some a
      replaceScalar s old new f (p + s) a
    else some a

/-- `__std_replace_4/8`, `vector_algorithms.cpp:9750-9830`. -/
def replace (c : Cpu) (s : Nat) (a : List Elem) (old new : Elem) : Option (List Elem) := do
  let size := s * a.length
  if c.avx2 then
    let r ← replaceLoop s old new (full size 32) (size + 1) 0 a
    let tail := size &&& (if s = 8 then 0x18 else 0x1C)
    if tail ≠ 0 then
      let x ← mld s r.2 r.1 tail
      mst r.2 (r.1 / s) (List.zipWith (· && ·) (x.map (old == ·)) (STL.VAlg.tailMask s tail)) (List.replicate (32 / s) new)
    else some r.2
  else replaceScalar s old new (size + 1) 0 a

/-! ## reverse -/

/-- The bytes of `_Reverse_char_sse` and `_Reverse_short_sse` in memory order (`_mm_set_epi8` takes the highest first), `vector_algorithms.cpp:790`, `807`. -/
def revIdx (s : Nat) : List Nat := if s = 1 then [15, 14, 13, 12, 11, 10, 9, 8, 7, 6, 5, 4, 3, 2, 1, 0] else [14, 15, 12, 13, 10, 11, 8, 9, 6, 7, 4, 5, 2, 3, 0, 1]

/-- `_mm256_permute4x64_epi64` by groups of eight bytes; the indices from the lowest. -/
def permute4 (i0 i1 i2 i3 : Nat) (b : List Nat) : List Nat := (shuffle (grp 8 b) [i0, i1, i2, i3]).flatten

/-- `_Rev_avx`, `vector_algorithms.cpp:779-787`, `796-804`, `813-816`, `824-826`: `_MM_SHUFFLE(1, 0, 3, 2)` selects 2, 3, 0, 1 from the lowest; `_mm256_shuffle_epi8` works in each half. -/
def revAvx (s : Nat) (v : List Elem) : List Elem :=
  let b := v.flatten
  if s = 8 then grp 8 (permute4 3 2 1 0 b)
  else if s = 4 then grp 4 (shuffle (grp 4 b) [7, 6, 5, 4, 3, 2, 1, 0]).flatten
  else
    let p := permute4 2 3 0 1 b
    grp s ((shuffle (grp 1 (p.take 16)) (revIdx s)).flatten ++ (shuffle (grp 1 (p.drop 16)) (revIdx s)).flatten)

/-- `_Rev_sse`, `vector_algorithms.cpp:789-792`, `806-809`, `818-820`, `828-830`: `_mm_shuffle_epi32` moves groups of four bytes. -/
def revSse (s : Nat) (v : List Elem) : List Elem :=
  let b := v.flatten
  if s = 8 then grp 8 (shuffle (grp 4 b) [2, 3, 0, 1]).flatten
  else if s = 4 then grp 4 (shuffle (grp 4 b) [3, 2, 1, 0]).flatten
  else grp s (shuffle (grp 1 b) (revIdx s)).flatten

/-- The loops of `_Reverse_impl`, `vector_algorithms.cpp:843-852`, `860-869`: `_First`, `_Last`, the range. -/
def reverseLoop (s V : Nat) (rev : List Elem → List Elem) (stop : Nat) : Nat → Nat → Nat → List Elem → Option (Nat × Nat × List Elem)
  | 0, _, _, _ => none
  | f + 1, first, last, a =>
    if last < V then none
    else do
      let last := last - V
      let left ← ld s a first V
      let right ← ld s a last V
      let a ← st s a first (rev right)
      let a ← st s a last (rev left)
      let first := first + V
      if first ≠ stop then reverseLoop s V rev stop f first last a else some (first, last, a)

/-- `_Reverse_tail`, `vector_algorithms.cpp:576-582`. -/
def reverseTail (s : Nat) : Nat → Nat → Nat → List Elem → Option (List Elem)
  | 0, _, _, _ => none
  | f + 1, first, last, a =>
    if first ≠ last then
      if last < s then none
      else
        let last := last - s
        if first ≠ last then do
          let x ← ld s a first s
          let y ← ld s a last s
          let a ← st s a first y
          let a ← st s a last x
          reverseTail s f (first + s) last a
        else some a
    else some a

/-- `_Reverse_impl`, `vector_algorithms.cpp:839-873`. -/
def reverse (c : Cpu) (s : Nat) (a : List Elem) : Option (List Elem) := do
  let size := s * a.length
  let r ← (if 64 ≤ size ∧ c.avx2 = true then reverseLoop s 32 (revAvx s) (full (size / 2) 32) (size + 1) 0 size a else some (0, size, a))
  let size := r.2.1 - r.1
  let r ← (if 32 ≤ size ∧ c.sse42 = true then reverseLoop s 16 (revSse s) (r.1 + full (size / 2) 16) (size + 1) r.1 r.2.1 r.2.2 else some r)
  reverseTail s (size + 1) r.1 r.2.1 r.2.2

/-- The loops of `_Reverse_copy_impl`, `vector_algorithms.cpp:882-888`, `911-917`: `_Last`, `_Dest`, the destination. -/
def reverseCopyLoop (s V : Nat) (rev : List Elem → List Elem) (a : List Elem) (stop : Nat) : Nat → Nat → Nat → List Elem → Option (Nat × Nat × List Elem)
  | 0, _, _, _ => none
  | f + 1, last, dst, d =>
    if last < V then none
    else do
      let last := last - V
      let x ← ld s a last V
      let d ← st s d dst (rev x)
      let dst := dst + V
      if dst ≠ stop then reverseCopyLoop s V rev a stop f last dst d else some (last, dst, d)

/-- `_Reverse_copy_tail`, `vector_algorithms.cpp:585-590`. -/
def reverseCopyTail (s : Nat) (a : List Elem) : Nat → Nat → Nat → List Elem → Option (List Elem)
  | 0, _, _, _ => none
  | f + 1, last, dst, d =>
    if last ≠ 0 then
      if last < s then none
      else do
        let x ← ld s a (last - s) s
        let d ← st s d dst x
        reverseCopyTail s a f (last - s) (dst + s) d
    else some d

/-- The AVX2 tail of `_Reverse_copy_impl`, `vector_algorithms.cpp:890-901`: `_Avx2_rev_tail_mask_32` selects the last `tail` bytes of the 32 before `_Last`. -/
def reverseCopyAvxTail (s : Nat) (a : List Elem) (last dst : Nat) (d : List Elem) : Option (Nat × Nat × List Elem) := do
  let tail := (s * a.length) &&& 0x1C
  if tail ≠ 0 then
    if last < tail then none
    else
      let x ← ld s a (last - tail) tail
      let block := List.replicate ((32 - tail) / s) (List.replicate s 0) ++ x
      let d ← mst d (dst / s) (STL.VAlg.tailMask s tail) (revAvx s block)
      some (last - tail, dst + tail, d)
  else some (last, dst, d)

/-- `_Reverse_copy_impl`, `vector_algorithms.cpp:876-921`. -/
def reverseCopy (c : Cpu) (s : Nat) (a d : List Elem) : Option (List Elem) := do
  let size := s * a.length
  if 32 ≤ size ∧ c.avx2 then
    let r ← reverseCopyLoop s 32 (revAvx s) a (full size 32) (size + 1) size 0 d
    let r ← reverseCopyAvxTail s a r.1 r.2.1 r.2.2
    if 4 ≤ s then some r.2.2 else reverseCopyTail s a (size + 1) r.1 r.2.1 r.2.2
  else if 16 ≤ size ∧ c.sse42 then
    let r ← reverseCopyLoop s 16 (revSse s) a (full size 16) (size + 1) size 0 d
    reverseCopyTail s a (size + 1) r.1 r.2.1 r.2.2
  else reverseCopyTail s a (size + 1) size 0 d

/-! ## swap_ranges -/

/-- The loops of `__std_swap_ranges_trivially_swappable_noalias`, `vector_algorithms.cpp:206-213`, `223-230`, `238-247`. The ranges are bytes. -/
def swapLoop (V stop : Nat) : Nat → Nat → List Elem → List Elem → Option (Nat × List Elem × List Elem)
  | 0, _, _, _ => none
  | f + 1, p, a, b => do
    let x ← ld 1 a p V
    let y ← ld 1 b p V
    let a ← st 1 a p y
    let b ← st 1 b p x
    let p := p + V
    if p ≠ stop then swapLoop V stop f p a b else some (p, a, b)

/-- `if (_Byte_length(_First1, _Last1) >= V)` before such a loop. -/
def swapStep (V : Nat) (use : Bool) (n p : Nat) (a b : List Elem) : Option (Nat × List Elem × List Elem) :=
  if V ≤ n - p ∧ use then swapLoop V (p + full (n - p) V) (n + 1) p a b else some (p, a, b)

/-- The last loop, `vector_algorithms.cpp:266-272`. -/
def swapScalar (n : Nat) : Nat → Nat → List Elem → List Elem → Option (List Elem × List Elem)
  | 0, _, _, _ => none
  | f + 1, p, a, b =>
    if p ≠ n then do
      let x ← ld 1 a p 1
      let y ← ld 1 b p 1
      let a ← st 1 a p y
      let b ← st 1 b p x
      swapScalar n f (p + 1) a b
    else some (a, b)

/-- `__std_swap_ranges_trivially_swappable_noalias`, `vector_algorithms.cpp:200-273`, for the first `n` bytes of `a` and `b`. -/
def swapRanges (c : Cpu) (n : Nat) (a b : List Elem) : Option (List Elem × List Elem) := do
  let r ← swapStep 32 c.avx2 n 0 a b
  let r ← swapStep 16 c.sse42 n r.1 r.2.1 r.2.2
  let r ← swapStep 8 true n r.1 r.2.1 r.2.2
  swapScalar n (n + 1) r.1 r.2.1 r.2.2

end STL.VWrite
