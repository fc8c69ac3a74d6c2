/-!
# C51: random number engines (stl/inc/random)

Model of `linear_congruential_engine`, `_Circ_buf`, `subtract_with_carry_engine` and `mersenne_twister_engine`.

`D` is the number of digits of the engine's unsigned result type. Engine words are `BitVec D` where the code only
computes in that type, and natural numbers with explicit reductions where it changes between types. The history array
is a list; every access is checked and an access outside the array makes the whole call `none`.
-/

namespace STL.Engines

/-- A `for (ix = lo; ix < lo + cnt; ++ix)` loop whose body may fail. -/
def forUp {σ : Type _} (body : Nat → σ → Option σ) : Nat → Nat → σ → Option σ
  | 0, _, s => some s
  | cnt + 1, ix, s => (body ix s).bind (forUp body cnt (ix + 1))

/-- Checked store into the history array. -/
def wr {α : Type _} (a : List α) (i : Nat) (v : α) : Option (List α) :=
  if i < a.length then some (a.set i v) else none

/-! ## linear_congruential_engine -/

/-- stl/inc/random:367-368 and 499-506: the reduction used when the modulus is `2^31 - 1`, in `unsigned long long`. -/
def minstdReduce (M mul : Nat) : Nat :=
  let mul := ((mul >>> 31) + (mul &&& M)) % 2 ^ 64
  if mul < M then mul else mul - M

/-- stl/inc/random:345-384 `_Next_linear_congruential_value<_Uint, A, C, M>(prev)`, `_Uint` having `D` digits. The
128-bit intermediate of the last branch is computed modulo `2^128` (`_Unsigned128` is the subject of C14). For a 16-bit
`_Uint` and `M = 0` the C++ product `_Ax * _Prev` is an `int` and may overflow; it is taken to wrap. -/
def lcgNext (D A C M prev : Nat) : Nat :=
  if A = 0 then C
  else if M = 0 then ((A * prev) % 2 ^ D + C) % 2 ^ D
  else if C = 0 ∧ M = 2147483647 then
    minstdReduce M (prev * A % 2 ^ 64) % 2 ^ D
  else if C ≤ 2 ^ 32 - 1 ∧ M - 1 ≤ (2 ^ 32 - 1 - C) / A then
    let mul := ((prev % 2 ^ 32) * (A % 2 ^ 32) + C % 2 ^ 32) % 2 ^ 32
    (mul % M) % 2 ^ D
  else if M - 1 ≤ (2 ^ 64 - 1 - C) / A then
    let mul := (prev * A + C) % 2 ^ 64
    (mul % M) % 2 ^ D
  else
    let mul := (prev * A + C) % 2 ^ 128
    (mul % M) % 2 ^ D

/-- stl/inc/random:403-416 `_Get_linear_congruential_seed<_Uint, C, M>(s)`. -/
def lcgSeed (C M s : Nat) : Nat :=
  let s := if M ≠ 0 then s % M else s
  if C = 0 then (if s = 0 then 1 else s) else s

/-- stl/inc/random:386-401, 418-434: seeding from a seed sequence. `gen n` is what `generate` writes into a buffer of
`n` words. -/
def lcgSeedSeq (D C M : Nat) (gen : Nat → List Nat) : Nat :=
  let toUint := (gen 4).getD 3 0
  let toUll := ((gen 5).getD 4 0 * 2 ^ 32 % 2 ^ 64) ||| (gen 5).getD 3 0
  let s :=
    if M = 0 then (if D ≤ 32 then toUint % 2 ^ D else toUll % 2 ^ D)
    else if M ≤ 2 ^ 32 - 1 then (toUint % M) % 2 ^ D
    else (toUll % M) % 2 ^ D
  lcgSeed C M s

/-- stl/inc/random:448-451 `min()`. -/
def lcgMin (C : Nat) : Nat := if C = 0 then 1 else 0

/-- stl/inc/random:455-458 `max()`: `_Mx - 1u`, where 0 wraps. -/
def lcgMax (D M : Nat) : Nat := (M + 2 ^ D - 1) % 2 ^ D

/-- stl/inc/random:493-512: the loop of `discard` for modulus `2^31 - 1`. -/
def minstdSkip (M : Nat) (nskip temp mul : Nat) : Nat :=
  let temp := if nskip &&& 1 ≠ 0 then minstdReduce M (temp * mul % 2 ^ 64) else temp
  if h : nskip >>> 1 ≠ 0 then
    minstdSkip M (nskip >>> 1) temp (minstdReduce M (mul * mul % 2 ^ 64))
  else temp
termination_by nskip
decreasing_by
  rw [Nat.shiftRight_eq_div_pow] at h ⊢
  omega

/-- stl/inc/random:516-520: the loop of `discard` for other moduli. -/
def lcgSkip (D A C M : Nat) : Nat → Nat → Nat
  | 0, temp => temp
  | nskip + 1, temp => lcgSkip D A C M nskip (lcgNext D A C M temp)

/-- stl/inc/random:488-522 `discard(nskip)`. -/
def lcgDiscard (D A C M nskip prev : Nat) : Nat :=
  if C = 0 ∧ M = 2147483647 then minstdSkip M nskip prev A % 2 ^ D
  else lcgSkip D A C M nskip prev

/-! ## _Circ_buf -/

/-- stl/inc/random:552-612 `_Circ_buf<_Ty, Nw>`: `idx` and an array of `2 * Nw` words. -/
structure Circ (D : Nat) where
  idx : Nat
  ax : List (BitVec D)

/-- stl/inc/random:600-608 `_Base(ix)`. -/
def Circ.base {D : Nat} (nw : Nat) (e : Circ D) (ix : Nat) : Nat :=
  let ix := ix + e.idx
  if ix < nw then ix + nw else ix - nw

/-- stl/inc/random:554-556 `_At(ix)`. -/
def Circ.at {D : Nat} (nw : Nat) (e : Circ D) (ix : Nat) : Option (BitVec D) := e.ax[e.base nw ix]?

/-- stl/inc/random:586-590: the inner loop `while (_First != _Limit) if (*_First++ != *_Other++) return false;`, over
`cnt` elements from `f` in `a` and `o` in `b`. -/
def scanEq {D : Nat} (a b : List (BitVec D)) : (cnt f o : Nat) → Option Bool
  | 0, _, _ => some true
  | cnt + 1, f, o =>
    (a[f]?).bind fun x => (b[o]?).bind fun y =>
      if x ≠ y then some false else scanEq a b cnt (f + 1) (o + 1)

/-- stl/inc/random:578-597: the outer loop of `_Equals`. A pointer into one of the two arrays is its index; `use2` says
that `f` is in the right array, and then `o` is in the left one. `l1`, `l2` are `_Last1`, `_Last2`. The pass count is
bounded by `fuel`: running out is `none`. -/
def equalsLoop {D : Nat} (nw : Nat) (l r : List (BitVec D)) (l1 l2 : Nat) :
    (fuel : Nat) → (nx0 : Int) → (use2 : Bool) → (f last o : Nat) → Option Bool
  | 0, _, _, _, _, _ => none
  | fuel + 1, nx0, use2, f, last, o =>
    if 0 < nx0 then
      let limit := if f < last then last else 2 * nw
      let nx0 := nx0 - ((limit : Int) - (f : Int))
      if f ≤ limit then
        (scanEq (if use2 then r else l) (if use2 then l else r) (limit - f) f o).bind fun same =>
          if same then
            equalsLoop nw l r l1 l2 fuel nx0 (!use2) (o + (limit - f)) (if use2 then l1 else l2) 0
          else some false
      else none
    else some true

/-- stl/inc/random:558-598 `_Equals`. -/
def Circ.equals {D : Nat} (nw : Nat) (e r : Circ D) : Option Bool :=
  let use2 := e.base nw 0 < r.base nw 0
  if use2 then equalsLoop nw e.ax r.ax e.idx r.idx 4 nw true (r.base nw 0) r.idx (e.base nw 0)
  else equalsLoop nw e.ax r.ax e.idx r.idx 4 nw false (e.base nw 0) e.idx (r.base nw 0)

/-- The words written by `operator<<` for the history: `_At(0)`, …, `_At(Nw - 1)` (random:734-736, 945-949). -/
def Circ.save {D : Nat} (nw : Nat) (e : Circ D) : Option (List (BitVec D)) :=
  (List.range nw).mapM (e.at nw)

/-! ## subtract_with_carry_engine -/

/-- stl/inc/random:614-820: the template parameters (the digits `D` of `_Ty` are a type parameter). -/
structure SwcP where
  w : Nat
  s : Nat
  r : Nat

/-- stl/inc/random:617 `_Mx = static_cast<_Ty>((_Ty{1} << (_Wx - 1)) << 1)`. -/
def SwcP.mx (p : SwcP) (D : Nat) : BitVec D := ((1#D) <<< (p.w - 1)) <<< 1

/-- The engine: the history and `_Carry` (an `int` that is 0 or 1). -/
structure Swc (D : Nat) where
  buf : Circ D
  carry : Nat

/-- stl/inc/random:773-794 `_Setx`. -/
def Swc.setx {D : Nat} (p : SwcP) (e : Swc D) (ix : Nat) (xis xir : BitVec D) : Option (Swc D) :=
  let under1 := decide (xis.toNat < xir.toNat)
  let newx := xis - xir
  let under2 := under1 || decide (newx.toNat < e.carry)
  let newx := newx - BitVec.ofNat D e.carry
  let newx := if under2 then newx + p.mx D else newx
  let carry := if under2 then 1 else 0
  (wr e.buf.ax ix newx).map fun a => ⟨⟨e.buf.idx, a⟩, carry⟩

/-- stl/inc/random:708-720 `operator()`. -/
def Swc.next {D : Nat} (p : SwcP) (e : Swc D) : Option (BitVec D × Swc D) :=
  let ix := if 2 * p.r ≤ e.buf.idx then 0 else e.buf.idx
  let i1 := if ix < p.s then ix + 2 * p.r - p.s else ix - p.s
  let i2 := if ix < p.s then ix + p.r else if ix < p.r then ix + p.r else ix - p.r
  (e.buf.ax[i1]?).bind fun xis => (e.buf.ax[i2]?).bind fun xir =>
    (e.setx p ix xis xir).bind fun e' =>
      (e'.buf.ax[ix]?).map fun v => (v, ⟨⟨ix + 1, e'.buf.ax⟩, e'.carry⟩)

/-- stl/inc/random:796-804 `_Get_wc`. -/
def SwcP.wc (p : SwcP) (D : Nat) : Nat :=
  if p.mx D = 0#D then (D + 31) / 32
  else if 2 ^ 32 < (p.mx D).toNat then 2 else 1

/-- stl/inc/random:808-816 `_Reduce`: the loop over the first `r` words, then the carry. -/
def SwcP.reduce {D : Nat} (p : SwcP) (a : List (BitVec D)) : Option (List (BitVec D) × Nat) :=
  (if p.mx D ≠ 0#D then
    forUp (fun ix a => (a[ix]?).bind fun v => wr a ix (v % p.mx D)) p.r 0 a
   else some a).bind fun a =>
    (a[p.r - 1]?).map fun v => (a, if v = 0#D then 1 else 0)

/-- stl/inc/random:657-659: `|=` of the later words of one element; `jx` counts up to `kx`. -/
def swcPack {D : Nat} (lc : Nat) : (cnt jx : Nat) → BitVec D → BitVec D × Nat
  | 0, _, v => (v, lc)
  | cnt + 1, jx, v =>
    let lc' := lcgNext 32 40014 0 2147483563 lc
    swcPack lc' cnt (jx + 1) (v ||| (BitVec.ofNat D lc' <<< (32 * jx)))

/-- stl/inc/random:649-664 `seed(value)`; `old` is the previous contents of the array. -/
def Swc.seed {D : Nat} (p : SwcP) (value : BitVec D) (old : List (BitVec D)) : Option (Swc D) :=
  let lc := lcgSeed 0 2147483563 (if value = 0#D then 19780503 else value.toNat % 2147483563 % 2 ^ 32)
  (forUp (fun ix (st : List (BitVec D) × Nat) =>
      let lc' := lcgNext 32 40014 0 2147483563 st.2
      let v := swcPack lc' (p.wc D - 1) 1 (BitVec.ofNat D lc')
      (wr st.1 ix v.1).map fun a => (a, v.2)) p.r 0 (old, lc)).bind fun st =>
    (p.reduce st.1).map fun a => ⟨⟨p.r, a.1⟩, a.2⟩

/-- stl/inc/random:674-677 and 887-890: packing `kx` 32-bit words from position `i0` of `arr`. -/
def packWords (D : Nat) (arr : List Nat) (i0 : Nat) : (cnt jx : Nat) → BitVec D → Option (BitVec D)
  | 0, _, v => some v
  | cnt + 1, jx, v => (arr[i0 + jx]?).bind fun z => packWords D arr i0 cnt (jx + 1) (v ||| (BitVec.ofNat D z <<< (32 * jx)))

/-- stl/inc/random:667-686 `seed(seq)`. -/
def Swc.seedSeq {D : Nat} (p : SwcP) (gen : Nat → List Nat) (old : List (BitVec D)) : Option (Swc D) :=
  let kx := (D + 31) / 32
  let arr := gen (kx * p.r)
  (forUp (fun ix (st : List (BitVec D) × Nat) =>
      (arr[st.2]?).bind fun z =>
        (packWords D arr st.2 (kx - 1) 1 (BitVec.ofNat D z)).bind fun v =>
          (wr st.1 ix (if p.mx D ≠ 0#D then v % p.mx D else v)).map fun a => (a, st.2 + kx)) p.r 0 (old, 0)).bind fun st =>
    (p.reduce st.1).map fun a => ⟨⟨p.r, a.1⟩, a.2⟩

/-- stl/inc/random:728-743 `operator<<`: the words and the carry. -/
def Swc.save {D : Nat} (p : SwcP) (e : Swc D) : Option (List (BitVec D) × Nat) :=
  (e.buf.save p.r).map fun h => (h, e.carry)

/-- stl/inc/random:745-770 `operator>>` when every extraction succeeds: `old` is the previous contents of the array. -/
def Swc.load {D : Nat} (p : SwcP) (vals : List (BitVec D)) (carry : Nat) (old : List (BitVec D)) : Option (Swc D) :=
  (forUp (fun ix a => (vals[ix]?).bind fun v => wr a ix v) p.r 0 old).map fun a => ⟨⟨p.r, a⟩, carry⟩

/-- stl/inc/random:696-699 `operator==`. -/
def Swc.eq {D : Nat} (p : SwcP) (e f : Swc D) : Option Bool :=
  (e.buf.equals p.r f.buf).map fun b => b && decide (e.carry = f.carry)

/-- `k` successive calls, collecting the results. -/
def Swc.run {D : Nat} (p : SwcP) : Nat → Swc D → Option (List (BitVec D) × Swc D)
  | 0, e => some ([], e)
  | k + 1, e => (e.next p).bind fun r => (Swc.run p k r.2).map fun q => (r.1 :: q.1, q.2)

/-! ## mersenne_twister_engine -/

/-- stl/inc/random:822-824: the template parameters. -/
structure MtP (D : Nat) where
  w : Nat
  n : Nat
  m : Nat
  r : Nat
  a : BitVec D
  u : Nat
  d : BitVec D
  s : Nat
  b : BitVec D
  t : Nat
  c : BitVec D
  l : Nat
  f : BitVec D

/-- stl/inc/random:1025 `_WMSK`. -/
def MtP.wmsk {D : Nat} (p : MtP D) : BitVec D := ~~~(((~~~(0#D)) <<< (p.w - 1)) <<< 1)
/-- stl/inc/random:1026 `_HMSK`. -/
def MtP.hmsk {D : Nat} (p : MtP D) : BitVec D := (p.wmsk <<< p.r) &&& p.wmsk
/-- stl/inc/random:1027 `_LMSK`. -/
def MtP.lmsk {D : Nat} (p : MtP D) : BitVec D := (~~~p.hmsk) &&& p.wmsk
/-- stl/inc/random:1029 `_One_mod_n`. -/
def MtP.one {D : Nat} (p : MtP D) : Nat := 1 % p.n
/-- stl/inc/random:1030 `_M_mod_n`. -/
def MtP.mm {D : Nat} (p : MtP D) : Nat := p.m % p.n

/-- One iteration of the refill loops: `_Tmp = (ax[i0] & _HMSK) | (ax[i1] & _LMSK);
ax[dst] = (_Tmp >> 1) ^ (_Tmp & 1 ? _Px : 0) ^ ax[im]` (random:983-984, 990-991, 995-996, 1001-1002, 1008-1009,
1018-1019). -/
def MtP.fill {D : Nat} (p : MtP D) (dst i0 i1 im : Nat) (ax : List (BitVec D)) : Option (List (BitVec D)) :=
  (ax[i0]?).bind fun v0 => (ax[i1]?).bind fun v1 => (ax[im]?).bind fun vm =>
    let tmp := (v0 &&& p.hmsk) ||| (v1 &&& p.lmsk)
    wr ax dst ((tmp >>> 1) ^^^ (if tmp &&& 1#D ≠ 0#D then p.a else 0#D) ^^^ vm)

/-- stl/inc/random:976-1014 `_Refill_lower`. An index `_Ix - _Nx + k` (in `size_t`, where the intermediate wraps) is
written `ix + k - n`. -/
def MtP.refillLower {D : Nat} (p : MtP D) (ax : List (BitVec D)) : Option (List (BitVec D)) :=
  let wb1 := p.n - p.one
  let wbm := p.n - p.mm
  if p.mm = 0 then
    (forUp (fun ix ax => p.fill ix (ix + p.n) (ix + p.n + p.one) (ix + p.n + p.mm) ax) wb1 0 ax).bind fun ax =>
      if p.one = 1 then p.fill wb1 (wb1 + p.n) (wb1 + p.one - p.n) (wb1 + p.n + p.mm) ax else some ax
  else
    (forUp (fun ix ax => p.fill ix (ix + p.n) (ix + p.n + p.one) (ix + p.n + p.mm) ax) wbm 0 ax).bind fun ax =>
      (forUp (fun ix ax => p.fill ix (ix + p.n) (ix + p.n + p.one) (ix + p.mm - p.n) ax) (wb1 - wbm) wbm ax).bind
        fun ax =>
          if p.one = 1 then p.fill wb1 (wb1 + p.n) (wb1 + p.one - p.n) (wb1 + p.mm - p.n) ax else some ax

/-- stl/inc/random:1016-1021 `_Refill_upper`. -/
def MtP.refillUpper {D : Nat} (p : MtP D) (ax : List (BitVec D)) : Option (List (BitVec D)) :=
  forUp (fun ix ax => p.fill ix (ix - p.n) (ix - p.n + p.one) (ix - p.n + p.mm) ax) p.n p.n ax

/-- stl/inc/random:961-966: the tempering of `operator()`. -/
def MtP.temper {D : Nat} (p : MtP D) (x : BitVec D) : BitVec D :=
  let res := x &&& p.wmsk
  let res := res ^^^ ((res >>> p.u) &&& p.d)
  let res := res ^^^ ((res <<< p.s) &&& p.b)
  let res := res ^^^ ((res <<< p.t) &&& p.c)
  res ^^^ ((res &&& p.wmsk) >>> p.l)

/-- stl/inc/random:954-967 `operator()`. -/
def MtP.next {D : Nat} (p : MtP D) (e : Circ D) : Option (BitVec D × Circ D) :=
  (if e.idx = p.n then (p.refillUpper e.ax).map fun a => (⟨e.idx, a⟩ : Circ D)
   else if 2 * p.n ≤ e.idx then (p.refillLower e.ax).map fun a => (⟨0, a⟩ : Circ D)
   else some e).bind fun e =>
    (e.ax[e.idx]?).map fun x => (p.temper x, ⟨e.idx + 1, e.ax⟩)

/-- stl/inc/random:867-876 `seed(value)`; `old` is the previous contents of the array. -/
def MtP.seed {D : Nat} (p : MtP D) (value : BitVec D) (old : List (BitVec D)) : Option (Circ D) :=
  let prev := value &&& p.wmsk
  (wr old 0 prev).bind fun a =>
    (forUp (fun ix (st : List (BitVec D) × BitVec D) =>
        let prev := (BitVec.ofNat D ix + p.f * (st.2 ^^^ (st.2 >>> (p.w - 2)))) &&& p.wmsk
        (wr st.1 ix prev).map fun a => (a, prev)) (p.n - 1) 1 (a, prev)).map fun st => ⟨p.n, st.1⟩

/-- stl/inc/random:878-906 `seed(seq)`. -/
def MtP.seedSeq {D : Nat} (p : MtP D) (gen : Nat → List Nat) (old : List (BitVec D)) : Option (Circ D) :=
  let kx := (p.w + 31) / 32
  let arr := gen (kx * p.n)
  (forUp (fun ix (st : List (BitVec D) × Nat × BitVec D) =>
      (arr[st.2.1]?).bind fun z =>
        (packWords D arr st.2.1 (kx - 1) 1 (BitVec.ofNat D z)).bind fun v =>
          let v := v &&& p.wmsk
          let sum := if ix = 0 then v >>> p.r else st.2.2 ||| v
          (wr st.1 ix v).map fun a => (a, st.2.1 + kx, sum)) p.n 0 (old, 0, 0#D)).bind fun st =>
    (if st.2.2 = 0#D then wr st.1 0 ((1#D) <<< (p.w - 1)) else some st.1).map fun a => ⟨p.n, a⟩

/-- stl/inc/random:928-940 `operator>>` with the words read from the stream: `old` is the previous array. -/
def MtP.load {D : Nat} (p : MtP D) (vals : List (BitVec D)) (old : List (BitVec D)) : Option (Circ D) :=
  (forUp (fun ix a => (vals[ix]?).bind fun v => wr a ix (v &&& p.wmsk)) p.n 0 old).map fun a => ⟨p.n, a⟩

/-- `k` successive calls, collecting the results. -/
def MtP.run {D : Nat} (p : MtP D) : Nat → Circ D → Option (List (BitVec D) × Circ D)
  | 0, e => some ([], e)
  | k + 1, e => (p.next e).bind fun r => (p.run k r.2).map fun q => (r.1 :: q.1, q.2)

end STL.Engines
