import Verif.Engines.Model
/-!
# C52: seed_seq, engine adaptors and generate_canonical (stl/inc/random)

Model of `seed_seq::generate`, `discard_block_engine`, `independent_bits_engine` and the integer part of
`generate_canonical`. Undefined behaviour (shift counts that are too large, signed overflow, accesses outside of an
array) is `none`. `size_t` has 64 bits.
-/

namespace STL.Adaptors

open STL.Engines (forUp wr)

/-! ## seed_seq -/

/-- stl/inc/random:234-236 `_Xor27`. -/
def xor27 (v : Nat) : Nat := v ^^^ (v >>> 27)

/-- stl/inc/random:176-178 `_Mask`, in the value type of the iterator, with `V` digits. -/
def ssMask (V : Nat) : Nat := ((1 <<< 31 % 2 ^ V) <<< 1 % 2 ^ V + 2 ^ V - 1) % 2 ^ V

/-- stl/inc/random:170 `_Tx`. -/
def ssT (n : Nat) : Nat := if 623 ≤ n then 11 else if 68 ≤ n then 7 else if 39 ≤ n then 5 else if 7 ≤ n then 3 else (n - 1) / 2
/-- stl/inc/random:171 `_Px`. -/
def ssP (n : Nat) : Nat := (n - ssT n) / 2
/-- stl/inc/random:172 `_Qx`. -/
def ssQ (n : Nat) : Nat := ssP n + ssT n
/-- stl/inc/random:173 `_Mx`; `s` is the number of seeds. -/
def ssM (n s : Nat) : Nat := if n ≤ s then s + 1 else n

/-- stl/inc/random:184-201: one round of the first loop. `v` is `_Myvec`; `_Off` and the index sums are `size_t`. -/
def ssMix1 (V n : Nat) (v : List Nat) (k : Nat) (a : List Nat) : Option (List Nat) :=
  let i0 := k % n
  let ip := (k + ssP n) % 2 ^ 64 % n
  let iq := (k + ssQ n) % 2 ^ 64 % n
  let im := (k + 2 ^ 64 - 1) % 2 ^ 64 % n
  (a[i0]?).bind fun x0 => (a[ip]?).bind fun xp => (a[im]?).bind fun xm =>
    let rx1 := 1664525 * xor27 ((x0 ^^^ xp ^^^ xm) % 2 ^ 32) % 2 ^ 32
    (if k = 0 then some v.length
     else if k ≤ v.length then (v[k - 1]?).map fun z => (i0 + z) % 2 ^ 64
     else some i0).bind fun off =>
      let rx2 := ((rx1 + off) % 2 ^ 64 &&& ssMask V) % 2 ^ 32
      (wr a ip ((xp + rx1) % 2 ^ V &&& ssMask V)).bind fun a =>
        (a[iq]?).bind fun xq =>
          (wr a iq ((xq + rx2) % 2 ^ V &&& ssMask V)).bind fun a => wr a i0 rx2

/-- stl/inc/random:203-211: one round of the second loop. -/
def ssMix2 (V n : Nat) (k : Nat) (a : List Nat) : Option (List Nat) :=
  let i0 := k % n
  let ip := (k + ssP n) % 2 ^ 64 % n
  let iq := (k + ssQ n) % 2 ^ 64 % n
  let im := (k + 2 ^ 64 - 1) % 2 ^ 64 % n
  (a[i0]?).bind fun x0 => (a[ip]?).bind fun xp => (a[im]?).bind fun xm =>
    let rx3 := 1566083941 * xor27 ((x0 + xp + xm) % 2 ^ V % 2 ^ 32) % 2 ^ 32
    let rx4 := ((rx3 + 2 ^ 64 - i0) % 2 ^ 64 &&& ssMask V) % 2 ^ 32
    (wr a ip ((xp ^^^ rx3) &&& ssMask V)).bind fun a =>
      (a[iq]?).bind fun xq =>
        (wr a iq ((xq ^^^ rx4) &&& ssMask V)).bind fun a => wr a i0 rx4

/-- stl/inc/random:157-213 `generate(first, last)`: `old` are the elements of the range before the call (each of `V`
digits), `v` the seeds. -/
def ssGenerate (V : Nat) (v : List Nat) (old : List Nat) : Option (List Nat) :=
  let n := old.length
  if 0 < n then
    (forUp (fun k a => wr a k 0x8b8b8b8b) n 0 old).bind fun a =>
      (forUp (ssMix1 V n v) (ssM n v.length) 0 a).bind fun a =>
        forUp (ssMix2 V n) n (ssM n v.length) a
  else some old

/-! ## discard_block_engine -/

/-- stl/inc/random:1034-1135 `discard_block_engine<Engine, P, R>`: the engine and `_Nx`. -/
structure Dbe (σ : Type _) where
  eng : σ
  nx : Nat

/-- stl/inc/random:1079-1081: `while (_Nx++ < P) _Eng();`. `_Nx` is an `int` if `P ≤ INT_MAX`, and then must not
overflow. -/
def dbeSkip {σ α : Type _} (step : σ → α × σ) (P nx : Nat) (e : σ) : Option σ :=
  if P ≤ 2147483647 ∧ nx = 2147483647 then none
  else if nx < P then dbeSkip step P (nx + 1) (step e).2
  else some e
termination_by P - nx

/-- stl/inc/random:1077-1087 `operator()`. -/
def Dbe.next {σ α : Type _} (step : σ → α × σ) (P R : Nat) (d : Dbe σ) : Option (α × Dbe σ) :=
  (if R ≤ d.nx then (dbeSkip step P d.nx d.eng).map fun e => (⟨e, 0⟩ : Dbe σ) else some d).map fun d =>
    ((step d.eng).1, ⟨(step d.eng).2, d.nx + 1⟩)

/-- `k` successive calls, collecting the results. -/
def Dbe.run {σ α : Type _} (step : σ → α × σ) (P R : Nat) : Nat → Dbe σ → Option (List α × Dbe σ)
  | 0, d => some ([], d)
  | k + 1, d => (d.next step P R).bind fun r => (Dbe.run step P R k r.2).map fun q => (r.1 :: q.1, q.2)

/-! ## independent_bits_engine -/

/-- stl/inc/random:1273-1278: the values computed by `_Init`. -/
structure Ibe where
  nx0 : Nat
  nx : Nat
  wx0 : Nat
  yx0 : Nat
  yx1 : Nat

/-- stl/inc/random:1245-1247: `for (; 1 < tmp; tmp >>= 1) ++mx`. -/
def ibeLog (tmp mx : Nat) : Nat :=
  if 1 < tmp then ibeLog (tmp >>> 1) (mx + 1) else mx
termination_by tmp
decreasing_by rw [Nat.shiftRight_eq_div_pow]; omega

/-- stl/inc/random:1237-1247: `_Mx`; `rx` is the engine's `max - min + 1` in its type of `E` digits. -/
def ibeMx (E rx : Nat) : Nat :=
  if rx = 0 then ibeLog ((rx + 2 ^ E - 1) % 2 ^ E) 1 else ibeLog rx 0

/-- stl/inc/random:1250-1259: one trial. -/
def ibeTry (E w rx mx nfix : Nat) : Ibe :=
  let nx := (w + mx - 1) / mx + nfix
  let wx0 := w / nx
  { nx0 := nx - w % nx
    nx := nx
    wx0 := wx0
    yx0 := if wx0 < E then (rx >>> wx0) <<< wx0 % 2 ^ E else 0
    yx1 := if wx0 < E then (((rx >>> wx0) >>> 1) <<< wx0 % 2 ^ E) <<< 1 % 2 ^ E else 0 }

/-- stl/inc/random:1236-1270 `_Init`; `rm1` is `max - min`. -/
def ibeInit (E w rm1 : Nat) : Ibe :=
  let rx := (rm1 + 1) % 2 ^ E
  let mx := ibeMx E rx
  let t0 := ibeTry E w rx mx 0
  let t := if (rx + 2 ^ E - t0.yx0) % 2 ^ E ≤ t0.yx0 / t0.nx then t0 else ibeTry E w rx mx 1
  { t with yx0 := (t.yx0 + 2 ^ E - 1) % 2 ^ E, yx1 := (t.yx1 + 2 ^ E - 1) % 2 ^ E }

/-- A left shift in an unsigned type of `D` digits. -/
def shl (D x k : Nat) : Option Nat := if k < D then some (x <<< k % 2 ^ D) else none

/-- stl/inc/random:1190-1192 `do val = eng() - min; while (val > y)`. The values `eng() - min` that the engine will
give are a list; `none` if it is too short. -/
def ibeDraw (y : Nat) : List Nat → Option (Nat × List Nat)
  | [] => none
  | u :: L => if y < u then ibeDraw y L else some (u, L)

/-- stl/inc/random:1196-1201 and 1204-1209: the packing loops, `cnt` rounds. -/
def ibePack (D shift mask y : Nat) : (cnt res : Nat) → List Nat → Option (Nat × List Nat)
  | 0, res, L => some (res, L)
  | cnt + 1, res, L =>
    (ibeDraw y L).bind fun r => (shl D res shift).bind fun s =>
      ibePack D shift mask y cnt (s ||| (r.1 % 2 ^ D &&& mask)) r.2

/-- stl/inc/random:1186-1211 `operator()`; the result type has `D` digits. -/
def Ibe.next (D : Nat) (t : Ibe) (L : List Nat) : Option (Nat × List Nat) :=
  (if t.wx0 = 0 then none else shl D 1 (t.wx0 - 1)).bind fun b => (shl D b 1).bind fun b =>
    let mask := (b + 2 ^ D - 1) % 2 ^ D
    (ibeDraw t.yx0 L).bind fun r =>
      (ibePack D t.wx0 mask t.yx0 (t.nx0 - 1) (r.1 % 2 ^ D &&& mask) r.2).bind fun q =>
        let mask := (mask <<< 1 % 2 ^ D) ||| 1
        ibePack D (t.wx0 + 1) mask t.yx1 (t.nx - t.nx0) q.1 q.2

/-! ## generate_canonical -/

/-- stl/inc/random:240-246 `_Urbg_gen_can_params` without the scale, which is `2^-_Bits`. -/
structure GcParams where
  pow2 : Bool
  k : Nat
  x : Nat
  smaxBits : Nat

/-- stl/inc/random:255-258: `while (product < target) { product *= R; ++k; }` in 128 bits. `none` if `fuel` runs out. -/
def gcProd (R target : Nat) : (fuel product k : Nat) → Option (Nat × Nat)
  | 0, _, _ => none
  | fuel + 1, product, k =>
    if product < target then gcProd R target fuel (product * R % 2 ^ 128) (k + 1) else some (product, k)

/-- stl/inc/random:265-268: counts the bits. -/
def gcBits (product bits : Nat) : Nat :=
  if 0 < product then gcBits (product >>> 1) (bits + 1) else bits
termination_by product
decreasing_by rw [Nat.shiftRight_eq_div_pow]; omega

/-- stl/inc/random:248-271 `_Generate_canonical_params(bits, rm1)`. -/
def gcParams (bits rm1 : Nat) : Option GcParams :=
  let R := (rm1 + 1) % 2 ^ 128
  let target := 1 <<< bits % 2 ^ 128
  (gcProd R target 66 1 0).map fun r =>
    { pow2 := R &&& ((R + 2 ^ 128 - 1) % 2 ^ 128) = 0
      k := r.2
      x := r.1 / target % 2 ^ 64
      smaxBits := gcBits ((r.1 + 2 ^ 128 - 1) % 2 ^ 128) 0 }

/-- stl/inc/random:300-304: the loop of the path for powers of two; `U` digits of `_Result_uint_type`. -/
def gcPow2Loop (U rbits : Nat) : (cnt shift sx : Nat) → List Nat → Option (Nat × List Nat)
  | 0, _, sx, L => some (sx, L)
  | _ + 1, _, _, [] => none
  | cnt + 1, shift, sx, g :: L =>
    let shift := shift + rbits
    (shl U (g % 2 ^ U) shift).bind fun a => gcPow2Loop U rbits cnt shift ((sx + a) % 2 ^ U) L

/-- stl/inc/random:321-326: the terms with index from 2; `S` digits of `_Sx_type`. -/
def gcTerms (S R : Nat) : (cnt factor sx : Nat) → List Nat → Option (Nat × List Nat)
  | 0, _, sx, L => some (sx, L)
  | _ + 1, _, _, [] => none
  | cnt + 1, factor, sx, g :: L =>
    let factor := factor * R % 2 ^ S
    gcTerms S R cnt factor ((sx + g % 2 ^ S * factor % 2 ^ S) % 2 ^ S) L

/-- stl/inc/random:315-327: the body of the do-while loop. -/
def gcAttempt (S R k : Nat) : List Nat → Option (Nat × List Nat)
  | [] => none
  | g :: L =>
    let sx := g % 2 ^ S
    if k = 2 then
      match L with
      | [] => none
      | h :: L => some ((sx + h % 2 ^ S * R % 2 ^ S) % 2 ^ S, L)
    else if 2 < k then
      match L with
      | [] => none
      | h :: L => gcTerms S R (k - 2) R ((sx + h % 2 ^ S * R % 2 ^ S) % 2 ^ S) L
    else some (sx, L)

/-- stl/inc/random:313-328: the do-while loop. `none` if the list of values of the engine is too short. -/
def gcRetry (S R k limit : Nat) : (fuel : Nat) → List Nat → Option (Nat × List Nat)
  | 0, _ => none
  | fuel + 1, L => (gcAttempt S R k L).bind fun r => if limit ≤ r.1 then gcRetry S R k limit fuel r.2 else some r

/-- stl/inc/random:273-334 `generate_canonical<Real, Bits>(gen)`: the integer `n` such that the result is
`n * 2^-min(digits, Bits)`. `L` are the values `gen() - min` that the generator will give, `rm1` is `max - min`. -/
def generateCanonical (digits bits rm1 : Nat) (L : List Nat) : Option (Nat × List Nat) :=
  let minbits := if digits < bits then digits else bits
  if minbits = 0 then some (0, L)
  else
    let U := if minbits ≤ 32 then 32 else 64
    (gcParams minbits rm1).bind fun p =>
      if p.pow2 then
        let disc := p.smaxBits - minbits
        match L with
        | [] => none
        | g :: L =>
          let sx := (g >>> disc) % 2 ^ U
          if 1 < p.k then
            -- `_Shift` starts at `-disc`; the first addition makes it positive
            let rbits := p.smaxBits / p.k
            match L with
            | [] => none
            | h :: L =>
              if rbits < disc then none
              else (shl U (h % 2 ^ U) (rbits - disc)).bind fun a =>
                gcPow2Loop U rbits (p.k - 2) (rbits - disc) ((sx + a) % 2 ^ U) L
          else some (sx, L)
      else
        let S := if p.smaxBits ≤ 32 then 32 else if p.smaxBits ≤ 64 then 64 else 128
        let R := (rm1 % 2 ^ S + 1) % 2 ^ S
        let limit := p.x % 2 ^ S * (1 <<< minbits % 2 ^ S) % 2 ^ S
        (gcRetry S R p.k limit (L.length + 1) L).map fun r => (r.1 / p.x % 2 ^ U, r.2)

end STL.Adaptors
