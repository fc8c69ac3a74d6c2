import Mathlib.Data.Nat.Log
/-!
# C52: what the standard says about seed_seq, the engine adaptors and generate_canonical

Nothing here refers to the model of the code.
-/

namespace STL.Adaptors

/-! ## [rand.util.seedseq]/8 -/

/-- `t` of [rand.util.seedseq]/8. -/
def stdT (n : Nat) : Nat := if n ≥ 623 then 11 else if n ≥ 68 then 7 else if n ≥ 39 then 5 else if n ≥ 7 then 3 else (n - 1) / 2
/-- `p`. -/
def stdP (n : Nat) : Nat := (n - stdT n) / 2
/-- `q`. -/
def stdQ (n : Nat) : Nat := stdP n + stdT n
/-- `T(x) = x xor (x rshift 27)`. -/
def stdX (x : BitVec 32) : BitVec 32 := x ^^^ (x >>> 27)

/-- Replace the value at `x`. The range is a function from positions to words. -/
def stdPut (b : Nat → BitVec 32) (x : Nat) (v : BitVec 32) : Nat → BitVec 32 := fun i => if i = x then v else b i

/-- Step b, for one `k`; `begin[x]` is `b (x % n)`, `v` are the seeds. -/
def stdRound1 (n : Nat) (v : List Nat) (b : Nat → BitVec 32) (k : Nat) : Nat → BitVec 32 :=
  let r1 := 1664525#32 * stdX (b (k % n) ^^^ b ((k + stdP n) % n) ^^^ b ((k + n - 1) % n))
  let r2 := r1 + BitVec.ofNat 32 (if k = 0 then v.length else if k ≤ v.length then k % n + v.getD (k - 1) 0 else k % n)
  let b := stdPut b ((k + stdP n) % n) (b ((k + stdP n) % n) + r1)
  let b := stdPut b ((k + stdQ n) % n) (b ((k + stdQ n) % n) + r2)
  stdPut b (k % n) r2

/-- Step c, for one `k`. -/
def stdRound2 (n : Nat) (b : Nat → BitVec 32) (k : Nat) : Nat → BitVec 32 :=
  let r3 := 1566083941#32 * stdX (b (k % n) + b ((k + stdP n) % n) + b ((k + n - 1) % n))
  let r4 := r3 - BitVec.ofNat 32 (k % n)
  let b := stdPut b ((k + stdP n) % n) (b ((k + stdP n) % n) ^^^ r3)
  let b := stdPut b ((k + stdQ n) % n) (b ((k + stdQ n) % n) ^^^ r4)
  stdPut b (k % n) r4

/-- What `generate` writes into a range of `n` elements: steps a, b (with `m = max(s + 1, n)` rounds) and c. -/
def stdGenerate (v : List Nat) (n : Nat) : List Nat :=
  let m := max (v.length + 1) n
  let b := (List.range m).foldl (stdRound1 n v) (fun _ => 0x8b8b8b8b#32)
  let b := (List.range' m n).foldl (stdRound2 n) b
  (List.range n).map fun i => (b i).toNat

/-! ## [rand.adapt.ibits] -/

/-- `y0` for a choice of `n`, with `w0 = ⌊w / n⌋`. -/
def stdY0 (w R n : Nat) : Nat := 2 ^ (w / n) * (R / 2 ^ (w / n))
/-- `y1` for a choice of `n`. -/
def stdY1 (w R n : Nat) : Nat := 2 ^ (w / n + 1) * (R / 2 ^ (w / n + 1))
/-- `n`: `⌈w / m⌉` with `m = ⌊log2 R⌋` if that gives `R - y0 ≤ ⌊y0 / n⌋`, and else one more. -/
def stdN (w R : Nat) : Nat :=
  let n := (w + Nat.log 2 R - 1) / Nat.log 2 R
  if R - stdY0 w R n ≤ stdY0 w R n / n then n else n + 1

/-- `k` rounds of: draw a value below `y` (skip others), append its `b` low bits to `S`. `L` are the values
`e() - e.min()` to come. -/
def stdPack (b y : Nat) : Nat → Nat → List Nat → Option (Nat × List Nat)
  | 0, S, L => some (S, L)
  | k + 1, S, L =>
    match L.dropWhile (fun u => decide (y ≤ u)) with
    | [] => none
    | u :: L => stdPack b y k (2 ^ b * S + u % 2 ^ b) L

/-- The generation algorithm: `n0 = n - w mod n` rounds with `w0` bits, then `n - n0` rounds with `w0 + 1` bits. -/
def stdIbits (w R : Nat) (L : List Nat) : Option (Nat × List Nat) :=
  let n := stdN w R
  (stdPack (w / n) (stdY0 w R n) (n - w % n) 0 L).bind fun r =>
    stdPack (w / n + 1) (stdY1 w R n) (w % n) r.1 r.2

/-! ## [rand.util.canonical] -/

/-- `S = Σ g_i R^i` of one attempt. -/
def stdS (R : Nat) : List Nat → Nat
  | [] => 0
  | g :: L => g + R * stdS R L

end STL.Adaptors
