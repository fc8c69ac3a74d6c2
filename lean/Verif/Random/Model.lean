import Verif.CInt

/-!
# Model of the integer generator behind `uniform_int_distribution` and `shuffle`

`/repo/stl/inc/algorithm`, `_Rng_from_urng_v2` (6156-6277) and `_Random_shuffle1` (6474-6495); `/repo/stl/inc/random`,
`uniform_int_distribution::_Eval` (1531-1556).

The random engine is modelled by the sequence of values it will return. A function that needs a value when there is none left reports
`Stop.more`: it is still waiting for the engine. Simplifications: for a `_Udiff` narrower than `int` the code computes in `int`; all values
involved are non-negative and fit, so the result is the same as computing modulo `2^W`, which is what is modelled. The 128-bit product and
shift are the mathematical ones (they are the subject of C14).
-/

namespace STL.Rnd
open STL

/-- Why a run stopped without a result. -/
inductive Stop where
  | more  -- the engine has to be called again
  | fuel  -- a loop of the model ran out of fuel; the theorems exclude this
  | ub    -- undefined behaviour; the theorems exclude this
  deriving DecidableEq

abbrev G (β : Type) := Except Stop β

/-- The engine and the types: `W` is `_Udiff_bits`; the engine returns values in `[lo, hi]`. -/
structure Eng where
  W : Nat
  lo : Nat
  hi : Nat

/-- The loop of `_Calc_bits`, `algorithm:6246-6254` (evaluated at compile time); the mask is zero after `W` shifts. -/
def calcLoop (range : Nat) : Nat → Nat → Nat → Nat
  | 0, bits, _ => bits
  | f + 1, bits, mask => if range < mask then calcLoop range f (bits - 1) (mask >>> 1) else bits

/-- `_Bits`, `algorithm:6274`. -/
def Eng.bits (E : Eng) : Nat := calcLoop (toU E.W ((E.hi : Int) - E.lo)) E.W E.W (2 ^ E.W - 1)

/-- `_Bmask`, `algorithm:6275`. -/
def Eng.bmask (E : Eng) : Nat := (2 ^ E.W - 1) >>> (E.W - E.bits)

/-- `_Get_bits`, `algorithm:6234-6243`. -/
def getBits (E : Eng) : List Nat → G (Nat × List Nat)
  | [] => .error .more
  | e :: l => if toU E.W ((e : Int) - E.lo) ≤ E.bmask then .ok (toU E.W ((e : Int) - E.lo), l) else getBits E l

/-- `_Ret <<= _Bits; _Ret |= _Get_bits();` repeated, `algorithm:6222-6225`, `algorithm:6259-6262`. -/
def moreBits (E : Eng) : Nat → Nat → List Nat → G (Nat × List Nat)
  | 0, ret, l => .ok (ret, l)
  | n + 1, ret, l => do
    let r ← getBits E l
    moreBits E n ((ret <<< E.bits) % 2 ^ E.W ||| r.1) r.2

/-- `_Get_all_bits`, `algorithm:6217-6228`; the number of iterations of its loop. -/
def allIters (E : Eng) : Nat → Nat → Nat
  | 0, _ => 0
  | f + 1, num => if num < E.W then allIters E f (num + E.bits) + 1 else 0

/-- `_Get_all_bits`, `algorithm:6217-6228`. -/
def getAllBits (E : Eng) (l : List Nat) : G (Nat × List Nat) := do
  let r ← getBits E l
  if E.bits < E.W then moreBits E (allIters E E.W E.bits) r.1 r.2 else .ok r

/-- Width of `_Uprod`, `algorithm:6164`. -/
def Eng.P (E : Eng) : Nat := if E.W ≤ 16 then 32 else if E.W ≤ 32 then 64 else 128

/-- `_Get_random_product`, `algorithm:6256-6271`. -/
def getProduct (E : Eng) (index niter : Nat) (l : List Nat) : G (Nat × List Nat) := do
  let r ← getBits E l
  let r ← (if E.bits < E.W then moreBits E (niter - 1) r.1 r.2 else .ok r : G (Nat × List Nat))
  .ok (r.1 * index % 2 ^ E.P, r.2)

/-- The loop that enlarges `_Mask`, `algorithm:6183-6187`. -/
def maskLoop (E : Eng) (index : Nat) : Nat → Nat → Nat → G (Nat × Nat)
  | 0, _, _ => .error .fuel
  | f + 1, mask, niter =>
    if mask < toU E.W ((index : Int) - 1) then maskLoop E index f ((mask <<< E.bits) % 2 ^ E.W ||| E.bmask) (niter + 1)
    else .ok (mask, niter)

/-- `while (_Rem < _Threshold)`, `algorithm:6199-6202`. -/
def rejectLoop (E : Eng) (index niter mask threshold : Nat) : Nat → Nat → Nat → List Nat → G (Nat × List Nat)
  | 0, _, _, _ => .error .fuel
  | f + 1, product, rem, l =>
    if rem < threshold then do
      let r ← getProduct E index niter l
      rejectLoop E index niter mask threshold f r.1 (r.1 % 2 ^ E.W &&& mask) r.2
    else .ok (product, l)

/-- The number of bits that are set (`_Popcount`, the subject of C15). -/
def popcount (n : Nat) : Nat := (List.range (n + 1)).countP fun i => n.testBit i

/-- `operator()`, `algorithm:6168-6215`. -/
def gen (E : Eng) (index : Nat) (l : List Nat) : G (Nat × List Nat) := do
  let m ← (if E.bits < E.W then maskLoop E index (E.W + 1) E.bmask 1 else .ok (E.bmask, 1) : G (Nat × Nat))
  let mask := m.1
  let niter := m.2
  let p ← getProduct E index niter l
  let rem := p.1 % 2 ^ E.W &&& mask
  let p ← (if rem < index then
      if index = 0 then .error .ub  -- division by zero
      else rejectLoop E index niter mask (toU E.W ((mask : Int) - index + 1) % index) (p.2.length + 1) p.1 rem p.2
    else .ok p : G (Nat × List Nat))
  let generated := if E.bits < E.W then popcount mask else E.W
  .ok (p.1 >>> generated, p.2)

/-- `_Adjust`, `random:1549-1556`, for a type of `w` bits. -/
def adjust (signed : Bool) (w u : Nat) : Nat := if signed then u ^^^ (((2 ^ w - 1) >>> 1) + 1) else u

/-- `uniform_int_distribution::_Eval`, `random:1531-1547`, for a result type of `w` bits. -/
def eval (E : Eng) (signed : Bool) (w : Nat) (mn mx : Int) (l : List Nat) : G (Int × List Nat) := do
  let umin := adjust signed w (toU w mn)
  let umax := adjust signed w (toU w mx)
  let r ← (if toU w ((umax : Int) - umin) = 2 ^ w - 1 then getAllBits E l else gen E (toU w ((umax : Int) - umin + 1)) l : G (Nat × List Nat))
  let u := adjust signed w ((r.1 % 2 ^ w + umin) % 2 ^ w)
  .ok (if signed then toS w u else u, r.2)

/-- `_Random_shuffle1`, `algorithm:6486-6493`: the loop from `_Target_index` on; the elements are values. -/
def shuffleLoop {α : Type} (E : Eng) (a : List α) : Nat → Nat → List Nat → G (List α × List Nat)
  | 0, i, l => if i < a.length then .error .fuel else .ok (a, l)
  | f + 1, i, l =>
    if i < a.length then do
      let r ← gen E (i + 1) l
      if r.1 = i then shuffleLoop E a f (i + 1) r.2
      else match a[i]?, a[r.1]? with
        | some x, some y => shuffleLoop E ((a.set i y).set r.1 x) f (i + 1) r.2
        | _, _ => .error .ub
    else .ok (a, l)

/-- `shuffle`, `algorithm:6498-6502`, with `_Random_shuffle1`, `algorithm:6474-6495`. -/
def shuffle {α : Type} (E : Eng) (a : List α) (l : List Nat) : G (List α × List Nat) := shuffleLoop E a a.length 1 l

end STL.Rnd
