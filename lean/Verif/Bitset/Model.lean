import Verif.Bits.Model

/-!
# Model of `std::bitset<N>`

`/repo/stl/inc/bitset:81-620`. The array `_Array` is a list of words; an access outside it is undefined behaviour. The vectorized string paths
(`__std_bitset_to_string_*`, `__std_bitset_from_string_*`) are not modelled: this is the code used for constant evaluation, short bitsets and other
character types. `size_t` arithmetic on positions inside the array cannot wrap, so positions are natural numbers.
-/

namespace STL.Bset
open STL

/-- `_Bitsperword`, `bitset:86,579`: `unsigned long` (32 bits) if the bits fit, otherwise `unsigned long long`. -/
def wbits (N : Nat) : Nat := if N ≤ 32 then 32 else 64
/-- `_Words`, `bitset:580`: number of words minus one. -/
def words (N : Nat) : Nat := if N = 0 then 0 else (N - 1) / wbits N

/-- `_Array[i]` -/
def rdw (a : List Nat) (i : Nat) : R Nat := match a[i]? with
  | some x => .ok x
  | none => .error .ub
/-- `_Array[i] = x` -/
def wrw (a : List Nat) (i x : Nat) : R (List Nat) := if i < a.length then .ok (a.set i x) else .error .ub

/-- `v << n` and `v >> n` on words of `w` bits; an oversized shift is undefined behaviour. -/
def shlw (w v n : Nat) : R Nat := if n < w then .ok (v * 2 ^ n % 2 ^ w) else .error .ub
/-- see `shlw` -/
def shrw (w v n : Nat) : R Nat := if n < w then .ok (v / 2 ^ n) else .error .ub
/-- `~v` -/
def notw (w v : Nat) : Nat := 2 ^ w - 1 - v
/-- `v - 1` on words -/
def predw (w v : Nat) : Nat := (v + 2 ^ w - 1) % 2 ^ w

/-- `for (i = lo; i < lo + n; ++i) f(i)` -/
def forUp {σ : Type} (f : Nat → σ → R σ) : Nat → Nat → σ → R σ
  | 0, _, s => .ok s
  | n + 1, lo, s => do
    let s ← f lo s
    forUp f n (lo + 1) s

/-- `for (i = lo + n - 1; lo <= i; --i) f(i)` -/
def forDown {σ : Type} (f : Nat → σ → R σ) : Nat → Nat → σ → R σ
  | 0, _, s => .ok s
  | n + 1, lo, s => do
    let s ← f (lo + n) s
    forDown f n lo s

/-- `_Subscript`, `bitset:150-152`. -/
def subscript (N : Nat) (a : List Nat) (pos : Nat) : R Bool := do
  let x ← rdw a (pos / wbits N)
  let m ← shlw (wbits N) 1 (pos % wbits N)
  .ok (decide (x &&& m ≠ 0))

/-- `_Trim`, `bitset:582-587`. -/
def trim (N : Nat) (a : List Nat) : R (List Nat) :=
  if N = 0 ∨ N % wbits N ≠ 0 then do
    let x ← rdw a (words N)
    let m ← shlw (wbits N) 1 (N % wbits N)
    wrw a (words N) (x &&& predw (wbits N) m)
  else .ok a

/-- `_Set_unchecked`, `bitset:589-600`. -/
def setUnchecked (N : Nat) (a : List Nat) (pos : Nat) (val : Bool) : R (List Nat) := do
  let x ← rdw a (pos / wbits N)
  let b ← shlw (wbits N) 1 (pos % wbits N)
  if val then wrw a (pos / wbits N) (x ||| b) else wrw a (pos / wbits N) (x &&& notw (wbits N) b)

/-- `_Flip_unchecked`, `bitset:602-605`. -/
def flipUnchecked (N : Nat) (a : List Nat) (pos : Nat) : R (List Nat) := do
  let x ← rdw a (pos / wbits N)
  let b ← shlw (wbits N) 1 (pos % wbits N)
  wrw a (pos / wbits N) (x ^^^ b)

/-- `bitset()`, `bitset:174`. -/
def zero (N : Nat) : List Nat := List.replicate (words N + 1) 0

/-- `bitset(unsigned long long)`, `bitset:176`, with `_Need_mask` and `_Mask`, `154-155`; the remaining words are value-initialized. -/
def ofUllong (N val : Nat) : List Nat :=
  ((if N < 64 then val &&& ((2 ^ (if N < 64 then N else 0) - 1) % 2 ^ 64) else val) % 2 ^ wbits N) :: List.replicate (words N) 0

/-- The body of the word-wise operators. -/
def zipw (op : Nat → Nat → Nat) (b : List Nat) (i : Nat) (a : List Nat) : R (List Nat) := do
  let x ← rdw a i
  let y ← rdw b i
  wrw a i (op x y)
/-- `operator&=`, `bitset:280-286`. -/
def andEq (N : Nat) (a b : List Nat) : R (List Nat) := forUp (zipw (· &&& ·) b) (words N + 1) 0 a
/-- `operator|=`, `bitset:288-294`. -/
def orEq (N : Nat) (a b : List Nat) : R (List Nat) := forUp (zipw (· ||| ·) b) (words N + 1) 0 a
/-- `operator^=`, `bitset:296-302`. -/
def xorEq (N : Nat) (a b : List Nat) : R (List Nat) := forUp (zipw (· ^^^ ·) b) (words N + 1) 0 a

/-- First loop of `operator<<=`, `bitset:306-310`. -/
def shlWords (ws : Nat) (i : Nat) (a : List Nat) : R (List Nat) := do
  let x ← (if ws ≤ i then rdw a (i - ws) else .ok 0 : R Nat)
  wrw a i x
/-- Second loop of `operator<<=`, `bitset:313-315`. -/
def shlBits (w p : Nat) (i : Nat) (a : List Nat) : R (List Nat) := do
  let x ← rdw a i
  let y ← rdw a (i - 1)
  let h ← shlw w x p
  let l ← shrw w y (w - p)
  wrw a i (h ||| l)
/-- `operator<<=`, `bitset:304-321`. -/
def shlEq (N : Nat) (a : List Nat) (pos : Nat) : R (List Nat) := do
  let ws := pos / wbits N
  let a ← (if ws ≠ 0 then forDown (shlWords ws) (words N + 1) 0 a else .ok a : R (List Nat))
  let p := pos % wbits N
  let a ← (if p ≠ 0 then do
      let a ← forDown (shlBits (wbits N) p) (words N) 1 a
      let x ← rdw a 0
      let h ← shlw (wbits N) x p
      wrw a 0 h
    else .ok a : R (List Nat))
  trim N a

/-- First loop of `operator>>=`, `bitset:326-328`. -/
def shrWords (N ws : Nat) (i : Nat) (a : List Nat) : R (List Nat) := do
  let x ← (if (ws : Int) ≤ (words N : Int) - i then rdw a (i + ws) else .ok 0 : R Nat)
  wrw a i x
/-- Second loop of `operator>>=`, `bitset:332-334`. -/
def shrBits (w p : Nat) (i : Nat) (a : List Nat) : R (List Nat) := do
  let x ← rdw a i
  let y ← rdw a (i + 1)
  let l ← shrw w x p
  let h ← shlw w y (w - p)
  wrw a i (l ||| h)
/-- `operator>>=`, `bitset:323-339`. -/
def shrEq (N : Nat) (a : List Nat) (pos : Nat) : R (List Nat) := do
  let ws := pos / wbits N
  let a ← (if ws ≠ 0 then forUp (shrWords N ws) (words N + 1) 0 a else .ok a : R (List Nat))
  let p := pos % wbits N
  if p ≠ 0 then do
    let a ← forUp (shrBits (wbits N) p) (words N) 0 a
    let x ← rdw a (words N)
    let l ← shrw (wbits N) x p
    wrw a (words N) l
  else .ok a

/-- `set()`, `bitset:341-354`: the bytes of the array are set to 0xFF. -/
def setAll (N : Nat) (a : List Nat) : R (List Nat) := trim N (a.map fun _ => 2 ^ wbits N - 1)
/-- `set(pos, val)`, `bitset:356-362`. -/
def set (N : Nat) (a : List Nat) (pos : Nat) (val : Bool) : R (List Nat) :=
  if N ≤ pos then .error (.exc .outOfRange) else setUnchecked N a pos val
/-- `reset()`, `bitset:364-376`. -/
def resetAll (a : List Nat) : List Nat := a.map fun _ => 0
/-- `reset(pos)`, `bitset:378-380`. -/
def reset (N : Nat) (a : List Nat) (pos : Nat) : R (List Nat) := set N a pos false
/-- `flip()`, `bitset:388-395`. -/
def flipAll (N : Nat) (a : List Nat) : R (List Nat) := do
  let a ← forUp (fun i a => do
    let x ← rdw a i
    wrw a i (notw (wbits N) x)) (words N + 1) 0 a
  trim N a
/-- `flip(pos)`, `bitset:397-403`. -/
def flip (N : Nat) (a : List Nat) (pos : Nat) : R (List Nat) :=
  if N ≤ pos then .error (.exc .outOfRange) else flipUnchecked N a pos
/-- `operator~`, `bitset:382-386`. -/
def compl (N : Nat) (a : List Nat) : R (List Nat) := flipAll N a

/-- `for (_Idx = 1; _Idx <= _Words; ++_Idx) if (_Array[_Idx] != 0) _Xoflo();`, `bitset:415-420,437-442`. -/
def highZero (N : Nat) (a : List Nat) : R Unit :=
  forUp (fun i (_ : Unit) => do
    let x ← rdw a i
    if x ≠ 0 then .error (.exc .overflowError) else .ok ()) (words N) 1 ()

/-- `to_ulong`, `bitset:405-428`. -/
def toUlong (N : Nat) (a : List Nat) : R Nat :=
  if N = 0 then .ok 0
  else if N ≤ 32 then do
    let x ← rdw a 0
    .ok (x % 2 ^ 32)
  else do
    (if N > 64 then highZero N a else .ok () : R Unit)
    let x ← rdw a 0
    if x < 2 ^ 32 then .ok (x % 2 ^ 32) else .error (.exc .overflowError)

/-- `to_ullong`, `bitset:430-446`. -/
def toUllong (N : Nat) (a : List Nat) : R Nat :=
  if N = 0 then .ok 0
  else do
    (if N > 64 then highZero N a else .ok () : R Unit)
    rdw a 0

/-- `to_string` with `_To_string`, `bitset:448-458,550-574`: position `i` of the buffer receives bit `N - 1 - i`. The buffer is the list of characters
written so far, in order. -/
def toString {C : Type} (N : Nat) (a : List Nat) (e0 e1 : C) : R (List C) :=
  forUp (fun i (buf : List C) => do
    let b ← subscript N a (N - 1 - i)
    .ok (buf ++ [if b then e1 else e0])) N 0 []

/-- `count`, `bitset:460-469`, with any of the popcount implementations. -/
def count (p : Bits.PopPath) (N : Nat) (a : List Nat) : R Nat :=
  forUp (fun i (val : Nat) => do
    let x ← rdw a i
    let c ← Bits.popcount p (wbits N) x
    .ok (toU 64 ((val : Int) + c))) (words N + 1) 0 0

/-- `operator==`, `bitset:475-489`, first different word. -/
def eqLoop (a b : List Nat) : Nat → Nat → R Bool
  | 0, _ => .ok true
  | n + 1, i => do
    let x ← rdw a i
    let y ← rdw b i
    if x ≠ y then .ok false else eqLoop a b n (i + 1)
/-- `operator==` -/
def eq (N : Nat) (a b : List Nat) : R Bool := eqLoop a b (words N + 1) 0

/-- `test`, `bitset:497-503`. -/
def test (N : Nat) (a : List Nat) (pos : Nat) : R Bool :=
  if N ≤ pos then .error (.exc .outOfRange) else subscript N a pos

/-- `any`, `bitset:505-513`. -/
def anyLoop (a : List Nat) : Nat → Nat → R Bool
  | 0, _ => .ok false
  | n + 1, i => do
    let x ← rdw a i
    if x ≠ 0 then .ok true else anyLoop a n (i + 1)
/-- `any` -/
def any (N : Nat) (a : List Nat) : R Bool := anyLoop a (words N + 1) 0
/-- `none`, `bitset:515-517`. -/
def none (N : Nat) (a : List Nat) : R Bool := do
  let b ← any N a
  .ok !b

/-- The loop of `all`, `bitset:525-529`. -/
def allLoop (w : Nat) (a : List Nat) : Nat → Nat → R Bool
  | 0, _ => .ok true
  | n + 1, i => do
    let x ← rdw a i
    if x ≠ 2 ^ w - 1 then .ok false else allLoop w a n (i + 1)
/-- `all`, `bitset:519-532`. -/
def all (N : Nat) (a : List Nat) : R Bool :=
  if N = 0 then .ok true
  else do
    let noPad := N % wbits N = 0
    let r ← allLoop (wbits N) a (words N + if noPad then 1 else 0) 0
    if !r then .ok false
    else if noPad then .ok true
    else do
      let x ← rdw a (words N)
      let m ← shlw (wbits N) 1 (N % wbits N)
      .ok (decide (x = predw (wbits N) m))

/-! ## Construction from a string -/

variable {C : Type} [DecidableEq C]

/-- `_Ptr[i]` -/
def rdc (s : List C) (i : Nat) : R C := match s[i]? with
  | some c => .ok c
  | Option.none => .error .ub

/-- The loop over excess characters, `bitset:206-213`. -/
def checkTail (s : List C) (e0 e1 : C) : Nat → Nat → R Unit
  | 0, _ => .ok ()
  | n + 1, i => do
    let ch ← rdc s i
    if ch ≠ e1 ∧ ch ≠ e0 then .error (.exc .invalidArgument) else checkTail s e0 e1 n (i + 1)

/-- The `do`/`while` loop, `bitset:219-238`; `j` is `_Last - _Ptr`. The loop of the source runs at least once and is entered only if `j ≠ 0`. -/
def consLoop (w : Nat) (s : List C) (e0 e1 : C) : Nat → Nat → Nat → Nat → List Nat → R (Nat × Nat × Nat × List Nat)
  | 0, used, word, wpos, a => .ok (used, word, wpos, a)
  | j + 1, used, word, wpos, a => do
    let ch ← rdc s j
    let b ← shlw w (if e1 = ch then 1 else 0) used
    let word := word ||| b
    if ch ≠ e1 ∧ ch ≠ e0 then .error (.exc .invalidArgument)
    else if used + 1 = w then do
      let a ← wrw a wpos word
      consLoop w s e0 e1 j 0 0 (wpos + 1) a
    else consLoop w s e0 e1 j (used + 1) word wpos a

/-- `_Construct`, `bitset:179-249`; `a` is the uninitialized array. -/
def construct (N : Nat) (a : List Nat) (s : List C) (count : Nat) (e0 e1 : C) : R (List Nat) := do
  (if count > N then checkTail s e0 e1 (count - N) N else .ok () : R Unit)
  let count := if count > N then N else count
  let (wpos, a) ← (if count ≠ 0 then do
      let (used, word, wpos, a) ← consLoop (wbits N) s e0 e1 count 0 0 0 a
      (if used ≠ 0 then do
        let a ← wrw a wpos word
        .ok (wpos + 1, a)
      else .ok (wpos, a) : R (Nat × List Nat))
    else .ok (0, a) : R (Nat × List Nat))
  forUp (fun i a => wrw a i 0) (words N + 1 - wpos) wpos a

/-- `bitset(const basic_string&, pos, count, zero, one)`, `bitset:252-267`. -/
def ofString (N : Nat) (a : List Nat) (str : List C) (pos count : Nat) (e0 e1 : C) : R (List Nat) :=
  if str.length < pos then .error (.exc .outOfRange)
  else
    let count := if str.length - pos < count then str.length - pos else count
    construct N a (str.drop pos) count e0 e1

end STL.Bset
