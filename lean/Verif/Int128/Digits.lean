import Verif.Base
import Mathlib.Tactic.Ring
import Mathlib.Tactic.Linarith
import Mathlib.Tactic.LinearCombination
import Mathlib.Data.Nat.Size

/-!
# Arrays of machine words and multi-word division

`/repo/stl/inc/__msvc_int128.hpp:204-255` (`_Knuth_4_3_1_D`).

An array is a function with a size; reading or writing outside of it is undefined behaviour.
-/

namespace STL.Digits
open STL

/-- An array of `size` words. -/
structure Arr where
  size : Nat
  f : Nat → Nat

/-- Read an element. -/
def Arr.ld (a : Arr) (i : Nat) : R Nat := if i < a.size then .ok (a.f i) else .error .ub
/-- Write an element. -/
def Arr.st (a : Arr) (i v : Nat) : R Arr := if i < a.size then .ok ⟨a.size, fun x => if x = i then v else a.f x⟩ else .error .ub

/-- The value of the words `f j, …, f (j + n - 1)` in base `b`, least significant first (specification). -/
def val (b : Nat) (f : Nat → Nat) (j : Nat) : Nat → Nat
  | 0 => 0
  | n + 1 => val b f j n + f (j + n) * b ^ n

/-- A result of type `int64_t`; overflow is undefined behaviour. -/
def i64 (v : Int) : R Int := if -2 ^ 63 ≤ v ∧ v < 2 ^ 63 then .ok v else .error .ub

/-! ## `_Knuth_4_3_1_D`, base `2 ^ 32` -/

/-- The loop correcting the trial quotient, `__msvc_int128.hpp:221-228`. All quantities are `uint64_t` or `uint32_t`; `qhat` and `rhat` are kept reduced. -/
def qhatLoop (v1 v2 u2 : Nat) : Nat → Nat → Nat → R Nat
  | 0, _, _ => .error .fuel
  | fuel + 1, qhat, rhat =>
    if qhat >>> 32 ≠ 0 ∨ (qhat % 2 ^ 32 * v2) % 2 ^ 64 > ((rhat <<< 32) % 2 ^ 64 ||| u2) then
      let qhat := (qhat + 2 ^ 64 - 1) % 2 ^ 64
      let rhat := (rhat + v1) % 2 ^ 64
      if rhat >>> 32 ≠ 0 then .ok qhat
      else qhatLoop v1 v2 u2 fuel qhat rhat
    else .ok qhat

/-- Multiply and subtract, `__msvc_int128.hpp:232-237`: `todo` digits are left, `i` is the loop variable. -/
def mulSub (qhat : Nat) (v : Arr) (j : Nat) : Nat → Nat → Arr → Int → R (Arr × Int)
  | 0, _, u, k => .ok (u, k)
  | todo + 1, i, u, k => do
    let prod := qhat % 2 ^ 32 * (← v.ld i) % 2 ^ 64
    let t ← i64 ((← u.ld (i + j)) - k)
    let t ← i64 (t - ((prod % 2 ^ 32 : Nat) : Int))
    let u ← u.st (i + j) (t % 2 ^ 32).toNat
    let k ← i64 (((prod >>> 32 : Nat) : Int) - t / 2 ^ 32)
    mulSub qhat v j todo (i + 1) u k

/-- Add back, `__msvc_int128.hpp:245-249`. -/
def addBack (v : Arr) (j : Nat) : Nat → Nat → Arr → Int → R (Arr × Int)
  | 0, _, u, k => .ok (u, k)
  | todo + 1, i, u, k => do
    let t ← i64 ((← u.ld (i + j)) + k)
    let t ← i64 (t + (← v.ld i))
    let u ← u.st (i + j) (t % 2 ^ 32).toNat
    addBack v j todo (i + 1) u (t / 2 ^ 32)

/-- One round of the main loop, `__msvc_int128.hpp:216-252`. `n` is `__n`. -/
def knuthStep (n : Nat) (v : Arr) (j : Nat) (u q : Arr) : R (Arr × Arr) := do
  let v1 ← v.ld (n - 1)
  let v2 ← (if n < 2 then .error .ub else v.ld (n - 2) : R Nat)
  let two := ((← u.ld (j + n)) <<< 32) % 2 ^ 64 ||| (← u.ld (j + n - 1))
  if v1 = 0 then .error .ub
  else
    let qhat ← qhatLoop v1 v2 (← u.ld (j + n - 2)) 3 (two / v1) (two % v1)
    let (u, k) ← mulSub qhat v j n 0 u 0
    let t ← i64 ((← u.ld (j + n)) - k)
    let u ← u.st (j + n) (t % 2 ^ 32).toNat
    let q ← q.st j (qhat % 2 ^ 32)
    if t < 0 then
      let q ← q.st j (((← q.ld j) + 2 ^ 32 - 1) % 2 ^ 32)
      let (u, k) ← addBack v j n 0 u 0
      -- `__u[__j + __n] += static_cast<int32_t>(__k)`
      let u ← u.st (j + n) ((((← u.ld (j + n)) : Int) + k) % 2 ^ 32).toNat
      .ok (u, q)
    else .ok (u, q)

/-- The main loop, `__msvc_int128.hpp:215`: rounds `j - 1, …, 0`. -/
def knuthLoop (n : Nat) (v : Arr) : Nat → Arr → Arr → R (Arr × Arr)
  | 0, u, q => .ok (u, q)
  | j + 1, u, q => do
    let (u, q) ← knuthStep n v j u q
    knuthLoop n v j u q

/-- `_Knuth_4_3_1_D(__u, __u_size, __v, __v_size, __q)`: the new `__u` and `__q`. -/
def knuthD (u : Arr) (uSize : Nat) (v : Arr) (vSize : Nat) (q : Arr) : R (Arr × Arr) := knuthLoop vSize v (uSize - vSize) u q

end STL.Digits
