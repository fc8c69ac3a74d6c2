import Verif.Base
import Mathlib.Tactic.NormNum

/-!
# Fixed-width C++ integer arithmetic

Signed arithmetic that overflows is undefined behaviour; unsigned arithmetic and conversions wrap ([basic.fundamental],
[conv.integral], [expr.mul], [expr.shift]).
-/

namespace STL

/-- The value of a signed `w`-bit expression; overflow is undefined behaviour. -/
def chkS (w : Nat) (v : Int) : R Int := if -(2 ^ (w - 1) : Int) ≤ v ∧ v < 2 ^ (w - 1) then .ok v else .error .ub

/-- `int` (32 bits). -/
abbrev chkI (v : Int) : R Int := chkS 32 v
/-- `long long` (64 bits). -/
abbrev chkL (v : Int) : R Int := chkS 64 v

/-- Conversion to an unsigned type of `w` bits. -/
def toU (w : Nat) (v : Int) : Nat := (v % 2 ^ w).toNat

/-- Conversion to a signed type of `w` bits (two's complement). -/
def toS (w : Nat) (v : Int) : Int := (v + 2 ^ (w - 1)) % 2 ^ w - 2 ^ (w - 1)

/-- `a / b` for signed operands: truncation toward zero. -/
abbrev cdiv (a b : Int) : Int := Int.tdiv a b

/-- `a >> k` for a signed `a`: arithmetic shift (C++20, and MSVC always). -/
def sar (a : Int) (k : Nat) : Int := a / 2 ^ k

theorem chkI_ok {v : Int} (h : -2147483648 ≤ v ∧ v < 2147483648) : chkI v = .ok v := by
  unfold chkI chkS; rw [if_pos]; norm_num; exact h

theorem chkL_ok {v : Int} (h : -9223372036854775808 ≤ v ∧ v < 9223372036854775808) : chkL v = .ok v := by
  unfold chkL chkS; rw [if_pos]; norm_num; exact h

end STL
