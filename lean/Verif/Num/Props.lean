import Verif.Num.Gcd

/-!
# C16: `gcd`, `lcm`, `midpoint`, `cmp_*`, `in_range`

`Fits t v`: the mathematical integer `v` is a value of the integer type `t`. `Std t`: `t` has 8, 16, 32 or 64 bits. `IsCommon a b c`: `c` is
`common_type_t<a, b>`. `p` ranges over the implementations of `countr_zero` (portable code or an intrinsic). Every result `.ok` says that the evaluation has
no undefined behaviour.
-/

namespace STL.Num
open STL
open STL.Mds (IT)

theorem fits_abs_gcd {c : IT} {M N : Nat} (h1 : Fits c (M : Int)) (h2 : Fits c (N : Int)) : Fits c ((Nat.gcd M N : Nat) : Int) := by
  have h0 : Fits c 0 := by unfold Fits; split <;> simp
  rcases Nat.eq_zero_or_pos M with rfl | h
  · rw [Nat.gcd_zero_left]; exact h2
  · have := Nat.gcd_le_left N h
    exact fits_between h0 h1 (by omega) (by omega)

/-- `gcd(m, n)` is the greatest common divisor of `|m|` and `|n|` whenever `|m|` and `|n|` are representable in the common type. -/
theorem C16_gcd {p : Bits.Path} {a b c : IT} (ha : Std a) (hb : Std b) (hc : IsCommon a b c) {m n : Int} (hm : Fits a m) (hn : Fits b n)
    (h1 : Fits c (m.natAbs : Int)) (h2 : Fits c (n.natAbs : Int)) : gcd p a b c m n = .ok ((Nat.gcd m.natAbs n.natAbs : Nat) : Int) := by
  rw [gcd_conv ha hb hc hm hn, conv_fits (std_common ha hb hc) (fits_abs_gcd h1 h2)]

example : Fits ⟨true, 8⟩ ((-128 : Int)) ∧ Fits ⟨false, 64⟩ (96 : Int) ∧ IsCommon ⟨true, 8⟩ ⟨false, 64⟩ ⟨false, 64⟩ ∧ Fits ⟨false, 64⟩ (((-128 : Int)).natAbs : Int) ∧
    Nat.gcd (-128 : Int).natAbs (96 : Int).natAbs = 32 := by
  refine ⟨by simp [Fits], by simp [Fits], ?_, by simp [Fits], by decide⟩
  left; simp [usual, promote, int]

/-- Even outside the precondition of the standard (`|m|` or `|n|` not representable) there is no undefined behaviour, and the result is exact if it is
representable. -/
theorem C16_gcd_wide {p : Bits.Path} {a b c : IT} (ha : Std a) (hb : Std b) (hc : IsCommon a b c) {m n : Int} (hm : Fits a m) (hn : Fits b n) :
    ∃ r, gcd p a b c m n = .ok r ∧ (Fits c ((Nat.gcd m.natAbs n.natAbs : Nat) : Int) → r = ((Nat.gcd m.natAbs n.natAbs : Nat) : Int)) :=
  ⟨_, gcd_conv ha hb hc hm hn, fun h => conv_fits (std_common ha hb hc) h⟩

/-- In debug mode and constant evaluation `gcd` refuses exactly the arguments equal to the most negative value of a signed common type. -/
theorem C16_gcd_checked {p : Bits.Path} {a b c : IT} (ha : Std a) (hb : Std b) (hc : IsCommon a b c) {m n : Int} (hm : Fits a m) (hn : Fits b n) :
    gcdChecked p a b c m n = .ok (if c.sg = true ∧ (m = -(2 ^ (c.w - 1) : Int) ∨ n = -(2 ^ (c.w - 1) : Int)) then none
      else some (c.conv ((Nat.gcd m.natAbs n.natAbs : Nat) : Int))) := by
  have hcs := std_common ha hb hc
  unfold gcdChecked
  by_cases hs : c.sg = true
  · have hf := (limits_le hcs).2.2.1
    rw [eqI_common ha hb hc hs hm hf, eqI_common hb ha (isCommon_comm hc) hs hn hf, minLimit_ok hcs]
    simp only [hs, if_true, Bool.true_and, Bool.or_eq_true, decide_eq_true_eq, true_and]
    split
    · rfl
    · rw [gcd_conv ha hb hc hm hn]; rfl
  · simp only [hs]
    rw [gcd_conv ha hb hc hm hn]
    simp [R.ok_bind]

/-- `lcm(m, n)` is the least common multiple of `|m|` and `|n|` whenever that is representable in the common type. -/
theorem C16_lcm {p : Bits.Path} {a b c : IT} (ha : Std a) (hb : Std b) (hc : IsCommon a b c) {m n : Int} (hm : Fits a m) (hn : Fits b n)
    (hl : Fits c ((Nat.lcm m.natAbs n.natAbs : Nat) : Int)) : lcm p a b c m n = .ok ((Nat.lcm m.natAbs n.natAbs : Nat) : Int) :=
  lcm_ok ha hb hc hm hn hl

example : Fits ⟨true, 16⟩ (((Nat.lcm (-300 : Int).natAbs (70 : Int).natAbs : Nat) : Int)) ∧ Fits ⟨true, 16⟩ (-300) ∧ Fits ⟨true, 16⟩ 70 ∧
    IsCommon ⟨true, 16⟩ ⟨true, 16⟩ ⟨true, 16⟩ := by
  refine ⟨?_, by simp [Fits], by simp [Fits], .inr ⟨rfl, rfl⟩⟩
  rw [show Nat.lcm (-300 : Int).natAbs (70 : Int).natAbs = 2100 by decide]; simp [Fits]

/-- In debug mode and constant evaluation `lcm` returns exactly the representable results, and fails the check for all others. -/
theorem C16_lcm_checked {p : Bits.Path} {a b c : IT} (ha : Std a) (hb : Std b) (hc : IsCommon a b c) {m n : Int} (hm : Fits a m) (hn : Fits b n) :
    ∃ o, lcmChecked p a b c m n = .ok o ∧ (∀ r, o = some r ↔ (r = ((Nat.lcm m.natAbs n.natAbs : Nat) : Int) ∧ Fits c r)) :=
  lcmChecked_ok ha hb hc hm hn

/-- `r` is half the sum of `x` and `y`, rounded towards `x`. -/
def IsMidpoint (x y r : Int) : Prop := 2 * r = x + y ∨ (2 * r = x + y - 1 ∧ x < y) ∨ (2 * r = x + y + 1 ∧ y < x)

/-- `midpoint(x, y)` is exact for all integers of all widths, without overflow. -/
theorem C16_midpoint {t : IT} (ht : Std t) {x y : Int} (hx : Fits t x) (hy : Fits t y) : ∃ r, midpoint t x y = .ok r ∧ IsMidpoint x y r := by
  refine ⟨_, midpoint_ok ht hx hy, ?_⟩
  unfold IsMidpoint
  split <;> omega

/-- `IsMidpoint` determines the value. -/
theorem isMidpoint_unique {x y r r' : Int} (h : IsMidpoint x y r) (h' : IsMidpoint x y r') : r = r' := by
  unfold IsMidpoint at *; omega

example : Fits ⟨true, 64⟩ (2 ^ 63 - 1) ∧ Fits ⟨true, 64⟩ (-(2 ^ 63)) ∧ IsMidpoint (2 ^ 63 - 1) (-(2 ^ 63)) 0 := by
  refine ⟨by simp [Fits], by simp [Fits], by unfold IsMidpoint; omega⟩

/-- `midpoint` of two pointers into one array. -/
theorem C16_midpoint_ptr {len x y : Nat} (hl : len < 2 ^ 63) (hx : x ≤ len) (hy : y ≤ len) :
    ∃ r : Nat, midpointPtr len x y = .ok r ∧ r ≤ len ∧ IsMidpoint x y r := by
  refine ⟨_, midpointPtr_ok hl hx hy, ?_, ?_⟩
  · split <;> omega
  · unfold IsMidpoint
    split <;> push_cast <;> omega

/-- `cmp_equal`, `cmp_less`, … compare the mathematical values of integers of any two types. -/
theorem C16_cmp {a b : IT} (ha : Std a) (hb : Std b) {x y : Int} (hx : Fits a x) (hy : Fits b y) :
    (cmpEqual a b x y = true ↔ x = y) ∧ (cmpNotEqual a b x y = true ↔ x ≠ y) ∧ (cmpLess a b x y = true ↔ x < y) ∧ (cmpGreater a b x y = true ↔ x > y) ∧
    (cmpLessEqual a b x y = true ↔ x ≤ y) ∧ (cmpGreaterEqual a b x y = true ↔ x ≥ y) := by
  unfold cmpNotEqual cmpGreater cmpLessEqual cmpGreaterEqual
  rw [cmpEqual_ok ha hb hx hy, cmpLess_ok ha hb hx hy, cmpLess_ok hb ha hy hx]
  simp

example : Fits ⟨true, 8⟩ (-1) ∧ Fits ⟨false, 64⟩ (2 ^ 64 - 1) ∧ Std ⟨true, 8⟩ ∧ Std ⟨false, 64⟩ := by
  refine ⟨by simp [Fits], by simp [Fits], by simp [Std, Bits.StdW], by simp [Std, Bits.StdW]⟩

/-- `in_range<R>(v)` says whether the value is representable in `R`. -/
theorem C16_in_range {r t : IT} (hr : Std r) (ht : Std t) {v : Int} (hv : Fits t v) : inRange r t v = true ↔ Fits r v := inRange_ok hr ht hv

end STL.Num
