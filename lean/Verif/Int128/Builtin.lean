import Verif.Int128.Props
import Verif.Bits.Count

/-! # 128-bit integers: division by a built-in integer, concrete cases -/

namespace STL.Int128
open STL Digits

/-! ## Division by a built-in integer -/

/-- The built-in integer types of at most 64 bits. -/
def StdBits (b : Nat) : Prop := b = 8 ∨ b = 16 ∨ b = 32 ∨ b = 64

/-- `v` is a value of the built-in type and not its smallest value if that is negative. -/
def Fits (bits : Nat) (signed : Bool) (v : Int) : Prop :=
  if signed then -2 ^ (bits - 1) < v ∧ v < 2 ^ (bits - 1) else 0 ≤ v ∧ v < 2 ^ bits

theorem ofInt_small {v : Int} (h0 : 0 ≤ v) (h1 : v < 2 ^ 64) : ((BitVec.ofInt 64 v).toNat : Int) = v := by
  rw [BitVec.toNat_ofInt, Int.toNat_of_nonneg (Int.emod_nonneg _ (by norm_num))]
  push_cast; omega

theorem divBuiltin_core (cfg : Cfg) (x : B128) {bits : Nat} (hb : StdBits bits) {v : Int} (h0 : 0 < v) (h1 : v < 2 ^ bits) :
    ∃ q r, (if cfg.divIntr = false ∧ bits ≤ 32 then divMod32 x (lo32 (BitVec.ofInt 64 v)) else divMod64 x (BitVec.ofInt 64 v) : R (B128 × W)) = .ok (q, r) ∧
      q.toNat = x.toNat / v.natAbs := by
  have h64 : v < 2 ^ 64 := lt_of_lt_of_le h1 (by rcases hb with rfl | rfl | rfl | rfl <;> norm_num)
  have e := ofInt_small (by omega) h64
  split
  · rename_i hc
    have h32 : v < 2 ^ 32 := lt_of_lt_of_le h1 (by have := hc.2; rcases hb with rfl | rfl | rfl | rfl <;> norm_num at this <;> norm_num)
    have e2 : (lo32 (BitVec.ofInt 64 v)).toNat = v.natAbs := by rw [lo32_toNat]; omega
    obtain ⟨q, r, e3, hq, _⟩ := divMod32_ok x (den := lo32 (BitVec.ofInt 64 v)) (by omega) (by omega)
    exact ⟨q, r, e3, by rw [hq, e2]⟩
  · have e2 : (BitVec.ofInt 64 v).toNat = v.natAbs := by omega
    obtain ⟨q, r, e3, hq, _⟩ := divMod64_ok x (den := BitVec.ofInt 64 v) (by omega)
    exact ⟨q, r, e3, by rw [hq, e2]⟩

/-- **C14**: `/` of `_Signed128` by a built-in integer that is not the smallest value of its type. -/
theorem C14_signed_div_builtin (cfg : Cfg) (x : B128) (bits : Nat) (signed : Bool) (v : Int) (hb : StdBits bits) (hv : Fits bits signed v) (h0 : v ≠ 0) :
    ∃ q, sdivBuiltin cfg x bits signed v = .ok q ∧ q.toInt = (Int.tdiv x.toInt v).bmod (2 ^ 128) := by
  unfold sdivBuiltin
  obtain ⟨a1, a2⟩ := stripNegative_ok x false
  generalize stripNegative x false = X at *
  dsimp only
  have hfl : (signed && decide (v < 0)) = decide (v < 0) := by
    cases signed
    · have : ¬ v < 0 := by unfold Fits at hv; simp at hv; omega
      simp [this]
    · simp
  rw [hfl]
  have hp : (2 : Int) ^ (bits - 1) * 2 = 2 ^ bits := by rcases hb with rfl | rfl | rfl | rfl <;> norm_num
  by_cases hn : v < 0
  · have hs : signed = true := by
      cases signed
      · unfold Fits at hv; simp at hv; omega
      · rfl
    subst hs
    unfold Fits at hv
    rw [if_pos rfl] at hv
    rw [decide_eq_true hn, if_pos rfl, if_pos rfl]
    have hno : ¬ (32 ≤ bits ∧ -v ≥ 2 ^ (bits - 1)) := by rintro ⟨_, h⟩; omega
    rw [if_neg hno]
    have hval : (-v + 2 ^ (bits - 1)) % 2 ^ bits - 2 ^ (bits - 1) = -v := by
      rw [Int.emod_eq_of_lt (by omega) (by omega)]; omega
    rw [R.ok_bind, hval]
    obtain ⟨q, r, e, hq⟩ := divBuiltin_core cfg X.1 hb (v := -v) (by omega) (by omega)
    rw [e, R.ok_bind]
    refine ⟨_, rfl, ?_⟩
    rw [applyNeg (v := ((x.toInt.natAbs / v.natAbs : Nat) : Int)) (!X.2) (by rw [hq, a1, Int.natAbs_neg]), tdiv_signs, a2]
    have hbool : (!(false ^^ decide (x.toInt < 0))) = (decide (x.toInt < 0) ^^ decide (v < 0)) := by rw [decide_eq_true hn]; cases decide (x.toInt < 0) <;> rfl
    rw [hbool]
  · have hpos : 0 < v := by omega
    rw [decide_eq_false hn]
    simp only [Bool.false_eq_true, if_false]
    rw [R.ok_bind]
    have hlt : v < 2 ^ bits := by
      unfold Fits at hv
      split at hv
      · have : (0 : Int) < 2 ^ (bits - 1) := by positivity
        omega
      · exact hv.2
    obtain ⟨q, r, e, hq⟩ := divBuiltin_core cfg X.1 hb hpos hlt
    rw [e, R.ok_bind]
    refine ⟨_, rfl, ?_⟩
    rw [applyNeg (v := ((x.toInt.natAbs / v.natAbs : Nat) : Int)) X.2 (by rw [hq, a1]), tdiv_signs, a2]
    have hbool : (false ^^ decide (x.toInt < 0)) = (decide (x.toInt < 0) ^^ decide (v < 0)) := by rw [decide_eq_false hn]; cases decide (x.toInt < 0) <;> rfl
    rw [hbool]

/-- `clz` is what the modelled `_Countl_zero` returns on every code path (C15). -/
theorem clz_eq (p : Bits.Path) (v : Nat) (hv : v < 2 ^ 64) : Bits.countlZero p 64 v = .ok (clz 64 v : Int) := by
  rw [Bits.countlZero_ok (by unfold Bits.StdW; omega) hv]
  have := Nat.size_le.2 hv
  unfold clz
  congr 1
  omega

/-! ## Concrete cases -/

/-- A value with two non-zero words, divided by one with two non-zero words: the long division runs in both configurations. -/
example : ∃ q, divide ⟨true, true⟩ ⟨5, 0xFFFFFFFFFFFFFFFF#64⟩ ⟨0xFFFFFFFFFFFFFFFF#64, 2⟩ = .ok q ∧ q.toNat = (0xFFFFFFFFFFFFFFFF * 2 ^ 64 + 5) / (2 * 2 ^ 64 + 0xFFFFFFFFFFFFFFFF) :=
  C14_unsigned_div _ _ _ (by decide)

example : divide ⟨false, false⟩ ⟨5, 0xFFFFFFFFFFFFFFFF#64⟩ ⟨0xFFFFFFFFFFFFFFFF#64, 2⟩ = .ok ⟨0x5555555555555555#64, 0⟩ := by rfl

example : (smul (ofBuiltin (-3)) (ofBuiltin 5)).toInt = -15 := by decide

/-- The most negative value divided by -1 wraps to itself. -/
example : sdiv ⟨true, true⟩ ⟨0, 1#64 <<< 63⟩ (ofBuiltin (-1)) = .ok ⟨0, 1#64 <<< 63⟩ := by rfl

/-- The smallest value of `signed char` as divisor is outside the hypotheses of `C14_signed_div_builtin`, and rightly so: `_Den = -_Den` leaves -128, which is
then converted to `uint32_t`. The quotient of `-256` by `(signed char) -128` comes out as 0 instead of 2 (`__msvc_int128.hpp:1402-1427`). -/
theorem C14_div_schar_min : sdivBuiltin ⟨false, false⟩ (ofBuiltin (-256)) 8 true (-128) = .ok ⟨0, 0⟩ ∧ Int.tdiv (-256) (-128) = 2 := by
  constructor <;> rfl

end STL.Int128
