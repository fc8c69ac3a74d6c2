import Verif.Int128.LongDiv32

/-!
# 128-bit integers: the theorems of C14

The value of an unsigned object is `toNat`, of a signed one `toInt` (two's complement); `Int.bmod _ (2 ^ 128)` reduces to the range of the signed type. Every theorem about
division holds for every configuration of intrinsics.
-/

namespace STL.Int128
open STL Digits

theorem toInt_bmod (x : B128) : x.toInt = (x.toNat : Int).bmod (2 ^ 128) := by
  have := x.lt
  unfold B128.toInt Int.bmod
  rw [Int.emod_eq_of_lt (by omega) (by exact_mod_cast this)]
  by_cases h : x.toNat < 2 ^ 127
  · rw [if_pos h, if_pos (by norm_num; omega)]
  · rw [if_neg h, if_neg (by norm_num; omega)]; norm_num

theorem toInt_of {z : B128} {v : Int} (h : (z.toNat : Int) % 2 ^ 128 = v % 2 ^ 128) : z.toInt = v.bmod (2 ^ 128) := by
  rw [toInt_bmod]
  unfold Int.bmod
  have : ((2 ^ 128 : Nat) : Int) = 2 ^ 128 := by norm_num
  rw [this, h]

theorem toInt_emod (x : B128) : x.toInt % 2 ^ 128 = (x.toNat : Int) % 2 ^ 128 := by
  unfold B128.toInt; split <;> omega

theorem toInt_range (x : B128) : -2 ^ 127 ≤ x.toInt ∧ x.toInt < 2 ^ 127 := by
  have := x.lt
  unfold B128.toInt; split <;> omega

theorem bmod_id {v : Int} (h1 : -2 ^ 127 ≤ v) (h2 : v < 2 ^ 127) : v.bmod (2 ^ 128) = v := by
  rw [Int.bmod_eq_of_le]
  · norm_num; omega
  · norm_num; omega

theorem toNat_inj {x y : B128} (h : x.toNat = y.toNat) : x = y := (B128.ext_iff x y).2 h

/-! ## Addition, subtraction, negation, multiplication -/

/-- **C14**: `+` of `_Unsigned128` is addition modulo `2 ^ 128`. -/
theorem C14_unsigned_add (x y : B128) : (add x y).toNat = (x.toNat + y.toNat) % 2 ^ 128 := add_ok x y

/-- **C14**: `+` of `_Signed128`. -/
theorem C14_signed_add (x y : B128) : (add x y).toInt = (x.toInt + y.toInt).bmod (2 ^ 128) := by
  apply toInt_of
  rw [add_ok, Int.add_emod, toInt_emod, toInt_emod, ← Int.add_emod]
  push_cast
  rw [Int.emod_emod_of_dvd _ (dvd_refl _)]

/-- **C14**: `-` of `_Unsigned128`. -/
theorem C14_unsigned_sub (x y : B128) : ((sub x y).toNat : Int) = ((x.toNat : Int) - y.toNat) % 2 ^ 128 := sub_ok x y

/-- **C14**: `-` of `_Signed128`. -/
theorem C14_signed_sub (x y : B128) : (sub x y).toInt = (x.toInt - y.toInt).bmod (2 ^ 128) := by
  apply toInt_of
  rw [sub_ok, Int.sub_emod x.toInt, toInt_emod, toInt_emod, ← Int.sub_emod, Int.emod_emod_of_dvd _ (dvd_refl _)]

/-- **C14**: unary `-`. -/
theorem C14_signed_neg (x : B128) : (neg x).toInt = (-x.toInt).bmod (2 ^ 128) := by
  apply toInt_of
  rw [neg_ok, Int.emod_emod_of_dvd _ (dvd_refl _), ← Int.zero_sub, ← Int.zero_sub x.toInt, Int.sub_emod, ← toInt_emod, ← Int.sub_emod]

/-- **C14**: `++` and `--`. -/
theorem C14_inc_dec (x : B128) : (inc x).toNat = (x.toNat + 1) % 2 ^ 128 ∧ ((dec x).toNat : Int) = ((x.toNat : Int) - 1) % 2 ^ 128 ∧
    (inc x).toInt = (x.toInt + 1).bmod (2 ^ 128) ∧ (dec x).toInt = (x.toInt - 1).bmod (2 ^ 128) := by
  refine ⟨inc_ok x, dec_ok x, ?_, ?_⟩
  · apply toInt_of
    rw [inc_ok, Int.add_emod, toInt_emod, ← Int.add_emod]
    push_cast
    rw [Int.emod_emod_of_dvd _ (dvd_refl _)]
  · apply toInt_of
    rw [dec_ok, Int.sub_emod x.toInt, toInt_emod, ← Int.sub_emod, Int.emod_emod_of_dvd _ (dvd_refl _)]

/-- **C14**: `*` of `_Unsigned128`. -/
theorem C14_unsigned_mul (x y : B128) : (multiply x y).toNat = x.toNat * y.toNat % 2 ^ 128 := multiply_ok x y

theorem stripNegative_ok (x : B128) (f : Bool) : (stripNegative x f).1.toNat = x.toInt.natAbs ∧ (stripNegative x f).2 = (f ^^ decide (x.toInt < 0)) := by
  unfold stripNegative
  rw [isNeg_ok]
  have hx := x.lt
  by_cases h : x.toInt < 0
  · simp only [h, decide_true, if_true]
    refine ⟨?_, by cases f <;> rfl⟩
    have hn := neg_ok x
    unfold B128.toInt at h ⊢
    split
    · rename_i h'; rw [if_pos h'] at h; omega
    · omega
  · simp only [h, decide_false, Bool.false_eq_true, if_false]
    refine ⟨?_, by cases f <;> rfl⟩
    unfold B128.toInt at h ⊢
    split
    · omega
    · rename_i h'; rw [if_neg h'] at h; omega

theorem applyNeg {r : B128} {v : Int} (b : Bool) (h : (r.toNat : Int) % 2 ^ 128 = v % 2 ^ 128) :
    (if b then neg r else r).toInt = (if b then -v else v).bmod (2 ^ 128) := by
  cases b
  · exact toInt_of h
  · apply toInt_of
    simp only [if_true]
    rw [neg_ok, Int.emod_emod_of_dvd _ (dvd_refl _), ← Int.zero_sub, ← Int.zero_sub v, Int.sub_emod, h, ← Int.sub_emod]

theorem signed_abs (a : Int) : (if a < 0 then -(a.natAbs : Int) else a.natAbs) = a := by split <;> omega

/-- **C14**: `*` of `_Signed128`. -/
theorem C14_signed_mul (x y : B128) : (smul x y).toInt = (x.toInt * y.toInt).bmod (2 ^ 128) := by
  unfold smul
  obtain ⟨a1, a2⟩ := stripNegative_ok x false
  generalize stripNegative x false = X at *
  obtain ⟨b1, b2⟩ := stripNegative_ok y X.2
  dsimp only
  generalize stripNegative y X.2 = Y at *
  rw [applyNeg (v := (x.toInt.natAbs : Int) * y.toInt.natAbs) Y.2 (by rw [multiply_ok, a1, b1]; push_cast; rw [Int.emod_emod_of_dvd _ (dvd_refl _)])]
  congr 1
  rw [b2, a2]
  by_cases hx : x.toInt < 0 <;> by_cases hy : y.toInt < 0 <;> simp only [hx, hy, decide_true, decide_false, Bool.xor_true, Bool.xor_false, Bool.not_true, Bool.not_false, if_true, if_false, Bool.false_eq_true]
  · rw [show (x.toInt.natAbs : Int) = -x.toInt by omega, show (y.toInt.natAbs : Int) = -y.toInt by omega]; ring
  · rw [show (x.toInt.natAbs : Int) = -x.toInt by omega, show (y.toInt.natAbs : Int) = y.toInt by omega]; ring
  · rw [show (x.toInt.natAbs : Int) = x.toInt by omega, show (y.toInt.natAbs : Int) = -y.toInt by omega]; ring
  · rw [show (x.toInt.natAbs : Int) = x.toInt by omega, show (y.toInt.natAbs : Int) = y.toInt by omega]

/-! ## Bits, shifts, comparisons -/

/-- **C14**: `&`, `|`, `^`, `~`. -/
theorem C14_bitwise (x y : B128) (i : Nat) (hi : i < 128) :
    (band x y).toNat.testBit i = (x.toNat.testBit i && y.toNat.testBit i) ∧ (bor x y).toNat.testBit i = (x.toNat.testBit i || y.toNat.testBit i) ∧
    (bxor x y).toNat.testBit i = (x.toNat.testBit i ^^ y.toNat.testBit i) ∧ (compl x).toNat.testBit i = !x.toNat.testBit i := by
  have bit : ∀ (z : B128), z.toNat.testBit i = if i < 64 then z.w0.getLsbD i else z.w1.getLsbD (i - 64) := by
    intro z
    unfold B128.toNat
    rw [Nat.mul_comm, Nat.testBit_two_pow_mul_add _ z.w0.isLt]
    rfl
  simp only [bit]
  unfold band bor bxor compl
  by_cases h : i < 64
  · simp [h]
  · simp [h, show i - 64 < 64 by omega]

/-- **C14**: `<<` by fewer than 128 positions. -/
theorem C14_shl (x : B128) (c : Nat) (hc : c < 128) : (leftShift x c).toNat = x.toNat * 2 ^ c % 2 ^ 128 ∧ (leftShift x c).toInt = (x.toInt * 2 ^ c).bmod (2 ^ 128) := by
  refine ⟨leftShift_ok x hc, ?_⟩
  apply toInt_of
  rw [leftShift_ok x hc, Int.mul_emod, toInt_emod, ← Int.mul_emod]
  push_cast
  rw [Int.emod_emod_of_dvd _ (dvd_refl _)]

/-- **C14**: `>>` of `_Unsigned128` rounds the quotient by a power of two down. -/
theorem C14_unsigned_shr (x : B128) (c : Nat) (hc : c < 128) : (rightShift x c).toNat = x.toNat / 2 ^ c := rightShift_ok x hc

/-- **C14**: `>>` of `_Signed128` rounds toward negative infinity. -/
theorem C14_signed_shr (x : B128) (c : Nat) (hc : c < 128) : (signedRightShift x c).toInt = Int.fdiv x.toInt (2 ^ c) := by
  rw [signedRightShift_ok x hc, Int.fdiv_eq_ediv_of_nonneg _ (by positivity)]

/-- **C14**: the comparisons. -/
theorem C14_compare (x y : B128) : (blt x y = true ↔ x.toNat < y.toNat) ∧ (slt x y = true ↔ x.toInt < y.toInt) ∧ (x = y ↔ x.toNat = y.toNat) ∧ (x = y ↔ x.toInt = y.toInt) := by
  refine ⟨by rw [blt_ok]; simp, by rw [slt_ok]; simp, B128.ext_iff x y, fun h => by rw [h], fun h => ?_⟩
  apply toNat_inj
  have h1 := toInt_emod x
  have h2 := toInt_emod y
  have := x.lt; have := y.lt
  rw [h] at h1
  omega

/-- **C14**: the conversion from a built-in integer keeps its value. -/
theorem C14_ofBuiltin (v : Int) (h1 : -2 ^ 63 ≤ v) (h2 : v < 2 ^ 64) : (ofBuiltin v).toInt = v ∧ (0 ≤ v → (ofBuiltin v).toNat = v) := by
  have e : ((BitVec.ofInt 64 v).toNat : Int) = v % 2 ^ 64 := by
    rw [BitVec.toNat_ofInt, Int.toNat_of_nonneg (Int.emod_nonneg _ (by norm_num))]; norm_num
  unfold ofBuiltin B128.toInt B128.toNat
  by_cases h : v < 0
  · simp only [h, if_true]
    have hm : (~~~(0#64)).toNat = 2 ^ 64 - 1 := by decide
    rw [hm]
    refine ⟨?_, fun h' => by omega⟩
    generalize (BitVec.ofInt 64 v).toNat = w at *
    split <;> omega
  · simp only [h, if_false]
    have hm : (0 : W).toNat = 0 := rfl
    rw [hm]
    generalize (BitVec.ofInt 64 v).toNat = w at *
    refine ⟨?_, fun _ => by omega⟩
    split <;> omega

/-! ## Division -/

theorem w0_zero {x : B128} (h : x.w1.toNat = 0) : x.toNat = x.w0.toNat := by unfold B128.toNat; rw [h]; omega

theorem low (a : W) : (B128.mk a 0).toNat = a.toNat := low_word a

theorem div_eq_one {a b : Nat} (h1 : b ≤ a) (h2 : a < 2 * b) : a / b = 1 ∧ a % b = a - b := by
  have : a / b = 1 := by
    apply Nat.div_eq_of_lt_le <;> omega
  refine ⟨this, ?_⟩
  have := Nat.div_add_mod a b
  have h3 : b * (a / b) = b := by rw [‹a / b = 1›]; omega
  omega

/-- **C14**: `/` of `_Unsigned128`, for every non-zero divisor. -/
theorem C14_unsigned_div (cfg : Cfg) (x y : B128) (h0 : y.toNat ≠ 0) : ∃ q, divide cfg x y = .ok q ∧ q.toNat = x.toNat / y.toNat := by
  have hx0 := x.w0.isLt; have hy0 := y.w0.isLt
  have ex : x.toNat = x.w1.toNat * 2 ^ 64 + x.w0.toNat := rfl
  have ey : y.toNat = y.w1.toNat * 2 ^ 64 + y.w0.toNat := rfl
  unfold divide
  by_cases h1 : y.w1 ≥ x.w1
  · rw [if_pos h1]
    rw [ge_iff_le, BitVec.le_def] at h1
    by_cases h2 : y.w1 > x.w1
    · rw [if_pos h2]
      rw [gt_iff_lt, BitVec.lt_def] at h2
      refine ⟨_, rfl, ?_⟩
      rw [low, tn0, Nat.div_eq_of_lt (by omega)]
    · rw [if_neg h2]
      rw [gt_iff_lt, BitVec.lt_def] at h2
      by_cases h3 : x.w1 = 0
      · rw [if_pos h3]
        have h3' : x.w1.toNat = 0 := by rw [h3]; rfl
        rw [wdiv_ok (by omega), R.ok_bind]
        refine ⟨_, rfl, ?_⟩
        rw [low, w0_zero h3', w0_zero (by omega), BitVec.toNat_udiv]
      · rw [if_neg h3]
        have h3' : x.w1.toNat ≠ 0 := fun h => h3 (BitVec.eq_of_toNat_eq h)
        refine ⟨_, rfl, ?_⟩
        rw [low]
        by_cases h4 : x.w0 ≥ y.w0
        · rw [if_pos h4, tn1]
          rw [ge_iff_le, BitVec.le_def] at h4
          rw [(div_eq_one (a := x.toNat) (b := y.toNat) (by omega) (by omega)).1]
        · rw [if_neg h4, tn0]
          rw [ge_iff_le, BitVec.le_def] at h4
          rw [Nat.div_eq_of_lt (by omega)]
  · rw [if_neg h1]
    by_cases h2 : y.w1 = 0
    · rw [if_pos h2]
      have h2' : y.w1.toNat = 0 := by rw [h2]; rfl
      obtain ⟨q, r, e, hq, hr⟩ := shortDiv_ok cfg x (den := y.w0) (by omega)
      rw [e, R.ok_bind]
      exact ⟨_, rfl, by rw [hq, w0_zero h2']⟩
    · rw [if_neg h2]
      have h2' : y.w1.toNat ≠ 0 := fun h => h2 (BitVec.eq_of_toNat_eq h)
      obtain ⟨q, r, d, e, _, hq, hr⟩ := longDiv_ok cfg (num := x) h2'
      rw [e, R.ok_bind]
      exact ⟨_, rfl, hq⟩

/-- **C14**: `%` of `_Unsigned128`, for every non-zero divisor. -/
theorem C14_unsigned_mod (cfg : Cfg) (x y : B128) (h0 : y.toNat ≠ 0) : ∃ r, modulo cfg x y = .ok r ∧ r.toNat = x.toNat % y.toNat := by
  have hx0 := x.w0.isLt; have hy0 := y.w0.isLt
  have ex : x.toNat = x.w1.toNat * 2 ^ 64 + x.w0.toNat := rfl
  have ey : y.toNat = y.w1.toNat * 2 ^ 64 + y.w0.toNat := rfl
  unfold modulo
  by_cases h1 : y.w1 ≥ x.w1
  · rw [if_pos h1]
    rw [ge_iff_le, BitVec.le_def] at h1
    by_cases h2 : y.w1 > x.w1
    · rw [if_pos h2]
      rw [gt_iff_lt, BitVec.lt_def] at h2
      refine ⟨_, rfl, ?_⟩
      rw [Nat.mod_eq_of_lt (by omega)]
    · rw [if_neg h2]
      rw [gt_iff_lt, BitVec.lt_def] at h2
      by_cases h3 : y.w0 ≤ x.w0
      · rw [if_pos h3]
        rw [BitVec.le_def] at h3
        by_cases h4 : x.w1 = 0
        · rw [if_pos h4]
          have h4' : x.w1.toNat = 0 := by rw [h4]; rfl
          rw [wmod_ok (by omega), R.ok_bind]
          refine ⟨_, rfl, ?_⟩
          rw [low, w0_zero h4', w0_zero (by omega), BitVec.toNat_umod]
        · rw [if_neg h4]
          have h4' : x.w1.toNat ≠ 0 := fun h => h4 (BitVec.eq_of_toNat_eq h)
          refine ⟨_, rfl, ?_⟩
          rw [low, (div_eq_one (a := x.toNat) (b := y.toNat) (by omega) (by omega)).2, BitVec.toNat_sub]
          omega
      · rw [if_neg h3]
        rw [BitVec.le_def] at h3
        refine ⟨_, rfl, ?_⟩
        rw [Nat.mod_eq_of_lt (by omega)]
  · rw [if_neg h1]
    by_cases h2 : y.w1 = 0
    · rw [if_pos h2]
      have h2' : y.w1.toNat = 0 := by rw [h2]; rfl
      obtain ⟨q, r, e, hq, hr⟩ := shortDiv_ok cfg x (den := y.w0) (by omega)
      rw [e, R.ok_bind]
      exact ⟨_, rfl, by rw [low, hr, w0_zero h2']⟩
    · rw [if_neg h2]
      have h2' : y.w1.toNat ≠ 0 := fun h => h2 (BitVec.eq_of_toNat_eq h)
      obtain ⟨q, r, d, e, hd, hq, hr⟩ := longDiv_ok cfg (num := x) h2'
      rw [e, R.ok_bind]
      refine ⟨_, rfl, ?_⟩
      show (rightShift r d).toNat = _
      rw [rightShift_ok _ (by omega), hr, Nat.mul_div_cancel _ (Nat.two_pow_pos _)]

theorem ceil_cases (a b : Nat) (hb : b ≠ 0) : (a + b - 1) / b = if a % b = 0 then a / b else a / b + 1 := by
  have h := Nat.div_add_mod a b
  have hm := Nat.mod_lt a (by omega : 0 < b)
  split
  · rename_i hz
    apply Nat.div_eq_of_lt_le
    · rw [Nat.mul_comm]; omega
    · rw [Nat.add_mul, Nat.mul_comm]; omega
  · apply Nat.div_eq_of_lt_le
    · rw [Nat.add_mul, Nat.mul_comm]; omega
    · rw [Nat.add_mul, Nat.add_mul, Nat.mul_comm]; omega

/-- **C14**: `_Div_ceil` rounds the quotient up. -/
theorem C14_div_ceil (cfg : Cfg) (x y : B128) (h0 : y.toNat ≠ 0) : ∃ q, divCeil cfg x y = .ok q ∧ q.toNat = (x.toNat + y.toNat - 1) / y.toNat := by
  rw [ceil_cases _ _ h0]
  have hx0 := x.w0.isLt; have hy0 := y.w0.isLt; have hx := x.lt
  have ex : x.toNat = x.w1.toNat * 2 ^ 64 + x.w0.toNat := rfl
  have ey : y.toNat = y.w1.toNat * 2 ^ 64 + y.w0.toNat := rfl
  unfold divCeil
  by_cases h1 : y.w1 ≥ x.w1
  · rw [if_pos h1]
    rw [ge_iff_le, BitVec.le_def] at h1
    by_cases h2 : y.w1 > x.w1
    · rw [if_pos h2]
      rw [gt_iff_lt, BitVec.lt_def] at h2
      refine ⟨_, rfl, ?_⟩
      rw [low, Nat.div_eq_of_lt (by omega), Nat.mod_eq_of_lt (by omega)]
      have : x ≠ ⟨0, 0⟩ ↔ x.toNat ≠ 0 := by
        rw [Ne, B128.ext_iff]; rfl
      by_cases hz : x.toNat = 0
      · rw [if_neg (by rw [this]; omega), if_pos hz, tn0]
      · rw [if_pos (this.2 hz), if_neg hz, tn1]
    · rw [if_neg h2]
      rw [gt_iff_lt, BitVec.lt_def] at h2
      by_cases h3 : x.w1 = 0
      · rw [if_pos h3]
        have h3' : x.w1.toNat = 0 := by rw [h3]; rfl
        rw [wdiv_ok (by omega), R.ok_bind, wmod_ok (by omega), R.ok_bind]
        refine ⟨_, rfl, ?_⟩
        rw [low, w0_zero h3', w0_zero (by omega)]
        have hm : x.w0 % y.w0 ≠ 0 ↔ x.w0.toNat % y.w0.toNat ≠ 0 := by
          rw [Ne, ← BitVec.toNat_inj, BitVec.toNat_umod]; rfl
        by_cases hz : x.w0.toNat % y.w0.toNat = 0
        · rw [if_neg (by rw [hm]; omega), if_pos hz, BitVec.toNat_udiv]
        · rw [if_pos (hm.2 hz), if_neg hz, BitVec.toNat_add, BitVec.toNat_udiv, tn1]
          apply Nat.mod_eq_of_lt
          have hle := Nat.div_le_self x.w0.toNat y.w0.toNat
          by_contra hc
          have : y.w0.toNat = 1 := by
            by_contra hc2
            have : x.w0.toNat / y.w0.toNat ≤ x.w0.toNat / 2 := Nat.div_le_div_left (by omega) (by norm_num)
            omega
          rw [this, Nat.mod_one] at hz
          exact hz rfl
      · rw [if_neg h3]
        have h3' : x.w1.toNat ≠ 0 := fun h => h3 (BitVec.eq_of_toNat_eq h)
        refine ⟨_, rfl, ?_⟩
        rw [low]
        by_cases h4 : x.w0 > y.w0
        · rw [if_pos h4]
          rw [gt_iff_lt, BitVec.lt_def] at h4
          obtain ⟨e1, e2⟩ := div_eq_one (a := x.toNat) (b := y.toNat) (by omega) (by omega)
          rw [e1, e2, if_neg (by omega)]
          rfl
        · rw [if_neg h4, tn1]
          rw [gt_iff_lt, BitVec.lt_def] at h4
          by_cases h5 : x.toNat = y.toNat
          · rw [h5, Nat.mod_self, if_pos rfl, Nat.div_self (by omega)]
          · rw [Nat.div_eq_of_lt (by omega), Nat.mod_eq_of_lt (by omega), if_neg (by omega)]
  · rw [if_neg h1]
    have incOk : ∀ q : B128, q.toNat = x.toNat / y.toNat → x.toNat % y.toNat ≠ 0 → (inc q).toNat = x.toNat / y.toNat + 1 := by
      intro q hq hz
      rw [inc_ok, hq]
      apply Nat.mod_eq_of_lt
      have hle : x.toNat / y.toNat ≤ x.toNat / 2 := by
        apply Nat.div_le_div_left _ (by norm_num)
        by_contra hc
        have : y.toNat = 1 := by omega
        rw [this, Nat.mod_one] at hz
        exact hz rfl
      omega
    by_cases h2 : y.w1 = 0
    · rw [if_pos h2]
      have h2' : y.w1.toNat = 0 := by rw [h2]; rfl
      obtain ⟨q, r, e, hq, hr⟩ := shortDiv_ok cfg x (den := y.w0) (by omega)
      rw [← w0_zero h2'] at hq hr
      rw [e, R.ok_bind]
      refine ⟨_, rfl, ?_⟩
      show (if r ≠ 0 then inc q else q).toNat = _
      have hm : r ≠ 0 ↔ x.toNat % y.toNat ≠ 0 := by rw [Ne, ← BitVec.toNat_inj, hr]; rfl
      by_cases hz : x.toNat % y.toNat = 0
      · rw [if_neg (by rw [hm]; omega), if_pos hz, hq]
      · rw [if_pos (hm.2 hz), if_neg hz, incOk _ hq hz]
    · rw [if_neg h2]
      have h2' : y.w1.toNat ≠ 0 := fun h => h2 (BitVec.eq_of_toNat_eq h)
      obtain ⟨q, r, d, e, hd, hq, hr⟩ := longDiv_ok cfg (num := x) h2'
      rw [e, R.ok_bind]
      refine ⟨_, rfl, ?_⟩
      show (if r ≠ ⟨0, 0⟩ then inc q else q).toNat = _
      have hm : r ≠ ⟨0, 0⟩ ↔ x.toNat % y.toNat ≠ 0 := by
        rw [Ne, B128.ext_iff, hr]
        have hp := Nat.two_pow_pos d
        have hz0 : (B128.mk 0 0).toNat = 0 := rfl
        rw [hz0, Nat.mul_eq_zero]
        constructor
        · intro h h'; exact h (Or.inl h')
        · rintro h (h' | h')
          · exact h h'
          · omega
      by_cases hz : x.toNat % y.toNat = 0
      · rw [if_neg (by rw [hm]; omega), if_pos hz, hq]
      · rw [if_pos (hm.2 hz), if_neg hz, incOk _ hq hz]

theorem toInt_ne_zero {y : B128} : y.toInt ≠ 0 ↔ y.toNat ≠ 0 := by
  have := y.lt
  unfold B128.toInt; split <;> omega

theorem tdiv_signs (a b : Int) : Int.tdiv a b = if (decide (a < 0) ^^ decide (b < 0)) = true then -((a.natAbs / b.natAbs : Nat) : Int) else ((a.natAbs / b.natAbs : Nat) : Int) := by
  push_cast
  by_cases ha : a < 0 <;> by_cases hb : b < 0 <;> simp only [ha, hb, decide_true, decide_false, Bool.xor_true, Bool.xor_false, Bool.not_true, Bool.not_false, if_true, if_false, Bool.false_eq_true]
  · obtain ⟨a', rfl⟩ : ∃ a', a = -a' := ⟨-a, by omega⟩
    obtain ⟨b', rfl⟩ : ∃ b', b = -b' := ⟨-b, by omega⟩
    rw [Int.neg_tdiv, Int.tdiv_neg, Int.neg_neg, abs_neg, abs_neg, abs_of_nonneg (by omega : 0 ≤ a'), abs_of_nonneg (by omega : 0 ≤ b'), Int.tdiv_eq_ediv_of_nonneg (by omega)]
  · obtain ⟨a', rfl⟩ : ∃ a', a = -a' := ⟨-a, by omega⟩
    rw [Int.neg_tdiv, abs_neg, abs_of_nonneg (by omega : 0 ≤ a'), abs_of_nonneg (by omega : 0 ≤ b), Int.tdiv_eq_ediv_of_nonneg (by omega)]
  · obtain ⟨b', rfl⟩ : ∃ b', b = -b' := ⟨-b, by omega⟩
    rw [Int.tdiv_neg, abs_neg, abs_of_nonneg (by omega : 0 ≤ a), abs_of_nonneg (by omega : 0 ≤ b'), Int.tdiv_eq_ediv_of_nonneg (by omega)]
  · rw [abs_of_nonneg (by omega : 0 ≤ a), abs_of_nonneg (by omega : 0 ≤ b), Int.tdiv_eq_ediv_of_nonneg (by omega)]

/-- **C14**: `/` of `_Signed128`: the quotient rounded toward zero, modulo `2 ^ 128`. -/
theorem C14_signed_div (cfg : Cfg) (x y : B128) (h0 : y.toInt ≠ 0) : ∃ q, sdiv cfg x y = .ok q ∧ q.toInt = (Int.tdiv x.toInt y.toInt).bmod (2 ^ 128) := by
  unfold sdiv
  obtain ⟨a1, a2⟩ := stripNegative_ok x false
  generalize stripNegative x false = X at *
  obtain ⟨b1, b2⟩ := stripNegative_ok y X.2
  dsimp only
  generalize stripNegative y X.2 = Y at *
  obtain ⟨q, e, hq⟩ := C14_unsigned_div cfg X.1 Y.1 (by omega)
  rw [e, R.ok_bind]
  refine ⟨_, rfl, ?_⟩
  rw [applyNeg (v := ((x.toInt.natAbs / y.toInt.natAbs : Nat) : Int)) Y.2 (by rw [hq, a1, b1]), tdiv_signs, b2, a2]
  simp only [Bool.false_bne]

/-- **C14**: only the most negative value divided by -1 does not fit. -/
theorem C14_signed_div_exact (cfg : Cfg) (x y : B128) (h0 : y.toInt ≠ 0) (hmin : ¬ (x.toInt = -2 ^ 127 ∧ y.toInt = -1)) :
    ∃ q, sdiv cfg x y = .ok q ∧ q.toInt = Int.tdiv x.toInt y.toInt := by
  obtain ⟨q, e, hq⟩ := C14_signed_div cfg x y h0
  refine ⟨q, e, ?_⟩
  rw [hq]
  obtain ⟨r1, r2⟩ := toInt_range x
  have hab : x.toInt.natAbs / y.toInt.natAbs ≤ x.toInt.natAbs := Nat.div_le_self _ _
  rw [tdiv_signs]
  have h2 : x.toInt = -2 ^ 127 → y.toInt < 0 → x.toInt.natAbs / y.toInt.natAbs ≤ x.toInt.natAbs / 2 :=
    fun _ _ => Nat.div_le_div_left (by omega) (by norm_num)
  have h3 : (decide (x.toInt < 0) ^^ decide (y.toInt < 0)) = true ↔ ¬ (x.toInt < 0 ↔ y.toInt < 0) := by
    by_cases ha : x.toInt < 0 <;> by_cases hb : y.toInt < 0 <;> simp [ha, hb]
  generalize x.toInt.natAbs / y.toInt.natAbs = N at *
  rw [if_congr h3 rfl rfl]
  generalize x.toInt = a at *
  generalize y.toInt = b at *
  clear hq e h3 q
  apply bmod_id
  · split <;> omega
  · split
    · omega
    · by_cases hx : a = -2 ^ 127
      · have := h2 hx (by omega)
        omega
      · omega

theorem tmod_signs (a b : Int) : Int.tmod a b = if a < 0 then -((a.natAbs % b.natAbs : Nat) : Int) else ((a.natAbs % b.natAbs : Nat) : Int) := by
  rw [Int.natCast_mod]
  by_cases ha : a < 0
  · rw [if_pos ha]
    obtain ⟨c, rfl⟩ : ∃ c : Nat, a = -(c : Int) := ⟨a.natAbs, by omega⟩
    rw [Int.neg_tmod, Int.natAbs_neg, Int.natAbs_natCast, Int.tmod_eq_emod_of_nonneg (by omega)]
    rcases Int.natAbs_eq b with h | h
    · rw [← h]
    · conv_lhs => rw [h, Int.emod_neg]
  · rw [if_neg ha]
    obtain ⟨c, rfl⟩ : ∃ c : Nat, a = (c : Int) := ⟨a.natAbs, by omega⟩
    rw [Int.natAbs_natCast, Int.tmod_eq_emod_of_nonneg (by omega)]
    rcases Int.natAbs_eq b with h | h
    · rw [← h]
    · conv_lhs => rw [h, Int.emod_neg]

/-- **C14**: `%` of `_Signed128`: the remainder has the sign of the dividend. -/
theorem C14_signed_mod (cfg : Cfg) (x y : B128) (h0 : y.toInt ≠ 0) : ∃ r, smod cfg x y = .ok r ∧ r.toInt = Int.tmod x.toInt y.toInt := by
  unfold smod
  obtain ⟨a1, a2⟩ := stripNegative_ok x false
  generalize stripNegative x false = X at *
  have hy : (if isNeg y = true then neg y else y).toNat = y.toInt.natAbs := by
    have := (stripNegative_ok y false).1
    unfold stripNegative at this
    split at this
    · rename_i h; rw [if_pos h]; exact this
    · rename_i h; rw [if_neg h]; exact this
  dsimp only
  generalize (if isNeg y = true then neg y else y) = Y at *
  obtain ⟨r, e, hr⟩ := C14_unsigned_mod cfg X.1 Y (by omega)
  rw [e, R.ok_bind]
  refine ⟨_, rfl, ?_⟩
  rw [applyNeg (v := ((x.toInt.natAbs % y.toInt.natAbs : Nat) : Int)) X.2 (by rw [hr, a1, hy]), a2]
  obtain ⟨r1, r2⟩ := toInt_range x
  obtain ⟨r3, r4⟩ := toInt_range y
  have hm := Nat.mod_lt x.toInt.natAbs (y := y.toInt.natAbs) (by omega)
  have hle := Nat.mod_le x.toInt.natAbs y.toInt.natAbs
  have key := tmod_signs x.toInt y.toInt
  rw [key]
  clear key hr e
  generalize x.toInt.natAbs % y.toInt.natAbs = N at *
  by_cases h : x.toInt < 0
  · simp only [h, decide_true, Bool.false_bne, if_true]
    exact bmod_id (by omega) (by omega)
  · simp only [h, decide_false, Bool.false_bne, if_false, Bool.false_eq_true]
    exact bmod_id (by omega) (by omega)

end STL.Int128
