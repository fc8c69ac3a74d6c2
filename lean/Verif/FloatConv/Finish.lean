import Verif.FloatConv.Hex

/-! # The exponent: `charconv:1766-1840` -/

namespace STL.FloatConv
open STL Spec STL.Charconv STL.BigInt

theorem value_bounds {base : Nat} (hb : 2 ≤ base) {ds : List Nat} {zt : Bool} {x : ℚ} (hd : ∀ d ∈ ds, d < base) (hl : ds.length ≤ 768) (hhd : ∃ x t, ds = x :: t ∧ x ≠ 0)
    (hx : Value base ds zt x) : 1 / (base : ℚ) ≤ x ∧ x < 1 := by
  have hb0 : (0 : ℚ) < base := by exact_mod_cast (show 0 < base by omega)
  have hpos : (0 : ℚ) < base ^ ds.length := by positivity
  have h1 : 1 / (base : ℚ) ≤ (numOf base ds : ℚ) / base ^ ds.length := by
    obtain ⟨y, t, rfl, hy⟩ := hhd
    rw [div_le_div_iff₀ hb0 hpos, one_mul, List.length_cons, pow_succ]
    exact mul_le_mul_of_nonneg_right (by exact_mod_cast numOf_ge hy) (le_of_lt hb0)
  have h2 : (numOf base ds : ℚ) + 1 ≤ base ^ ds.length := by exact_mod_cast numOf_lt hd
  have h3 : (numOf base ds : ℚ) / base ^ ds.length + 1 / base ^ ds.length ≤ 1 := by rw [← add_div, div_le_one hpos]; exact h2
  have h4 : (1 : ℚ) / base ^ 768 ≤ 1 / base ^ ds.length := by
    refine one_div_le_one_div_of_le hpos (pow_le_pow_right₀ ?_ hl)
    exact_mod_cast (show 1 ≤ base by omega)
  have h5 : (0 : ℚ) < 1 / base ^ ds.length := by positivity
  cases zt
  · obtain ⟨a1, a2⟩ := hx.2 rfl; constructor <;> linarith
  · have := hx.1 rfl; constructor <;> linarith

/-- Base of the exponent and the number of its units in a digit. -/
def ebase (isHex : Bool) : Nat := if isHex then 2 else 10
def emult (isHex : Bool) : Int := if isHex then 4 else 1
def dbase (isHex : Bool) : Nat := if isHex then 16 else 10

theorem big_inf {T : Traits} (G : Good T) (isHex neg : Bool) {x : ℚ} {t : Int} (hx : 1 / (dbase isHex : ℚ) ≤ x) (ht : 5200 < t) :
    ∃ b, (.ok (asmInf T neg, .resultOutOfRange) : R (Nat × Errc)) = .ok (outcome T neg b) ∧ Rne T.mantissaBits (inf T.mantissaBits T.exponentBits) b (x * (ebase isHex : ℚ) ^ t * scale T) := by
  obtain ⟨b, e, h, _⟩ := conv_inf G neg true (D := x * (ebase isHex : ℚ) ^ t) (huge G (by
    have h2 : (2 : ℚ) ^ 1024 ≤ 1 / (dbase isHex : ℚ) * (ebase isHex : ℚ) ^ t := by
      cases isHex
      · show (2 : ℚ) ^ 1024 ≤ 1 / (10 : Nat) * ((10 : Nat) : ℚ) ^ t
        push_cast
        rw [show t = (t - 1) + 1 by ring, zpow_add_one₀ (by norm_num), mul_comm _ (10 : ℚ), ← mul_assoc, one_div, inv_mul_cancel₀ (by norm_num), one_mul]
        calc (2 : ℚ) ^ 1024 ≤ 10 ^ 1024 := pow_le_pow_left₀ (by norm_num) (by norm_num) _
          _ = 10 ^ (1024 : Int) := (zpow_ofNat _ _).symm
          _ ≤ 10 ^ (t - 1) := zpow_le_zpow_right₀ (by norm_num) (by omega)
      · show (2 : ℚ) ^ 1024 ≤ 1 / (16 : Nat) * ((2 : Nat) : ℚ) ^ t
        push_cast
        rw [show t = (t - 4) + 4 by ring, zpow_add₀ (by norm_num), mul_comm, mul_assoc, show (2 : ℚ) ^ (4 : Int) * (1 / 16) = 1 by norm_num, mul_one, ← zpow_ofNat]
        exact zpow_le_zpow_right₀ (by norm_num) (by omega)
    refine le_trans h2 (mul_le_mul_of_nonneg_right hx ?_)
    positivity))
  exact ⟨b, e, h rfl⟩

theorem small_zero {T : Traits} (G : Good T) (isHex neg : Bool) {x : ℚ} {t : Int} (hx0 : 0 ≤ x) (hx : x < 1) (ht : t < -5200) :
    ∃ b, (.ok (asmZero T neg, .resultOutOfRange) : R (Nat × Errc)) = .ok (outcome T neg b) ∧ Rne T.mantissaBits (inf T.mantissaBits T.exponentBits) b (x * (ebase isHex : ℚ) ^ t * scale T) := by
  obtain ⟨b, e, h, _⟩ := conv_zero G neg true (D := x * (ebase isHex : ℚ) ^ t) (by
    have hB : (2 : ℚ) ≤ ebase isHex := by cases isHex <;> simp [ebase] <;> norm_num
    have h1 : (ebase isHex : ℚ) ^ t ≤ 2 ^ (-5201 : Int) := by
      obtain ⟨n, hn⟩ : ∃ n : Nat, (n : Int) = -t := ⟨(-t).toNat, by omega⟩
      rw [show t = -(n : Int) by omega, zpow_neg, zpow_natCast, zpow_neg, zpow_ofNat]
      refine inv_anti₀ (by positivity) ?_
      calc (2 : ℚ) ^ 5201 ≤ 2 ^ n := pow_le_pow_right₀ (by norm_num) (by omega)
        _ ≤ _ := pow_le_pow_left₀ (by norm_num) hB _
    have h2 := scale_le G
    have h3 : x * (ebase isHex : ℚ) ^ t ≤ 2 ^ (-5201 : Int) := by
      calc x * (ebase isHex : ℚ) ^ t ≤ 1 * (ebase isHex : ℚ) ^ t := mul_le_mul_of_nonneg_right (le_of_lt hx) (by positivity)
        _ ≤ _ := by rw [one_mul]; exact h1
    calc 2 * (x * (ebase isHex : ℚ) ^ t * scale T) ≤ 2 * (2 ^ (-5201 : Int) * 2 ^ 1074) :=
          mul_le_mul_of_nonneg_left (mul_le_mul h3 h2 (le_of_lt (scale_pos T)) (by positivity)) (by norm_num)
      _ = 2 ^ (-4126 : Int) := by
          rw [← zpow_ofNat (2 : ℚ) 1074, ← zpow_add₀ (by norm_num), show (-4126 : Int) = 1 + (-5201 + 1074) by norm_num, zpow_add₀ (by norm_num) 1, zpow_one]
      _ < 1 := zpow_lt_one_of_neg₀ (by norm_num) (by norm_num))
  exact ⟨b, e, h rfl⟩

/-- The adjustment does not overflow, keeps the total and leaves two numbers of about the same sign. -/
theorem adjust_ok (isHex : Bool) {e a : Int} (he : -(2 ^ 63 - 1) ≤ e ∧ e ≤ 2 ^ 63 - 1) (ha : -(2 ^ 57) < a ∧ a < 2 ^ 57) :
    ∃ e' a', adjust isHex e a = .ok (e', a') ∧ e' + emult isHex * a' = e + emult isHex * a ∧ (0 < a' → -3 ≤ e') ∧ (a' < 0 → e' ≤ 3) ∧ (3 < e' → 0 ≤ a') ∧ (e' < -3 → a' ≤ 0) ∧
      (0 < a' → 0 ≤ e') ∧ (a' < 0 → e' ≤ 0) := by
  unfold adjust emult
  cases isHex
  · by_cases h1 : e > 0 ∧ a < 0
    · simp only [if_pos h1, Bool.false_eq_true, if_false]
      rw [chkL_ok (by omega), R.ok_bind, chkL_ok (by omega), R.ok_bind]
      exact ⟨_, _, rfl, by ring, by omega, by omega, by omega, by omega, by omega, by omega⟩
    · by_cases h2 : e < 0 ∧ a > 0
      · simp only [if_neg h1, if_pos h2, Bool.false_eq_true, if_false]
        rw [chkL_ok (by omega), R.ok_bind, chkL_ok (by omega), R.ok_bind]
        exact ⟨_, _, rfl, by ring, by omega, by omega, by omega, by omega, by omega, by omega⟩
      · simp only [if_neg h1, if_neg h2]
        exact ⟨_, _, rfl, rfl, by omega, by omega, by omega, by omega, by omega, by omega⟩
  · by_cases h1 : e > 0 ∧ a < 0
    · simp only [if_pos h1, if_true]
      have hd : (e - 1).tdiv 4 = (e - 1) / 4 := Int.tdiv_eq_ediv_of_nonneg (by omega)
      rw [hd, chkL_ok (by omega), R.ok_bind, chkL_ok (by omega), R.ok_bind, chkL_ok (by omega), R.ok_bind]
      exact ⟨_, _, rfl, by ring, by omega, by omega, by omega, by omega, by omega, by omega⟩
    · by_cases h2 : e < 0 ∧ a > 0
      · simp only [if_neg h1, if_pos h2, if_true]
        have hd : (-e - 1).tdiv 4 = (-e - 1) / 4 := Int.tdiv_eq_ediv_of_nonneg (by omega)
        rw [hd, chkL_ok (by omega), R.ok_bind, chkL_ok (by omega), R.ok_bind, chkL_ok (by omega), R.ok_bind]
        exact ⟨_, _, rfl, by ring, by omega, by omega, by omega, by omega, by omega, by omega⟩
      · simp only [if_neg h1, if_neg h2]
        exact ⟨_, _, rfl, rfl, by omega, by omega, by omega, by omega, by omega, by omega⟩

/-- The value of the digits and the exponent, correctly rounded. `E` is the exponent written in the string. -/
theorem finish_ok {T : Traits} (G : Good T) (g : Nat → Nat) (isHex neg : Bool) {ds : List Nat} (zt : Bool) {e adj : Int} {big : Bool} {E : Int} {x : ℚ}
    (hd : ∀ d ∈ ds, d < dbase isHex) (hl : ds.length ≤ 768) (hhd : ∃ x t, ds = x :: t ∧ x ≠ 0) (hlast : ∃ a x, ds = a ++ [x] ∧ x ≠ 0) (hx : Value (dbase isHex) ds zt x)
    (hE : big = false → e = E ∧ -(2 ^ 63 - 1) ≤ e ∧ e ≤ 2 ^ 63 - 1) (hE2 : big = true → (0 < e ∧ 2 ^ 62 ≤ E) ∨ (e < 0 ∧ E ≤ -(2 ^ 62))) (ha : -(2 ^ 57) < adj ∧ adj < 2 ^ 57) :
    ∃ b, finish T g isHex neg ds zt e adj big = .ok (outcome T neg b) ∧
      Rne T.mantissaBits (inf T.mantissaBits T.exponentBits) b (x * (ebase isHex : ℚ) ^ (E + emult isHex * adj) * scale T) := by
  obtain ⟨hx1, hx2⟩ := value_bounds (base := dbase isHex) (by cases isHex <;> simp [dbase]) hd hl hhd hx
  have hx0 : 0 ≤ x := le_trans (by positivity) hx1
  have hm : emult isHex = 1 ∨ emult isHex = 4 := by cases isHex <;> simp [emult]
  unfold finish
  cases big
  · rw [if_neg (by simp)]
    obtain ⟨rfl, hE1⟩ := hE rfl
    obtain ⟨e', a', e1, ht, h1, h2, h3, h4, h5, h6⟩ := adjust_ok isHex hE1 ha
    rw [e1, R.ok_bind]
    dsimp only
    rw [← ht]
    have hmu : (if isHex = true then 4 else 1 : Int) = emult isHex := rfl
    rw [hmu]
    have hdiv : (5200 : Int).tdiv (emult isHex) * emult isHex = 5200 ∧ (-5200 : Int).tdiv (emult isHex) * emult isHex = -5200 := by cases isHex <;> decide
    obtain ⟨q1, hq1⟩ : ∃ q, q = (5200 : Int).tdiv (emult isHex) := ⟨_, rfl⟩
    obtain ⟨q2, hq2⟩ : ∃ q, q = (-5200 : Int).tdiv (emult isHex) := ⟨_, rfl⟩
    rw [← hq1, ← hq2] at hdiv
    rw [← hq1, ← hq2]
    obtain ⟨m, hme⟩ : ∃ m, m = emult isHex := ⟨_, rfl⟩
    rw [← hme] at hdiv hm ht ⊢
    by_cases c1 : e' > 5200 ∨ a' > q1
    · rw [if_pos c1]
      exact big_inf G isHex neg hx1 (by rcases hm with rfl | rfl <;> omega)
    · rw [if_neg c1]
      by_cases c2 : e' < -5200 ∨ a' < q2
      · rw [if_pos c2]
        exact small_zero G isHex neg hx0 hx2 (by rcases hm with rfl | rfl <;> omega)
      · rw [if_neg c2, chkL_ok (by rcases hm with rfl | rfl <;> omega), R.ok_bind, chkL_ok (by rcases hm with rfl | rfl <;> omega), R.ok_bind, mul_comm a' m]
        by_cases c3 : e' + m * a' > 5200
        · rw [if_pos c3]; exact big_inf G isHex neg hx1 c3
        · rw [if_neg c3]
          by_cases c4 : e' + m * a' < -5200
          · rw [if_pos c4]; exact small_zero G isHex neg hx0 hx2 c4
          · rw [if_neg c4]
            cases isHex
            · rw [if_neg (by simp)]
              exact convertDecimal_rne G g neg zt hd hl hhd hlast (by omega) hx
            · rw [if_pos rfl]
              exact convertHex_rne G neg zt hd hl hhd hlast (by omega) hx
  · rw [if_pos rfl]
    rcases hE2 rfl with ⟨h1, h2⟩ | ⟨h1, h2⟩
    · rw [if_pos h1]
      exact big_inf G isHex neg hx1 (by rcases hm with h | h <;> rw [h] <;> omega)
    · rw [if_neg (by omega)]
      exact small_zero G isHex neg hx0 hx2 (by rcases hm with h | h <;> rw [h] <;> omega)

end STL.FloatConv
