import Verif.FloatConv.Decimal

/-! # Conversions when digits do not fit in the buffer -/

namespace STL.FloatConv
open STL Spec STL.Charconv STL.BigInt

theorem five307 : 5 ^ 307 ≤ 2 ^ 713 := by decide +kernel
theorem ten309 : 2 ^ 1024 < 10 ^ 309 := by decide +kernel

/-- A midpoint between two patterns. -/
theorem mid_form {p : Nat} (hp : 1 ≤ p) (b : Nat) : ∃ k r, nm p b + nm p (b + 1) = (2 * r + 1) * 2 ^ k ∧ r < 2 ^ p := by
  obtain ⟨k, m, rfl, h, hm⟩ := pat_form p b
  have hp2 : 2 ^ p = 2 * 2 ^ (p - 1) := by rw [← pow_succ']; congr 1; omega
  refine ⟨k, m, ?_, by omega⟩
  rw [nm_mk hp h (by omega), Nat.add_assoc, nm_mk hp (by omega) (by omega)]; ring

theorem ten_zpow_ge {e : Int} (h1 : -306 ≤ e) (h2 : e ≤ 0) : (2 : ℚ) ^ (e - 714) ≤ 10 ^ (e - 1) := by
  obtain ⟨u, hu⟩ : ∃ u : Nat, (u : Int) = 1 - e := ⟨(1 - e).toNat, by omega⟩
  rw [show e - 714 = -((u + 713 : Nat) : Int) by push_cast; omega, show e - 1 = -(u : Int) by omega, zpow_neg, zpow_neg, zpow_natCast, zpow_natCast]
  refine inv_anti₀ (by positivity) ?_
  rw [show (10 : ℚ) = 2 * 5 by norm_num, mul_pow, pow_add]
  refine mul_le_mul_of_nonneg_left ?_ (by positivity)
  have h3 : (5 : ℚ) ^ u ≤ 5 ^ 307 := pow_le_pow_right₀ (by norm_num) (by omega)
  have h4 : (5 : ℚ) ^ 307 ≤ 2 ^ 713 := by exact_mod_cast five307
  exact le_trans h3 h4

/-- A decimal number of 768 digits below a midpoint is a unit in its last place away from it. -/
theorem mid_gap {T : Traits} (G : Good T) {b : Nat} (hb : b < inf T.mantissaBits T.exponentBits) {N : Nat} {e : Int} (hN : 10 ^ 767 ≤ N)
    (hlt : 2 * ((N : ℚ) * 10 ^ (e - 768) * scale T) < (nm T.mantissaBits b + nm T.mantissaBits (b + 1) : ℚ)) :
    2 * (((N : ℚ) + 1) * 10 ^ (e - 768) * scale T) ≤ (nm T.mantissaBits b + nm T.mantissaBits (b + 1) : ℚ) := by
  have hp2 := G.p2
  have hp53 := G.p53
  have hme := maxExp_le G
  obtain ⟨k, r, hm, hr⟩ := mid_form (p := T.mantissaBits) (by omega) b
  obtain ⟨s, hs⟩ : ∃ s : Nat, (s : Int) = (T.mantissaBits : Int) - 1 - T.minExp := ⟨((T.mantissaBits : Int) - 1 - T.minExp).toNat, by omega⟩
  have hsc : scale T = 2 ^ s := by unfold scale; rw [← hs, zpow_natCast]
  have hmq : (nm T.mantissaBits b + nm T.mantissaBits (b + 1) : ℚ) = ((2 * r + 1) * 2 ^ k : ℚ) := by exact_mod_cast hm
  have h10 : (0 : ℚ) < 10 ^ (e - 768) := by positivity
  -- the number is at least a tenth of its power of ten
  have hge : (10 : ℚ) ^ (e - 1) ≤ N * 10 ^ (e - 768) := by
    have : (10 : ℚ) ^ (e - 1) = 10 ^ 767 * 10 ^ (e - 768) := by
      rw [← zpow_natCast, ← zpow_add₀ (by norm_num)]; congr 1; push_cast; ring
    rw [this]
    exact mul_le_mul_of_nonneg_right (by exact_mod_cast hN) (le_of_lt h10)
  have hs0 := scale_pos T
  -- it is less than infinity
  have he309 : e ≤ 309 := by
    by_contra hc
    have a1 : (2 : ℚ) ^ 1024 ≤ N * 10 ^ (e - 768) := by
      refine le_trans ?_ hge
      have : (2 : ℚ) ^ 1024 ≤ 10 ^ 309 := by exact_mod_cast le_of_lt ten309
      refine le_trans this ?_
      rw [← zpow_natCast]
      exact zpow_le_zpow_right₀ (by norm_num) (by push_cast; omega)
    have a2 := huge G a1
    have a3 : (nm T.mantissaBits b : ℚ) ≤ nm T.mantissaBits (inf T.mantissaBits T.exponentBits) := by exact_mod_cast nm_le (by omega) (le_of_lt hb)
    have a4 : (nm T.mantissaBits (b + 1) : ℚ) ≤ nm T.mantissaBits (inf T.mantissaBits T.exponentBits) := by exact_mod_cast nm_le (by omega) hb
    linarith
  -- the power of two in the midpoint
  have hexp : 0 ≤ (k : Int) - s - 1 + (768 - e) := by
    by_cases h1 : e ≤ -307
    · omega
    · have hrq : (2 * r + 1 : ℚ) < 2 ^ (T.mantissaBits + 1) := by
        have : 2 * r + 1 < 2 ^ (T.mantissaBits + 1) := by rw [pow_succ]; omega
        exact_mod_cast this
      have hkey : (10 : ℚ) ^ (e - 1) < 2 ^ ((T.mantissaBits : Int) + k - s) := by
        have a1 : 2 * ((10 : ℚ) ^ (e - 1) * 2 ^ s) < 2 ^ (T.mantissaBits + 1) * 2 ^ k := by
          rw [← hsc]
          have := mul_le_mul_of_nonneg_right hge (le_of_lt hs0)
          have h5 := mul_lt_mul_of_pos_right hrq (show (0 : ℚ) < 2 ^ k by positivity)
          rw [hmq] at hlt
          linarith
        rw [show (T.mantissaBits : Int) + k - s = ((T.mantissaBits + k : Nat) : Int) - (s : Int) by push_cast; ring, zpow_sub₀ two_ne_zero, zpow_natCast, zpow_natCast,
          lt_div_iff₀ (by positivity), pow_add]
        rw [pow_succ] at a1
        linarith
      by_cases h2 : e ≤ 0
      · have a1 := lt_of_le_of_lt (ten_zpow_ge (by omega) h2) hkey
        have := (zpow_lt_zpow_iff_right₀ (show (1 : ℚ) < 2 by norm_num)).1 a1
        omega
      · have a0 : (2 : ℚ) ^ (0 : Int) ≤ 10 ^ (e - 1) := by rw [zpow_zero]; exact one_le_zpow₀ (by norm_num) (by omega)
        have := (zpow_lt_zpow_iff_right₀ (show (1 : ℚ) < 2 by norm_num)).1 (lt_of_le_of_lt a0 hkey)
        omega
  -- the midpoint as a multiple of the last place
  obtain ⟨j, hj⟩ : ∃ j : Nat, (j : Int) = (k : Int) - s - 1 + (768 - e) := ⟨_, Int.toNat_of_nonneg hexp⟩
  obtain ⟨n, hn⟩ : ∃ n : Nat, (n : Int) = 768 - e := ⟨(768 - e).toNat, by omega⟩
  have hJ : ((2 * r + 1) * 2 ^ k : ℚ) = 2 * (((2 * r + 1) * 2 ^ j * 5 ^ n : Nat) * 10 ^ (e - 768) * scale T) := by
    have e1 : (10 : ℚ) ^ (e - 768) = (2 ^ n * 5 ^ n)⁻¹ := by
      rw [← mul_pow, show e - 768 = -(n : Int) by omega, zpow_neg, zpow_natCast]; norm_num
    have e2 : (2 : ℚ) ^ k * 2 ^ n = 2 ^ j * 2 ^ s * 2 := by
      rw [← pow_add, ← pow_add, ← pow_succ]; congr 1; omega
    rw [e1, hsc]
    push_cast
    field_simp
    have : (2 : ℚ) ^ k * 2 ^ n = 2 * 2 ^ j * 2 ^ s := by rw [e2]; ring
    linarith
  rw [hmq, hJ] at hlt ⊢
  have hpos : (0 : ℚ) < 10 ^ (e - 768) * scale T := mul_pos h10 hs0
  have hNJ : (N : ℚ) < (((2 * r + 1) * 2 ^ j * 5 ^ n : Nat) : ℚ) := by
    by_contra hc
    have := mul_le_mul_of_nonneg_right (not_lt.1 hc) (le_of_lt hpos)
    rw [← mul_assoc, ← mul_assoc] at this
    linarith
  have hNJ' : (N : ℚ) + 1 ≤ (((2 * r + 1) * 2 ^ j * 5 ^ n : Nat) : ℚ) := by exact_mod_cast hNJ
  have := mul_le_mul_of_nonneg_right hNJ' (le_of_lt hpos)
  rw [← mul_assoc, ← mul_assoc] at this
  linarith

theorem numOf_pad {base : Nat} (ds : List Nat) (n : Nat) : numOf base (ds ++ List.replicate n 0) = numOf base ds * base ^ n := by
  have h0 : ∀ n, numOf base (List.replicate n 0) = 0 := by
    intro n
    induction n with
    | zero => rfl
    | succ n ih => rw [List.replicate_succ, numOf_cons, ih]; simp
  rw [numOf_append, h0, List.length_replicate, Nat.add_zero]

/-- What is being converted: the digits in the buffer and, if `zt` does not hold, something non-zero after 768 digits. -/
def Value (base : Nat) (ds : List Nat) (zt : Bool) (x : ℚ) : Prop :=
  (zt = true → x = (numOf base ds : ℚ) / base ^ ds.length) ∧
    (zt = false → (numOf base ds : ℚ) / base ^ ds.length < x ∧ x < (numOf base ds : ℚ) / base ^ ds.length + 1 / base ^ 768)

/-- The decimal conversion is correctly rounded, whatever digits were not kept. -/
theorem convertDecimal_rne {T : Traits} (G : Good T) (g : Nat → Nat) {ds : List Nat} {e : Int} (neg zt : Bool) (hd : ∀ d ∈ ds, d < 10) (hl : ds.length ≤ 768)
    (hhd : ∃ x t, ds = x :: t ∧ x ≠ 0) (hlast : ∃ a x, ds = a ++ [x] ∧ x ≠ 0) (he : -5200 ≤ e ∧ e ≤ 5200) {x : ℚ} (hx : Value 10 ds zt x) :
    ∃ b, convertDecimal T g ⟨neg, e, ds⟩ zt = .ok (outcome T neg b) ∧ Rne T.mantissaBits (inf T.mantissaBits T.exponentBits) b (x * 10 ^ e * scale T) := by
  obtain ⟨b, e1, h1, h2⟩ := convertDecimal_ok G g neg zt hd hl hhd hlast he
  refine ⟨b, e1, ?_⟩
  have hDe : (numOf 10 ds : ℚ) * 10 ^ (e - ds.length) = numOf 10 ds / 10 ^ ds.length * 10 ^ e := by
    rw [zpow_sub₀ (by norm_num), zpow_natCast]; ring
  cases zt
  · obtain ⟨hx1, hx2⟩ := hx.2 rfl
    have hR := h2 rfl
    push_cast at hx1 hx2
    have hs := scale_pos T
    have h10 : (0 : ℚ) < 10 ^ e := by positivity
    have hps := mul_pos h10 hs
    -- the digits padded to 768
    obtain ⟨N, hN⟩ : ∃ N, N = numOf 10 ds * 10 ^ (768 - ds.length) := ⟨_, rfl⟩
    have hNe : (N : ℚ) * 10 ^ (e - 768) = (numOf 10 ds : ℚ) * 10 ^ (e - ds.length) := by
      rw [hN]
      push_cast
      rw [mul_assoc, ← zpow_natCast, ← zpow_add₀ (by norm_num)]
      congr 2
      omega
    have hN767 : 10 ^ 767 ≤ N := by
      obtain ⟨y, t, rfl, hy⟩ := hhd
      rw [List.length_cons] at hl hN
      rw [hN, show 767 = t.length + (768 - (t.length + 1)) by omega, pow_add]
      exact Nat.mul_le_mul_right _ (numOf_ge hy)
    have hxlt : numOf 10 ds / 10 ^ ds.length * 10 ^ e * scale T < x * 10 ^ e * scale T := by
      rw [mul_assoc, mul_assoc]; exact mul_lt_mul_of_pos_right hx1 hps
    have hxU : x * 10 ^ e * scale T < (N + 1) * 10 ^ (e - 768) * scale T := by
      rw [add_mul, hNe, hDe, one_mul]
      have : (10 : ℚ) ^ (e - 768) = 1 / 10 ^ 768 * 10 ^ e := by rw [zpow_sub₀ (by norm_num), zpow_ofNat]; ring
      rw [this, ← add_mul, mul_assoc, mul_assoc]
      exact mul_lt_mul_of_pos_right hx2 hps
    rw [← hDe] at hxlt
    have hhi : b ≠ inf T.mantissaBits T.exponentBits → 2 * (x * 10 ^ e * scale T) < (nm T.mantissaBits b + nm T.mantissaBits (b + 1) : ℚ) := by
      intro hb
      have h3 := hR.high hb
      rw [← hNe] at h3
      have := mid_gap G (lt_of_le_of_ne hR.le hb) hN767 h3
      linarith
    exact ⟨⟨hR.le, fun h0 => by have := hR.low h0; linarith, fun h0 => le_of_lt (hhi h0)⟩, fun h0 h => by have := hR.low h0; linarith, fun h0 h => by have := hhi h0; linarith⟩
  · have := h1 rfl
    rw [hx.1 rfl]
    push_cast
    rw [hDe] at this
    exact this

end STL.FloatConv
