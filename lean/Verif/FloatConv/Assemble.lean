import Verif.FloatConv.Shift

/-! # `_Assemble_floating_point_value` -/

namespace STL.FloatConv
open STL Spec STL.Charconv STL.BigInt

/-- The traits describe the format with `p` bits of precision and `w` bits of exponent. -/
structure Good (T : Traits) : Prop where
  p2 : 2 ≤ T.mantissaBits
  p53 : T.mantissaBits ≤ 53
  w2 : 2 ≤ T.exponentBits
  w11 : T.exponentBits ≤ 11
  maxE : T.maxExp = bias T.exponentBits
  minE : T.minExp = 1 - bias T.exponentBits
  bi : T.bias = bias T.exponentBits
  sgn : T.signShift = T.mantissaBits + T.exponentBits - 1
  esh : T.exponentShift = T.mantissaBits - 1
  ub : T.uintBits = T.mantissaBits + T.exponentBits
  mask : T.normalMantissaMask = 2 ^ T.mantissaBits - 1
  em : T.shiftedExponentMask = inf T.mantissaBits T.exponentBits

theorem flt_good : Good flt := by constructor <;> decide
theorem dbl_good : Good dbl := by constructor <;> decide

/-- A pattern with its sign bit. -/
def withSign (T : Traits) (neg : Bool) (b : Nat) : Nat := (if neg then 2 ^ (T.mantissaBits + T.exponentBits - 1) else 0) + b

/-- The number of biased exponents. -/
theorem two_pow_w {w : Nat} (h2 : 2 ≤ w) (h : w ≤ 11) : 4 ≤ 2 ^ w ∧ 2 ^ w ≤ 2048 ∧ (2 ^ w : Int) = 2 * bias w + 2 := by
  refine ⟨?_, ?_, ?_⟩
  · exact le_trans (by norm_num) (Nat.pow_le_pow_right (show 0 < 2 by norm_num) h2)
  · exact le_trans (Nat.pow_le_pow_right (show 0 < 2 by norm_num) h) (by norm_num)
  · unfold bias
    have : (2 : Int) ^ w = 2 * 2 ^ (w - 1) := by rw [← pow_succ']; congr 1; omega
    rw [this]; ring

theorem inf_lt {T : Traits} (G : Good T) : inf T.mantissaBits T.exponentBits < 2 ^ (T.mantissaBits + T.exponentBits - 1) := by
  have h2 := two_pow_w G.w2 G.w11
  have := G.p2
  unfold inf
  have e : 2 ^ (T.mantissaBits + T.exponentBits - 1) = 2 ^ T.exponentBits * 2 ^ (T.mantissaBits - 1) := by rw [← pow_add]; congr 1; omega
  rw [e]
  exact Nat.mul_lt_mul_of_pos_right (by omega) (by positivity)

theorem or_sign {T : Traits} (G : Good T) (neg : Bool) {b : Nat} (hb : b ≤ inf T.mantissaBits T.exponentBits) : signComp T neg ||| b = withSign T neg b := by
  unfold signComp withSign
  have h1 := inf_lt G
  cases neg
  · simp
  · simp only [if_true, Nat.one_mul]
    rw [G.sgn, G.ub, Nat.mod_eq_of_lt (Nat.pow_lt_pow_right (by norm_num) (by have := G.p2; omega))]
    have := Nat.two_pow_add_eq_or_of_lt (i := T.mantissaBits + T.exponentBits - 1) (b := b) (by omega) 1
    rw [Nat.mul_one] at this
    exact this.symm

theorem asmInf_ok {T : Traits} (G : Good T) (neg : Bool) : asmInf T neg = withSign T neg (inf T.mantissaBits T.exponentBits) := by
  unfold asmInf; rw [G.em, or_sign G neg (le_refl _)]

theorem asmZero_ok {T : Traits} (G : Good T) (neg : Bool) : asmZero T neg = withSign T neg 0 := by
  have := or_sign G neg (Nat.zero_le _)
  rw [Nat.or_zero] at this
  exact this

theorem asmNoShift_ok {T : Traits} (G : Good T) (neg : Bool) {k m : Nat} {e : Int} (he : e = k + T.minExp) (hk : k < 2 ^ 31)
    (hb : k * 2 ^ (T.mantissaBits - 1) + m ≤ inf T.mantissaBits T.exponentBits) :
    asmNoShift T neg e (m % 2 ^ T.uintBits) = .ok (withSign T neg (k * 2 ^ (T.mantissaBits - 1) + m)) := by
  have hi := inf_lt G
  have hp := G.p2
  have e1 : e + (T.bias - 1) = k := by rw [he, G.minE, G.bi]; ring
  have hlt : 2 ^ (T.mantissaBits + T.exponentBits - 1) ≤ 2 ^ T.uintBits := Nat.pow_le_pow_right (by norm_num) (by rw [G.ub]; omega)
  have h1 : 1 ≤ 2 ^ (T.mantissaBits - 1) := Nat.one_le_two_pow
  have hkk : k ≤ k * 2 ^ (T.mantissaBits - 1) := Nat.le_mul_of_pos_right _ h1
  unfold asmNoShift
  rw [e1, chkI_ok (by omega), R.ok_bind]
  dsimp only
  have e2 : toU 32 (k : Int) = k := by unfold toU; omega
  rw [e2, G.esh, Nat.mod_eq_of_lt (show k < 2 ^ T.uintBits by omega), Nat.shiftLeft_eq, Nat.mod_eq_of_lt (show m < 2 ^ T.uintBits by omega),
    Nat.mod_eq_of_lt (show k * 2 ^ (T.mantissaBits - 1) < 2 ^ T.uintBits by omega), Nat.mod_eq_of_lt (by omega), or_sign G neg hb]

theorem nm_inf {p w : Nat} (hp : 2 ≤ p) (hw : 4 ≤ 2 ^ w) : nm p (inf p w) = 2 ^ (p - 1) * 2 ^ (2 ^ w - 2) := by
  unfold inf
  have : (2 ^ w - 1) * 2 ^ (p - 1) = (2 ^ w - 2) * 2 ^ (p - 1) + 2 ^ (p - 1) := by
    rw [show 2 ^ w - 1 = (2 ^ w - 2) + 1 by omega]; ring
  rw [this, nm_mk (by omega) (.inr (le_refl _)) (Nat.pow_le_pow_right (by norm_num) (by omega))]

/-- Everything at least as large as the first power of two out of range overflows. -/
theorem rne_inf {p w : Nat} (hp : 2 ≤ p) (hw : 4 ≤ 2 ^ w) {X : ℚ} (h : (nm p (inf p w) : ℚ) ≤ X) : Rne p (inf p w) (inf p w) X := by
  have h0 : inf p w ≠ 0 := by
    unfold inf
    have : 0 < (2 ^ w - 1) * 2 ^ (p - 1) := Nat.mul_pos (by omega) (by positivity)
    omega
  have h1 : (nm p (inf p w - 1) : ℚ) < nm p (inf p w) := by exact_mod_cast nm_lt (by omega) (by omega)
  exact ⟨⟨le_refl _, fun _ => by linarith, fun h => absurd rfl h⟩, fun _ e => by linarith, fun h => absurd rfl h⟩

/-- Everything below half the smallest number underflows. -/
theorem rne_zero {p w : Nat} (hp : 2 ≤ p) (hw : 4 ≤ 2 ^ w) {X : ℚ} (h : 2 * X < 1) : Rne p (inf p w) 0 X := by
  have h1 : nm p 1 = 1 := by
    have := nm_mk (p := p) (k := 0) (m := 1) (by omega) (.inl rfl) Nat.one_le_two_pow
    simpa using this
  refine ⟨⟨Nat.zero_le _, fun h => absurd rfl h, fun _ => ?_⟩, fun h => absurd rfl h, fun _ e => ?_⟩
  · rw [nm_zero, Nat.zero_add, h1]; push_cast; linarith
  · rfl

/-- The result and the error code that go with a pattern: out of range if it is infinity or zero. -/
def outcome (T : Traits) (neg : Bool) (b : Nat) : Nat × Errc :=
  (withSign T neg b, if b = 0 ∨ b = inf T.mantissaBits T.exponentBits then .resultOutOfRange else .none)

theorem zpow_two_pos (z : Int) : (0 : ℚ) < 2 ^ z := by positivity

theorem zpow_nat' {z : Int} {n : Nat} (h : z = n) : (2 : ℚ) ^ z = 2 ^ n := by rw [h, zpow_natCast]
theorem zpow_neg' {z : Int} {n : Nat} (h : z = -n) : (2 : ℚ) ^ z * 2 ^ n = 1 := by
  rw [h, zpow_neg, zpow_natCast]; exact inv_mul_cancel₀ (by positivity)

set_option maxHeartbeats 1600000 in
theorem assemble_ok {T : Traits} (G : Good T) {M : Nat} {e0 : Int} (neg zt : Bool) (hM0 : 0 < M) (hM : M < 2 ^ 64) (he : -1000000 ≤ e0 ∧ e0 ≤ 1000000) :
    ∃ b, assemble T M e0 neg zt = .ok (outcome T neg b) ∧
      (zt = true → Rne T.mantissaBits (inf T.mantissaBits T.exponentBits) b (M * 2 ^ (e0 - T.minExp))) ∧
      (zt = false → ∀ w : ℚ, w ≤ 1 → w * 2 ^ (T.mantissaBits + 1) ≤ 2 ^ Nat.size M →
        Rd T.mantissaBits (inf T.mantissaBits T.exponentBits) b (M * 2 ^ (e0 - T.minExp)) ((M + w) * 2 ^ (e0 - T.minExp))) := by
  have hw := two_pow_w G.w2 G.w11
  have hp2 := G.p2
  have hp53 := G.p53
  have hmax := G.maxE
  have hmin := G.minE
  have hmask := G.mask
  obtain ⟨p, hpe⟩ : ∃ p, p = T.mantissaBits := ⟨_, rfl⟩
  obtain ⟨w, hwe⟩ : ∃ w, w = T.exponentBits := ⟨_, rfl⟩
  obtain ⟨sz, hsz⟩ : ∃ sz, sz = Nat.size M := ⟨_, rfl⟩
  have hs1 : 1 ≤ sz := by rw [hsz]; exact Nat.size_pos.2 hM0
  have hs64 : sz ≤ 64 := by rw [hsz]; exact Nat.size_le.2 hM
  have hlt : M < 2 ^ sz := by rw [hsz]; exact Nat.lt_size_self M
  have hge : 2 ^ (sz - 1) ≤ M := Nat.lt_size.1 (by omega)
  have hns : toS 32 ((T.mantissaBits : Int) - bsr M) = (p : Int) - sz := by
    unfold toS bsr; rw [← hsz, ← hpe]; omega
  have hexp : Nat.size M = sz := hsz.symm
  have hWZ : 4 ≤ 2 ^ w := by rw [hwe]; exact hw.1
  obtain ⟨W, hWe⟩ : ∃ W, W = 2 ^ w := ⟨_, rfl⟩
  have hWi : (W : Int) = 2 * bias w + 2 := by rw [hWe]; push_cast; rw [hwe]; exact hw.2.2
  have hW4 : 4 ≤ W := by omega
  have hW2048 : W ≤ 2048 := by rw [hWe, hwe]; exact hw.2.1
  obtain ⟨P, hP⟩ : ∃ P, P = 2 ^ (p - 1) := ⟨_, rfl⟩
  have hP2 : 2 ^ p = 2 * P := by rw [hP, ← pow_succ']; congr 1; omega
  have hP0 : 2 ≤ P := by rw [hP]; exact le_trans (by norm_num) (Nat.pow_le_pow_right (show 0 < 2 by norm_num) (show 1 ≤ p - 1 by omega))
  have hinf : inf p w = (W - 1) * P := by unfold inf; rw [← hWe, ← hP]
  rw [← hpe] at hp2 hp53 hmask hns
  rw [← hwe] at hmax hmin
  simp only [← hpe, ← hwe]
  unfold assemble
  dsimp only
  rw [← hpe, hns, chkI_ok (by omega), R.ok_bind]
  by_cases hover : e0 - ((p : Int) - sz) > T.maxExp
  · rw [if_pos hover]
    have hX : (nm p (inf p w) : ℚ) ≤ M * 2 ^ (e0 - T.minExp) := by
      rw [nm_inf hp2 hWZ, ← hP, ← hWe]
      have h1 : (2 : ℚ) ^ (p - 1 + (W - 2) : Nat) ≤ 2 ^ (sz - 1 : Nat) * 2 ^ (e0 - T.minExp) := by
        rw [← zpow_natCast, ← zpow_natCast, ← zpow_add₀ two_ne_zero]
        exact zpow_le_zpow_right₀ (by norm_num) (by omega)
      have h2 : ((2 ^ (sz - 1) : Nat) : ℚ) ≤ M := by exact_mod_cast hge
      have h3 := zpow_two_pos (e0 - T.minExp)
      rw [pow_add] at h1
      push_cast [hP] at h2 ⊢
      exact le_trans h1 (mul_le_mul_of_nonneg_right h2 (le_of_lt h3))
    have hR := rne_inf hp2 hWZ hX
    refine ⟨inf p w, ?_, fun _ => hR, fun _ v _ _ => ?_⟩
    · unfold outcome; rw [asmInf_ok G, ← hpe, ← hwe, if_pos (.inr rfl)]
    · exact ⟨le_refl _, hR.rd.low, fun h => absurd rfl h⟩
  rw [if_neg hover]
  by_cases hden : e0 - ((p : Int) - sz) < T.minExp
  · -- subnormal
    rw [if_pos hden, chkI_ok (by omega), R.ok_bind]
    have hb0 : ∀ r, r ≤ P → 0 * 2 ^ (p - 1) + r ≤ inf p w := by
      intro r hr; rw [hinf, Nat.zero_mul, Nat.zero_add]
      calc r ≤ 1 * P := by omega
        _ ≤ (W - 1) * P := Nat.mul_le_mul_right _ (by omega)
    have hbi : ∀ r, r ≤ P → r ≠ inf p w := by
      intro r hr h; rw [hinf] at h
      have : 2 * P ≤ (W - 1) * P := Nat.mul_le_mul_right _ (by omega)
      omega
    by_cases hneg : e0 - T.minExp < 0
    · rw [if_pos hneg]
      obtain ⟨s, hs⟩ : ∃ s : Nat, e0 - T.minExp = -(s : Int) := ⟨(-(e0 - T.minExp)).toNat, by omega⟩
      have hs0 : 1 ≤ s := by omega
      have e1 : toU 32 (-(e0 - T.minExp)) = s := by unfold toU; omega
      rw [e1]
      have hr := rshift_range hM hs0 zt
      have hq : M / 2 ^ s < P := by
        rw [Nat.div_lt_iff_lt_mul (by positivity), hP, ← pow_add]
        exact lt_of_lt_of_le hlt (Nat.pow_le_pow_right (by norm_num) (by omega))
      have hrP : rshift M s zt ≤ P := by omega
      have hns' := asmNoShift_ok G neg (k := 0) (m := rshift M s zt) (e := T.minExp) (by omega) (by norm_num) (by rw [← hpe, ← hwe]; exact hb0 _ hrP)
      rw [hns', R.ok_bind]
      have hz := zpow_neg' hs
      have hzp := zpow_two_pos (e0 - T.minExp)
      have hSp : (0 : ℚ) < 2 ^ s := by positivity
      refine ⟨rshift M s zt, ?_, fun hzt => ?_, fun hzt v hv1 _ => ?_⟩
      · unfold outcome
        rw [← hpe, ← hwe, Nat.zero_mul, Nat.zero_add]
        congr 2
        by_cases h : rshift M s zt = 0
        · rw [if_pos h, if_pos (.inl h)]
        · rw [if_neg h, if_neg (by rintro (h' | h'); exact h h'; exact hbi _ hrP h')]
      · subst hzt
        obtain ⟨h1, h2, h3, h4⟩ := rshift_zt hM hs0
        have hbb := hb0 _ hrP
        obtain ⟨r, hre⟩ : ∃ r, r = rshift M s true := ⟨_, rfl⟩
        rw [← hre] at hbb hrP ⊢
        simp only [← hre] at h1 h2 h3 h4
        obtain ⟨Z, hZ⟩ : ∃ Z : ℚ, Z = 2 ^ (e0 - T.minExp) := ⟨_, rfl⟩
        obtain ⟨S, hS⟩ : ∃ S : ℚ, S = 2 ^ s := ⟨_, rfl⟩
        have q1 : (2 * M : ℚ) ≤ (2 * r + 1) * S := by rw [hS]; exact_mod_cast h1
        have q2 : (2 * r * S : ℚ) ≤ 2 * M + S := by rw [hS]; exact_mod_cast h2
        have q3 : (2 * M : ℚ) = (2 * r + 1) * S → r % 2 = 0 := fun h => h3 (by rw [hS] at h; exact_mod_cast h)
        have q4 : (2 * r * S : ℚ) = 2 * M + S → r % 2 = 0 := fun h => h4 (by rw [hS] at h; exact_mod_cast h)
        rw [← hS] at hSp hz
        rw [← hZ] at hz hzp ⊢
        have hM' : (M : ℚ) = M * Z * S := by rw [mul_assoc, hz, mul_one]
        have := core_ne (p := p) (I := inf p w) (k := 0) (r := r) hp2 (X := M * Z) (.inl rfl) (by omega) hbb
          (by right; rw [pow_zero, mul_one]; exact le_of_mul_le_mul_right (by nlinarith) hSp)
          (by rw [pow_zero, mul_one]; exact le_of_mul_le_mul_right (by nlinarith) hSp)
          (fun h => q4 (by rw [pow_zero, mul_one] at h; rw [hM']; linear_combination S * h))
          (fun h => q3 (by rw [pow_zero, mul_one] at h; rw [hM']; linear_combination S * h))
        rwa [Nat.zero_mul, Nat.zero_add] at this
      · subst hzt
        obtain ⟨h1, h2⟩ := rshift_nz hM hs0
        have hbb := hb0 _ hrP
        obtain ⟨r, hre⟩ : ∃ r, r = rshift M s false := ⟨_, rfl⟩
        rw [← hre] at hbb hrP ⊢
        simp only [← hre] at h1 h2
        obtain ⟨Z, hZ⟩ : ∃ Z : ℚ, Z = 2 ^ (e0 - T.minExp) := ⟨_, rfl⟩
        obtain ⟨S, hS⟩ : ∃ S : ℚ, S = 2 ^ s := ⟨_, rfl⟩
        have q1 : (2 * (M + 1) : ℚ) ≤ (2 * r + 1) * S := by rw [hS]; exact_mod_cast h1
        have q2 : (2 * r * S : ℚ) ≤ 2 * M + S := by rw [hS]; exact_mod_cast h2
        rw [← hS] at hSp hz
        rw [← hZ] at hz hzp ⊢
        have hM' : (M : ℚ) = M * Z * S := by rw [mul_assoc, hz, mul_one]
        have hM'' : (M + v : ℚ) = (M + v) * Z * S := by rw [mul_assoc, hz, mul_one]
        have := core (p := p) (I := inf p w) (k := 0) (r := r) hp2 (X := M * Z) (Y := (M + v) * Z) (.inl rfl) (by omega) hbb
          (by right; rw [pow_zero, mul_one]; exact le_of_mul_le_mul_right (by nlinarith) hSp)
          (by rw [pow_zero, mul_one]; exact le_of_mul_le_mul_right (by nlinarith) hSp)
        rwa [Nat.zero_mul, Nat.zero_add] at this
    · rw [if_neg hneg]
      obtain ⟨d, hd⟩ : ∃ d : Nat, e0 - T.minExp = (d : Int) := ⟨(e0 - T.minExp).toNat, by omega⟩
      have e1 : (e0 - T.minExp).toNat = d := by omega
      have hdl : sz + d ≤ p - 1 := by omega
      have hr : M * 2 ^ d < P := by
        calc M * 2 ^ d < 2 ^ sz * 2 ^ d := Nat.mul_lt_mul_of_pos_right hlt (by positivity)
          _ = 2 ^ (sz + d) := (pow_add _ _ _).symm
          _ ≤ P := by rw [hP]; exact Nat.pow_le_pow_right (by norm_num) hdl
      have hP64 : P ≤ 2 ^ 64 := by rw [hP]; exact Nat.pow_le_pow_right (by norm_num) (by omega)
      have hns' := asmNoShift_ok G neg (k := 0) (m := M * 2 ^ d) (e := T.minExp) (by omega) (by norm_num) (by rw [← hpe, ← hwe]; exact hb0 _ (by omega))
      rw [e1, Nat.shiftLeft_eq, Nat.mod_eq_of_lt (show M * 2 ^ d < 2 ^ 64 by omega), hns', R.ok_bind]
      have hX : (2 : ℚ) ^ (e0 - T.minExp) = 2 ^ d := zpow_nat' hd
      have hbb := hb0 (M * 2 ^ d) (by omega)
      have hr0 : M * 2 ^ d ≠ 0 := Nat.mul_ne_zero (by omega) (by positivity)
      refine ⟨M * 2 ^ d, ?_, fun hzt => ?_, fun hzt v hv1 hv2 => ?_⟩
      · unfold outcome
        rw [← hpe, ← hwe, Nat.zero_mul, Nat.zero_add, if_neg]
        rintro (h' | h'); exact hr0 h'; exact hbi _ (by omega) h'
      · rw [hX]
        have := core_ne (p := p) (I := inf p w) (k := 0) (r := M * 2 ^ d) hp2 (X := M * 2 ^ d) (.inl rfl) (by omega) hbb
          (by right; push_cast; linarith) (by push_cast; linarith) (fun h => by push_cast at h; linarith) (fun h => by push_cast at h; linarith)
        rwa [Nat.zero_mul, Nat.zero_add] at this
      · rw [hX]
        have hq : v * 2 ^ d * 4 ≤ 1 := by
          have h1 : (v * 2 ^ d * 4) * 2 ^ (p - 1 - d) ≤ 2 ^ sz := by
            have : (2 : ℚ) ^ (p + 1) = 2 ^ d * 4 * 2 ^ (p - 1 - d) := by
              rw [show (4 : ℚ) = 2 ^ 2 by norm_num, ← pow_add, ← pow_add]; congr 1; omega
            rw [this] at hv2
            rw [← hexp]
            linarith
          have h2 : (2 : ℚ) ^ sz ≤ 2 ^ (p - 1 - d) := pow_le_pow_right₀ (by norm_num) (by omega)
          have h3 : (0 : ℚ) < 2 ^ (p - 1 - d) := by positivity
          exact le_of_mul_le_mul_right (by linarith) h3
        have := core (p := p) (I := inf p w) (k := 0) (r := M * 2 ^ d) hp2 (X := M * 2 ^ d) (Y := (M + v) * 2 ^ d) (.inl rfl) (by omega) hbb
          (by right; push_cast; linarith) (by push_cast; linarith)
        rwa [Nat.zero_mul, Nat.zero_add] at this
  · -- normal
    rw [if_neg hden]
    obtain ⟨k, hk⟩ : ∃ k : Nat, e0 - ((p : Int) - sz) = k + T.minExp := ⟨(e0 - ((p : Int) - sz) - T.minExp).toNat, by omega⟩
    have hkW : k ≤ W - 3 := by omega
    have hI : ∀ r, r ≤ 2 * P → k * 2 ^ (p - 1) + r ≤ inf p w ∧ (k * 2 ^ (p - 1) + r = inf p w ↔ (r > 2 * P - 1 ∧ k = W - 3)) := by
      intro r hr
      rw [hinf, ← hP]
      obtain ⟨V, hV⟩ : ∃ V, W = V + 3 := ⟨W - 3, by omega⟩
      rw [hV, show V + 3 - 1 = V + 2 from rfl, show V + 3 - 3 = V from rfl]
      have h1 : k * P ≤ V * P := Nat.mul_le_mul_right _ (by omega)
      have h2 : (V + 2) * P = V * P + 2 * P := by ring
      rw [h2]
      refine ⟨by omega, fun h => ⟨by omega, ?_⟩, fun ⟨h3, h4⟩ => by rw [h4]; omega⟩
      by_contra hc
      have h5 : (k + 1) * P ≤ V * P := Nat.mul_le_mul_right _ (by omega)
      have h6 : (k + 1) * P = k * P + P := by ring
      omega
    have hr0 : ∀ r, P ≤ r → k * 2 ^ (p - 1) + r ≠ 0 := by intro r h; omega
    have hlow : ((2 ^ (p - 1) * 2 ^ k : Nat) : ℚ) ≤ M * 2 ^ (e0 - T.minExp) := by
      have h1 : (2 : ℚ) ^ (p - 1 : Nat) * 2 ^ k = 2 ^ (sz - 1 : Nat) * 2 ^ (e0 - T.minExp) := by
        rw [← zpow_natCast, ← zpow_natCast, ← zpow_natCast, ← zpow_add₀ two_ne_zero, ← zpow_add₀ two_ne_zero]
        congr 1
        omega
      have h2 : ((2 ^ (sz - 1) : Nat) : ℚ) ≤ M := by exact_mod_cast hge
      push_cast at h2 ⊢
      rw [h1]
      exact mul_le_mul_of_nonneg_right h2 (le_of_lt (zpow_two_pos _))
    by_cases hneg : (p : Int) - sz < 0
    · rw [if_pos hneg]
      obtain ⟨s, hs⟩ : ∃ s : Nat, sz = p + s := ⟨sz - p, by omega⟩
      have hs0 : 1 ≤ s := by omega
      have e1 : toU 32 (-((p : Int) - sz)) = s := by unfold toU; omega
      rw [e1]
      have hr := rshift_range hM hs0 zt
      have hq : M / 2 ^ s < 2 * P := by
        rw [Nat.div_lt_iff_lt_mul (by positivity), ← hP2, ← pow_add]
        exact lt_of_lt_of_le hlt (Nat.pow_le_pow_right (by norm_num) (by omega))
      have hq2 : P ≤ M / 2 ^ s := by
        rw [Nat.le_div_iff_mul_le (by positivity), hP, ← pow_add]
        exact le_trans (Nat.pow_le_pow_right (by norm_num) (by omega)) hge
      have hrP : rshift M s zt ≤ 2 * P := by omega
      have hrP' : P ≤ rshift M s zt := by omega
      have hns' := asmNoShift_ok G neg (k := k) (m := rshift M s zt) hk (by omega) (by rw [← hpe, ← hwe]; exact (hI _ hrP).1)
      rw [hns', R.ok_bind]
      have hz : (2 : ℚ) ^ (e0 - T.minExp) * 2 ^ s = 2 ^ k := by
        rw [← zpow_natCast, ← zpow_natCast, ← zpow_add₀ two_ne_zero]; congr 1; omega
      have hzp := zpow_two_pos (e0 - T.minExp)
      have hSp : (0 : ℚ) < 2 ^ s := by positivity
      have hKp : (0 : ℚ) < 2 ^ k := by positivity
      refine ⟨k * 2 ^ (p - 1) + rshift M s zt, ?_, fun hzt => ?_, fun hzt v hv1 _ => ?_⟩
      · unfold outcome
        rw [← hpe, ← hwe]
        congr 2
        have hmx : (e0 - ((p : Int) - sz) = T.maxExp) ↔ k = W - 3 := by omega
        by_cases h : rshift M s zt > T.normalMantissaMask ∧ e0 - ((p : Int) - sz) = T.maxExp
        · rw [if_pos h, if_pos]
          right
          rw [hmask, hP2] at h
          exact (hI _ hrP).2.2 ⟨h.1, hmx.1 h.2⟩
        · rw [if_neg h, if_neg]
          rintro (h' | h')
          · exact hr0 _ hrP' h'
          · have := (hI _ hrP).2.1 h'
            rw [hmask, hP2] at h
            exact h ⟨this.1, hmx.2 this.2⟩
      · subst hzt
        obtain ⟨h1, h2, h3, h4⟩ := rshift_zt hM hs0
        have hbb := (hI _ hrP).1
        obtain ⟨r, hre⟩ : ∃ r, r = rshift M s true := ⟨_, rfl⟩
        rw [← hre] at hbb hrP hrP' ⊢
        simp only [← hre] at h1 h2 h3 h4
        obtain ⟨Z, hZ⟩ : ∃ Z : ℚ, Z = 2 ^ (e0 - T.minExp) := ⟨_, rfl⟩
        obtain ⟨S, hS⟩ : ∃ S : ℚ, S = 2 ^ s := ⟨_, rfl⟩
        have q1 : (2 * M : ℚ) ≤ (2 * r + 1) * S := by rw [hS]; exact_mod_cast h1
        have q2 : (2 * r * S : ℚ) ≤ 2 * M + S := by rw [hS]; exact_mod_cast h2
        have q3 : (2 * M : ℚ) = (2 * r + 1) * S → r % 2 = 0 := fun h => h3 (by rw [hS] at h; exact_mod_cast h)
        have q4 : (2 * r * S : ℚ) = 2 * M + S → r % 2 = 0 := fun h => h4 (by rw [hS] at h; exact_mod_cast h)
        rw [← hS] at hSp hz
        rw [← hZ] at hz hzp hlow ⊢
        apply core_ne hp2 (.inr ⟨by omega, hlow⟩) (by omega) hbb
        · right; rw [← hz]; nlinarith
        · rw [← hz]; nlinarith
        · intro h; apply q4; rw [← hz] at h
          have : Z * ((2 * r * S : ℚ) - (2 * M + S)) = 0 := by linear_combination h
          rcases mul_eq_zero.1 this with h' | h'
          · exact absurd h' (ne_of_gt hzp)
          · linarith
        · intro h; apply q3; rw [← hz] at h
          have : Z * ((2 * M : ℚ) - (2 * r + 1) * S) = 0 := by linear_combination h
          rcases mul_eq_zero.1 this with h' | h'
          · exact absurd h' (ne_of_gt hzp)
          · linarith
      · subst hzt
        obtain ⟨h1, h2⟩ := rshift_nz hM hs0
        have hbb := (hI _ hrP).1
        obtain ⟨r, hre⟩ : ∃ r, r = rshift M s false := ⟨_, rfl⟩
        rw [← hre] at hbb hrP hrP' ⊢
        simp only [← hre] at h1 h2
        obtain ⟨Z, hZ⟩ : ∃ Z : ℚ, Z = 2 ^ (e0 - T.minExp) := ⟨_, rfl⟩
        obtain ⟨S, hS⟩ : ∃ S : ℚ, S = 2 ^ s := ⟨_, rfl⟩
        have q1 : (2 * (M + 1) : ℚ) ≤ (2 * r + 1) * S := by rw [hS]; exact_mod_cast h1
        have q2 : (2 * r * S : ℚ) ≤ 2 * M + S := by rw [hS]; exact_mod_cast h2
        rw [← hS] at hSp hz
        rw [← hZ] at hz hzp hlow ⊢
        apply core hp2 (.inr ⟨by omega, hlow⟩) (by omega) hbb
        · right; rw [← hz]; nlinarith
        · rw [← hz]; nlinarith
    · rw [if_neg hneg]
      obtain ⟨d, hd⟩ : ∃ d : Nat, p = sz + d := ⟨p - sz, by omega⟩
      have e1 : ((p : Int) - sz).toNat = d := by omega
      have hr : M * 2 ^ d < 2 * P := by
        calc M * 2 ^ d < 2 ^ sz * 2 ^ d := Nat.mul_lt_mul_of_pos_right hlt (by positivity)
          _ = 2 ^ (sz + d) := (pow_add _ _ _).symm
          _ = 2 * P := by rw [← hd, hP2]
      have hr' : P ≤ M * 2 ^ d := by
        calc P = 2 ^ (sz - 1) * 2 ^ d := by rw [hP, ← pow_add]; congr 1; omega
          _ ≤ M * 2 ^ d := Nat.mul_le_mul_right _ hge
      have hP64 : 2 * P ≤ 2 ^ 64 := by rw [← hP2]; exact Nat.pow_le_pow_right (by norm_num) (by omega)
      have hns' := asmNoShift_ok G neg (k := k) (m := M * 2 ^ d) hk (by omega) (by rw [← hpe, ← hwe]; exact (hI _ (by omega)).1)
      rw [e1, Nat.shiftLeft_eq, Nat.mod_eq_of_lt (show M * 2 ^ d < 2 ^ 64 by omega), hns', R.ok_bind]
      have hX : (2 : ℚ) ^ (e0 - T.minExp) = 2 ^ d * 2 ^ k := by
        rw [← zpow_natCast, ← zpow_natCast, ← zpow_add₀ two_ne_zero]; congr 1; omega
      have hbb := (hI (M * 2 ^ d) (by omega)).1
      have hKp : (0 : ℚ) < 2 ^ k := by positivity
      rw [hX] at hlow ⊢
      refine ⟨k * 2 ^ (p - 1) + M * 2 ^ d, ?_, fun hzt => ?_, fun hzt v hv1 hv2 => ?_⟩
      · unfold outcome
        rw [← hpe, ← hwe, if_neg]
        rintro (h' | h'); exact hr0 _ hr' h'
        have := (hI _ (by omega)).2.1 h'
        omega
      · apply core_ne hp2 (.inr ⟨by omega, hlow⟩) (by omega) hbb
        · right; push_cast; nlinarith
        · push_cast; nlinarith
        · intro h; push_cast at h; exfalso; nlinarith
        · intro h; push_cast at h; exfalso; nlinarith
      · have hq : v * 2 ^ d * 2 ≤ 1 := by
          have h1 : (v * 2 ^ d * 2) * 2 ^ sz ≤ 2 ^ sz := by
            have : (2 : ℚ) ^ (p + 1) = 2 ^ d * 2 * 2 ^ sz := by
              rw [← pow_succ, ← pow_add]; congr 1; omega
            rw [this, hexp] at hv2
            linarith
          have h3 : (0 : ℚ) < 2 ^ sz := by positivity
          exact le_of_mul_le_mul_right (by linarith) h3
        apply core hp2 (.inr ⟨by omega, hlow⟩) (by omega) hbb
        · right; push_cast; nlinarith
        · push_cast; nlinarith

end STL.FloatConv
