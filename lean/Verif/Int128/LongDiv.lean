import Verif.Int128.Div

/-! # 128-bit integers: long division -/

namespace STL.Int128
open STL Digits

theorem split_halves (m w : Nat) : m * 2 ^ 64 + w = (m * 2 ^ 32 + w / 2 ^ 32) * 2 ^ 32 + w % 2 ^ 32 := by omega

theorem divMod32_ok (num : B128) {den : W} (h0 : den.toNat ≠ 0) (h32 : den.toNat < 2 ^ 32) :
    ∃ q r, divMod32 num den = .ok (q, r) ∧ q.toNat = num.toNat / den.toNat ∧ r.toNat = num.toNat % den.toNat := by
  have hn0 := num.w0.isLt; have hn1 := num.w1.isLt
  unfold divMod32
  simp only [wdiv_ok h0, wmod_ok h0, R.ok_bind]
  have hm1 := Nat.mod_lt num.w1.toNat (by omega : 0 < den.toNat)
  have e1 : (num.w1 % den).toNat = num.w1.toNat % den.toNat := BitVec.toNat_umod
  have e2 : (num.w0 >>> 32).toNat = num.w0.toNat / 2 ^ 32 := by rw [BitVec.toNat_ushiftRight, Nat.shiftRight_eq_div_pow]
  have e3 := shl32_or (a := num.w1 % den) (c := num.w0 >>> 32) (by omega) (by omega)
  generalize ((num.w1 % den) <<< 32) ||| (num.w0 >>> 32) = rem at *
  have hm2 := Nat.mod_lt rem.toNat (by omega : 0 < den.toNat)
  have e4 : (rem % den).toNat = rem.toNat % den.toNat := BitVec.toNat_umod
  have e5 := shl32_or (a := rem % den) (c := lo32 num.w0) (by omega) (by rw [lo32_toNat]; omega)
  generalize ((rem % den) <<< 32) ||| lo32 num.w0 = rem2 at *
  rw [lo32_toNat] at e5
  refine ⟨_, _, rfl, ?_⟩
  have b1 : rem.toNat / den.toNat < 2 ^ 32 := by
    rw [Nat.div_lt_iff_lt_mul (by omega)]
    have : (num.w1.toNat % den.toNat + 1) * 2 ^ 32 ≤ den.toNat * 2 ^ 32 := Nat.mul_le_mul_right _ (by omega)
    omega
  have b2 : rem2.toNat / den.toNat < 2 ^ 32 := by
    rw [Nat.div_lt_iff_lt_mul (by omega)]
    have : (rem.toNat % den.toNat + 1) * 2 ^ 32 ≤ den.toNat * 2 ^ 32 := Nat.mul_le_mul_right _ (by omega)
    omega
  have f1 : (rem / den).toNat = rem.toNat / den.toNat := BitVec.toNat_udiv
  have f2 : (rem2 / den).toNat = rem2.toNat / den.toNat := BitVec.toNat_udiv
  have f3 : (lo32 (rem2 / den)).toNat = rem2.toNat / den.toNat := by rw [lo32_toNat, f2]; omega
  have f4 : (num.w1 / den).toNat = num.w1.toNat / den.toNat := BitVec.toNat_udiv
  unfold B128.toNat
  simp only
  rw [shl32_or (by omega) (by omega), f1, f3, f4, BitVec.toNat_umod]
  have hp : 0 < den.toNat := by omega
  obtain ⟨c1, c2⟩ := div_chain (2 ^ 64) num.w1.toNat num.w0.toNat hp
  have k2 : num.w1.toNat % den.toNat * 2 ^ 64 + num.w0.toNat = rem.toNat * 2 ^ 32 + num.w0.toNat % 2 ^ 32 := by
    rw [e3, e1, e2]; exact split_halves _ _
  obtain ⟨d1, d2⟩ := div_chain (2 ^ 32) rem.toNat (num.w0.toNat % 2 ^ 32) hp
  rw [c1, c2, k2, d1, d2, e5, e4]
  exact ⟨by rfl, by rfl⟩

theorem divMod64_ok (num : B128) {den : W} (h0 : den.toNat ≠ 0) :
    ∃ q r, divMod64 num den = .ok (q, r) ∧ q.toNat = num.toNat / den.toNat ∧ r.toNat = num.toNat % den.toNat := by
  unfold divMod64
  rw [wdiv_ok h0, R.ok_bind, wmod_ok h0, R.ok_bind]
  have hp : 0 < den.toNat := by omega
  have e1 : (num.w1 % den).toNat = num.w1.toNat % den.toNat := BitVec.toNat_umod
  have hm1 := Nat.mod_lt num.w1.toNat hp
  obtain ⟨q, r, e, hq, hr⟩ := uDiv128_ok (high := num.w1 % den) (low := num.w0) (div := den) (by omega)
  rw [e, R.ok_bind]
  refine ⟨_, _, rfl, ?_, ?_⟩
  · have f4 : (num.w1 / den).toNat = num.w1.toNat / den.toNat := BitVec.toNat_udiv
    unfold B128.toNat
    simp only
    rw [f4, hq, e1, (div_chain (2 ^ 64) num.w1.toNat num.w0.toNat hp).1]
  · rw [hr, e1, B128.toNat, (div_chain (2 ^ 64) num.w1.toNat num.w0.toNat hp).2]

/-! ## Base `2 ^ 64` -/

theorem qhatLoop64_ok {num0 : W} {den : B128} (hd : 2 ^ 63 ≤ den.w1.toNat) {T : Nat} (hu : T * 2 ^ 64 + num0.toNat < 2 ^ 64 * den.toNat) :
    ∀ (fuel : Nat) (qh rh : W), qh.toNat * den.w1.toNat + rh.toNat = T → (T * 2 ^ 64 + num0.toNat) / den.toNat ≤ qh.toNat →
      (fuel ≥ 3 ∨ (fuel ≥ 2 ∧ den.w1.toNat ≤ rh.toNat) ∨ (fuel ≥ 1 ∧ 2 * den.w1.toNat ≤ rh.toNat)) →
      ∃ r, qhatLoop64 num0 den fuel ⟨qh, 0⟩ rh = .ok ⟨r, 0⟩ ∧ (T * 2 ^ 64 + num0.toNat) / den.toNat ≤ r.toNat ∧ r.toNat ≤ (T * 2 ^ 64 + num0.toNat) / den.toNat + 1 := by
  have hd1 := den.w1.isLt; have hd0 := den.w0.isLt; have hn0 := num0.isLt
  have hden : den.toNat = den.w1.toNat * 2 ^ 64 + den.w0.toNat := rfl
  have hdp : 0 < den.toNat := by omega
  generalize hq : (T * 2 ^ 64 + num0.toNat) / den.toNat = q
  have fin : ∀ r, r * den.toNat < T * 2 ^ 64 + num0.toNat + den.toNat → r ≤ q + 1 := by
    intro r hr
    by_contra hc
    have h1 : (q + 2) * den.toNat ≤ r * den.toNat := Nat.mul_le_mul_right _ (by omega)
    have h2 := Nat.lt_div_mul_add (a := T * 2 ^ 64 + num0.toNat) hdp
    rw [hq] at h2
    have h3 : (q + 2) * den.toNat = q * den.toNat + 2 * den.toNat := by ring
    omega
  intro fuel
  induction fuel with
  | zero => intro qh rh h1 h2 h5; omega
  | succ fuel ih =>
    intro qh rh h1 h2 h5
    have hqh := qh.isLt; have hrh := rh.isLt
    unfold qhatLoop64
    dsimp only
    rw [if_neg (by simp [BitVec.lt_def])]
    have hp := uMul128_ok qh den.w0
    rw [blt_ok]
    have e1 : (B128.mk num0 rh).toNat = rh.toNat * 2 ^ 64 + num0.toNat := rfl
    have e2 : (B128.mk (uMul128 qh den.w0).1 (uMul128 qh den.w0).2).toNat = qh.toNat * den.w0.toNat := by rw [← hp]; unfold B128.toNat; simp only; omega
    rw [e1, e2]
    by_cases hc : rh.toNat * 2 ^ 64 + num0.toNat < qh.toNat * den.w0.toNat
    · rw [if_pos (by simpa using hc)]
      have hqd : q + 1 ≤ qh.toNat := by
        have := trial_dec (P := 1) (vl := 0) (v1 := den.w1.toNat) (b := 2 ^ 64) (ul := 0) (by omega) h1 hc
        simp only [Nat.mul_one, Nat.add_zero, ← hden] at this
        have h6 := Nat.div_mul_le_self (T * 2 ^ 64 + num0.toNat) den.toNat
        rw [hq] at h6
        by_contra hcc
        have h7 : qh.toNat * den.toNat ≤ q * den.toNat := Nat.mul_le_mul_right _ (by omega)
        omega
      have eq1 : (qh - 1).toNat = qh.toNat - 1 := by
        rw [BitVec.toNat_sub, tn1]; omega
      have e3 : (qh - 1).toNat * den.w1.toNat + (rh.toNat + den.w1.toNat) = T := by
        rw [eq1]
        obtain ⟨c, hcc⟩ : ∃ c, qh.toNat = c + 1 := ⟨qh.toNat - 1, by omega⟩
        rw [hcc, Nat.add_sub_cancel, ← h1, hcc, Nat.add_mul]; omega
      have hsum : (rh + den.w1).toNat = (rh.toNat + den.w1.toNat) % 2 ^ 64 := BitVec.toNat_add _ _
      by_cases hr : 2 ^ 64 ≤ rh.toNat + den.w1.toNat
      · rw [if_pos (by rw [gt_iff_lt, BitVec.lt_def, hsum]; omega)]
        obtain ⟨_, h7⟩ := trial_break (b := 2 ^ 64) (P := 1) (vl := 0) (ul := 0) (v1 := den.w1.toNat) (v2 := den.w0.toNat) (u2 := num0.toNat) (by norm_num) (by omega) hd0 (by omega)
          (by simp only [Nat.mul_one, Nat.add_zero, ← hden]; exact hu) e3 hr
        simp only [Nat.mul_one, Nat.add_zero, ← hden] at h7
        exact ⟨_, rfl, by omega, fin _ h7⟩
      · rw [if_neg (by rw [gt_iff_lt, BitVec.lt_def, hsum]; omega)]
        exact ih _ _ (by rw [hsum, Nat.mod_eq_of_lt (by omega)]; exact e3) (by omega) (by rw [hsum, Nat.mod_eq_of_lt (by omega)]; omega)
    · rw [if_neg (by simpa using hc)]
      have := trial_exit (b := 2 ^ 64) (P := 1) (vl := 0) (ul := 0) (v1 := den.w1.toNat) (v2 := den.w0.toNat) (u2 := num0.toNat) (by norm_num) (by omega) (by norm_num) (by omega) h1 hqh (by omega)
      simp only [Nat.mul_one, Nat.add_zero, ← hden] at this
      exact ⟨qh, rfl, h2, fin _ this⟩

end STL.Int128
