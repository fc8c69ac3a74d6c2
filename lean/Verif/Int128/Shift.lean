import Verif.Int128.Basic

/-! # 128-bit integers: shifts -/

namespace STL.Int128
open STL Digits

theorem pow_split {c : Nat} (h : c ≤ 64) : 2 ^ c * 2 ^ (64 - c) = 2 ^ 64 := by
  rw [← pow_add]; congr 1; omega

theorem mul_pow_mod {c : Nat} (h : c ≤ 64) (a : Nat) : a * 2 ^ c % 2 ^ 64 = a % 2 ^ (64 - c) * 2 ^ c := by
  rw [← pow_split h, Nat.mul_comm (2 ^ c), Nat.mul_mod_mul_right]

/-- `(a << c) | y` where `y` fits in the low bits. -/
theorem shl_or64 {c : Nat} (h : c ≤ 64) (a : W) {y : W} (hy : y.toNat < 2 ^ c) : ((a <<< c) ||| y).toNat = a.toNat * 2 ^ c % 2 ^ 64 + y.toNat := by
  rw [BitVec.toNat_or, BitVec.toNat_shiftLeft, Nat.shiftLeft_eq, mul_pow_mod h, ← Nat.shiftLeft_eq, shl_or hy, Nat.shiftLeft_eq]

theorem ushr_lt {c : Nat} (h : c ≤ 64) (a : W) : (a >>> (64 - c)).toNat < 2 ^ c := by
  rw [BitVec.toNat_ushiftRight, Nat.shiftRight_eq_div_pow, Nat.div_lt_iff_lt_mul (Nat.two_pow_pos _), pow_split h]
  exact a.isLt

theorem leftShift_ok (x : B128) {c : Nat} (hc : c < 128) : (leftShift x c).toNat = x.toNat * 2 ^ c % 2 ^ 128 := by
  have hx := x.lt
  have h0 := x.w0.isLt
  unfold leftShift
  split
  · rename_i h; subst h; rw [pow_zero, Nat.mul_one, Nat.mod_eq_of_lt hx]
  · split
    · rename_i h1 h2
      have e : c % 64 = c - 64 := by omega
      have e2 : 2 ^ c = 2 ^ (c - 64) * 2 ^ 64 := by rw [← pow_add]; congr 1; omega
      unfold B128.toNat
      simp only [BitVec.toNat_shiftLeft, Nat.shiftLeft_eq, e, tn0]
      rw [e2]
      generalize 2 ^ (c - 64) = K
      have e3 : (x.w1.toNat * 2 ^ 64 + x.w0.toNat) * (K * 2 ^ 64) = x.w0.toNat * K * 2 ^ 64 + x.w1.toNat * K * 2 ^ 128 := by ring
      rw [e3]
      generalize x.w0.toNat * K = A
      generalize x.w1.toNat * K = B
      omega
    · rename_i h1 h2
      unfold B128.toNat
      simp only
      rw [shl_or64 (by omega) _ (ushr_lt (by omega) _), BitVec.toNat_shiftLeft, BitVec.toNat_ushiftRight, Nat.shiftLeft_eq, Nat.shiftRight_eq_div_pow, mul_pow_mod (by omega), mul_pow_mod (by omega)]
      have hKL := pow_split (c := c) (by omega)
      have hLp := Nat.two_pow_pos (64 - c)
      have hKp := Nat.two_pow_pos c
      generalize 2 ^ c = K at *
      generalize 2 ^ (64 - c) = L at *
      have d0 := Nat.div_add_mod x.w0.toNat L
      have d1 := Nat.div_add_mod x.w1.toNat L
      have m1 := Nat.mod_lt x.w1.toNat hLp
      generalize x.w0.toNat / L = q at *
      generalize x.w0.toNat % L = r at *
      generalize x.w1.toNat / L = s at *
      generalize x.w1.toNat % L = t at *
      have hlow : t * K * 2 ^ 64 + x.w0.toNat * K < 2 ^ 128 := by
        have a1 : (t + 1) * K ≤ L * K := Nat.mul_le_mul_right _ (by omega)
        rw [Nat.mul_comm L K, hKL, Nat.add_mul] at a1
        have a2 : x.w0.toNat * K ≤ (2 ^ 64 - 1) * K := Nat.mul_le_mul_right _ (by omega)
        omega
      have key : (x.w1.toNat * 2 ^ 64 + x.w0.toNat) * K = t * K * 2 ^ 64 + x.w0.toNat * K + s * 2 ^ 128 := by
        rw [← d1]
        have : (L * s + t) * 2 ^ 64 * K = t * K * 2 ^ 64 + s * (K * L * 2 ^ 64) := by ring
        rw [Nat.add_mul, this, hKL]; ring
      rw [key, Nat.add_mul_mod_self_right, Nat.mod_eq_of_lt hlow, ← d0]
      have : (L * q + r) * K = K * L * q + r * K := by ring
      rw [this, hKL]; ring

theorem rightShift_words {x : B128} {c : Nat} (h0 : c ≠ 0) (h64 : c < 64) {h : Nat} :
    h * 2 ^ 64 + ((x.w0 >>> c) ||| (x.w1 <<< (64 - c))).toNat = h * 2 ^ 64 + x.w1.toNat * 2 ^ (64 - c) % 2 ^ 64 + x.w0.toNat / 2 ^ c := by
  have : (x.w0 >>> c).toNat < 2 ^ (64 - c) := by
    have := ushr_lt (c := 64 - c) (by omega) x.w0
    rwa [show 64 - (64 - c) = c by omega] at this
  rw [BitVec.or_comm, shl_or64 (by omega) _ this, BitVec.toNat_ushiftRight, Nat.shiftRight_eq_div_pow]
  omega

theorem rightShift_ok (x : B128) {c : Nat} (hc : c < 128) : (rightShift x c).toNat = x.toNat / 2 ^ c := by
  have hx := x.lt
  have h0 := x.w0.isLt
  have h1 := x.w1.isLt
  unfold rightShift
  split
  · rename_i h; subst h; rw [pow_zero, Nat.div_one]
  · split
    · rename_i h1 h2
      have e : c % 64 = c - 64 := by omega
      have e2 : 2 ^ c = 2 ^ 64 * 2 ^ (c - 64) := by rw [← pow_add]; congr 1; omega
      unfold B128.toNat
      simp only [BitVec.toNat_ushiftRight, Nat.shiftRight_eq_div_pow, e, tn0]
      rw [e2, ← Nat.div_div_eq_div_mul]
      have : (x.w1.toNat * 2 ^ 64 + x.w0.toNat) / 2 ^ 64 = x.w1.toNat := by omega
      rw [this]; omega
    · rename_i h2 h3
      unfold B128.toNat
      simp only
      rw [rightShift_words h2 (by omega), mul_pow_mod (by omega), show 64 - (64 - c) = c by omega, BitVec.toNat_ushiftRight, Nat.shiftRight_eq_div_pow]
      have hKL := pow_split (c := c) (by omega)
      have hKp := Nat.two_pow_pos c
      have e : (x.w1.toNat * 2 ^ 64 + x.w0.toNat) / 2 ^ c = x.w1.toNat * 2 ^ (64 - c) + x.w0.toNat / 2 ^ c := by
        rw [← hKL, show x.w1.toNat * (2 ^ c * 2 ^ (64 - c)) + x.w0.toNat = x.w0.toNat + 2 ^ c * (x.w1.toNat * 2 ^ (64 - c)) by ring, Nat.add_mul_div_left _ _ hKp]
        omega
      rw [e]
      have d1 := Nat.div_add_mod x.w1.toNat (2 ^ c)
      generalize 2 ^ c = K at *
      generalize 2 ^ (64 - c) = L at *
      generalize x.w1.toNat / K = q at *
      generalize x.w1.toNat % K = r at *
      rw [← d1, ← hKL]; ring

theorem sshr_toInt (w : W) (c : Nat) : (w.sshiftRight c).toInt = w.toInt / 2 ^ c := by
  rw [BitVec.toInt_sshiftRight, Int.shiftRight_eq_div_pow]; rfl

/-- The signed value of two words. -/
theorem toInt_words (x : B128) : x.toInt = x.w1.toInt * 2 ^ 64 + x.w0.toNat := by
  unfold B128.toInt B128.toNat
  rw [toInt64]
  have := x.w0.isLt; have := x.w1.isLt
  push_cast
  split <;> split <;> omega

theorem signedRightShift_ok (x : B128) {c : Nat} (hc : c < 128) : (signedRightShift x c).toInt = x.toInt / 2 ^ c := by
  have h0 := x.w0.isLt
  have h1 := x.w1.isLt
  unfold signedRightShift
  split
  · rename_i h; subst h; rw [pow_zero, Int.ediv_one]
  · split
    · rename_i h2 h3
      have e : c % 64 = c - 64 := by omega
      have e2 : (2 : Int) ^ c = 2 ^ 64 * 2 ^ (c - 64) := by rw [← pow_add]; congr 1; omega
      have hn := isNeg_ok x
      rw [toInt_words x, e, e2, ← Int.ediv_ediv_of_nonneg (by norm_num)]
      have e3 : (x.w1.toInt * 2 ^ 64 + x.w0.toNat) / 2 ^ 64 = x.w1.toInt := by omega
      rw [e3, ← sshr_toInt, toInt_words]
      have e4 : (x.w1 &&& (1#64 <<< 63) = 0) ↔ 0 ≤ x.w1.toInt := by
        rw [toInt_words] at hn
        unfold isNeg at hn
        rw [Bool.eq_iff_iff, decide_eq_true_iff, decide_eq_true_iff] at hn
        constructor
        · intro hh; by_contra hcc; exact hn.2 (by omega) hh
        · intro hh; by_contra hcc; have := hn.1 hcc; omega
      have hs := sshr_toInt x.w1 (c - 64)
      have hp : (0 : Int) < 2 ^ (c - 64) := by positivity
      have hsign : 0 ≤ (x.w1.sshiftRight (c - 64)).toInt ↔ 0 ≤ x.w1.toInt := by
        rw [hs]; exact Int.ediv_nonneg_iff_of_pos hp
      have h64 := toInt64 (x.w1.sshiftRight (c - 64))
      have hb := (x.w1.sshiftRight (c - 64)).isLt
      simp only
      split
      · rename_i h5
        have h6 := hsign.2 (e4.1 h5)
        have : (0 : W).toInt = 0 := rfl
        rw [this]
        generalize (x.w1.sshiftRight (c - 64)).toInt = z at *
        split at h64 <;> omega
      · rename_i h5
        have h6 : ¬ 0 ≤ (x.w1.sshiftRight (c - 64)).toInt := fun hh => h5 (e4.2 (hsign.1 hh))
        have : (~~~0#64 : W).toInt = -1 := rfl
        rw [this]
        generalize (x.w1.sshiftRight (c - 64)).toInt = z at *
        split at h64 <;> omega
    · rename_i h2 h3
      rw [toInt_words, toInt_words x]
      simp only
      have hw := rightShift_words (x := x) (c := c) h2 (by omega) (h := 0)
      simp only [Nat.zero_mul, Nat.zero_add] at hw
      rw [hw, mul_pow_mod (by omega), show 64 - (64 - c) = c by omega, sshr_toInt]
      have hKL := pow_split (c := c) (by omega)
      have hKp := Nat.two_pow_pos c
      have t1 := toInt64 x.w1
      push_cast
      rw [show (18446744073709551616 : Int) = 2 ^ 64 by norm_num]
      have hKL' : (2 : Int) ^ c * 2 ^ (64 - c) = 2 ^ 64 := by exact_mod_cast hKL
      have hKp' : (0 : Int) < 2 ^ c := by positivity
      have e : (x.w1.toInt * 2 ^ 64 + (x.w0.toNat : Int)) / 2 ^ c = x.w1.toInt * 2 ^ (64 - c) + (x.w0.toNat : Int) / 2 ^ c := by
        rw [← hKL', show x.w1.toInt * ((2 : Int) ^ c * 2 ^ (64 - c)) + (x.w0.toNat : Int) = (x.w0.toNat : Int) + 2 ^ c * (x.w1.toInt * 2 ^ (64 - c)) by ring, Int.add_mul_ediv_left _ _ hKp'.ne']
        omega
      rw [e]
      -- the low bits of the high word do not depend on the sign
      have em : ((x.w1.toNat : Int)) % 2 ^ c = x.w1.toInt % 2 ^ c := by
        rw [t1]
        split
        · rfl
        · rw [← hKL', Int.sub_mul_emod_self_left]
      rw [em]
      have d1 := Int.mul_ediv_add_emod x.w1.toInt (2 ^ c)
      generalize x.w1.toInt / 2 ^ c = q at *
      generalize x.w1.toInt % 2 ^ c = r at *
      generalize (x.w0.toNat : Int) / 2 ^ c = z
      rw [← d1, ← hKL']; ring

end STL.Int128
