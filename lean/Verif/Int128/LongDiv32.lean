import Verif.Int128.LongDiv64
import Mathlib.Tactic.LinearCombination

/-! # 128-bit integers: long division in base 2^32 -/

namespace STL.Int128
open STL Digits

/-! ## Base `2 ^ 32` -/

theorem longDiv32_ok {num den : B128} (h0 : den.w1.toNat ≠ 0) : LongDivOk num den (longDiv32 num den) := by
  unfold longDiv32
  have hw1 := den.w1.isLt; have hw0 := den.w0.isLt; have hn := num.lt
  have hn0 := num.w0.isLt; have hn1 := num.w1.isLt
  obtain ⟨cl, cg, cu⟩ := clz_ok h0 hw1
  dsimp only
  generalize clz 64 den.w1.toNat = c at *
  have hd : c &&& 31 = c % 32 := Nat.and_two_pow_sub_one_eq_mod c 5
  rw [hd]
  have hd32 : c % 32 < 32 := Nat.mod_lt _ (by norm_num)
  generalize hdd : c % 32 = d at *
  rw [shifted5_eq hd32, shifted4_eq hd32]
  have hDp := Nat.two_pow_pos d
  have hD31 : 2 ^ d ≤ 2 ^ 31 := Nat.pow_le_pow_right (by norm_num) (by omega)
  have hnv := word_val (d := d) num.w0 num.w1
  have hNlt : num.toNat * 2 ^ d < 2 ^ 159 := by
    have : num.toNat * 2 ^ d ≤ num.toNat * 2 ^ 31 := Nat.mul_le_mul_left _ hD31
    omega
  have w5 : W32 ⟨5, word num.w0 num.w1 d⟩ := fun i _ => word_lt hd32 _ _ _
  have w4 : W32 ⟨4, fun i => if i < 4 then word den.w0 den.w1 d i else 0⟩ := by
    intro i _
    show (if i < 4 then word den.w0 den.w1 d i else 0) < _
    split <;> first | exact word_lt hd32 _ _ _ | exact Nat.two_pow_pos 32
  have hA := hi_lt (d := d) (by omega) den.w0
  have hdv : den.toNat * 2 ^ d = den.w1.toNat * 2 ^ d * 2 ^ 64 + den.w0.toNat * 2 ^ d := by unfold B128.toNat; ring
  have hjoin : ∀ u' : Arr, W32 u' → u'.size = 5 → ∃ a b, join u' 0 = .ok a ∧ join u' 2 = .ok b ∧ (B128.mk a b).toNat = val (2 ^ 32) u'.f 0 4 := by
    intro u' w s
    obtain ⟨a, e1, v1⟩ := join_ok (a := u') (i := 0) (by omega) (w _ (by omega)) (w _ (by omega))
    obtain ⟨b, e2, v2⟩ := join_ok (a := u') (i := 2) (by omega) (w _ (by omega)) (w _ (by omega))
    refine ⟨a, b, e1, e2, ?_⟩
    unfold B128.toNat
    simp only [val, Nat.zero_add] at v1 v2 ⊢
    rw [v1, v2]
    show (u'.f 3 * 2 ^ 32 + u'.f 2) * 2 ^ 64 + (u'.f 1 * 2 ^ 32 + u'.f 0) = _
    ring
  by_cases h32 : 32 ≤ c
  · -- three digits
    simp only [h32, if_true]
    have hcd : 2 ^ c = 2 ^ d * 2 ^ 32 := by rw [← pow_add]; congr 1; omega
    have hB : den.w1.toNat * 2 ^ c = den.w1.toNat * 2 ^ d * 2 ^ 32 := by rw [hcd]; ring
    have hvv : val (2 ^ 32) (fun i => if i < 4 then word den.w0 den.w1 d i else 0) 0 3 = den.toNat * 2 ^ d := by
      rw [hdv]
      show 0 + (den.w0.toNat * 2 ^ d % 2 ^ 32) * 1 + (den.w0.toNat * 2 ^ d / 2 ^ 32 % 2 ^ 32) * (2 ^ 32) ^ 1 + (den.w1.toNat * 2 ^ d % 2 ^ 32 + den.w0.toNat * 2 ^ d / 2 ^ 64) * (2 ^ 32) ^ 2 = _
      omega
    have hvl : 2 ^ 95 ≤ den.toNat * 2 ^ d := by omega
    have huv : val (2 ^ 32) (word num.w0 num.w1 d) 2 3 < 2 ^ 95 := by
      have h1 := val_add (2 ^ 32) (word num.w0 num.w1 d) 0 2 3
      rw [show 2 + 3 = 5 by norm_num, hnv, ← B128.toNat, Nat.zero_add] at h1
      by_contra hc
      have : (2 ^ 32) ^ 2 * 2 ^ 95 ≤ (2 ^ 32) ^ 2 * val (2 ^ 32) (word num.w0 num.w1 d) 2 3 := Nat.mul_le_mul_left _ (by omega)
      omega
    obtain ⟨u', q', e1, s1, s2, wu, oq, bq, z, vq, vr⟩ := knuthD_ok (us := 5) (n := 3) (by omega) (q := arr [0, 0]) w5 w4 rfl (by omega) (by show 3 ≤ 4; omega) (le_refl _)
      (by show 2 ^ 31 ≤ den.w1.toNat * 2 ^ d % 2 ^ 32 + den.w0.toNat * 2 ^ d / 2 ^ 64
          omega)
      (by show val (2 ^ 32) (word num.w0 num.w1 d) 2 3 < val (2 ^ 32) (fun i => if i < 4 then word den.w0 den.w1 d i else 0) 0 3
          rw [hvv]; omega)
    rw [e1, R.ok_bind]
    dsimp only at s1 s2 vq vr ⊢
    rw [hvv, hnv, ← B128.toNat, Nat.mul_div_mul_right _ _ hDp] at vq
    rw [hvv, hnv, ← B128.toNat, Nat.mul_mod_mul_right] at vr
    have hs2 : q'.size = 2 := s2
    obtain ⟨w, ej, ew⟩ := join_ok (a := q') (i := 0) (by omega) (bq 0 (by omega)) (bq 1 (by omega))
    obtain ⟨a, b, j1, j2, jv⟩ := hjoin u' wu s1
    rw [ej, R.ok_bind, j1, R.ok_bind, j2, R.ok_bind]
    refine ⟨_, _, d, rfl, by omega, ?_, ?_⟩
    · rw [← vq]
      simp only [val, Nat.zero_add] at ew ⊢
      unfold B128.toNat
      simp only
      rw [tn0, ew]; omega
    · rw [jv, val_succ, vr, z 3 (by omega) (by omega)]; omega
  · -- four digits
    have hcd : c = d := by omega
    subst hcd
    simp only [h32, if_false]
    have hvv : val (2 ^ 32) (fun i => if i < 4 then word den.w0 den.w1 c i else 0) 0 4 = den.toNat * 2 ^ c := by
      rw [hdv]
      show 0 + (den.w0.toNat * 2 ^ c % 2 ^ 32) * 1 + (den.w0.toNat * 2 ^ c / 2 ^ 32 % 2 ^ 32) * (2 ^ 32) ^ 1 + (den.w1.toNat * 2 ^ c % 2 ^ 32 + den.w0.toNat * 2 ^ c / 2 ^ 64) * (2 ^ 32) ^ 2 +
        (den.w1.toNat * 2 ^ c / 2 ^ 32 % 2 ^ 32) * (2 ^ 32) ^ 3 = _
      omega
    have hvl : 2 ^ 127 ≤ den.toNat * 2 ^ c := by omega
    have huv : val (2 ^ 32) (word num.w0 num.w1 c) 1 4 < 2 ^ 127 := by
      have h1 := val_add (2 ^ 32) (word num.w0 num.w1 c) 0 1 4
      rw [show 1 + 4 = 5 by norm_num, hnv, ← B128.toNat, Nat.zero_add] at h1
      by_contra hc
      have : (2 ^ 32) ^ 1 * 2 ^ 127 ≤ (2 ^ 32) ^ 1 * val (2 ^ 32) (word num.w0 num.w1 c) 1 4 := Nat.mul_le_mul_left _ (by omega)
      omega
    obtain ⟨u', q', e1, s1, s2, wu, oq, bq, z, vq, vr⟩ := knuthD_ok (us := 5) (n := 4) (by omega) (q := arr [0, 0]) w5 w4 rfl (by omega) (by show 4 ≤ 4; omega) (by show 1 ≤ 2; omega)
      (by show 2 ^ 31 ≤ den.w1.toNat * 2 ^ c / 2 ^ 32 % 2 ^ 32
          omega)
      (by show val (2 ^ 32) (word num.w0 num.w1 c) 1 4 < val (2 ^ 32) (fun i => if i < 4 then word den.w0 den.w1 c i else 0) 0 4
          rw [hvv]; omega)
    rw [e1, R.ok_bind]
    dsimp only at s1 s2 vq vr ⊢
    rw [hvv, hnv, ← B128.toNat, Nat.mul_div_mul_right _ _ hDp] at vq
    rw [hvv, hnv, ← B128.toNat, Nat.mul_mod_mul_right] at vr
    have hs2 : q'.size = 2 := s2
    have hq1 : q'.f 1 = 0 := oq 1 (by omega)
    obtain ⟨w, ej, ew⟩ := join_ok (a := q') (i := 0) (by omega) (bq 0 (by omega)) (by rw [show 0 + 1 = 1 by omega, hq1]; norm_num)
    obtain ⟨a, b, j1, j2, jv⟩ := hjoin u' wu s1
    rw [ej, R.ok_bind, j1, R.ok_bind, j2, R.ok_bind]
    refine ⟨_, _, c, rfl, by omega, ?_, ?_⟩
    · rw [← vq]
      simp only [val, Nat.zero_add] at ew ⊢
      unfold B128.toNat
      simp only
      rw [tn0, ew, hq1]; omega
    · rw [jv, vr]

theorem longDiv_ok (cfg : Cfg) {num den : B128} (h0 : den.w1.toNat ≠ 0) : LongDivOk num den (longDiv cfg num den) := by
  unfold longDiv
  split
  · exact longDiv64_ok h0
  · exact longDiv32_ok h0

theorem shortDiv_ok (cfg : Cfg) (num : B128) {den : W} (h0 : den.toNat ≠ 0) :
    ∃ q r, shortDiv cfg num den = .ok (q, r) ∧ q.toNat = num.toNat / den.toNat ∧ r.toNat = num.toNat % den.toNat := by
  unfold shortDiv
  split
  · rename_i h
    exact divMod32_ok num h0 (by have := h.2; rw [BitVec.lt_def] at this; simpa using this)
  · exact divMod64_ok num h0

end STL.Int128
