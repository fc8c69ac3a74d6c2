import Verif.Int128.LongDiv
import Mathlib.Tactic.LinearCombination

/-! # 128-bit integers: long division in base 2^64 -/

namespace STL.Int128
open STL Digits

theorem subProd_arith {s0 s1 s2 b0 b1 b2 n0 n1 hi a1 a2 c1 c2 c cc D M : Int} (hM : 0 < M)
    (e0 : s0 - b0 * M = n0 - a1 - 0) (ec : c + cc * M = c1 + a2 + 0) (e1 : s1 - b1 * M = n1 - c - b0) (eD : D = c2 + cc) (e2 : s2 - b2 * M = hi - D - b1)
    (h0 : 0 ≤ s0) (h0' : s0 < M) (h1 : 0 ≤ s1) (h1' : s1 < M) (h2 : 0 ≤ s2) (h2' : s2 < M) (hb : 0 ≤ b2) (hb' : b2 ≤ 1) :
    s1 * M + s0 = (hi * (M * M) + (n1 * M + n0) - ((c1 + c2 * M) * M + (a1 + a2 * M))) % (M * M) ∧
    (b2 = 1 ↔ hi * (M * M) + (n1 * M + n0) < (c1 + c2 * M) * M + (a1 + a2 * M)) := by
  have hMM : 0 < M * M := Int.mul_pos hM hM
  have hk : hi * (M * M) + (n1 * M + n0) - ((c1 + c2 * M) * M + (a1 + a2 * M)) = (s1 * M + s0) + M * M * (s2 - b2 * M) := by
    subst eD
    linear_combination -e0 - M * e1 - (M * M) * e2 + M * ec
  have hlo : s1 * M + s0 < M * M := by
    have : (s1 + 1) * M ≤ M * M := Int.mul_le_mul_of_nonneg_right (by omega) (by omega)
    have e : (s1 + 1) * M = s1 * M + M := by ring
    omega
  have hlo0 : 0 ≤ s1 * M := Int.mul_nonneg h1 (by omega)
  refine ⟨?_, ?_⟩
  · rw [hk, Int.add_mul_emod_self_left, Int.emod_eq_of_lt (by omega) hlo]
  · have hh : hi * (M * M) + (n1 * M + n0) < (c1 + c2 * M) * M + (a1 + a2 * M) ↔ (s1 * M + s0) + M * M * (s2 - b2 * M) < 0 := by rw [← hk]; omega
    rw [hh]
    have hb2 : b2 = 0 ∨ b2 = 1 := by omega
    rcases hb2 with rfl | rfl
    · have : 0 ≤ M * M * (s2 - 0 * M) := Int.mul_nonneg (by omega) (by omega)
      generalize M * M * (s2 - 0 * M) = Z at *
      generalize s1 * M = Y at *
      constructor
      · intro h; omega
      · intro h; omega
    · have : M * M * (s2 - 1 * M) ≤ M * M * (-1) := Int.mul_le_mul_of_nonneg_left (by omega) (by omega)
      constructor
      · intro _; omega
      · intro _; rfl

theorem c01_le (b : Bool) : c01 b ≤ 1 := by unfold c01; split <;> omega

theorem subProd_ok (qh high : W) (num den : B128) (h : qh.toNat * den.toNat < 2 ^ 192) :
    ((subProd qh high num den).1.toNat : Int) = ((high.toNat * 2 ^ 128 + num.toNat : Nat) - (qh.toNat * den.toNat : Nat) : Int) % 2 ^ 128 ∧
    ((subProd qh high num den).2 = true ↔ high.toNat * 2 ^ 128 + num.toNat < qh.toNat * den.toNat) := by
  have hden : qh.toNat * den.toNat = qh.toNat * den.w1.toNat * 2 ^ 64 + qh.toNat * den.w0.toNat := by unfold B128.toNat; ring
  rw [hden] at h ⊢
  have p0 := uMul128_ok qh den.w0
  have p1 := uMul128_ok qh den.w1
  unfold subProd
  dsimp only
  generalize uMul128 qh den.w0 = A at *
  generalize uMul128 qh den.w1 = B at *
  rw [← p0, ← p1] at h ⊢
  have s0 := subBorrow64_ok false num.w0 A.1
  generalize subBorrow64 false num.w0 A.1 = S0 at *
  have a1 := addCarry64_ok false B.1 A.2
  generalize addCarry64 false B.1 A.2 = C at *
  have s1 := subBorrow64_ok S0.2 num.w1 C.1
  generalize subBorrow64 S0.2 num.w1 C.1 = S1 at *
  have hcar : (B.2 + if C.2 = true then 1 else 0).toNat = (B.2.toNat + c01 C.2) % 2 ^ 64 := by
    rw [BitVec.toNat_add]; unfold c01; split <;> rfl
  generalize (B.2 + if C.2 = true then 1 else 0) = D at *
  have s2 := subBorrow64_ok S1.2 high D
  generalize subBorrow64 S1.2 high D = S2 at *
  have hb : S2.2 = true ↔ (c01 S2.2 : Int) = 1 := by unfold c01; cases S2.2 <;> simp
  rw [hb]
  have hD : D.toNat = B.2.toNat + c01 C.2 := by
    have i1 := A.2.isLt; have i2 := C.1.isLt; have i3 := B.2.isLt; have i4 := B.1.isLt
    have i5 := c01_le C.2
    have hf : c01 false = 0 := rfl
    rw [hf] at a1
    clear s0 s1 s2 hb p0 p1 hden
    generalize c01 C.2 = cc at *
    rw [hcar]
    apply Nat.mod_eq_of_lt
    omega
  have a1' : ((C.1.toNat : Int)) + (c01 C.2 : Int) * 2 ^ 64 = B.1.toNat + A.2.toNat + 0 := by exact_mod_cast a1
  have hD' : (D.toNat : Int) = B.2.toNat + (c01 C.2 : Int) := by exact_mod_cast hD
  have fin := subProd_arith (M := 2 ^ 64) (by norm_num) s0 a1' s1 hD' s2 (by omega) (by have := S0.1.isLt; omega) (by omega) (by have := S1.1.isLt; omega)
    (by omega) (by have := S2.1.isLt; omega) (by omega) (by have := c01_le S2.2; omega)
  have hMM : (2 ^ 64 * 2 ^ 64 : Int) = 2 ^ 128 := by norm_num
  rw [hMM] at fin
  obtain ⟨f1, f2⟩ := fin
  constructor
  · unfold B128.toNat
    push_cast at f1 ⊢
    exact f1
  · rw [f2]
    unfold B128.toNat
    rw [← Int.ofNat_lt]
    push_cast
    exact Iff.rfl

theorem three_words (h a b : Nat) : (h * 2 ^ 64 + b) * 2 ^ 64 + a = h * 2 ^ 128 + (b * 2 ^ 64 + a) := by ring

theorem low_word (a : W) : (B128.mk a 0).toNat = a.toNat := by unfold B128.toNat; simp only; rw [tn0]; omega

theorem rem_exact {S U Q v r : Nat} (hU : Q + r = U) (hr : r < v) (hv : v < 2 ^ 128) (hS : (S : Int) = ((U : Int) - (Q : Int)) % 2 ^ 128) : S = r := by
  have : (U : Int) - Q = r := by omega
  rw [this] at hS
  omega

theorem rem_addback {S U Q v r : Nat} (hU : Q + r = U) (hr : r < v) (hv : v < 2 ^ 128) (hS : (S : Int) = ((U : Int) - ((Q + v : Nat) : Int)) % 2 ^ 128) :
    (S + v) % 2 ^ 128 = r := by
  have : (U : Int) - ((Q + v : Nat) : Int) = r - v := by omega
  rw [this] at hS
  omega

/-- What a long division returns: the quotient and the remainder shifted left. -/
def LongDivOk (num den : B128) (res : R (B128 × B128 × Nat)) : Prop :=
  ∃ q r d, res = .ok (q, r, d) ∧ d < 64 ∧ q.toNat = num.toNat / den.toNat ∧ r.toNat = num.toNat % den.toNat * 2 ^ d

theorem longDiv64_ok {num den : B128} (h0 : den.w1.toNat ≠ 0) : LongDivOk num den (longDiv64 num den) := by
  unfold longDiv64
  have hw1 := den.w1.isLt; have hw0 := den.w0.isLt
  obtain ⟨cl, cg, cu⟩ := clz_ok h0 hw1
  dsimp only
  generalize clz 64 den.w1.toNat = d at *
  have hDp := Nat.two_pow_pos d
  have hD63 : 2 ^ d ≤ 2 ^ 63 := Nat.pow_le_pow_right (by norm_num) (by omega)
  -- the shifted operands
  have hden := leftShift_ok den (c := d) (by omega)
  have hnum := leftShift_ok num (c := d) (by omega)
  have hden2 : den.toNat * 2 ^ d < 2 ^ 128 := by
    have h1 := pow_split (c := d) (by omega)
    rw [Nat.mul_comm] at h1
    have h2 : den.w1.toNat < 2 ^ (64 - d) := Nat.lt_of_mul_lt_mul_right (lt_of_lt_of_eq cu h1.symm)
    have h3 : den.toNat < 2 ^ (64 - d) * 2 ^ 64 := by
      unfold B128.toNat
      have : (den.w1.toNat + 1) * 2 ^ 64 ≤ 2 ^ (64 - d) * 2 ^ 64 := Nat.mul_le_mul_right _ h2
      omega
    have h4 : den.toNat * 2 ^ d < 2 ^ (64 - d) * 2 ^ 64 * 2 ^ d := Nat.mul_lt_mul_of_pos_right h3 hDp
    rw [Nat.mul_right_comm, h1] at h4
    omega
  rw [Nat.mod_eq_of_lt hden2] at hden
  have hhigh : (if d = 0 then (0 : W) else num.w1 >>> (64 - d)).toNat = num.toNat * 2 ^ d / 2 ^ 128 := by
    have e0 : num.toNat * 2 ^ d / 2 ^ 128 = num.w1.toNat * 2 ^ d / 2 ^ 64 := by
      have hn0 := num.w0.isLt
      have : num.toNat * 2 ^ d / 2 ^ 64 / 2 ^ 64 = num.w1.toNat * 2 ^ d / 2 ^ 64 := by
        have e1 : num.toNat * 2 ^ d = num.w1.toNat * 2 ^ d * 2 ^ 64 + num.w0.toNat * 2 ^ d := by unfold B128.toNat; ring
        rw [e1]
        have e2 : num.w0.toNat * 2 ^ d / 2 ^ 64 < 2 ^ d := hi_lt (by omega) num.w0
        have h1 := mul_pow_mod (c := d) (by omega) num.w1.toNat
        have h2 : num.w1.toNat % 2 ^ (64 - d) < 2 ^ (64 - d) := Nat.mod_lt _ (Nat.two_pow_pos _)
        have h3 : (num.w1.toNat % 2 ^ (64 - d) + 1) * 2 ^ d ≤ 2 ^ (64 - d) * 2 ^ d := Nat.mul_le_mul_right _ h2
        rw [Nat.add_mul, ← h1, Nat.mul_comm (2 ^ (64 - d)), pow_split (by omega)] at h3
        generalize num.w1.toNat * 2 ^ d = X at *
        generalize num.w0.toNat * 2 ^ d = Y at *
        omega
      rw [Nat.div_div_eq_div_mul] at this
      rw [← this, show 2 ^ 64 * 2 ^ 64 = 2 ^ 128 by norm_num]
    rw [e0]
    split
    · rename_i h; subst h; have := num.w1.isLt; rw [tn0]; omega
    · rw [BitVec.toNat_ushiftRight, Nat.shiftRight_eq_div_pow]
      have h1 := pow_split (c := d) (by omega)
      rw [← h1, Nat.mul_comm (2 ^ d) (2 ^ (64 - d)), Nat.mul_div_mul_right _ _ hDp]
  generalize (if d = 0 then (0 : W) else num.w1 >>> (64 - d)) = high at *
  generalize hdd : leftShift den d = den' at *
  generalize hnn : leftShift num d = num' at *
  have hU : high.toNat * 2 ^ 128 + num'.toNat = num.toNat * 2 ^ d := by
    rw [hhigh, hnum]; omega
  have hnlt := num.lt
  have hUlt : num.toNat * 2 ^ d < 2 ^ 128 * 2 ^ d := Nat.mul_lt_mul_of_pos_right hnlt hDp
  have hdl : 2 ^ 63 ≤ den'.w1.toNat := by
    have h1 : den.w1.toNat * 2 ^ d * 2 ^ 64 ≤ den'.toNat := by
      rw [hden]; unfold B128.toNat
      have : (den.w1.toNat * 2 ^ 64 + den.w0.toNat) * 2 ^ d = den.w1.toNat * 2 ^ d * 2 ^ 64 + den.w0.toNat * 2 ^ d := by ring
      omega
    have h2 := den'.w0.isLt
    unfold B128.toNat at h1
    omega
  have hhl : high.toNat < den'.w1.toNat := by rw [hhigh]; omega
  have hge : ¬ (high ≥ den'.w1) := by rw [ge_iff_le, BitVec.le_def]; omega
  rw [if_neg hge, if_neg hge]
  obtain ⟨ql, rh, e1, hq1, hr1⟩ := uDiv128_ok (high := high) (low := num'.w1) (div := den'.w1) hhl
  rw [e1, R.ok_bind]
  dsimp only
  have hn0 := num'.w0.isLt
  obtain ⟨T, hT⟩ : ∃ T, T = high.toNat * 2 ^ 64 + num'.w1.toNat := ⟨_, rfl⟩
  rw [← hT] at hq1 hr1
  have hTU : T * 2 ^ 64 + num'.w0.toNat = num.toNat * 2 ^ d := by
    rw [← hU, hT]; exact three_words _ _ _
  have hdn : den'.toNat = den'.w1.toNat * 2 ^ 64 + den'.w0.toNat := rfl
  have hd0 := den'.w0.isLt
  have hTm := Nat.div_add_mod T den'.w1.toNat
  have hst := trial_start (b := 2 ^ 64) (P := 1) (ul := 0) (vl := 0) (T := T) (v1 := den'.w1.toNat) (v2 := den'.w0.toNat) hn0 (by omega) (by omega)
  simp only [Nat.mul_one, Nat.add_zero, ← hdn] at hst
  obtain ⟨qh, e2, l1, l2⟩ := qhatLoop64_ok (num0 := num'.w0) (den := den') hdl (T := T) (by omega) 4 ql rh
    (by rw [hq1, hr1, Nat.mul_comm]; exact hTm) (by rw [hq1]; exact hst) (by omega)
  rw [e2, R.ok_bind]
  dsimp only
  have hdp : 0 < den'.toNat := by omega
  have hdml := Nat.mod_lt (num.toNat * 2 ^ d) hdp
  have hdm := Nat.div_add_mod (num.toNat * 2 ^ d) den'.toNat
  rw [hTU] at l1 l2
  have hqd : num.toNat * 2 ^ d / den'.toNat = num.toNat / den.toNat := by rw [hden, Nat.mul_div_mul_right _ _ hDp]
  have hrd : num.toNat * 2 ^ d % den'.toNat = num.toNat % den.toNat * 2 ^ d := by rw [hden, Nat.mul_mod_mul_right]
  have hden'lt := den'.lt
  have hsp := subProd_ok qh high num' den' (by
    have h1 : qh.toNat * den'.toNat ≤ (2 ^ 64 - 1) * den'.toNat := Nat.mul_le_mul_right _ (by have := qh.isLt; omega)
    omega)
  rw [hU] at hsp
  obtain ⟨sp1, sp2⟩ := hsp
  generalize subProd qh high num' den' = S at *
  have hSl := S.1.lt
  rcases (by omega : qh.toNat = num.toNat * 2 ^ d / den'.toNat ∨ qh.toNat = num.toNat * 2 ^ d / den'.toNat + 1) with hqq | hqq
  · -- the trial quotient is right
    have hmul : qh.toNat * den'.toNat = den'.toNat * (num.toNat * 2 ^ d / den'.toNat) := by rw [hqq, Nat.mul_comm]
    rw [hmul] at sp1 sp2
    have hnb : ¬ (S.2 = true) := by rw [sp2]; exact not_lt.2 (Nat.le.intro hdm)
    rw [if_neg hnb]
    refine ⟨_, _, d, rfl, cl, ?_, ?_⟩
    · rw [low_word, hqq, hqd]
    · rw [← hrd]; exact rem_exact hdm hdml hden'lt sp1
  · -- one too large
    have hmul : qh.toNat * den'.toNat = den'.toNat * (num.toNat * 2 ^ d / den'.toNat) + den'.toNat := by rw [hqq]; ring
    rw [hmul] at sp1 sp2
    have hbb : S.2 = true := by
      rw [sp2]
      exact lt_of_eq_of_lt hdm.symm (Nat.add_lt_add_left hdml _)
    rw [if_pos hbb]
    refine ⟨_, _, d, rfl, cl, ?_, ?_⟩
    · have eq1 : (qh - 1).toNat = qh.toNat - 1 := by
        have := qh.isLt
        have hpos : 1 ≤ qh.toNat := by rw [hqq]; exact Nat.le_add_left _ _
        rw [BitVec.toNat_sub, tn1]
        clear * - this hpos
        omega
      rw [low_word, eq1, hqq, hqd, Nat.add_sub_cancel]
    · rw [← hrd]
      have h7 : (B128.mk (addCarry64 false S.1.w0 den'.w0).1 (addCarry64 (addCarry64 false S.1.w0 den'.w0).2 S.1.w1 den'.w1).1) = add S.1 den' := rfl
      rw [h7, add_ok]; exact rem_addback hdm hdml hden'lt sp1

end STL.Int128
