import Verif.Int128.Shift

/-! # 128-bit integers: division by one word -/

namespace STL.Int128
open STL Digits

theorem clz_ok {w v : Nat} (hv : v ≠ 0) (hw : v < 2 ^ w) : clz w v < w ∧ 2 ^ (w - 1) ≤ v * 2 ^ clz w v ∧ v * 2 ^ clz w v < 2 ^ w := by
  have h1 : Nat.size v ≤ w := Nat.size_le.2 hw
  have h2 : 0 < Nat.size v := Nat.size_pos.2 (by omega)
  have h3 : 2 ^ (Nat.size v - 1) ≤ v := Nat.lt_size.1 (by omega)
  have h4 : v < 2 ^ Nat.size v := Nat.lt_size_self v
  unfold clz
  refine ⟨by omega, ?_, ?_⟩
  · have : 2 ^ (w - 1) = 2 ^ (Nat.size v - 1) * 2 ^ (w - Nat.size v) := by rw [← pow_add]; congr 1; omega
    rw [this]; exact Nat.mul_le_mul_right _ h3
  · have : 2 ^ w = 2 ^ Nat.size v * 2 ^ (w - Nat.size v) := by rw [← pow_add]; congr 1; omega
    rw [this]; exact Nat.mul_lt_mul_of_pos_right h4 (Nat.two_pow_pos _)

theorem clz_zero (w : Nat) : clz w 0 = w := by simp [clz]

theorem clz_lt_iff {w v : Nat} (hw : v < 2 ^ w) : w ≤ clz w v ↔ v = 0 := by
  constructor
  · intro h
    by_contra hc
    have := (clz_ok hc hw).1; omega
  · rintro rfl; rw [clz_zero]

/-! ## The shifted arrays -/

section shifted
variable {d : Nat}

theorem p32 (h : d ≤ 32) : 2 ^ d * 2 ^ (32 - d) = 2 ^ 32 := by rw [← pow_add]; congr 1; omega

theorem sh_lo (h : d ≤ 32) (x : W) : u32 (x <<< d) = x.toNat * 2 ^ d % 2 ^ 32 := by
  unfold u32
  rw [BitVec.toNat_shiftLeft, Nat.shiftLeft_eq]
  exact Nat.mod_mod_of_dvd _ (by norm_num)

theorem sh_mid (h : d ≤ 32) (x : W) : u32 (x >>> (32 - d)) = x.toNat * 2 ^ d / 2 ^ 32 % 2 ^ 32 := by
  unfold u32
  rw [BitVec.toNat_ushiftRight, Nat.shiftRight_eq_div_pow, ← p32 h, Nat.mul_comm (2 ^ d) (2 ^ (32 - d)), Nat.mul_div_mul_right _ _ (Nat.two_pow_pos d)]

theorem sh_hi (h : d < 32) (x : W) : (if d ≠ 0 then u32 (x >>> (64 - d)) else 0) = x.toNat * 2 ^ d / 2 ^ 64 := by
  have hx := x.isLt
  split
  · unfold u32
    rw [BitVec.toNat_ushiftRight, Nat.shiftRight_eq_div_pow, ← pow_split (c := d) (by omega), Nat.mul_comm (2 ^ d) (2 ^ (64 - d)), Nat.mul_div_mul_right _ _ (Nat.two_pow_pos d), Nat.mod_eq_of_lt]
    have h1 := ushr_lt (c := d) (by omega) x
    rw [BitVec.toNat_ushiftRight, Nat.shiftRight_eq_div_pow] at h1
    have : 2 ^ d < 2 ^ 32 := Nat.pow_lt_pow_right (by norm_num) h
    omega
  · rename_i h; have : d = 0 := by omega
    subst this; omega

theorem hi_lt (h : d ≤ 64) (x : W) : x.toNat * 2 ^ d / 2 ^ 64 < 2 ^ d := by
  rw [Nat.div_lt_iff_lt_mul (by norm_num), Nat.mul_comm]
  exact Nat.mul_lt_mul_of_pos_left x.isLt (Nat.two_pow_pos d)

/-- The word in the middle: the low bits of one operand and the high bits of the other do not overlap. -/
theorem sh_or (h : d < 32) (x y : W) : (x.toNat * 2 ^ d % 2 ^ 32) ||| (y.toNat * 2 ^ d / 2 ^ 64) = x.toNat * 2 ^ d % 2 ^ 32 + y.toNat * 2 ^ d / 2 ^ 64 ∧
    x.toNat * 2 ^ d % 2 ^ 32 + y.toNat * 2 ^ d / 2 ^ 64 < 2 ^ 32 := by
  have e : x.toNat * 2 ^ d % 2 ^ 32 = x.toNat % 2 ^ (32 - d) * 2 ^ d := by
    rw [← p32 (d := d) (by omega), Nat.mul_comm (2 ^ d), Nat.mul_mod_mul_right]
  have hy := hi_lt (d := d) (by omega) y
  rw [e]
  refine ⟨by rw [← Nat.shiftLeft_eq, shl_or hy, Nat.shiftLeft_eq], ?_⟩
  have h1 := Nat.mod_lt x.toNat (Nat.two_pow_pos (32 - d))
  have h2 : (x.toNat % 2 ^ (32 - d) + 1) * 2 ^ d ≤ 2 ^ (32 - d) * 2 ^ d := Nat.mul_le_mul_right _ (by omega)
  rw [Nat.mul_comm (2 ^ (32 - d)), p32 (by omega), Nat.add_mul] at h2
  omega

/-- The words of a shifted pair. -/
def word (lo hi : W) (d : Nat) : Nat → Nat
  | 0 => lo.toNat * 2 ^ d % 2 ^ 32
  | 1 => lo.toNat * 2 ^ d / 2 ^ 32 % 2 ^ 32
  | 2 => hi.toNat * 2 ^ d % 2 ^ 32 + lo.toNat * 2 ^ d / 2 ^ 64
  | 3 => hi.toNat * 2 ^ d / 2 ^ 32 % 2 ^ 32
  | 4 => hi.toNat * 2 ^ d / 2 ^ 64
  | _ => 0

theorem word_lt (h : d < 32) (lo hi : W) (i : Nat) : word lo hi d i < 2 ^ 32 := by
  have hd : 2 ^ d < 2 ^ 32 := Nat.pow_lt_pow_right (by norm_num) h
  unfold word
  split
  · exact Nat.mod_lt _ (by norm_num)
  · exact Nat.mod_lt _ (by norm_num)
  · exact (sh_or h hi lo).2
  · exact Nat.mod_lt _ (by norm_num)
  · have := hi_lt (d := d) (by omega) hi; omega
  · norm_num

theorem shifted5_eq (h : d < 32) (lo hi : W) : shifted5 lo hi d = ⟨5, word lo hi d⟩ := by
  unfold shifted5 arr
  rw [sh_lo (by omega), sh_lo (by omega), sh_mid (by omega), sh_mid (by omega), sh_hi h, sh_hi h, (sh_or h hi lo).1, Nat.zero_or]
  congr 1
  funext i
  unfold word
  match i with
  | 0 => rfl
  | 1 => rfl
  | 2 => rfl
  | 3 => rfl
  | 4 => rfl
  | n + 5 => rfl

theorem shifted4_eq (h : d < 32) (lo hi : W) : shifted4 lo hi d = ⟨4, fun i => if i < 4 then word lo hi d i else 0⟩ := by
  unfold shifted4 arr
  rw [sh_lo (by omega), sh_lo (by omega), sh_mid (by omega), sh_mid (by omega), sh_hi h, (sh_or h hi lo).1]
  congr 1
  funext i
  unfold word
  match i with
  | 0 => rfl
  | 1 => rfl
  | 2 => rfl
  | 3 => rfl
  | n + 4 =>
    rw [if_neg (by omega)]
    rfl

theorem word_val (lo hi : W) : val (2 ^ 32) (word lo hi d) 0 5 = (hi.toNat * 2 ^ 64 + lo.toNat) * 2 ^ d := by
  simp only [val, word, Nat.zero_add]
  have e : (hi.toNat * 2 ^ 64 + lo.toNat) * 2 ^ d = hi.toNat * 2 ^ d * 2 ^ 64 + lo.toNat * 2 ^ d := by ring
  rw [e]
  generalize lo.toNat * 2 ^ d = A
  generalize hi.toNat * 2 ^ d = B
  omega

end shifted

/-! ## `_UDiv128` -/

/-- Long division digit by digit. -/
theorem div_chain (b r l : Nat) {v : Nat} (hv : 0 < v) : (r * b + l) / v = r / v * b + (r % v * b + l) / v ∧ (r * b + l) % v = (r % v * b + l) % v := by
  have h : r * b + l = (r % v * b + l) + v * (r / v * b) := by
    conv_lhs => rw [← Nat.div_add_mod r v]
    ring
  constructor
  · rw [h, Nat.add_mul_div_left _ _ hv]; omega
  · rw [h, Nat.add_mul_mod_self_left]

theorem wdiv_ok {a b : W} (h : b.toNat ≠ 0) : wdiv a b = .ok (a / b) := by
  unfold wdiv; rw [if_neg]; intro hc; apply h; rw [hc]; rfl
theorem wmod_ok {a b : W} (h : b.toNat ≠ 0) : wmod a b = .ok (a % b) := by
  unfold wmod; rw [if_neg]; intro hc; apply h; rw [hc]; rfl

theorem join_ok {a : Arr} {i : Nat} (h : i + 1 < a.size) (h0 : a.f i < 2 ^ 32) (h1 : a.f (i + 1) < 2 ^ 32) : ∃ w, join a i = .ok w ∧ w.toNat = a.f (i + 1) * 2 ^ 32 + a.f i := by
  unfold join
  rw [ld_ok (by omega), R.ok_bind, ld_ok h, R.ok_bind]
  refine ⟨_, rfl, ?_⟩
  have e0 : (BitVec.ofNat 64 (a.f i)).toNat = a.f i := by rw [BitVec.toNat_ofNat]; omega
  have e1 : (BitVec.ofNat 64 (a.f (i + 1))).toNat = a.f (i + 1) := by rw [BitVec.toNat_ofNat]; omega
  rw [shl32_or (by omega) (by omega), e0, e1]

theorem uDiv128_ok {high low div : W} (h : high.toNat < div.toNat) :
    ∃ q r, uDiv128 high low div = .ok (q, r) ∧ q.toNat = (high.toNat * 2 ^ 64 + low.toNat) / div.toNat ∧ r.toNat = (high.toNat * 2 ^ 64 + low.toNat) % div.toNat := by
  have hh := high.isLt; have hl := low.isLt; have hd := div.isLt
  unfold uDiv128
  have hu : u32 (div >>> 32) = div.toNat / 2 ^ 32 := by
    unfold u32; rw [BitVec.toNat_ushiftRight, Nat.shiftRight_eq_div_pow]; omega
  have hcl := clz_lt_iff (w := 32) (v := div.toNat / 2 ^ 32) (by omega)
  rw [hu]
  dsimp only
  split
  · rename_i hc
    have hsm : div.toNat < 2 ^ 32 := by have := hcl.1 hc; omega
    have e0 : (lo32 div).toNat = div.toNat := by rw [lo32_toNat]; omega
    have hn : (lo32 div).toNat ≠ 0 := by omega
    have hlh : (low >>> 32).toNat = low.toNat / 2 ^ 32 := by rw [BitVec.toNat_ushiftRight, Nat.shiftRight_eq_div_pow]
    have e1 := shl32_or (a := high) (c := low >>> 32) (by omega) (by omega)
    rw [wdiv_ok hn, R.ok_bind, wmod_ok hn, R.ok_bind, wdiv_ok hn, R.ok_bind, wmod_ok hn, R.ok_bind]
    generalize (high <<< 32) ||| (low >>> 32) = rem at *
    refine ⟨_, _, rfl, ?_⟩
    have e2 : (rem % lo32 div).toNat = rem.toNat % div.toNat := by rw [BitVec.toNat_umod, e0]
    have hm := Nat.mod_lt rem.toNat (by omega : 0 < div.toNat)
    have e3 := shl32_or (a := rem % lo32 div) (c := lo32 low) (by omega) (by rw [lo32_toNat]; omega)
    generalize ((rem % lo32 div) <<< 32) ||| lo32 low = rem2 at *
    rw [lo32_toNat, e2] at e3
    have e4 : (rem / lo32 div).toNat = rem.toNat / div.toNat := by rw [BitVec.toNat_udiv, e0]
    have e5 : (rem2 / lo32 div).toNat = rem2.toNat / div.toNat := by rw [BitVec.toNat_udiv, e0]
    have e6 : (rem2 % lo32 div).toNat = rem2.toNat % div.toNat := by rw [BitVec.toNat_umod, e0]
    have hb1 : rem.toNat / div.toNat < 2 ^ 32 := by
      rw [Nat.div_lt_iff_lt_mul (by omega), e1, hlh]
      have : (high.toNat + 1) * 2 ^ 32 ≤ div.toNat * 2 ^ 32 := Nat.mul_le_mul_right _ (by omega)
      omega
    have hb2 : rem2.toNat / div.toNat < 2 ^ 32 := by
      rw [Nat.div_lt_iff_lt_mul (by omega), e3]
      have : (rem.toNat % div.toNat + 1) * 2 ^ 32 ≤ div.toNat * 2 ^ 32 := Nat.mul_le_mul_right _ (by omega)
      omega
    rw [shl32_or (by omega) (by omega), e4, e5, e6]
    have key : high.toNat * 2 ^ 64 + low.toNat = rem.toNat * 2 ^ 32 + low.toNat % 2 ^ 32 := by omega
    obtain ⟨c1, c2⟩ := div_chain (2 ^ 32) rem.toNat (low.toNat % 2 ^ 32) (by omega : 0 < div.toNat)
    rw [key, c1, c2, e3]
    exact ⟨rfl, rfl⟩
  · rename_i hc
    have hd32 : div.toNat / 2 ^ 32 ≠ 0 := fun hz => hc (hcl.2 hz)
    obtain ⟨cl, cg, cu⟩ := clz_ok hd32 (by omega : div.toNat / 2 ^ 32 < 2 ^ 32)
    generalize clz 32 (div.toNat / 2 ^ 32) = d at *
    have hDp := Nat.two_pow_pos d
    have hD : 2 ^ d < 2 ^ 32 := Nat.pow_lt_pow_right (by norm_num) cl
    rw [shifted5_eq cl, sh_lo (by omega), sh_mid (by omega)]
    have hdd : div.toNat * 2 ^ d < 2 ^ 64 := by
      have h1 : div.toNat < (div.toNat / 2 ^ 32 + 1) * 2 ^ 32 := by omega
      have h2 : 2 ^ (32 - d) * 2 ^ d = 2 ^ 32 := by rw [Nat.mul_comm]; exact p32 (by omega)
      have h3 : div.toNat / 2 ^ 32 < 2 ^ (32 - d) := by
        exact Nat.lt_of_mul_lt_mul_right (lt_of_lt_of_eq cu h2.symm)
      have h4 : (div.toNat / 2 ^ 32 + 1) * 2 ^ 32 ≤ 2 ^ (32 - d) * 2 ^ 32 := Nat.mul_le_mul_right _ h3
      generalize 2 ^ (32 - d) = L at *
      have h7 : div.toNat < L * 2 ^ 32 := lt_of_lt_of_le h1 h4
      have h5 : div.toNat * 2 ^ d < L * 2 ^ 32 * 2 ^ d := by
        clear h1 h4
        generalize L * 2 ^ 32 = M at *
        exact Nat.mul_lt_mul_of_pos_right h7 hDp
      have h6 : L * 2 ^ 32 * 2 ^ d = 2 ^ 64 := by rw [Nat.mul_right_comm, h2]; norm_num
      omega
    have hdl : 2 ^ 63 ≤ div.toNat * 2 ^ d := by
      have : div.toNat / 2 ^ 32 * 2 ^ 32 * 2 ^ d ≤ div.toNat * 2 ^ d := Nat.mul_le_mul_right _ (Nat.div_mul_le_self _ _)
      rw [Nat.mul_right_comm] at this
      omega
    have hvv : val (2 ^ 32) (arr [div.toNat * 2 ^ d % 2 ^ 32, div.toNat * 2 ^ d / 2 ^ 32 % 2 ^ 32]).f 0 2 = div.toNat * 2 ^ d := by
      show 0 + (div.toNat * 2 ^ d % 2 ^ 32) * 1 + (div.toNat * 2 ^ d / 2 ^ 32 % 2 ^ 32) * (2 ^ 32) ^ 1 = _
      omega
    have huv : val (2 ^ 32) (word low high d) 3 2 = high.toNat * 2 ^ d / 2 ^ 32 := by
      show 0 + (high.toNat * 2 ^ d / 2 ^ 32 % 2 ^ 32) * (2 ^ 32) ^ 0 + (high.toNat * 2 ^ d / 2 ^ 64) * (2 ^ 32) ^ 1 = _
      omega
    obtain ⟨u', q', e1, s1, s2, w1, oq, bq, z, vq, vr⟩ := knuthD_ok (us := 5) (n := 2) (by omega) (u := ⟨5, word low high d⟩)
      (v := arr [div.toNat * 2 ^ d % 2 ^ 32, div.toNat * 2 ^ d / 2 ^ 32 % 2 ^ 32]) (q := arr [0, 0, 0]) (fun i _ => word_lt cl _ _ _)
      (by intro i hi
          have : i < 2 := hi
          match i with
          | 0 => exact Nat.mod_lt _ (by norm_num)
          | 1 => exact Nat.mod_lt _ (by norm_num)
          | n + 2 => omega) rfl (by omega) (le_refl _) (le_refl _)
      (by show 2 ^ 31 ≤ div.toNat * 2 ^ d / 2 ^ 32 % 2 ^ 32
          omega)
      (by rw [hvv]; show val (2 ^ 32) (word low high d) 3 2 < _
          rw [huv]
          have : high.toNat * 2 ^ d / 2 ^ 32 ≤ high.toNat * 2 ^ d := Nat.div_le_self _ _
          have : high.toNat * 2 ^ d < div.toNat * 2 ^ d := Nat.mul_lt_mul_of_pos_right h hDp
          omega)
    rw [e1, R.ok_bind]
    dsimp only at s1 s2 vq vr ⊢
    rw [word_val, hvv, Nat.mul_div_mul_right _ _ hDp] at vq
    rw [word_val, hvv, Nat.mul_mod_mul_right] at vr
    have q0 := bq 0 (by omega)
    have q1 := bq 1 (by omega)
    have hs2 : q'.size = 3 := s2
    obtain ⟨w, ej, ew⟩ := join_ok (a := q') (i := 0) (by omega) q0 q1
    have hu0 := w1 0 (by omega)
    have hu1 := w1 1 (by omega)
    rw [ld_ok (by omega), R.ok_bind, ld_ok (by omega), R.ok_bind, ej, R.ok_bind]
    refine ⟨_, _, rfl, ?_, ?_⟩
    · have hq : (high.toNat * 2 ^ 64 + low.toNat) / div.toNat < 2 ^ 64 := by
        rw [Nat.div_lt_iff_lt_mul (by omega)]
        have : (high.toNat + 1) * 2 ^ 64 ≤ div.toNat * 2 ^ 64 := Nat.mul_le_mul_right _ (by omega)
        omega
      rw [← vq] at hq ⊢
      simp only [val, Nat.zero_add] at hq ⊢ ew
      rw [ew]
      have : q'.f 2 = 0 := by
        by_contra hz
        have : 1 * (2 ^ 32) ^ 2 ≤ q'.f 2 * (2 ^ 32) ^ 2 := Nat.mul_le_mul_right _ (by omega)
        omega
      rw [this]; omega
    · simp only [val, Nat.zero_add] at vr
      have hrl := Nat.mod_lt (high.toNat * 2 ^ 64 + low.toNat) (by omega : 0 < div.toNat)
      generalize (high.toNat * 2 ^ 64 + low.toNat) % div.toNat = r at *
      have t1 : (BitVec.ofNat 64 (u'.f 0 >>> d)).toNat = u'.f 0 / 2 ^ d := by
        have := Nat.div_le_self (u'.f 0) (2 ^ d)
        rw [BitVec.toNat_ofNat, Nat.shiftRight_eq_div_pow, Nat.mod_eq_of_lt (by omega)]
      have t2 : (BitVec.ofNat 64 (u'.f 1)).toNat = u'.f 1 := by rw [BitVec.toNat_ofNat]; omega
      have hL := p32 (d := d) (by omega)
      have t3 : u'.f 0 / 2 ^ d < 2 ^ (32 - d) := by rw [Nat.div_lt_iff_lt_mul hDp, Nat.mul_comm, hL]; exact hu0
      have hLlt : 2 ^ (32 - d) ≤ 2 ^ 32 := Nat.pow_le_pow_right (by norm_num) (by omega)
      have t4 : u'.f 1 * 2 ^ (32 - d) < 2 ^ 64 := by
        have : u'.f 1 * 2 ^ (32 - d) ≤ u'.f 1 * 2 ^ 32 := Nat.mul_le_mul_left _ hLlt
        omega
      rw [shl_or64 (by omega) _ (by rw [t1]; exact t3), t1, t2, Nat.mod_eq_of_lt t4]
      have vr' : u'.f 0 + u'.f 1 * 2 ^ 32 = r * 2 ^ d := by omega
      have := congrArg (· / 2 ^ d) vr'
      rw [Nat.mul_div_cancel _ hDp, ← hL, show u'.f 0 + u'.f 1 * (2 ^ d * 2 ^ (32 - d)) = u'.f 0 + 2 ^ d * (u'.f 1 * 2 ^ (32 - d)) by ring, Nat.add_mul_div_left _ _ hDp] at this
      omega

end STL.Int128
