import Verif.Num.Cmp
import Mathlib.Data.Nat.GCD.Basic
import Mathlib.Data.Nat.Prime.Basic

/-! # `gcd` and `lcm`: proofs -/

namespace STL.Num
open STL
open STL.Mds (IT)

theorem absU_ok {t : IT} (ht : Std t) {v : Int} (h : Fits t v) : absU t v = .ok (v.natAbs : Int) := by
  unfold absU
  by_cases hs : t.sg = true
  · rw [if_pos hs, ltI_zero ht hs h]
    obtain ⟨sg, w⟩ := t
    simp only at hs; subst hs
    unfold Fits at h
    unfold IT.arith IT.conv IT.uns chkI chkS toU
    obtain ⟨k, hk⟩ : ∃ k : Int, (v.natAbs : Int) = k := ⟨_, rfl⟩
    rw [hk]
    by_cases hv : v < 0
    · rcases ht with e | e | e | e <;> simp only at e <;> subst e <;> simp [hv] at h ⊢ <;>
        (try rw [if_pos (by omega)]) <;> simp only [R.ok_bind] <;> congr 1 <;> omega
    · rcases ht with e | e | e | e <;> simp only at e <;> subst e <;> simp [hv] at h ⊢ <;> omega
  · rw [if_neg hs]
    have := fits_nonneg (by simpa using hs) h
    congr 1; omega

theorem std_common {a b c : IT} (ha : Std a) (hb : Std b) (hc : IsCommon a b c) : Std c := by
  rcases hc with rfl | ⟨_, rfl⟩
  · exact std_usual ha hb
  · exact ha

theorem isCommon_comm {a b c : IT} (hc : IsCommon a b c) : IsCommon b a c := by
  rcases hc with rfl | ⟨rfl, rfl⟩
  · left
    unfold usual
    generalize promote a = p; generalize promote b = q
    obtain ⟨s, w⟩ := p; obtain ⟨s', w'⟩ := q
    simp only
    by_cases h : w = w'
    · subst h; simp [Bool.and_comm]
    · rw [if_neg h, if_neg (Ne.symm h)]
      by_cases h2 : w < w'
      · rw [if_pos h2, if_neg (by omega)]
      · rw [if_neg h2, if_pos (by omega)]
  · exact .inr ⟨rfl, rfl⟩

theorem natAbs_lt {a b c : IT} (ha : Std a) (hb : Std b) (hc : IsCommon a b c) {m : Int} (h : Fits a m) : m.natAbs < 2 ^ c.w := by
  obtain ⟨sa, wa⟩ := a
  obtain ⟨sb, wb⟩ := b
  rcases hc with rfl | ⟨_, rfl⟩
  · unfold Fits at h
    unfold usual promote int
    rcases ha with e | e | e | e <;> simp only at e <;> subst e <;> rcases hb with e | e | e | e <;> simp only at e <;> subst e <;> cases sa <;>
      simp at h ⊢ <;> omega
  · unfold Fits at h
    rcases ha with e | e | e | e <;> simp only at e <;> subst e <;> cases sa <;> simp at h ⊢ <;> omega

theorem toU_natAbs {w : Nat} {k : Nat} (h : k < 2 ^ w) : toU w (k : Int) = k := Bits.toU_nat h

/-- `countr_zero` splits off the power of two. -/
theorem ctz_split {w v k : Nat} (h : Bits.IsCtz w v k) (hv : v < 2 ^ w) (h0 : v ≠ 0) : k < w ∧ ∃ q, v = 2 ^ k * (2 * q + 1) := by
  obtain ⟨k', q, e⟩ := Bits.odd_part h0
  have hk := Bits.k_lt e hv
  have := Bits.ctz_unique h (Bits.ctz_of_odd_part e hk)
  subst this
  exact ⟨hk, q, e⟩

theorem odd_coprime_pow (q k : Nat) : Nat.Coprime (2 ^ k) (2 * q + 1) := by
  apply Nat.Coprime.pow_left
  rw [Nat.coprime_two_left]; exact ⟨q, rfl⟩

theorem gcd_pow_odd (m q k : Nat) : Nat.gcd (2 * m + 1) (2 ^ k * q) = Nat.gcd (2 * m + 1) q :=
  Nat.Coprime.gcd_mul_left_cancel_right q (odd_coprime_pow m k)

theorem gcd_split (m n a b : Nat) : Nat.gcd (2 ^ a * (2 * m + 1)) (2 ^ b * (2 * n + 1)) = Nat.gcd (2 * m + 1) (2 * n + 1) * 2 ^ min a b := by
  rcases le_total a b with h | h
  · obtain ⟨c, rfl⟩ := Nat.exists_eq_add_of_le h
    rw [min_eq_left h, pow_add, mul_assoc, Nat.gcd_mul_left, gcd_pow_odd]; ring
  · obtain ⟨c, rfl⟩ := Nat.exists_eq_add_of_le h
    rw [min_eq_right h, pow_add, mul_assoc, Nat.gcd_mul_left, Nat.gcd_comm, gcd_pow_odd, Nat.gcd_comm]; ring

theorem gcdLoop_ok {p : Bits.Path} {w cf : Nat} (hw : Bits.StdW w) : ∀ (fuel mx nx nz : Nat), mx + nx < fuel → mx < 2 ^ w → nx < 2 ^ w → mx % 2 = 1 → nx ≠ 0 →
    Bits.IsCtz w nx nz → gcdLoop p w cf fuel mx nx nz = Bits.shl w (Nat.gcd mx nx) cf := by
  intro fuel
  induction fuel with
  | zero => intro mx nx nz h; omega
  | succ fuel ih =>
    intro mx nx nz hf hm hn ho h0 hz
    obtain ⟨m, rfl⟩ : ∃ m, mx = 2 * m + 1 := ⟨mx / 2, by omega⟩
    obtain ⟨hk, q, rfl⟩ := ctz_split hz hn h0
    have hpos : 0 < 2 ^ nz := by positivity
    have hdiv : 2 ^ nz * (2 * q + 1) / 2 ^ nz = 2 * q + 1 := Nat.mul_div_cancel_left _ hpos
    have hle : 2 * q + 1 ≤ 2 ^ nz * (2 * q + 1) := Nat.le_mul_of_pos_left _ hpos
    generalize hN : 2 ^ nz * (2 * q + 1) = N at *
    unfold gcdLoop Bits.shr
    rw [if_pos (by omega), hdiv]
    simp only [R.ok_bind]
    have hg : Nat.gcd (2 * m + 1) N = Nat.gcd (2 * m + 1) (2 * q + 1) := by rw [← hN, gcd_pow_odd]
    have key : ∀ x y : Nat, x ≤ y → x % 2 = 1 → y % 2 = 1 → y < 2 ^ w → x + y < fuel + 1 → 
        (if toU w ((y : Int) - x) = 0 then Bits.shl w x cf else (do
          let z ← Bits.countrZero p w (toU w ((y : Int) - x))
          gcdLoop p w cf fuel x (toU w ((y : Int) - x)) (toU 32 z))) = Bits.shl w (Nat.gcd x y) cf := by
      intro x y hxy hx hy hyw hfu
      have e : toU w ((y : Int) - x) = y - x := by
        rw [show ((y : Int) - x) = ((y - x : Nat) : Int) by omega]; exact Bits.toU_nat (by omega)
      rw [e]
      split
      · have : x = y := by omega
        subst this; rw [Nat.gcd_self]
      · obtain ⟨z, hz1, hz2⟩ := Bits.countrZero_ok hw (show y - x < 2 ^ w by omega) p
        rw [hz1]; simp only [R.ok_bind]
        have hzb : z ≤ w := hz2.1
        have hw64 : w ≤ 64 := by rcases hw with h | h | h | h <;> omega
        rw [Bits.toU_nat (by omega)]
        rw [ih x (y - x) z (by omega) (by omega) (by omega) hx (by omega) hz2, Nat.gcd_sub_self_right hxy]
    rw [hg]
    by_cases hgt : 2 * m + 1 > 2 * q + 1
    · rw [if_pos hgt]; simp only
      rw [key _ _ (by omega) (by omega) (by omega) hm (by omega), Nat.gcd_comm]
    · rw [if_neg hgt]; simp only
      rw [key _ _ (by omega) (by omega) (by omega) (by omega) (by omega)]

theorem shl_conv {c : IT} (hc : Std c) {v n : Nat} (hn : n < c.w) (hv : v * 2 ^ n < 2 ^ c.w) : ∃ r, Bits.shl c.w v n = .ok r ∧ c.conv r = c.conv ((v * 2 ^ n : Nat) : Int) := by
  obtain ⟨sg, w⟩ := c
  unfold Bits.shl
  simp only at hn hv ⊢
  generalize v * 2 ^ n = x at hv ⊢
  unfold IT.conv toS toU
  rcases hc with e | e | e | e <;> simp only at e <;> subst e <;> cases sg <;> simp at hv ⊢
  all_goals first
    | rw [if_pos (by omega)]
    | skip
  all_goals first
    | omega
    | (refine ⟨_, rfl, ?_⟩; omega)

/-- Without any precondition `gcd` returns the greatest common divisor converted to the common type. -/
theorem gcd_conv {p : Bits.Path} {a b c : IT} (ha : Std a) (hb : Std b) (hc : IsCommon a b c) {m n : Int} (hm : Fits a m) (hn : Fits b n) :
    gcd p a b c m n = .ok (c.conv ((Nat.gcd m.natAbs n.natAbs : Nat) : Int)) := by
  have hcs := std_common ha hb hc
  have hml := natAbs_lt ha hb hc hm
  have hnl := natAbs_lt hb ha (isCommon_comm hc) hn
  unfold gcd
  rw [absU_ok ha hm, absU_ok hb hn]
  simp only [R.ok_bind]
  rw [toU_natAbs hml, toU_natAbs hnl]
  generalize m.natAbs = M at *
  generalize n.natAbs = N at *
  by_cases hM : M = 0
  · subst hM; simp
  · rw [if_neg hM]
    by_cases hN : N = 0
    · subst hN; simp
    · rw [if_neg hN]
      obtain ⟨mz, e1, z1⟩ := Bits.countrZero_ok hcs hml p
      obtain ⟨nz, e2, z2⟩ := Bits.countrZero_ok hcs hnl p
      obtain ⟨k1, q1, s1⟩ := ctz_split z1 hml hM
      obtain ⟨k2, q2, s2⟩ := ctz_split z2 hnl hN
      have hw64 : c.w ≤ 64 := by rcases hcs with h | h | h | h <;> omega
      rw [e1]; simp only [R.ok_bind]
      rw [e2]; simp only [R.ok_bind]
      rw [Bits.toU_nat (show mz < 2 ^ 32 by omega), Bits.toU_nat (show nz < 2 ^ 32 by omega)]
      unfold Bits.shr
      rw [if_pos (by omega)]; simp only [R.ok_bind]
      have hdiv : M / 2 ^ mz = 2 * q1 + 1 := by rw [s1]; exact Nat.mul_div_cancel_left _ (by positivity)
      have hle : M / 2 ^ mz ≤ M := Nat.div_le_self _ _
      rw [gcdLoop_ok hcs _ _ _ _ (by omega) (by omega) hnl (by omega) hN z2, hdiv]
      have hgs := gcd_split q1 q2 mz nz
      rw [← s1, ← s2] at hgs
      have hgN : Nat.gcd (2 * q1 + 1) N = Nat.gcd (2 * q1 + 1) (2 * q2 + 1) := by rw [s2]; exact gcd_pow_odd _ _ _
      rw [hgN, hgs]
      obtain ⟨r, h1, h2⟩ := shl_conv hcs (v := Nat.gcd (2 * q1 + 1) (2 * q2 + 1)) (n := min mz nz) (by omega) (by
        rw [← hgs]; exact lt_of_le_of_lt (Nat.gcd_le_left _ (by omega)) hml)
      rw [h1]; simp only [R.ok_bind]
      rw [h2]

theorem fits_uns {t : IT} {v : Nat} : Fits t.uns (v : Int) ↔ v < 2 ^ t.w := by
  unfold Fits IT.uns; simp
  rw [show ((2 : Int) ^ t.w) = ((2 ^ t.w : Nat) : Int) by push_cast; ring]; omega

theorem lcm_steps {p : Bits.Path} {c : IT} (hcs : Std c) {M N : Nat} (hM : M < 2 ^ c.w) (hN : N < 2 ^ c.w) :
    gcd p c.uns c.uns c.uns (M : Int) (N : Int) = .ok ((Nat.gcd M N : Nat) : Int) := by
  rw [gcd_conv (a := c.uns) (b := c.uns) (c := c.uns) hcs hcs (.inr ⟨rfl, rfl⟩) (fits_uns.2 hM) (fits_uns.2 hN)]
  simp only [Int.natAbs_natCast]
  rw [conv_fits (t := c.uns) hcs]
  rw [fits_uns]
  rcases Nat.eq_zero_or_pos M with rfl | h
  · rw [Nat.gcd_zero_left]; exact hN
  · exact lt_of_le_of_lt (Nat.gcd_le_left _ h) hM

theorem lcm_div (M N : Nat) : M / Nat.gcd M N * N = Nat.lcm M N := by
  rw [Nat.lcm, Nat.div_mul_right_comm (Nat.gcd_dvd_left M N)]

theorem max_le_uns {t : IT} (ht : Std t) {v : Nat} (h : Fits t (v : Int)) : v < 2 ^ t.w := by
  obtain ⟨sg, w⟩ := t
  unfold Fits at h
  rcases ht with e | e | e | e <;> simp only at e <;> subst e <;> cases sg <;> simp at h ⊢ <;> omega

theorem lcm_ok {p : Bits.Path} {a b c : IT} (ha : Std a) (hb : Std b) (hc : IsCommon a b c) {m n : Int} (hm : Fits a m) (hn : Fits b n)
    (hl : Fits c ((Nat.lcm m.natAbs n.natAbs : Nat) : Int)) : lcm p a b c m n = .ok ((Nat.lcm m.natAbs n.natAbs : Nat) : Int) := by
  have hcs := std_common ha hb hc
  have hml := natAbs_lt ha hb hc hm
  have hnl := natAbs_lt hb ha (isCommon_comm hc) hn
  unfold lcm
  rw [absU_ok ha hm, absU_ok hb hn]
  simp only [R.ok_bind]
  rw [conv_fits (t := c.uns) hcs (fits_uns.2 hml), conv_fits (t := c.uns) hcs (fits_uns.2 hnl)]
  generalize m.natAbs = M at *
  generalize n.natAbs = N at *
  split
  · rename_i h
    rcases h with h | h
    · have : M = 0 := by omega
      subst this; simp
    · have : N = 0 := by omega
      subst this; simp
  · rename_i h
    push Not at h
    rw [lcm_steps hcs hml hnl]; simp only [R.ok_bind]
    have hg : Nat.gcd M N ≠ 0 := by have := Nat.gcd_pos_of_pos_left N (show 0 < M by omega); omega
    rw [if_neg (by exact_mod_cast hg)]
    rw [show (M : Int) / ((Nat.gcd M N : Nat) : Int) * (N : Int) = ((Nat.lcm M N : Nat) : Int) by rw [← lcm_div]; push_cast; rfl]
    rw [arith_fits (t := c.uns) hcs (fits_uns.2 (max_le_uns hcs hl))]; simp only [R.ok_bind]
    rw [conv_fits hcs hl]

theorem maxLimit_uns {c : IT} (hcs : Std c) : maxLimit c.uns = ((2 ^ c.w - 1 : Nat) : Int) := by
  rw [maxLimit_ok (t := c.uns) hcs]
  simp only [IT.uns, Bool.false_eq_true, if_false]
  have : 0 < 2 ^ c.w := by positivity
  push_cast [this]; ring

theorem lcmChecked_ok {p : Bits.Path} {a b c : IT} (ha : Std a) (hb : Std b) (hc : IsCommon a b c) {m n : Int} (hm : Fits a m) (hn : Fits b n) :
    ∃ o, lcmChecked p a b c m n = .ok o ∧ (∀ r, o = some r ↔ (r = ((Nat.lcm m.natAbs n.natAbs : Nat) : Int) ∧ Fits c r)) := by
  have hcs := std_common ha hb hc
  have hml := natAbs_lt ha hb hc hm
  have hnl := natAbs_lt hb ha (isCommon_comm hc) hn
  have h0 : Fits c 0 := by unfold Fits; split <;> simp
  unfold lcmChecked
  rw [absU_ok ha hm, absU_ok hb hn]
  simp only [R.ok_bind]
  rw [conv_fits (t := c.uns) hcs (fits_uns.2 hml), conv_fits (t := c.uns) hcs (fits_uns.2 hnl)]
  generalize m.natAbs = M at *
  generalize n.natAbs = N at *
  split
  · rename_i h
    refine ⟨_, rfl, fun r => ?_⟩
    have : Nat.lcm M N = 0 := by
      rcases h with h | h
      · have : M = 0 := by omega
        subst this; simp
      · have : N = 0 := by omega
        subst this; simp
    rw [this]; simp
    constructor
    · intro h; subst h; exact ⟨rfl, h0⟩
    · intro h; exact h.1.symm
  · rename_i h
    push Not at h
    rw [lcm_steps hcs hml hnl]; simp only [R.ok_bind]
    have hg : 0 < Nat.gcd M N := Nat.gcd_pos_of_pos_left N (show 0 < M by omega)
    rw [if_neg (by omega)]
    have hdl : M / Nat.gcd M N ≤ M := Nat.div_le_self _ _
    have hdp : 0 < M / Nat.gcd M N := Nat.div_pos (Nat.gcd_le_left _ (by omega)) hg
    rw [show (M : Int) / ((Nat.gcd M N : Nat) : Int) = ((M / Nat.gcd M N : Nat) : Int) by push_cast; rfl]
    rw [conv_fits (t := c.uns) hcs (fits_uns.2 (lt_of_le_of_lt hdl hml))]
    unfold mulOverflowU
    rw [maxLimit_uns hcs]
    have hlcm := lcm_div M N
    generalize hq : M / Nat.gcd M N = q at *
    have hiff : ((q : Int) ≠ 0 ∧ (N : Int) > ((2 ^ c.w - 1 : Nat) : Int) / (q : Int)) ↔ ¬ Nat.lcm M N < 2 ^ c.w := by
      rw [← hlcm]
      have : ((2 ^ c.w - 1 : Nat) : Int) / (q : Int) = (((2 ^ c.w - 1) / q : Nat) : Int) := by push_cast; rfl
      rw [this]
      have h3 : N ≤ (2 ^ c.w - 1) / q ↔ q * N ≤ 2 ^ c.w - 1 := by rw [Nat.le_div_iff_mul_le hdp, Nat.mul_comm]
      have : 0 < 2 ^ c.w := by positivity
      constructor
      · intro h hh
        have : N ≤ (2 ^ c.w - 1) / q := h3.2 (by omega)
        omega
      · intro h
        refine ⟨by omega, ?_⟩
        by_contra hc
        have := h3.1 (by omega)
        omega
    by_cases hov : Nat.lcm M N < 2 ^ c.w
    · rw [if_neg (fun h => hiff.1 h hov)]
      rw [show ((q : Int) * (N : Int)) = ((Nat.lcm M N : Nat) : Int) by rw [← hlcm]; push_cast; rfl]
      have hfu : Fits c.uns ((Nat.lcm M N : Nat) : Int) := fits_uns.2 hov
      have e1 := arith_fits (t := c.uns) hcs hfu
      have e2 := conv_fits (t := c.uns) hcs hfu
      rw [e1]; simp only [R.ok_bind]
      rw [e2]
      have hir := inRange_ok hcs (t := c.uns) hcs hfu
      by_cases hf : Fits c ((Nat.lcm M N : Nat) : Int)
      · rw [if_pos (hir.2 hf), conv_fits hcs hf]
        refine ⟨_, rfl, fun r => ?_⟩
        simp
        constructor
        · rintro rfl; exact ⟨rfl, hf⟩
        · intro h; exact h.1.symm
      · rw [if_neg (fun h => hf (hir.1 h))]
        refine ⟨_, rfl, fun r => ?_⟩
        simp
        rintro rfl; exact hf
    · rw [if_pos (hiff.2 hov)]
      simp only [R.ok_bind]
      refine ⟨_, rfl, fun r => ?_⟩
      simp
      rintro rfl hf
      exact hov (max_le_uns hcs hf)

theorem eqI_common {a b c : IT} (ha : Std a) (hb : Std b) (hc : IsCommon a b c) (hs : c.sg = true) {m v : Int} (hm : Fits a m) (hv : Fits c v) :
    eqI a m c v = decide (m = v) := by
  have hcs := std_common ha hb hc
  have hfit : (a.sg = true) ∨ (Fits (usual a c) m ∧ Fits (usual a c) v) := by
    obtain ⟨sa, wa⟩ := a
    obtain ⟨sb, wb⟩ := b
    cases sa
    · right
      rcases hc with rfl | ⟨_, rfl⟩
      · unfold usual promote int at *
        unfold Fits at *
        rcases ha with e | e | e | e <;> simp only at e <;> subst e <;> rcases hb with e | e | e | e <;> simp only at e <;> subst e <;>
          cases sb <;> simp at hs hm hv ⊢ <;> omega
      · simp at hs
    · exact .inl rfl
  rcases hfit with h | ⟨h1, h2⟩
  · exact eqI_same ha hcs (by rw [h, hs]) hm hv
  · unfold eqI
    rw [conv_fits (std_usual ha hcs) h1, conv_fits (std_usual ha hcs) h2]

end STL.Num
