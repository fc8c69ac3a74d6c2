import Verif.FloatConv.Assemble

/-! # `_Assemble_floating_point_value_from_big_integer_flt` -/

namespace STL.FloatConv
open STL Spec STL.Charconv STL.BigInt STL.Digits

theorem tailZero_ok {x : Big} : ∀ (n i : Nat) (zt : Bool), i + n ≤ x.used → tailZero x n i zt = .ok (zt && decide (val (2 ^ 32) x.f i n = 0)) := by
  intro n
  induction n with
  | zero => intro i zt _; unfold tailZero; rw [decide_eq_true (show val (2 ^ 32) x.f i 0 = 0 from rfl), Bool.and_true]
  | succ n ih =>
    intro i zt h
    unfold tailZero
    cases zt
    · rfl
    · rw [if_pos rfl, ldB (by omega), R.ok_bind, ih _ _ (by omega), val_cons]
      congr 1
      rw [Bool.true_and, Bool.eq_iff_iff]
      simp only [Bool.and_eq_true, decide_eq_true_eq]
      omega

theorem low64_ok {x : Big} (h : Ok x) (hv : x.value < 2 ^ 64) : low64 x = .ok x.value := by
  have hu : x.used ≤ 2 := h.used_le (by norm_num; exact hv)
  unfold low64
  have h0 : ∀ i, i < x.used → x.f i < 2 ^ 32 := h.1.2
  by_cases h1 : x.used > 1
  · have hu2 : x.used = 2 := by omega
    rw [if_pos (by omega), if_pos h1, ldB (by omega), ldB (by omega), R.ok_bind, R.ok_bind, Nat.shiftLeft_eq]
    have a := h0 0 (by omega)
    have b := h0 1 (by omega)
    have e : x.value = x.f 0 + x.f 1 * 2 ^ 32 := by unfold Big.value; rw [hu2]; simp [val]
    rw [Nat.mod_eq_of_lt (a := x.f 1 * 2 ^ 32) (by omega), e, Nat.mod_eq_of_lt (by omega)]
  · rw [if_neg h1]
    by_cases h2 : x.used > 0
    · have hu1 : x.used = 1 := by omega
      rw [if_pos h2, ldB (by omega), R.ok_bind, R.ok_bind]
      have a := h0 0 (by omega)
      have e : x.value = x.f 0 := by unfold Big.value; rw [hu1]; simp [val]
      rw [e, Nat.zero_shiftLeft, Nat.zero_mod, Nat.add_zero, Nat.mod_eq_of_lt (by omega)]
    · rw [if_neg h2, R.ok_bind, R.ok_bind]
      have e : x.value = 0 := h.used_zero.1 (by omega)
      rw [e]; rfl

theorem and_zero_split {nf : Bool} {a b P : Nat} (hP : 0 < P) : ((!nf && decide (b = 0)) && decide (a = 0)) = (!nf && decide (a + P * b = 0)) := by
  rw [Bool.and_assoc]
  have : (b = 0 ∧ a = 0) ↔ a + P * b = 0 := by
    constructor
    · rintro ⟨h1, h2⟩; rw [h1, h2]; rfl
    · intro h1
      have h2 := Nat.eq_zero_of_add_eq_zero h1
      refine ⟨?_, h2.1⟩
      rcases Nat.mul_eq_zero.1 h2.2 with h3 | h3
      · omega
      · exact h3
  rw [← Bool.decide_and, decide_eq_decide.2 this]

/-- The value as low words, and two or three top words. -/
theorem value_split {x : Big} {b : Nat} (n : Nat) (h : x.used = b + n) : x.value = val (2 ^ 32) x.f 0 b + (2 ^ 32) ^ b * val (2 ^ 32) x.f b n := by
  unfold Big.value; rw [h, val_add, Nat.zero_add]

theorem sum_mod {u v a C D : Nat} (h1 : a < C) (h2 : v + C ≤ D) (h3 : u + D ≤ 2 ^ 64) : (u % 2 ^ 64 + v % 2 ^ 64 + a) % 2 ^ 64 = a + (u + v) := by omega

/-- What the three sources of the mantissa give: the top 64 bits and whether the rest is zero. -/
theorem top_words {topBits bot mid top : Nat} (h0 : 0 < topBits) (h : topBits < 32) (hb : bot < 2 ^ 32) (hm : mid < 2 ^ 32) (ht : top < 2 ^ topBits) :
    (((top &&& (2 ^ topBits - 1)) <<< (64 - topBits)) % 2 ^ 64 + (mid <<< (64 - topBits - 32)) % 2 ^ 64 + ((bot &&& (2 ^ 32 - 1 - (2 ^ topBits - 1))) >>> (32 - (32 - topBits)))) % 2 ^ 64
      = (bot + 2 ^ 32 * mid + 2 ^ 32 * 2 ^ 32 * top) / 2 ^ topBits ∧
    (bot &&& (2 ^ topBits - 1)) = (bot + 2 ^ 32 * mid + 2 ^ 32 * 2 ^ 32 * top) % 2 ^ topBits := by
  obtain ⟨c, hc⟩ : ∃ c, 32 = topBits + c := ⟨32 - topBits, by omega⟩
  have hsplit : 2 ^ 32 = 2 ^ topBits * 2 ^ c := by rw [← pow_add, ← hc]
  obtain ⟨A, hA⟩ : ∃ A, A = 2 ^ topBits := ⟨_, rfl⟩
  obtain ⟨C, hC⟩ : ∃ C, C = 2 ^ c := ⟨_, rfl⟩
  have hA0 : 0 < A := by rw [hA]; positivity
  have hAC : 2 ^ 32 = A * C := by rw [hsplit, hA, hC]
  have e1 : top &&& (2 ^ topBits - 1) = top := by rw [Nat.and_two_pow_sub_one_eq_mod, Nat.mod_eq_of_lt ht]
  have e2 : bot &&& (2 ^ topBits - 1) = bot % A := by rw [Nat.and_two_pow_sub_one_eq_mod, hA]
  have e3 : (bot &&& (2 ^ 32 - 1 - (2 ^ topBits - 1))) >>> (32 - (32 - topBits)) = bot / A := by
    rw [show 32 - (32 - topBits) = topBits by omega]
    apply Nat.eq_of_testBit_eq
    intro i
    rw [hA, ← Nat.shiftRight_eq_div_pow, Nat.testBit_shiftRight, Nat.testBit_shiftRight, Nat.testBit_and]
    have h3 : 2 ^ 32 - 1 - (2 ^ topBits - 1) = (2 ^ c - 1) * 2 ^ topBits := by
      rw [hsplit, Nat.sub_mul, Nat.one_mul, Nat.mul_comm (2 ^ c)]
      have : 0 < 2 ^ topBits := by positivity
      omega
    rw [h3, Nat.testBit_mul_two_pow, show topBits + i - topBits = i by omega, Nat.testBit_two_pow_sub_one]
    simp only [Nat.le_add_right, decide_true, Bool.true_and]
    by_cases hi : i < c
    · simp [hi]
    · have : bot.testBit (topBits + i) = false := Nat.testBit_lt_two_pow (lt_of_lt_of_le hb (Nat.pow_le_pow_right (by norm_num) (by omega)))
      rw [this]; rfl
  have e4 : top <<< (64 - topBits) = top * (2 ^ 32 * C) := by
    rw [Nat.shiftLeft_eq, hC, ← pow_add, show 64 - topBits = 32 + c by omega]
  have e5 : mid <<< (64 - topBits - 32) = mid * C := by rw [Nat.shiftLeft_eq, hC, show 64 - topBits - 32 = c by omega]
  rw [e1, e2, e3, e4, e5]
  have hX : bot + 2 ^ 32 * mid + 2 ^ 32 * 2 ^ 32 * top = bot + A * (C * mid + C * 2 ^ 32 * top) := by
    have : 2 ^ 32 * mid + 2 ^ 32 * 2 ^ 32 * top = A * (C * mid + C * 2 ^ 32 * top) := by
      calc 2 ^ 32 * mid + 2 ^ 32 * 2 ^ 32 * top = 2 ^ 32 * (mid + 2 ^ 32 * top) := by ring
        _ = A * C * (mid + 2 ^ 32 * top) := by rw [hAC]
        _ = _ := by ring
    omega
  rw [hX, ← hA, Nat.add_mul_div_left _ _ hA0, Nat.add_mul_mod_self_left]
  refine ⟨?_, rfl⟩
  rw [← hA] at ht
  have hbA : bot / A < C := by rw [Nat.div_lt_iff_lt_mul hA0, Nat.mul_comm, ← hAC]; exact hb
  have hmC : mid * C + C ≤ 2 ^ 32 * C := by nlinarith
  have htC : top * (2 ^ 32 * C) + 2 ^ 32 * C ≤ 2 ^ 64 := by
    have : A * (2 ^ 32 * C) = 2 ^ 64 := by
      calc A * (2 ^ 32 * C) = (A * C) * 2 ^ 32 := by ring
        _ = 2 ^ 32 * 2 ^ 32 := by rw [← hAC]
        _ = 2 ^ 64 := by norm_num
    rw [← this]; nlinarith
  have e6 : C * mid + C * 2 ^ 32 * top = top * (2 ^ 32 * C) + mid * C := by ring
  rw [e6]
  exact sum_mod hbA hmC htC

set_option maxHeartbeats 1000000 in
/-- The mantissa and the tail passed on for a number of more than 64 bits. -/
theorem asmBig_large {T : Traits} {x : Big} (h : Ok x) (neg nf : Bool) (hl : 64 < Nat.size x.value) (hp : T.mantissaBits ≤ 53) (hsz : Nat.size x.value ≤ 3680) :
    asmBig T x (Nat.size x.value) neg nf = assemble T (x.value / 2 ^ (Nat.size x.value - 64)) ((T.mantissaBits : Int) - 1 + (Nat.size x.value - 64 : Nat)) neg
      (!nf && decide (x.value % 2 ^ (Nat.size x.value - 64) = 0)) := by
  have hu0 : x.used ≠ 0 := by
    intro h0; rw [h.used_zero.1 h0] at hl; simp at hl
  have hbs := bitScan_ok h
  obtain ⟨t1, t2, t3, t4⟩ := top_bounds h hu0
  have hw : ∀ i, i < x.used → x.f i < 2 ^ 32 := h.1.2
  have hsize : Nat.size x.value = Nat.size (x.f (x.used - 1)) + 32 * (x.used - 1) := by
    apply le_antisymm (Nat.size_le.2 t2)
    have := Nat.lt_size.2 t1
    omega
  obtain ⟨s, hs⟩ : ∃ s, s = Nat.size (x.f (x.used - 1)) := ⟨_, rfl⟩
  rw [← hs] at t3 t4 hsize
  obtain ⟨n, hn⟩ : ∃ n, n = Nat.size x.value := ⟨_, rfl⟩
  rw [← hn] at hl hsize hsz ⊢
  unfold asmBig
  dsimp only
  rw [if_neg (by omega)]
  by_cases htop : n % 32 = 0
  · rw [if_pos htop]
    have hs32 : s = 32 := by omega
    have hix : n / 32 - 2 = x.used - 2 := by omega
    have hix1 : n / 32 - 1 = x.used - 1 := by omega
    have hu3 : 2 < x.used := by omega
    rw [hix, hix1, ldB (by omega), ldB (by omega), R.ok_bind, R.ok_bind, tailZero_ok _ _ _ (by omega), R.ok_bind]
    have hv := value_split (x := x) (b := x.used - 2) 2 (by omega)
    have hv2 : val (2 ^ 32) x.f (x.used - 2) 2 = x.f (x.used - 2) + 2 ^ 32 * x.f (x.used - 1) := by
      have : x.used - 2 + 1 = x.used - 1 := by omega
      simp [val, this]
      ring
    have hlow : val (2 ^ 32) x.f 0 (x.used - 2) < (2 ^ 32) ^ (x.used - 2) := val_lt fun i _ h2 => h.1.2 i (by omega)
    have hpow : (2 ^ 32) ^ (x.used - 2) = 2 ^ (n - 64) := by rw [powB]; congr 1; omega
    rw [hpow] at hv hlow
    have a := hw (x.used - 2) (by omega)
    have b := hw (x.used - 1) (by omega)
    have hM : (x.f (x.used - 2) + x.f (x.used - 1) <<< 32 % 2 ^ 64) % 2 ^ 64 = x.value / 2 ^ (n - 64) := by
      rw [hv, Nat.add_mul_div_left _ _ (by positivity), Nat.div_eq_of_lt hlow, hv2, Nat.shiftLeft_eq, Nat.mod_eq_of_lt (a := x.f (x.used - 1) * 2 ^ 32) (by omega),
        Nat.mod_eq_of_lt (by omega)]
      omega
    have hZ : (!nf && decide (val (2 ^ 32) x.f 0 (x.used - 2) = 0)) = (!nf && decide (x.value % 2 ^ (n - 64) = 0)) := by
      have : x.value % 2 ^ (n - 64) = val (2 ^ 32) x.f 0 (x.used - 2) := by rw [hv, Nat.add_mul_mod_self_left, Nat.mod_eq_of_lt hlow]
      rw [this]
    have hE : toS 32 ((T.mantissaBits : Int) - 1 + ((x.used - 2) * 32 : Nat)) = (T.mantissaBits : Int) - 1 + (n - 64 : Nat) := by
      unfold toS
      have : (x.used - 2) * 32 = n - 64 := by omega
      rw [this]
      omega
    rw [hM, hZ, hE]
  · rw [if_neg htop]
    have hix : n / 32 = x.used - 1 := by omega
    have hix1 : x.used - 1 - 1 = x.used - 2 := by omega
    have hix2 : x.used - 1 - 2 = x.used - 3 := by omega
    have hts : n % 32 = s := by omega
    have hu3 : 2 < x.used := by omega
    rw [hix, hix1, hix2, hts, ldB (by omega), ldB (by omega), ldB (by omega), R.ok_bind, R.ok_bind, R.ok_bind, tailZero_ok _ _ _ (by omega), R.ok_bind]
    have hv := value_split (x := x) (b := x.used - 3) 3 (by omega)
    have hv2 : val (2 ^ 32) x.f (x.used - 3) 3 = x.f (x.used - 3) + 2 ^ 32 * x.f (x.used - 2) + 2 ^ 32 * 2 ^ 32 * x.f (x.used - 1) := by
      have e1 : x.used - 3 + 1 = x.used - 2 := by omega
      have e2 : x.used - 3 + 2 = x.used - 1 := by omega
      simp [val, e1, e2]
      ring
    have hlow : val (2 ^ 32) x.f 0 (x.used - 3) < (2 ^ 32) ^ (x.used - 3) := val_lt fun i _ h2 => h.1.2 i (by omega)
    have a := hw (x.used - 3) (by omega)
    have b := hw (x.used - 2) (by omega)
    have c : x.f (x.used - 1) < 2 ^ s := by rw [hs]; exact Nat.lt_size_self _
    obtain ⟨hw1, hw2⟩ := top_words (by omega) (by omega : s < 32) a b c
    have hpow : 2 ^ (n - 64) = (2 ^ 32) ^ (x.used - 3) * 2 ^ s := by rw [powB, ← pow_add]; congr 1; omega
    rw [hw1, hw2]
    have hM : x.value / 2 ^ (n - 64) = (x.f (x.used - 3) + 2 ^ 32 * x.f (x.used - 2) + 2 ^ 32 * 2 ^ 32 * x.f (x.used - 1)) / 2 ^ s := by
      rw [hpow, ← Nat.div_div_eq_div_mul, hv, Nat.add_mul_div_left _ _ (by positivity), Nat.div_eq_of_lt hlow, Nat.zero_add, hv2]
    have hZ : ((!nf && decide ((x.f (x.used - 3) + 2 ^ 32 * x.f (x.used - 2) + 2 ^ 32 * 2 ^ 32 * x.f (x.used - 1)) % 2 ^ s = 0)) &&
        decide (val (2 ^ 32) x.f 0 (x.used - 3) = 0)) = (!nf && decide (x.value % 2 ^ (n - 64) = 0)) := by
      have h1 : x.value % 2 ^ (n - 64) = val (2 ^ 32) x.f 0 (x.used - 3) + (2 ^ 32) ^ (x.used - 3) *
          ((x.f (x.used - 3) + 2 ^ 32 * x.f (x.used - 2) + 2 ^ 32 * 2 ^ 32 * x.f (x.used - 1)) % 2 ^ s) := by
        rw [hpow, Nat.mod_mul, hv, Nat.add_mul_mod_self_left, Nat.mod_eq_of_lt hlow, Nat.add_mul_div_left _ _ (by positivity), Nat.div_eq_of_lt hlow, Nat.zero_add, hv2]
      rw [h1]
      exact and_zero_split (by positivity)
    have hE : toS 32 ((T.mantissaBits : Int) - 1 + ((x.used - 3) * 32 : Nat) + (s : Nat)) = (T.mantissaBits : Int) - 1 + (n - 64 : Nat) := by
      unfold toS
      have : n - 64 = (x.used - 3) * 32 + s := by omega
      rw [this]
      push_cast
      omega
    rw [hM, hZ, hE]

/-- The conversion of an integer part, plus a fractional part of less than half a unit in the last place if the integer part is short. -/
theorem asmBig_ok {T : Traits} (G : Good T) {x : Big} (h : Ok x) (neg nf : Bool) (h0 : 0 < x.value) :
    ∃ b, asmBig T x (Nat.size x.value) neg nf = .ok (outcome T neg b) ∧
      (nf = false → Rne T.mantissaBits (inf T.mantissaBits T.exponentBits) b (x.value * 2 ^ ((T.mantissaBits : Int) - 1 - T.minExp))) ∧
      (nf = true → ∀ w : ℚ, 0 ≤ w → w ≤ 1 → w * 2 ^ (T.mantissaBits + 1) ≤ 2 ^ Nat.size x.value →
        Rd T.mantissaBits (inf T.mantissaBits T.exponentBits) b (x.value * 2 ^ ((T.mantissaBits : Int) - 1 - T.minExp)) ((x.value + w) * 2 ^ ((T.mantissaBits : Int) - 1 - T.minExp))) := by
  have hp53 := G.p53
  have hp2 := G.p2
  by_cases hs : Nat.size x.value ≤ 64
  · unfold asmBig
    dsimp only
    rw [if_pos hs, low64_ok h (Nat.size_le.1 hs), R.ok_bind]
    obtain ⟨b, e, h1, h2⟩ := assemble_ok G (M := x.value) (e0 := (T.mantissaBits : Int) - 1) neg (!nf) h0 (Nat.size_le.1 hs) (by omega)
    refine ⟨b, e, fun hn => h1 (by rw [hn]; rfl), fun hn w hw0 hw1 hw2 => h2 (by rw [hn]; rfl) w hw1 hw2⟩
  · have hsz : Nat.size x.value ≤ 3680 := Nat.size_le.2 h.lt_bits
    rw [asmBig_large h neg nf (by omega) hp53 hsz]
    obtain ⟨n, hn⟩ : ∃ n, n = Nat.size x.value := ⟨_, rfl⟩
    rw [← hn] at hs hsz ⊢
    have hge : 2 ^ (n - 1) ≤ x.value := Nat.lt_size.1 (by omega)
    have hlt : x.value < 2 ^ n := by rw [hn]; exact Nat.lt_size_self _
    obtain ⟨t, ht⟩ : ∃ t, n = 64 + t := ⟨n - 64, by omega⟩
    have ht' : n - 64 = t := by omega
    rw [ht']
    have hd := Nat.div_add_mod x.value (2 ^ t)
    have hm := Nat.mod_lt x.value (show 0 < 2 ^ t by positivity)
    obtain ⟨M, hM⟩ : ∃ M, M = x.value / 2 ^ t := ⟨_, rfl⟩
    obtain ⟨r, hr⟩ : ∃ r, r = x.value % 2 ^ t := ⟨_, rfl⟩
    have hMge : 2 ^ 63 ≤ M := by
      rw [hM, Nat.le_div_iff_mul_le (by positivity), ← pow_add]
      exact le_trans (Nat.pow_le_pow_right (by norm_num) (by omega)) hge
    have hMlt : M < 2 ^ 64 := by
      rw [hM, Nat.div_lt_iff_lt_mul (by positivity), ← pow_add, ← ht]; exact hlt
    have hMs : Nat.size M = 64 := size_eq (s := 63) hMge hMlt
    rw [← hM, ← hr] at hd
    rw [← hr] at hm
    rw [← hM, ← hr]
    obtain ⟨b, e, h1, h2⟩ := assemble_ok G (M := M) (e0 := (T.mantissaBits : Int) - 1 + (t : Nat)) neg (!nf && decide (r = 0)) (by omega) hMlt (by omega)
    have hz : (2 : ℚ) ^ ((T.mantissaBits : Int) - 1 + (t : Nat) - T.minExp) = 2 ^ t * 2 ^ ((T.mantissaBits : Int) - 1 - T.minExp) := by
      rw [← zpow_natCast, ← zpow_add₀ two_ne_zero]; congr 1; ring
    rw [hz] at h1 h2
    obtain ⟨Q, hQ⟩ : ∃ Q : ℚ, Q = 2 ^ ((T.mantissaBits : Int) - 1 - T.minExp) := ⟨_, rfl⟩
    have hQ0 : 0 < Q := by rw [hQ]; exact zpow_two_pos _
    rw [← hQ] at h1 h2 ⊢
    have hdq : (2 ^ t * M + r : ℚ) = x.value := by exact_mod_cast hd
    have hmq : (r : ℚ) + 1 ≤ 2 ^ t := by exact_mod_cast hm
    refine ⟨b, e, fun hnf => ?_, fun hnf w hw0 hw1 hw2 => ?_⟩
    · by_cases hr0 : r = 0
      · have := h1 (by rw [hnf, hr0]; rfl)
        rw [hr0] at hdq
        have e1 : (M * (2 ^ t * Q) : ℚ) = x.value * Q := by rw [← hdq]; push_cast; ring
        rwa [e1] at this
      · have := h2 (by simp [hr0]) 1 (le_refl _) (by rw [hMs, one_mul]; exact pow_le_pow_right₀ (by norm_num) (by omega))
        have hr1 : (1 : ℚ) ≤ r := by exact_mod_cast (show 1 ≤ r by omega)
        apply this.inside
        · rw [← hdq]; nlinarith
        · rw [← hdq]; nlinarith
    · have := h2 (by simp [hnf]) 1 (le_refl _) (by rw [hMs, one_mul]; exact pow_le_pow_right₀ (by norm_num) (by omega))
      have hr1 : (0 : ℚ) ≤ r := by exact_mod_cast (Nat.zero_le r)
      apply this.mono
      · rw [← hdq]; nlinarith
      · rw [← hdq]; nlinarith

end STL.FloatConv
