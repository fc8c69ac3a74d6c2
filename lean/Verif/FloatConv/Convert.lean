import Verif.FloatConv.AsmBig

/-! # `_Convert_decimal_string_to_floating_type` -/

namespace STL.FloatConv
open STL Spec STL.Charconv STL.BigInt

/-! ## Digits -/

theorem foldl_num (base : Nat) (ds : List Nat) (a : Nat) : ds.foldl (fun a d => a * base + d) a = a * base ^ ds.length + numOf base ds := by
  unfold numOf
  induction ds generalizing a with
  | nil => simp
  | cons d t ih =>
    rw [List.foldl_cons, List.foldl_cons, ih, ih (0 * base + d), List.length_cons, pow_succ]; ring

theorem numOf_cons (base d : Nat) (t : List Nat) : numOf base (d :: t) = d * base ^ t.length + numOf base t := by
  rw [numOf, List.foldl_cons, foldl_num]; simp

theorem numOf_append (base : Nat) (a b : List Nat) : numOf base (a ++ b) = numOf base a * base ^ b.length + numOf base b := by
  rw [numOf, List.foldl_append, foldl_num]; rfl

theorem numOf_nil (base : Nat) : numOf base [] = 0 := rfl

theorem numOf_lt {base : Nat} : ∀ {ds : List Nat}, (∀ d ∈ ds, d < base) → numOf base ds < base ^ ds.length := by
  intro ds
  induction ds with
  | nil => intro _; simp [numOf]
  | cons d t ih =>
    intro h
    rw [numOf_cons, List.length_cons, pow_succ]
    have h1 := h d (List.mem_cons_self ..)
    have h2 := ih (fun x hx => h x (List.mem_cons_of_mem _ hx))
    nlinarith [Nat.zero_le (base ^ t.length)]

theorem numOf_ge {base : Nat} {d : Nat} {t : List Nat} (h : d ≠ 0) : base ^ t.length ≤ numOf base (d :: t) := by
  rw [numOf_cons]
  exact le_trans (Nat.le_mul_of_pos_left _ (by omega)) (Nat.le_add_right _ _)

/-! ## Accumulation -/

theorem ten_pow_lt (k : Nat) (hk : 0 < k) : 10 ^ (3 * k) < 2 ^ (10 * k) := by
  rw [pow_mul, pow_mul]; exact Nat.pow_lt_pow_left (by norm_num) (by omega)

theorem ten768 : 10 ^ 768 < 2 ^ 3648 := lt_trans (ten_pow_lt 256 (by norm_num)) (Nat.pow_lt_pow_right (by norm_num) (by norm_num))

theorem le768 {v : Nat} (h : v ≤ 10 ^ 768) : v < 2 ^ 3680 := lt_of_le_of_lt h (lt_trans ten768 (Nat.pow_lt_pow_right (by norm_num) (by norm_num)))

theorem accLoop_ok : ∀ (ds : List Nat) (a c : Nat) (r : Big), (∀ d ∈ ds, d < 10) → Ok r → c ≤ 9 → a < 10 ^ c → (r.value * 10 ^ c + a + 1) * 10 ^ ds.length ≤ 10 ^ 768 →
    ∃ a' c' r', accLoop ds a c r = .ok (a', c', r') ∧ Ok r' ∧ c' ≤ 9 ∧ a' < 10 ^ c' ∧ r'.value * 10 ^ c' + a' = (r.value * 10 ^ c + a) * 10 ^ ds.length + numOf 10 ds := by
  intro ds
  induction ds with
  | nil => intro a c r _ hr hc ha _; exact ⟨a, c, r, rfl, hr, hc, ha, by rw [numOf_nil]; simp⟩
  | cons d t ih =>
    intro a c r hd hr hc ha hb
    have hd0 := hd d (List.mem_cons_self ..)
    have hpow : ∀ {c : Nat}, c ≤ 9 → 10 ^ c ≤ 10 ^ 9 := fun h => Nat.pow_le_pow_right (by norm_num) h
    have hstep : ∃ a1 c1 r1, (if c = 9 then do
        let (r, _) ← mul32 r 1000000000
        let (r, _) ← BigInt.add r a
        .ok (0, 0, r)
      else .ok (a, c, r) : R (Nat × Nat × Big)) = .ok (a1, c1, r1) ∧ Ok r1 ∧ c1 ≤ 8 ∧ a1 < 10 ^ c1 ∧ r1.value * 10 ^ c1 + a1 = r.value * 10 ^ c + a := by
      by_cases h9 : c = 9
      · subst h9
        have hT : r.value * 10 ^ 9 + a ≤ 10 ^ 768 := by
          have : 1 ≤ 10 ^ (d :: t).length := Nat.one_le_pow _ _ (by norm_num)
          calc r.value * 10 ^ 9 + a ≤ (r.value * 10 ^ 9 + a + 1) * 1 := by omega
            _ ≤ _ := Nat.mul_le_mul_left _ this
            _ ≤ _ := hb
        obtain ⟨y, e1, hy, hyv⟩ := C25_multiply_word hr (m := 1000000000) (by norm_num)
        have hm : r.value * 1000000000 < 2 ^ 3680 := le768 (le_trans (Nat.le_add_right _ a) hT)
        rw [if_pos hm] at hyv
        obtain ⟨z, e2, hz, hzv⟩ := C25_add hy (v := a) (by have := hpow (le_refl 9); omega)
        have hm2 : y.value + a < 2 ^ 3680 := le768 (by rw [hyv, show (1000000000 : Nat) = 10 ^ 9 by norm_num]; exact hT)
        rw [if_pos hm2] at hzv
        refine ⟨0, 0, z, ?_, hz, by norm_num, by norm_num, ?_⟩
        · rw [if_pos rfl, e1, R.ok_bind]
          dsimp only
          rw [e2, R.ok_bind]
        · rw [hzv, hyv, pow_zero, Nat.mul_one, show (1000000000 : Nat) = 10 ^ 9 by norm_num]; omega
      · exact ⟨a, c, r, by rw [if_neg h9], hr, by omega, ha, rfl⟩
    obtain ⟨a1, c1, r1, e, hr1, hc1, ha1, hv1⟩ := hstep
    unfold accLoop
    rw [e, R.ok_bind]
    dsimp only
    have h8 : 10 ^ c1 ≤ 10 ^ 8 := Nat.pow_le_pow_right (by norm_num) hc1
    rw [Nat.mod_eq_of_lt (a := a1 * 10) (by omega), Nat.mod_eq_of_lt (a := a1 * 10 + d) (by omega)]
    have hv2 : r1.value * 10 ^ (c1 + 1) + (a1 * 10 + d) = (r.value * 10 ^ c + a) * 10 + d := by rw [← hv1, pow_succ]; ring
    obtain ⟨a', c', r', e', hr', hc', ha', hv'⟩ := ih (a1 * 10 + d) (c1 + 1) r1 (fun x hx => hd x (List.mem_cons_of_mem _ hx)) hr1 (by omega) (by rw [pow_succ]; omega)
      (by
        rw [hv2]
        refine le_trans ?_ hb
        rw [List.length_cons, pow_succ, Nat.mul_comm (10 ^ t.length) 10, ← Nat.mul_assoc]
        exact Nat.mul_le_mul_right _ (by omega))
    refine ⟨a', c', r', e', hr', hc', ha', ?_⟩
    rw [hv', hv2, numOf_cons, List.length_cons, pow_succ]; ring

theorem accumulate_ok (g : Nat → Nat) {ds : List Nat} (hd : ∀ d ∈ ds, d < 10) (hl : ds.length ≤ 768) :
    ∃ r, accumulate g ds (empty g) = .ok r ∧ Ok r ∧ r.value = numOf 10 ds := by
  have hle : 10 ^ ds.length ≤ 10 ^ 768 := Nat.pow_le_pow_right (by norm_num) hl
  obtain ⟨a, c, r, e, hr, hc, ha, hv⟩ := accLoop_ok ds 0 0 (empty g) hd (Ok.zero g) (by norm_num) (by norm_num) (by rw [show (empty g).value = 0 from rfl]; simpa using hle)
  rw [show (empty g).value = 0 from rfl] at hv
  simp only [Nat.zero_mul, Nat.zero_add] at hv
  have hlt := numOf_lt hd
  unfold accumulate
  rw [e, R.ok_bind]
  dsimp only
  by_cases h0 : c = 0
  · subst h0
    rw [if_neg (by simp)]
    refine ⟨r, rfl, hr, ?_⟩
    rw [pow_zero] at ha hv
    omega
  · rw [if_pos h0]
    obtain ⟨y, b, e1, hy, hyv, hyb⟩ := C25_multiply_power_of_ten g hr c
    have hb : b = true := hyb (lt_of_le_of_lt (show r.value * 10 ^ c ≤ 10 ^ 768 by omega) ten768)
    rw [hb, if_pos rfl] at hyv
    have hpow : 10 ^ c ≤ 10 ^ 9 := Nat.pow_le_pow_right (by norm_num) hc
    obtain ⟨z, e2, hz, hzv⟩ := C25_add hy (v := a) (by omega)
    rw [if_pos (le768 (by rw [hyv]; omega))] at hzv
    refine ⟨z, ?_, hz, by rw [hzv, hyv, hv]⟩
    rw [e1, R.ok_bind]
    dsimp only
    rw [e2, R.ok_bind]

/-! ## Results -/

/-- Rounding of something just above `X`. -/
structure RdS (p I b : Nat) (X : ℚ) : Prop where
  le : b ≤ I
  low : b ≠ 0 → (nm p (b - 1) + nm p b : ℚ) ≤ 2 * X
  high : b ≠ I → 2 * X < (nm p b + nm p (b + 1) : ℚ)

theorem Rd.strict {p I b : Nat} {X Y Z : ℚ} (h : Rd p I b X Y) (h1 : X ≤ Z) (h2 : Z < Y) : RdS p I b Z :=
  ⟨h.le, fun h0 => by have := h.low h0; linarith, fun h0 => by have := h.high h0; linarith⟩

/-- One, in units of the smallest subnormal number. -/
noncomputable def scale (T : Traits) : ℚ := 2 ^ ((T.mantissaBits : Int) - 1 - T.minExp)

theorem scale_pos (T : Traits) : 0 < scale T := zpow_two_pos _

/-- The conversion of `D` (`zt`), or of something just above `D`. -/
def Conv (T : Traits) (neg zt : Bool) (D : ℚ) (r : R (Nat × Errc)) : Prop :=
  ∃ b, r = .ok (outcome T neg b) ∧ (zt = true → Rne T.mantissaBits (inf T.mantissaBits T.exponentBits) b (D * scale T)) ∧
    (zt = false → RdS T.mantissaBits (inf T.mantissaBits T.exponentBits) b (D * scale T))

theorem Rne.strict_zero {p w : Nat} (hp : 2 ≤ p) {X : ℚ} (h : 2 * X < 1) : RdS p (inf p w) 0 X := by
  have h1 : nm p 1 = 1 := by
    have := nm_mk (p := p) (k := 0) (m := 1) (by omega) (.inl rfl) Nat.one_le_two_pow
    simpa using this
  exact ⟨Nat.zero_le _, fun h => absurd rfl h, fun _ => by rw [nm_zero, Nat.zero_add, h1]; push_cast; linarith⟩

theorem conv_zero {T : Traits} (G : Good T) (neg zt : Bool) {D : ℚ} (h : 2 * (D * scale T) < 1) : Conv T neg zt D (.ok (asmZero T neg, .resultOutOfRange)) :=
  ⟨0, by unfold outcome; rw [asmZero_ok G, if_pos (.inl rfl)], fun _ => rne_zero G.p2 (two_pow_w G.w2 G.w11).1 h, fun _ => Rne.strict_zero G.p2 h⟩

theorem conv_inf {T : Traits} (G : Good T) (neg zt : Bool) {D : ℚ} (h : (nm T.mantissaBits (inf T.mantissaBits T.exponentBits) : ℚ) ≤ D * scale T) :
    Conv T neg zt D (.ok (asmInf T neg, .resultOutOfRange)) := by
  have hR := rne_inf G.p2 (two_pow_w G.w2 G.w11).1 h
  exact ⟨_, by unfold outcome; rw [asmInf_ok G, if_pos (.inr rfl)], fun _ => hR, fun _ => ⟨le_refl _, hR.rd.low, fun h => absurd rfl h⟩⟩

/-- Infinity in units of one. -/
theorem nm_inf_scale {T : Traits} (G : Good T) : (nm T.mantissaBits (inf T.mantissaBits T.exponentBits) : ℚ) = 2 ^ (T.maxExp + 1) * scale T := by
  have hw := two_pow_w G.w2 G.w11
  rw [nm_inf G.p2 hw.1]
  unfold scale
  push_cast
  rw [← zpow_natCast, ← zpow_natCast, ← zpow_add₀ two_ne_zero, ← zpow_add₀ two_ne_zero]
  congr 1
  have hp := G.p2
  have h4 := hw.1
  have h3 := hw.2.2
  rw [G.maxE, G.minE]
  push_cast [Nat.cast_sub (show 1 ≤ T.mantissaBits by omega), Nat.cast_sub (show 2 ≤ 2 ^ T.exponentBits by omega)]
  omega

/-- A truncated quotient with enough bits. -/
theorem asm_frac {T : Traits} (G : Good T) {N den : Nat} {e0 : Int} (neg zt : Bool) (hden : 0 < den) (hM : N / den < 2 ^ 64) (hs : T.mantissaBits + 1 ≤ Nat.size (N / den))
    (he : -1000000 ≤ e0 ∧ e0 ≤ 1000000) {D : ℚ} (hD : D * scale T = (N / den : ℚ) * 2 ^ (e0 - T.minExp)) :
    Conv T neg zt D (assemble T (N / den) e0 neg (zt && decide (N % den = 0))) := by
  have hM0 : 0 < N / den := Nat.size_pos.1 (by omega)
  obtain ⟨b, e, h1, h2⟩ := assemble_ok G neg (zt && decide (N % den = 0)) hM0 hM he
  have hd := Nat.div_add_mod N den
  have hm := Nat.mod_lt N hden
  obtain ⟨M, hMe⟩ : ∃ M, M = N / den := ⟨_, rfl⟩
  obtain ⟨r, hr⟩ : ∃ r, r = N % den := ⟨_, rfl⟩
  rw [← hMe] at h1 h2 hd hs ⊢
  rw [← hr] at h1 h2 hd hm
  rw [← hMe, ← hr] at e
  rw [← hr]
  have hdq : (0 : ℚ) < den := by exact_mod_cast hden
  have hN : (N / den : ℚ) = M + r / den := by
    rw [div_eq_iff (ne_of_gt hdq), add_mul, div_mul_cancel₀ _ (ne_of_gt hdq), ← hd]; push_cast; ring
  have hz := zpow_two_pos (e0 - T.minExp)
  have hr1 : (r / den : ℚ) < 1 := by rw [div_lt_one hdq]; exact_mod_cast hm
  have hr0 : (0 : ℚ) ≤ r / den := by positivity
  have hw : (1 : ℚ) * 2 ^ (T.mantissaBits + 1) ≤ 2 ^ Nat.size M := by rw [one_mul]; exact pow_le_pow_right₀ (by norm_num) hs
  refine ⟨b, e, fun hzt => ?_, fun hzt => ?_⟩
  · by_cases h0 : r = 0
    · have := h1 (by rw [hzt, h0]; rfl)
      rw [hD, hN, h0]
      simpa using this
    · have := h2 (by simp [h0]) 1 (le_refl _) hw
      rw [hD, hN]
      have hrp : (0 : ℚ) < r / den := div_pos (by exact_mod_cast Nat.pos_of_ne_zero h0) hdq
      exact this.inside (mul_lt_mul_of_pos_right (by linarith) hz) (mul_lt_mul_of_pos_right (by linarith) hz)
  · have := h2 (by rw [hzt]; rfl) 1 (le_refl _) hw
    rw [hD, hN]
    exact this.strict (mul_le_mul_of_nonneg_right (by linarith) (le_of_lt hz)) (mul_lt_mul_of_pos_right (by linarith) hz)

/-- An integer part with a small fraction. -/
theorem asm_int {T : Traits} (G : Good T) {x : Big} (h : Ok x) (neg zt nf : Bool) (h0 : 0 < x.value) {D f w : ℚ} (hD : D = x.value + f)
    (hz : nf = false → zt = true ∧ f = 0) (hn : nf = true → 0 ≤ f ∧ f < w ∧ (zt = true → 0 < f)) (hw1 : w ≤ 1) (hw2 : w * 2 ^ (T.mantissaBits + 1) ≤ 2 ^ Nat.size x.value) :
    Conv T neg zt D (asmBig T x (Nat.size x.value) neg nf) := by
  obtain ⟨b, e, h1, h2⟩ := asmBig_ok G h neg nf h0
  have hs := scale_pos T
  refine ⟨b, e, fun hzt => ?_, fun hzt => ?_⟩
  · cases nf
    · have := h1 rfl
      rw [hD, (hz rfl).2, add_zero]; exact this
    · obtain ⟨f0, f1, f2⟩ := hn rfl
      have := h2 rfl w (by linarith) hw1 hw2
      have f3 := f2 hzt
      rw [hD]
      exact this.inside (mul_lt_mul_of_pos_right (by linarith) hs) (mul_lt_mul_of_pos_right (by linarith) hs)
  · cases nf
    · rw [(hz rfl).1] at hzt; cases hzt
    · obtain ⟨f0, f1, f2⟩ := hn rfl
      have := h2 rfl w (by linarith) hw1 hw2
      rw [hD]
      exact this.strict (mul_le_mul_of_nonneg_right (by linarith) (le_of_lt hs)) (mul_lt_mul_of_pos_right (by linarith) hs)

theorem assemble_zero {T : Traits} (G : Good T) (neg zt : Bool) {e0 : Int} (he : e0 < T.minExp) (he2 : -1000000 ≤ e0) :
    assemble T 0 e0 neg zt = .ok (asmZero T neg, .resultOutOfRange) := by
  have hp := G.p2
  have hp53 := G.p53
  have hw := two_pow_w G.w2 G.w11
  have hmin := G.minE
  have hmax := G.maxE
  have hWi : (2 ^ T.exponentBits : Int) ≤ 2048 := by exact_mod_cast hw.2.1
  have hW4 : (4 : Int) ≤ 2 ^ T.exponentBits := by exact_mod_cast hw.1
  have hw3 := hw.2.2
  unfold assemble
  dsimp only
  have hns : toS 32 ((T.mantissaBits : Int) - bsr 0) = (T.mantissaBits : Int) := by unfold toS bsr; rw [Nat.size_zero]; omega
  rw [hns, chkI_ok (by omega), R.ok_bind, if_neg (by omega), if_pos (by omega), chkI_ok (by omega), R.ok_bind, if_pos (by omega)]
  have hs : 1 ≤ toU 32 (-(e0 - T.minExp)) := by unfold toU; omega
  rw [rshift_zero _ hs, asmNoShift_ok G neg (k := 0) (m := 0) (by omega) (by norm_num) (by simp), R.ok_bind, if_pos rfl, Nat.zero_mul, Nat.zero_add, asmZero_ok G]

end STL.FloatConv
