import Verif.FloatConv.Convert

/-! # `_Convert_decimal_string_to_floating_type`: the result -/

namespace STL.FloatConv
open STL Spec STL.Charconv STL.BigInt

theorem scale_le {T : Traits} (G : Good T) : scale T ≤ 2 ^ 1074 := by
  unfold scale
  rw [← zpow_natCast]
  refine zpow_le_zpow_right₀ (by norm_num) ?_
  have h := two_pow_w G.w2 G.w11
  have h2 : (2 ^ T.exponentBits : Int) ≤ 2048 := by exact_mod_cast h.2.1
  have h3 := h.2.2
  have := G.p53
  rw [G.minE]
  push_cast
  omega

theorem maxExp_le {T : Traits} (G : Good T) : T.maxExp ≤ 1023 ∧ -1022 ≤ T.minExp ∧ T.minExp ≤ 0 ∧ 1 ≤ T.maxExp := by
  have h := two_pow_w G.w2 G.w11
  have h2 : (2 ^ T.exponentBits : Int) ≤ 2048 := by exact_mod_cast h.2.1
  have h4 : (4 : Int) ≤ 2 ^ T.exponentBits := by exact_mod_cast h.1
  have h3 := h.2.2
  rw [G.minE, G.maxE]
  omega

theorem ten324 : 2 ^ 1075 < 10 ^ 324 := by decide +kernel
theorem ten1091 : 10 ^ 1091 < 2 ^ 3626 := by decide +kernel
theorem ten1098 : 10 ^ 1098 < 2 ^ 3648 := by decide +kernel
theorem ten768' : 10 ^ 768 * 2 ^ 54 < 2 ^ 3680 := by decide +kernel
theorem fits54 {a x : Nat} (ha : a ≤ 10 ^ 768) (hx : x ≤ 2 ^ 54) : a * x < 2 ^ 3680 := by
  have h := Nat.mul_le_mul ha hx
  have h2 := ten768'
  generalize 10 ^ 768 * 2 ^ 54 = B at h h2
  exact Nat.lt_of_le_of_lt h h2

/-- A fraction that small is zero. -/
theorem tiny {T : Traits} (G : Good T) {F f k : Nat} (hF : F < 10 ^ f) (hk : 324 ≤ k) : 2 * ((F / (10 ^ (f + k) : Nat) : ℚ) * scale T) < 1 := by
  have h1 : (F / (10 ^ (f + k) : Nat) : ℚ) ≤ 1 / 10 ^ 324 := by
    rw [div_le_div_iff₀ (by positivity) (by positivity), one_mul]
    have : F * 10 ^ 324 ≤ 10 ^ (f + k) := by
      rw [pow_add]
      exact Nat.mul_le_mul (le_of_lt hF) (Nat.pow_le_pow_right (by norm_num) hk)
    exact_mod_cast this
  have h2 := scale_le G
  have h3 : (2 : ℚ) ^ 1075 < 10 ^ 324 := by exact_mod_cast ten324
  have h4 := scale_pos T
  calc 2 * ((F / (10 ^ (f + k) : Nat) : ℚ) * scale T) ≤ 2 * (1 / 10 ^ 324 * 2 ^ 1074) :=
        mul_le_mul_of_nonneg_left (mul_le_mul h1 h2 (le_of_lt h4) (by positivity)) (by norm_num)
    _ = 2 ^ 1075 / 10 ^ 324 := by rw [show (2 : ℚ) ^ 1075 = 2 * 2 ^ 1074 by rw [← pow_succ']]; ring
    _ < 1 := by rw [div_lt_one (by positivity)]; exact h3

/-- A number that large is infinite. -/
theorem huge {T : Traits} (G : Good T) {D : ℚ} (h : 2 ^ 1024 ≤ D) : (nm T.mantissaBits (inf T.mantissaBits T.exponentBits) : ℚ) ≤ D * scale T := by
  rw [nm_inf_scale G]
  refine mul_le_mul_of_nonneg_right (le_trans ?_ h) (le_of_lt (scale_pos T))
  rw [← zpow_natCast]
  refine zpow_le_zpow_right₀ (by norm_num) ?_
  have := maxExp_le G
  push_cast
  omega

/-- The integer part, the digits of the fraction and its denominator. -/
theorem split_value {ds : List Nat} {e : Int} (hd : ∀ d ∈ ds, d < 10) (he : -5200 ≤ e) {ip f k : Nat} (hip : ip = min (max 0 e).toNat ds.length) (hf : f = (ds.drop ip).length)
    (hk : k = if e < 0 then f + (-e).toNat else f) :
    (numOf 10 ds : ℚ) * 10 ^ (e - ds.length) = (numOf 10 (ds.take ip) * 10 ^ ((max 0 e).toNat - ip) : Nat) + numOf 10 (ds.drop ip) / (10 ^ k : Nat) ∧
      numOf 10 (ds.drop ip) < 10 ^ f := by
  have hlt : numOf 10 (ds.drop ip) < 10 ^ f := by rw [hf]; exact numOf_lt fun d h => hd d (List.mem_of_mem_drop h)
  refine ⟨?_, hlt⟩
  have hN : numOf 10 ds = numOf 10 (ds.take ip) * 10 ^ f + numOf 10 (ds.drop ip) := by
    conv_lhs => rw [← List.take_append_drop ip ds]
    rw [numOf_append, hf]
  rw [List.length_drop] at hf
  have h10 : (10 : ℚ) ≠ 0 := by norm_num
  by_cases h : e < 0
  · rw [if_pos h] at hk
    have h0 : ip = 0 := by omega
    subst h0
    simp only [List.take_zero, List.drop_zero, numOf_nil, Nat.zero_mul, Nat.cast_zero, zero_add]
    rw [div_eq_mul_inv]
    congr 1
    push_cast
    rw [← zpow_natCast, ← zpow_neg]
    congr 1
    omega
  · rw [if_neg h] at hk
    rw [hk]
    clear hk
    by_cases h2 : (ds.length : Int) ≤ e
    · have : f = 0 := by omega
      subst this
      have hF : numOf 10 (ds.drop ip) = 0 := by rw [pow_zero] at hlt; omega
      rw [hF] at hN ⊢
      rw [hN]
      push_cast
      rw [zero_div, add_zero, add_zero, mul_one, ← zpow_natCast]
      congr 2
      omega
    · have h3 : (max 0 e).toNat - ip = 0 := by omega
      rw [h3, hN]
      push_cast
      rw [mul_one, show e - (ds.length : Int) = -(f : Int) by omega, zpow_neg, zpow_natCast, ← div_eq_mul_inv, add_div, mul_div_assoc, div_self (by positivity), mul_one]

/-- The code after the integer part has turned out to be short (`charconv:1424-1526`). -/
def fracPart (T : Traits) (g : Nat → Nat) (neg zt : Bool) (iv : Big) (intBits fracPresent denExp : Nat) (num : Big) : R (Nat × Errc) := do
  let (den, ok) ← mulPow10 g one denExp
  if ok = false then .ok (asmZero T neg, .resultOutOfRange)
  else
    let numBits ← bitScan num
    let denBits ← bitScan den
    let shift := if denBits > numBits then denBits - numBits else 0
    let num ← (if shift > 0 then do let (n, _) ← shiftLeft num shift; .ok n else .ok num : R Big)
    let reqFrac := T.mantissaBits + 1 - intBits
    if intBits > 0 ∧ shift > reqFrac then asmBig T iv intBits neg (decide (fracPresent ≠ 0) || !zt)
    else
      let remaining := if intBits > 0 then reqFrac - shift else reqFrac
      let less ← lt num den
      let fracExp := if less then shift + 1 else shift
      let (num, _) ← shiftLeft num remaining
      let (num, fm) ← divide num den
      let zt := zt && decide (num.used = 0)
      let fmBits := bsr fm
      let (fm, zt) := (if fmBits > reqFrac then
          let s := fmBits - reqFrac
          (fm >>> s, zt && decide (fm &&& (2 ^ s - 1) = 0))
        else (fm, zt))
      let im ← low64 iv
      let complete := ((im <<< reqFrac) % 2 ^ 64 + fm) % 2 ^ 64
      let fe : Int := if intBits > 0 then toS 32 ((intBits : Int) - 2) else -(fracExp : Int) - 1
      assemble T complete fe neg zt

theorem convertDecimal_eq (T : Traits) (g : Nat → Nat) (neg zt : Bool) (e : Int) (ds : List Nat) : convertDecimal T g ⟨neg, e, ds⟩ zt = (do
    let positive := (max 0 e).toNat
    let ip := min positive ds.length
    let iv ← accumulate g (ds.take ip) (empty g)
    let (iv, ok) ← (if positive - ip > 0 then mulPow10 g iv (positive - ip) else .ok (iv, true) : R (Big × Bool))
    if ok = false then .ok (asmInf T neg, .resultOutOfRange)
    else
      let intBits ← bitScan iv
      let f := (ds.drop ip).length
      let zeroFrac := decide (f = 0) && zt
      if intBits ≥ T.mantissaBits + 1 ∨ zeroFrac = true then asmBig T iv intBits neg (!zeroFrac)
      else
        let num ← accumulate g (ds.drop ip) (empty g)
        fracPart T g neg zt iv intBits f (if e < 0 then f + (-e).toNat else f) num) := rfl

/-- The numerator shifted to the length of the denominator. -/
theorem shifted {F den : Nat} (hF : 0 < F) (h : F < den) : 2 ^ (Nat.size den - 1) ≤ F * 2 ^ (Nat.size den - Nat.size F) ∧ F * 2 ^ (Nat.size den - Nat.size F) < 2 ^ Nat.size den := by
  have h1 : Nat.size F ≤ Nat.size den := Nat.size_le_size (le_of_lt h)
  have h2 : 0 < Nat.size F := Nat.size_pos.2 hF
  have h3 : 2 ^ (Nat.size F - 1) ≤ F := Nat.lt_size.1 (by omega)
  have h4 : F < 2 ^ Nat.size F := Nat.lt_size_self F
  constructor
  · rw [show Nat.size den - 1 = (Nat.size F - 1) + (Nat.size den - Nat.size F) by omega, pow_add]
    exact Nat.mul_le_mul_right _ h3
  · conv_rhs => rw [show Nat.size den = Nat.size F + (Nat.size den - Nat.size F) by omega, pow_add]
    exact Nat.mul_lt_mul_of_pos_right h4 (by positivity)

theorem shift_if (a b : Nat) : (if a > b then a - b else 0) = a - b := by split <;> omega

/-- The first shift. -/
theorem shift1 {num : Big} (h : Ok num) {den : Nat} (hden : den < 2 ^ 3680) (hlt : num.value < den) (c : Nat) (hc : c = Nat.size den - Nat.size num.value) :
    ∃ n, (if c > 0 then do let (n, _) ← shiftLeft num c; .ok n else .ok num : R Big) = .ok n ∧ Ok n ∧ n.value = num.value * 2 ^ c := by
  by_cases h0 : c > 0
  · rw [if_pos h0]
    obtain ⟨y, e, hy, hv⟩ := C25_shift_left h c
    have hl : num.value * 2 ^ c < 2 ^ 3680 := by
      by_cases hz : num.value = 0
      · rw [hz, Nat.zero_mul]; positivity
      · rw [hc]
        exact lt_of_lt_of_le (shifted (by omega) hlt).2 (Nat.pow_le_pow_right (by norm_num) (Nat.size_le.2 hden))
    rw [if_pos hl] at hv
    refine ⟨y, ?_, hy, hv⟩
    rw [e, R.ok_bind]
  · rw [if_neg h0]
    have : c = 0 := by omega
    subst this
    exact ⟨num, rfl, h, by simp⟩

/-- Dividing by twice the denominator. -/
theorem div_two {N den : Nat} : N / den / 2 = N / (2 * den) ∧ ((N % den = 0 ∧ N / den % 2 = 0) ↔ N % (2 * den) = 0) := by
  rw [Nat.mul_comm 2 den]
  refine ⟨Nat.div_div_eq_div_mul .., ?_⟩
  rw [Nat.mod_mul]
  constructor
  · rintro ⟨h1, h2⟩; rw [h1, h2]; rfl
  · intro h
    rcases Nat.eq_zero_or_pos den with rfl | hd
    · simp at h; subst h; simp
    · have h1 : N % den = 0 := by omega
      have h2 : den * (N / den % 2) = 0 := by omega
      exact ⟨h1, (Nat.mul_eq_zero.1 h2).resolve_left (by omega)⟩

theorem used_val {x : Big} (h : Ok x) : decide (x.used = 0) = decide (x.value = 0) := decide_eq_decide.2 h.used_zero

theorem toS_small {x : Int} (h : -1000000 ≤ x ∧ x ≤ 1000000) : toS 32 x = x := by unfold toS; omega

/-- Bits of a composed mantissa. -/
theorem compose_bits {V fm req p : Nat} (hV : 0 < V) (hib : Nat.size V + req = p + 1) (hfm : fm < 2 ^ req) : Nat.size (V * 2 ^ req + fm) = p + 1 := by
  have h2 : 0 < Nat.size V := Nat.size_pos.2 hV
  have h3 : 2 ^ (Nat.size V - 1) ≤ V := Nat.lt_size.1 (by omega)
  have h4 : V < 2 ^ Nat.size V := Nat.lt_size_self V
  apply size_eq
  · rw [show p = (Nat.size V - 1) + req by omega, pow_add]
    exact le_trans (Nat.mul_le_mul_right _ h3) (Nat.le_add_right _ _)
  · rw [← hib, pow_add]
    have : (V + 1) * 2 ^ req ≤ 2 ^ Nat.size V * 2 ^ req := Nat.mul_le_mul_right _ h4
    rw [Nat.add_mul] at this
    omega

theorem zpow_split {T : Traits} {a b : Int} (h : a + b = (T.mantissaBits : Int) - 1 - T.minExp) : (2 : ℚ) ^ a * 2 ^ b = scale T := by
  unfold scale; rw [← zpow_add₀ two_ne_zero, h]

set_option maxHeartbeats 1600000 in
/-- With an integer part. -/
theorem frac_int {T : Traits} (G : Good T) (g : Nat → Nat) (neg zt : Bool) {iv num : Big} (hiv : Ok iv) (h0 : 0 < iv.value) (hib : Nat.size iv.value ≤ T.mantissaBits)
    (hnum : Ok num) {f : Nat} (hF : num.value < 10 ^ f) (hf : f ≤ 768) {fp : Nat} (hfp : (decide (fp ≠ 0) || !zt) = true) (hz : zt = true → 0 < num.value) :
    Conv T neg zt (iv.value + num.value / (10 ^ f : Nat)) (fracPart T g neg zt iv (Nat.size iv.value) fp f num) := by
  have hp53 := G.p53
  have hf' : ∀ x, x ≤ 2 ^ 54 → 10 ^ f * x < 2 ^ 3680 := fun x hx => fits54 (Nat.pow_le_pow_right (by norm_num) hf) hx
  obtain ⟨den, b, e1, hden, hdv, hb⟩ := C25_multiply_power_of_ten g one_ok.1 f
  rw [one_ok.2, Nat.one_mul] at hdv hb
  rw [hb (lt_of_le_of_lt (Nat.pow_le_pow_right (by norm_num) hf) ten768)] at e1 hdv
  rw [if_pos rfl] at hdv
  unfold fracPart
  rw [e1, R.ok_bind]
  dsimp only
  rw [if_neg (by simp), bitScan_ok hnum, R.ok_bind, bitScan_ok hden, R.ok_bind, shift_if]
  rw [← hdv] at hF hf' ⊢
  have hden0 : 0 < den.value := by omega
  obtain ⟨n1, e2, hn1, hn1v⟩ := shift1 hnum hden.lt_bits hF _ rfl
  obtain ⟨sh, hsh⟩ : ∃ sh, sh = Nat.size den.value - Nat.size num.value := ⟨_, rfl⟩
  rw [← hsh] at e2 hn1v ⊢
  rw [e2, R.ok_bind]
  obtain ⟨req, hreq⟩ : ∃ req, req = T.mantissaBits + 1 - Nat.size iv.value := ⟨_, rfl⟩
  rw [← hreq]
  have hs0 : 0 < Nat.size iv.value := Nat.size_pos.2 h0
  have hdq : (0 : ℚ) < den.value := by exact_mod_cast hden0
  by_cases hc : sh > req
  · rw [if_pos ⟨hs0, hc⟩, hfp]
    refine asm_int G hiv neg zt true h0 (f := num.value / den.value) (w := 1 / 2 ^ req) rfl (by simp) (fun _ => ⟨by positivity, ?_, fun h => ?_⟩) ?_ ?_
    · rw [div_lt_div_iff₀ hdq (by positivity), one_mul]
      have : num.value * 2 ^ req < den.value := by
        have a1 : num.value < 2 ^ Nat.size num.value := Nat.lt_size_self _
        have a2 : 2 ^ (Nat.size num.value + req) ≤ den.value := Nat.lt_size.1 (by omega)
        rw [pow_add] at a2
        exact lt_of_lt_of_le (Nat.mul_lt_mul_of_pos_right a1 (by positivity)) a2
      exact_mod_cast this
    · exact div_pos (by exact_mod_cast hz h) hdq
    · rw [div_le_one (by positivity)]; exact one_le_pow₀ (by norm_num)
    · rw [one_div, inv_mul_le_iff₀ (by positivity), ← pow_add]
      exact pow_le_pow_right₀ (by norm_num) (by omega)
  · rw [if_neg (by tauto)]
    rw [if_pos hs0, lt_ok hn1 hden, R.ok_bind]
    obtain ⟨n2, e3, hn2, hn2v⟩ := C25_shift_left hn1 (req - sh)
    have hv2 : n1.value * 2 ^ (req - sh) = num.value * 2 ^ req := by
      rw [hn1v, Nat.mul_assoc, ← pow_add]; congr 2; omega
    have hr54 : req ≤ 54 := by omega
    rw [hv2, if_pos (lt_of_le_of_lt (Nat.mul_le_mul_right _ (le_of_lt hF)) (hf' _ (Nat.pow_le_pow_right (by norm_num) hr54)))] at hn2v
    rw [e3, R.ok_bind]
    dsimp only
    obtain ⟨r, e4, hr, hrv⟩ := C25_divide hn2 hden (by omega)
    rw [e4, R.ok_bind]
    dsimp only
    have hq : n2.value / den.value < 2 ^ req := by
      rw [Nat.div_lt_iff_lt_mul hden0, hn2v, Nat.mul_comm]
      exact Nat.mul_lt_mul_of_pos_left hF (by positivity)
    have hq64 : 2 ^ req ≤ 2 ^ 53 := Nat.pow_le_pow_right (by norm_num) (by omega)
    rw [Nat.mod_eq_of_lt (a := n2.value / den.value) (by omega)]
    rw [if_neg (by unfold bsr; rw [Nat.not_lt]; exact Nat.size_le.2 hq), if_pos hs0]
    have hiv64 : iv.value < 2 ^ 64 := lt_of_lt_of_le (Nat.lt_size_self _) (Nat.pow_le_pow_right (by norm_num) (by omega))
    rw [low64_ok hiv hiv64, R.ok_bind]
    dsimp only
    have hsz := compose_bits (p := T.mantissaBits) h0 (req := req) (by omega) hq
    have hM54 : iv.value * 2 ^ req + n2.value / den.value < 2 ^ 54 :=
      lt_of_lt_of_le (Nat.lt_size_self _) (by rw [hsz]; exact Nat.pow_le_pow_right (by norm_num) (by omega))
    rw [Nat.shiftLeft_eq, Nat.mod_eq_of_lt (a := iv.value * 2 ^ req) (lt_of_le_of_lt (Nat.le_add_right _ (n2.value / den.value)) (lt_trans hM54 (by norm_num))),
      Nat.mod_eq_of_lt (lt_trans hM54 (by norm_num)), toS_small (by omega), used_val hr, hrv]
    have hN : (n2.value + den.value * (iv.value * 2 ^ req)) / den.value = iv.value * 2 ^ req + n2.value / den.value := by rw [Nat.add_mul_div_left _ _ hden0, Nat.add_comm]
    have hN2 : (n2.value + den.value * (iv.value * 2 ^ req)) % den.value = n2.value % den.value := by rw [Nat.add_mul_mod_self_left]
    rw [← hN, ← hN2]
    rw [← hN] at hM54 hsz
    refine asm_frac G neg zt hden0 (lt_trans hM54 (by norm_num)) (by omega) (by omega) ?_
    rw [← zpow_split (T := T) (a := req) (b := (Nat.size iv.value : Int) - 2 - T.minExp) (by omega), ← mul_assoc]
    congr 1
    rw [hn2v, eq_div_iff (ne_of_gt hdq), zpow_natCast]
    push_cast
    field_simp
    ring

set_option maxHeartbeats 1600000 in
/-- Without an integer part. -/
theorem frac_zero {T : Traits} (G : Good T) (g : Nat → Nat) (neg zt : Bool) {iv num : Big} (hiv : Ok iv) (h0 : iv.value = 0) (hnum : Ok num) {f k : Nat} (hF : num.value < 10 ^ f)
    (hf : f ≤ 768) (hk : k ≤ 5200) (hF0 : 0 < num.value) {fp : Nat} :
    Conv T neg zt (num.value / (10 ^ (f + k) : Nat)) (fracPart T g neg zt iv 0 fp (f + k) num) := by
  have hp53 := G.p53
  have hp2 := G.p2
  have hme := maxExp_le G
  have htiny := @tiny T G num.value f k hF
  have hD : num.value < 10 ^ (f + k) := lt_of_lt_of_le hF (Nat.pow_le_pow_right (by norm_num) (by omega))
  obtain ⟨den, b, e1, hden, hdv, hb⟩ := C25_multiply_power_of_ten g one_ok.1 (f + k)
  rw [one_ok.2, Nat.one_mul] at hdv hb
  unfold fracPart
  rw [e1, R.ok_bind]
  dsimp only
  cases b
  · rw [if_pos rfl]
    refine conv_zero G neg zt (htiny ?_)
    by_contra hc
    have : 10 ^ (f + k) < 2 ^ 3648 := lt_of_le_of_lt (Nat.pow_le_pow_right (by norm_num) (show f + k ≤ 1098 by omega)) ten1098
    exact absurd (hb this) (by simp)
  rw [if_pos rfl] at hdv
  rw [if_neg (by simp), bitScan_ok hnum, R.ok_bind, bitScan_ok hden, R.ok_bind, shift_if]
  have hdk : 2 ^ 3626 ≤ den.value → 324 ≤ k := by
    intro h
    rw [hdv] at h
    by_contra hc
    exact absurd (lt_of_le_of_lt (Nat.pow_le_pow_right (by norm_num) (show f + k ≤ 1091 by omega)) ten1091) (Nat.not_lt.2 h)
  have hsh0 : 324 ≤ k → Nat.size num.value + 1074 ≤ Nat.size den.value := by
    intro h
    have a1 : 2 ^ (Nat.size num.value - 1) ≤ num.value := Nat.lt_size.1 (by have := Nat.size_pos.2 hF0; omega)
    have a2 : 2 ^ 1075 ≤ 10 ^ k := le_trans (le_of_lt ten324) (Nat.pow_le_pow_right (by norm_num) h)
    have a3 : 2 ^ (Nat.size num.value - 1 + 1075) ≤ den.value := by
      rw [hdv, pow_add, pow_add]
      exact Nat.mul_le_mul (le_trans a1 (le_of_lt hF)) a2
    have := Nat.lt_size.2 a3
    omega
  clear hb
  rw [← hdv] at hD htiny ⊢
  have hden0 : 0 < den.value := by omega
  have hdq : (0 : ℚ) < den.value := by exact_mod_cast hden0
  have hlb := hden.lt_bits
  obtain ⟨n1, e2, hn1, hn1v⟩ := shift1 hnum hlb hD _ rfl
  have hS := shifted hF0 hD
  have hdl : 2 ^ (Nat.size den.value - 1) ≤ den.value := Nat.lt_size.1 (by have := Nat.size_pos.2 hden0; omega)
  have hdh : den.value < 2 ^ Nat.size den.value := Nat.lt_size_self _
  have hsz2 : 2 ^ Nat.size den.value = 2 * 2 ^ (Nat.size den.value - 1) := by
    rw [← pow_succ']; congr 1; have := Nat.size_pos.2 hden0; omega
  have hsd : Nat.size den.value ≤ 3680 := Nat.size_le.2 hlb
  obtain ⟨sh, hsh⟩ : ∃ sh, sh = Nat.size den.value - Nat.size num.value := ⟨_, rfl⟩
  rw [← hsh] at e2 hn1v hS ⊢
  rw [e2, R.ok_bind]
  rw [if_neg (by simp), if_neg (by simp), Nat.sub_zero]
  rw [lt_ok hn1 hden, R.ok_bind]
  obtain ⟨n2, e3, hn2, hn2v⟩ := C25_shift_left hn1 (T.mantissaBits + 1)
  rw [e3, R.ok_bind]
  dsimp only
  obtain ⟨r, e4, hr, hrv⟩ := C25_divide hn2 hden (by omega)
  rw [e4, R.ok_bind]
  dsimp only
  rw [low64_ok hiv (by rw [h0]; norm_num), R.ok_bind, h0, if_neg (show ¬ (0 > 0) by omega), Nat.zero_shiftLeft, Nat.zero_mod, Nat.zero_add, used_val hr, hrv]
  have hsh3680 : sh ≤ 3680 := by omega
  have hpow : 2 ^ (T.mantissaBits + 1) = 2 * 2 ^ T.mantissaBits := pow_succ' ..
  have hpow2 : 2 ^ (T.mantissaBits + 2) = 4 * 2 ^ T.mantissaBits := by rw [pow_add]; ring
  have hp64 : 2 ^ T.mantissaBits ≤ 2 ^ 53 := Nat.pow_le_pow_right (by norm_num) hp53
  by_cases hov : n1.value * 2 ^ (T.mantissaBits + 1) < 2 ^ 3680
  · rw [if_pos hov] at hn2v
    by_cases hless : n1.value < den.value
    · -- p + 1 bits
      have q1 : 2 ^ T.mantissaBits ≤ n2.value / den.value := by
        rw [Nat.le_div_iff_mul_le hden0, hn2v, hpow, hn1v]
        calc 2 ^ T.mantissaBits * den.value ≤ 2 ^ T.mantissaBits * (2 * (num.value * 2 ^ sh)) := Nat.mul_le_mul_left _ (by omega)
          _ = _ := by ring
      have q2 : n2.value / den.value < 2 ^ (T.mantissaBits + 1) := by
        rw [Nat.div_lt_iff_lt_mul hden0, hn2v, Nat.mul_comm]
        exact Nat.mul_lt_mul_of_pos_left hless (by positivity)
      have q3 : n2.value / den.value < 2 ^ 64 := lt_of_lt_of_le q2 (Nat.pow_le_pow_right (by norm_num) (by omega))
      have hq := size_eq q1 q2
      rw [Nat.mod_eq_of_lt q3, decide_eq_true hless, if_pos rfl, if_neg (by unfold bsr; omega), Nat.mod_eq_of_lt q3]
      dsimp only
      refine asm_frac G neg zt hden0 q3 (by omega) (by omega) ?_
      rw [hn2v, hn1v, ← zpow_split (T := T) (a := (sh : Int) + (T.mantissaBits + 1 : Nat)) (b := -((sh + 1 : Nat) : Int) - 1 - T.minExp) (by push_cast; ring), ← mul_assoc]
      congr 1
      rw [zpow_add₀ two_ne_zero, zpow_natCast, zpow_natCast]
      push_cast
      ring
    · -- p + 2 bits
      have q1 : 2 ^ (T.mantissaBits + 1) ≤ n2.value / den.value := by
        rw [Nat.le_div_iff_mul_le hden0, hn2v, Nat.mul_comm]
        exact Nat.mul_le_mul_right _ (by omega)
      have q2 : n2.value / den.value < 2 ^ (T.mantissaBits + 1 + 1) := by
        rw [Nat.div_lt_iff_lt_mul hden0, hn2v, hn1v, pow_succ _ (T.mantissaBits + 1)]
        calc num.value * 2 ^ sh * 2 ^ (T.mantissaBits + 1) < 2 * den.value * 2 ^ (T.mantissaBits + 1) := Nat.mul_lt_mul_of_pos_right (by omega) (by positivity)
          _ = _ := by ring
      have q3 : n2.value / den.value < 2 ^ 64 := lt_of_lt_of_le q2 (Nat.pow_le_pow_right (by norm_num) (by omega))
      have hq := size_eq q1 q2
      have hd2 := @div_two n2.value den.value
      rw [Nat.mod_eq_of_lt q3, decide_eq_false hless, if_neg (by simp : ¬ (false = true)), if_pos (by unfold bsr; omega)]
      dsimp only
      have hs1 : bsr (n2.value / den.value) - (T.mantissaBits + 1) = 1 := by unfold bsr; omega
      have hq4 : n2.value / (2 * den.value) < 2 ^ 64 := by rw [← hd2.1]; omega
      have hcond : (zt && decide (n2.value % den.value = 0) && decide (n2.value / den.value % 2 = 0)) = (zt && decide (n2.value % (2 * den.value) = 0)) := by
        rw [Bool.and_assoc, ← Bool.decide_and, decide_eq_decide.2 hd2.2]
      rw [hs1, Nat.shiftRight_eq_div_pow, pow_one, show (2 - 1 : Nat) = 2 ^ 1 - 1 by norm_num, Nat.and_two_pow_sub_one_eq_mod, pow_one, hcond, hd2.1, Nat.mod_eq_of_lt hq4]
      have hsz : T.mantissaBits + 1 ≤ Nat.size (n2.value / (2 * den.value)) := by
        rw [← hd2.1]
        exact Nat.lt_size.2 (by rw [pow_succ] at q1; omega)
      refine asm_frac G neg zt (by omega) hq4 hsz (by omega) ?_
      rw [hn2v, hn1v, ← zpow_split (T := T) (a := (sh : Int) + (T.mantissaBits : Nat)) (b := -(sh : Int) - 1 - T.minExp) (by push_cast; ring), ← mul_assoc]
      congr 1
      rw [zpow_add₀ two_ne_zero, zpow_natCast, zpow_natCast, pow_succ]
      push_cast
      field_simp
  · rw [if_neg hov] at hn2v
    have hbig : 2 ^ 3626 ≤ den.value := by
      refine Nat.lt_size.1 ?_
      by_contra hc
      refine hov (lt_of_lt_of_le (Nat.mul_lt_mul_of_pos_right (lt_of_lt_of_le (hn1v ▸ hS.2) (Nat.pow_le_pow_right (by norm_num) (show Nat.size den.value ≤ 3626 by omega))) (by positivity)) ?_)
      rw [← pow_add]
      exact Nat.pow_le_pow_right (by norm_num) (by omega)
    have hk := hdk hbig
    have hs := hsh0 hk
    rw [hn2v, Nat.zero_div, Nat.zero_mod, if_neg (by unfold bsr; simp)]
    dsimp only
    rw [Nat.zero_mod]
    have hfe : ∀ c : Bool, -((if c = true then sh + 1 else sh : Nat) : Int) - 1 < T.minExp ∧ -1000000 ≤ -((if c = true then sh + 1 else sh : Nat) : Int) - 1 := by
      intro c; cases c <;> simp <;> omega
    rw [assemble_zero G neg _ (hfe _).1 (hfe _).2]
    exact conv_zero G neg zt (htiny hk)

theorem numOf_take_pos {ds : List Nat} {x : Nat} {t : List Nat} (h : ds = x :: t) (hx : x ≠ 0) {n : Nat} (hn : 0 < n) : 0 < numOf 10 (ds.take n) := by
  obtain ⟨m, rfl⟩ : ∃ m, n = m + 1 := ⟨n - 1, by omega⟩
  subst h
  rw [List.take_succ_cons]
  exact lt_of_lt_of_le (by positivity) (numOf_ge (base := 10) hx)

theorem numOf_drop_pos {ds : List Nat} {x : Nat} {a : List Nat} (h : ds = a ++ [x]) (hx : x ≠ 0) {n : Nat} (hn : n < ds.length) : 0 < numOf 10 (ds.drop n) := by
  subst h
  rw [List.length_append, List.length_singleton] at hn
  rw [List.drop_append_of_le_length (by omega), numOf_append, numOf_cons]
  exact lt_of_lt_of_le (Nat.pos_of_ne_zero hx) (by simp only [List.length_singleton, List.length_nil, pow_zero, Nat.mul_one]; omega)

set_option maxHeartbeats 1600000 in
/-- The conversion of the digits in the buffer. -/
theorem convertDecimal_ok {T : Traits} (G : Good T) (g : Nat → Nat) {ds : List Nat} {e : Int} (neg zt : Bool) (hd : ∀ d ∈ ds, d < 10) (hl : ds.length ≤ 768)
    (hhd : ∃ x t, ds = x :: t ∧ x ≠ 0) (hlast : ∃ a x, ds = a ++ [x] ∧ x ≠ 0) (he : -5200 ≤ e ∧ e ≤ 5200) :
    Conv T neg zt ((numOf 10 ds : ℚ) * 10 ^ (e - ds.length)) (convertDecimal T g ⟨neg, e, ds⟩ zt) := by
  obtain ⟨x0, t0, hx0, hx0'⟩ := hhd
  obtain ⟨a0, y0, hy0, hy0'⟩ := hlast
  have hlen : 0 < ds.length := by rw [hx0]; simp
  rw [convertDecimal_eq]
  dsimp only
  obtain ⟨ip, hip⟩ : ∃ ip, ip = min (max 0 e).toNat ds.length := ⟨_, rfl⟩
  obtain ⟨f, hf⟩ : ∃ f, f = (ds.drop ip).length := ⟨_, rfl⟩
  obtain ⟨k, hk⟩ : ∃ k, k = if e < 0 then f + (-e).toNat else f := ⟨_, rfl⟩
  obtain ⟨hD, hF⟩ := split_value hd he.1 hip hf hk
  have hpos : 0 < ip → 0 < numOf 10 (ds.take ip) := numOf_take_pos hx0 hx0'
  have hfpos : 0 < f → 0 < numOf 10 (ds.drop ip) := fun h => numOf_drop_pos hy0 hy0' (by rw [List.length_drop] at hf; omega)
  rw [← hip, ← hf, ← hk, hD]
  obtain ⟨A, eA, hA, vA⟩ := accumulate_ok g (ds := ds.take ip) (fun d h => hd d (List.mem_of_mem_take h)) (by rw [List.length_take]; omega)
  rw [eA, R.ok_bind]
  rw [List.length_drop] at hf
  have hiv : ∃ iv ok, (if (max 0 e).toNat - ip > 0 then mulPow10 g A ((max 0 e).toNat - ip) else .ok (A, true) : R (Big × Bool)) = .ok (iv, ok) ∧ Ok iv ∧
      (ok = true → iv.value = numOf 10 (ds.take ip) * 10 ^ ((max 0 e).toNat - ip)) ∧ (ok = false → 2 ^ 3648 ≤ numOf 10 (ds.take ip) * 10 ^ ((max 0 e).toNat - ip)) := by
    by_cases h : (max 0 e).toNat - ip > 0
    · rw [if_pos h]
      obtain ⟨y, b, e1, hy, hv, hb⟩ := C25_multiply_power_of_ten g hA ((max 0 e).toNat - ip)
      rw [vA] at hv hb
      refine ⟨y, b, e1, hy, fun h => by rw [h, if_pos rfl] at hv; exact hv, fun h => ?_⟩
      by_contra hc
      rw [hb (Nat.lt_of_not_le hc)] at h
      cases h
    · rw [if_neg h, show (max 0 e).toNat - ip = 0 by omega]
      exact ⟨A, true, rfl, hA, fun _ => by rw [vA]; simp, by simp⟩
  obtain ⟨iv, ok, eiv, hivO, hv1, hv2⟩ := hiv
  rw [eiv, R.ok_bind]
  dsimp only
  cases ok
  · rw [if_pos rfl]
    refine conv_inf G neg zt (huge G ?_)
    have h1 : 2 ^ 1024 ≤ numOf 10 (ds.take ip) * 10 ^ ((max 0 e).toNat - ip) := le_trans (Nat.pow_le_pow_right (by norm_num) (by norm_num)) (hv2 rfl)
    have h2 : (0 : ℚ) ≤ numOf 10 (ds.drop ip) / (10 ^ k : Nat) := by positivity
    refine le_trans ?_ (le_add_of_nonneg_right h2)
    exact_mod_cast h1
  · rw [if_neg (by simp), bitScan_ok hivO, R.ok_bind]
    have hv := hv1 rfl
    clear hv1 hv2
    rw [← hv]
    have hivpos : 0 < ip → 0 < iv.value := fun h => by rw [hv]; exact Nat.mul_pos (hpos h) (by positivity)
    have hiv0 : ip = 0 → iv.value = 0 := by
      intro h
      rw [hv, h, List.take_zero, numOf_nil, Nat.zero_mul]
    by_cases hc : Nat.size iv.value ≥ T.mantissaBits + 1 ∨ (decide (f = 0) && zt) = true
    · rw [if_pos hc]
      have hi0 : 0 < iv.value := by
        rcases Nat.eq_zero_or_pos ip with h | h
        · exfalso
          rw [hiv0 h] at hc
          rcases hc with hc | hc
          · simp at hc
          · simp at hc; omega
        · exact hivpos h
      have hFk : (numOf 10 (ds.drop ip) : ℚ) / (10 ^ k : Nat) < 1 := by
        rw [div_lt_one (by positivity)]
        exact_mod_cast lt_of_lt_of_le hF (Nat.pow_le_pow_right (by norm_num) (show f ≤ k by split at hk <;> omega))
      by_cases hzf : (decide (f = 0) && zt) = true
      · rw [hzf]
        rw [Bool.and_eq_true, decide_eq_true_eq] at hzf
        have hF0 : numOf 10 (ds.drop ip) = 0 := by rw [hzf.1, pow_zero] at hF; omega
        refine asm_int G hivO neg zt _ hi0 (w := 0) rfl (fun _ => ⟨hzf.2, by rw [hF0]; simp⟩) (by simp) (by norm_num) ?_
        rw [zero_mul]; positivity
      · have hs := hc.resolve_right hzf
        rw [Bool.not_eq_true] at hzf
        rw [hzf]
        refine asm_int G hivO neg zt _ hi0 (w := 1) rfl (by simp) (fun _ => ⟨by positivity, hFk, fun h => ?_⟩) (le_refl _) ?_
        · rw [h, Bool.and_true, decide_eq_false_iff_not] at hzf
          have := hfpos (by omega)
          positivity
        · rw [one_mul]; exact pow_le_pow_right₀ (by norm_num) hs
    · rw [if_neg hc]
      obtain ⟨num, eN, hN, vN⟩ := accumulate_ok g (ds := ds.drop ip) (fun d h => hd d (List.mem_of_mem_drop h)) (by rw [List.length_drop]; omega)
      rw [eN, R.ok_bind, ← vN]
      rw [← vN] at hF hfpos
      push Not at hc
      rcases Nat.eq_zero_or_pos ip with h | h
      · have hf0 : f = ds.length := by omega
        have h0 := hiv0 h
        have hkk : k = f + (-e).toNat := by split at hk <;> omega
        rw [h0, hkk, Nat.size_zero, Nat.cast_zero, zero_add]
        exact frac_zero G g neg zt hivO h0 hN hF (by omega) (by omega) (hfpos (by omega))
      · have hkk : k = f := by split at hk <;> omega
        rw [hkk]
        have hc2 := hc.2
        refine frac_int G g neg zt hivO (hivpos h) (by omega) hN hF (by omega) ?_ ?_
        · cases zt <;> simp at hc2 ⊢; exact hc2
        · intro hz; rw [hz] at hc2; simp at hc2; exact hfpos (by omega)

end STL.FloatConv
