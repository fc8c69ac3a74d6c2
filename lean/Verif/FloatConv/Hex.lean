import Verif.FloatConv.Trunc

/-! # `_Convert_hexadecimal_string_to_floating_type` -/

namespace STL.FloatConv
open STL Spec STL.Charconv STL.BigInt

theorem hexTail_eq (zt : Bool) (ds : List Nat) : hexTail zt ds = (zt && ds.all (fun d => decide (d = 0))) := by
  induction ds generalizing zt with
  | nil => simp [hexTail]
  | cons d t ih =>
    unfold hexTail
    cases zt
    · simp
    · rw [if_pos rfl, ih]; simp

theorem hexLoop_ok {p : Nat} (hp : p ≤ 53) : ∀ (ds : List Nat) (m : Nat) (e : Int), (∀ d ∈ ds, d < 16) → m < 2 ^ (p + 4) → -10000 + 4 * ds.length ≤ e → e ≤ 10000 →
    ∃ c, c ≤ ds.length ∧ hexLoop (2 ^ p - 1) ds m e = .ok (m * 16 ^ c + numOf 16 (ds.take c), e - 4 * c, ds.drop c) ∧ (c = ds.length ∨ 2 ^ p ≤ m * 16 ^ c + numOf 16 (ds.take c)) ∧
      m * 16 ^ c + numOf 16 (ds.take c) < 2 ^ (p + 4) := by
  intro ds
  induction ds with
  | nil => intro m e _ hm _ _; exact ⟨0, le_refl _, by simp [hexLoop, numOf_nil], .inl rfl, by simpa [numOf_nil] using hm⟩
  | cons d t ih =>
    intro m e hd hm he1 he2
    rw [List.length_cons] at he1
    unfold hexLoop
    by_cases h : m ≤ 2 ^ p - 1
    · have hd0 := hd d (List.mem_cons_self ..)
      have h2p : 0 < 2 ^ p := by positivity
      have h4 : 2 ^ (p + 4) = 16 * 2 ^ p := by rw [pow_add]; ring
      have h53 : 2 ^ p ≤ 2 ^ 53 := Nat.pow_le_pow_right (by norm_num) hp
      rw [if_pos h, chkI_ok (by push_cast at he1; omega), R.ok_bind, Nat.mod_eq_of_lt (a := m * 16) (by omega), Nat.mod_eq_of_lt (by omega)]
      obtain ⟨c, hc, e1, h1, h2⟩ := ih (m * 16 + d) (e - 4) (fun x hx => hd x (List.mem_cons_of_mem _ hx)) (by omega) (by push_cast at he1; omega) (by omega)
      have hv : (m * 16 + d) * 16 ^ c + numOf 16 (t.take c) = m * 16 ^ (c + 1) + numOf 16 ((d :: t).take (c + 1)) := by
        rw [List.take_succ_cons, numOf_cons, List.length_take, Nat.min_eq_left hc, pow_succ]; ring
      rw [hv] at e1 h1 h2
      refine ⟨c + 1, by rw [List.length_cons]; omega, ?_, ?_, h2⟩
      · rw [e1, List.drop_succ_cons]; congr 3; push_cast; ring
      · rw [List.length_cons]; rcases h1 with h1 | h1
        · left; omega
        · right; exact h1
    · rw [if_neg h]
      refine ⟨0, Nat.zero_le _, by simp [numOf_nil], .inr (by rw [List.take_zero, numOf_nil]; omega), by simpa [numOf_nil] using hm⟩

theorem all_zero_last {l a : List Nat} {x : Nat} (h : l = a ++ [x]) (hx : x ≠ 0) {n : Nat} (hn : n < l.length) : (l.drop n).all (fun d => decide (d = 0)) = false := by
  subst h
  rw [List.length_append, List.length_singleton] at hn
  rw [List.drop_append_of_le_length (by omega), List.all_append]
  simp [hx]

set_option maxHeartbeats 1600000 in
/-- The hexadecimal conversion is correctly rounded, whatever digits were not kept. -/
theorem convertHex_rne {T : Traits} (G : Good T) {ds : List Nat} {e : Int} (neg zt : Bool) (hd : ∀ d ∈ ds, d < 16) (hl : ds.length ≤ 768)
    (hhd : ∃ x t, ds = x :: t ∧ x ≠ 0) (hlast : ∃ a x, ds = a ++ [x] ∧ x ≠ 0) (he : -5200 ≤ e ∧ e ≤ 5200) {x : ℚ} (hx : Value 16 ds zt x) :
    ∃ b, convertHex T ⟨neg, e, ds⟩ zt = .ok (outcome T neg b) ∧ Rne T.mantissaBits (inf T.mantissaBits T.exponentBits) b (x * 2 ^ e * scale T) := by
  have hp53 := G.p53
  have hp2 := G.p2
  have hme := maxExp_le G
  unfold convertHex
  dsimp only
  rw [chkI_ok (by omega), R.ok_bind, G.mask]
  obtain ⟨c, hc, e1, h1, h2⟩ := hexLoop_ok hp53 ds 0 (e + T.mantissaBits - 1) hd (by positivity) (by omega) (by omega)
  rw [Nat.zero_mul, Nat.zero_add] at e1 h1 h2
  rw [e1, R.ok_bind]
  dsimp only
  obtain ⟨y, t, hy, hy0⟩ := hhd
  have hlen : 0 < ds.length := by rw [hy]; simp
  have hcpos : 0 < c := by
    rcases Nat.eq_zero_or_pos c with h | h
    · subst h
      rcases h1 with h1 | h1
      · omega
      · rw [List.take_zero, numOf_nil] at h1
        have : 0 < 2 ^ T.mantissaBits := by positivity
        omega
    · exact h
  have hMge : 16 ^ (c - 1) ≤ numOf 16 (ds.take c) := by
    obtain ⟨m, rfl⟩ : ∃ m, c = m + 1 := ⟨c - 1, by omega⟩
    rw [hy] at hc ⊢
    rw [List.length_cons] at hc
    rw [List.take_succ_cons]
    have := numOf_ge (base := 16) (t := t.take m) hy0
    rw [List.length_take, Nat.min_eq_left (by omega)] at this
    simpa using this
  obtain ⟨M, hM⟩ : ∃ M, M = numOf 16 (ds.take c) := ⟨_, rfl⟩
  rw [← hM] at h1 h2 hMge ⊢
  have hM0 : 0 < M := lt_of_lt_of_le (by positivity) hMge
  obtain ⟨b, e2, hb1, hb2⟩ := assemble_ok G (M := M) (e0 := e + T.mantissaBits - 1 - 4 * c) neg (hexTail zt (ds.drop c)) hM0
    (lt_of_lt_of_le h2 (Nat.pow_le_pow_right (by norm_num) (by omega))) (by omega)
  refine ⟨b, e2, ?_⟩
  -- what follows the digits used
  obtain ⟨L, hL⟩ : ∃ L, L = numOf 16 (ds.drop c) := ⟨_, rfl⟩
  have hLlt : L + 1 ≤ 16 ^ (ds.length - c) := by
    have := numOf_lt (base := 16) (ds := ds.drop c) (fun d h => hd d (List.mem_of_mem_drop h))
    rw [List.length_drop] at this
    omega
  have hsplit : numOf 16 ds = M * 16 ^ (ds.length - c) + L := by
    conv_lhs => rw [← List.take_append_drop c ds]
    rw [numOf_append, List.length_drop, hM, hL]
  have hval : (numOf 16 ds : ℚ) / 16 ^ ds.length * 16 ^ c = M + L / 16 ^ (ds.length - c) := by
    rw [hsplit]
    conv_lhs => rw [show ds.length = (ds.length - c) + c by omega, pow_add]
    push_cast
    rw [Nat.sub_add_cancel hc]
    field_simp
  obtain ⟨P, hP⟩ : ∃ P : ℚ, P = 16 ^ (ds.length - c) := ⟨_, rfl⟩
  have hP0 : 0 < P := by rw [hP]; positivity
  have hLP : (L : ℚ) + 1 ≤ P := by rw [hP]; exact_mod_cast hLlt
  rw [← hP] at hval
  have hscale : (2 : ℚ) ^ e * scale T = 16 ^ c * 2 ^ (e + (T.mantissaBits : Int) - 1 - 4 * c - T.minExp) := by
    unfold scale
    rw [show (16 : ℚ) = 2 ^ 4 by norm_num, ← pow_mul, ← zpow_natCast, ← zpow_add₀ two_ne_zero, ← zpow_add₀ two_ne_zero]
    congr 1; push_cast; ring
  obtain ⟨Z, hZ⟩ : ∃ Z : ℚ, Z = 2 ^ (e + (T.mantissaBits : Int) - 1 - 4 * c - T.minExp) := ⟨_, rfl⟩
  have hZ0 : 0 < Z := by rw [hZ]; exact zpow_two_pos _
  rw [← hZ] at hb1 hb2 hscale
  rw [mul_assoc, hscale, ← mul_assoc]
  -- the rest
  have hrest : (zt = true → x * 16 ^ c = M + L / P) ∧ (zt = false → M + L / P < x * 16 ^ c ∧ x * 16 ^ c < M + L / P + 16 ^ c / 16 ^ 768) := by
    have h16 : (0 : ℚ) < 16 ^ c := by positivity
    refine ⟨fun h => by rw [hx.1 h, ← hval]; push_cast; rfl, fun h => ?_⟩
    obtain ⟨a1, a2⟩ := hx.2 h
    push_cast at a1 a2
    rw [← hval]
    refine ⟨mul_lt_mul_of_pos_right a1 h16, ?_⟩
    have := mul_lt_mul_of_pos_right a2 h16
    rw [add_mul] at this
    rwa [one_div, inv_mul_eq_div] at this
  obtain ⟨a, z, haz, hz0⟩ := hlast
  rw [hexTail_eq] at hb1 hb2
  have hLP0 : (0 : ℚ) ≤ L / P := by positivity
  -- at most 1
  have hUP : L / P + 16 ^ c / 16 ^ 768 ≤ 1 := by
    have : (16 : ℚ) ^ c / 16 ^ 768 ≤ 1 / P := by
      rw [div_le_div_iff₀ (by positivity) hP0, one_mul, hP, ← pow_add]
      exact pow_le_pow_right₀ (by norm_num) (by omega)
    calc L / P + 16 ^ c / 16 ^ 768 ≤ L / P + 1 / P := by linarith
      _ = (L + 1) / P := by rw [add_div]
      _ ≤ 1 := by rw [div_le_one hP0]; exact hLP
  by_cases hcl : c < ds.length
  · -- digits left
    have hM' : 2 ^ T.mantissaBits ≤ M := h1.resolve_left (by omega)
    have hs : T.mantissaBits + 1 ≤ Nat.size M := Nat.lt_size.2 hM'
    have hdrop := all_zero_last haz hz0 hcl
    have hLpos : 0 < L := by
      rw [hL, haz]
      rw [haz, List.length_append, List.length_singleton] at hcl
      rw [List.drop_append_of_le_length (by omega), numOf_append, numOf_cons]
      simp only [List.length_singleton, List.length_nil, pow_zero, Nat.mul_one]
      omega
    have hRd := hb2 (by rw [hdrop, Bool.and_false]) 1 (le_refl _) (by rw [one_mul]; exact pow_le_pow_right₀ (by norm_num) hs)
    have hLpos' : (0 : ℚ) < L / P := div_pos (by exact_mod_cast hLpos) hP0
    have hL1 : (L / P : ℚ) < 1 := by rw [div_lt_one hP0]; linarith
    have hin : (M : ℚ) < x * 16 ^ c ∧ x * 16 ^ c < M + 1 := by
      cases zt
      · obtain ⟨a1, a2⟩ := hrest.2 rfl; constructor <;> linarith
      · have := hrest.1 rfl; constructor <;> linarith
    exact hRd.inside (mul_lt_mul_of_pos_right hin.1 hZ0) (mul_lt_mul_of_pos_right hin.2 hZ0)
  · have hc' : c = ds.length := by omega
    have hdrop : ds.drop c = [] := by rw [hc']; simp
    have hL0 : L = 0 := by rw [hL, hdrop]; rfl
    rw [hdrop] at hb1 hb2
    simp only [List.all_nil, Bool.and_true] at hb1 hb2
    rw [hL0] at hrest hUP
    simp only [Nat.cast_zero, zero_div, add_zero, zero_add] at hrest hUP
    cases zt
    · obtain ⟨a1, a2⟩ := hrest.2 rfl
      have hRd := hb2 rfl (16 ^ c / 16 ^ 768) hUP ?_
      · exact hRd.inside (mul_lt_mul_of_pos_right a1 hZ0) (mul_lt_mul_of_pos_right a2 hZ0)
      · by_cases hbig : 2 ^ T.mantissaBits ≤ M
        · have hs : T.mantissaBits + 1 ≤ Nat.size M := Nat.lt_size.2 hbig
          calc (16 : ℚ) ^ c / 16 ^ 768 * 2 ^ (T.mantissaBits + 1) ≤ 1 * 2 ^ (T.mantissaBits + 1) := mul_le_mul_of_nonneg_right hUP (by positivity)
            _ ≤ _ := by rw [one_mul]; exact pow_le_pow_right₀ (by norm_num) hs
        · have h14 : c ≤ 14 := by
            by_contra hcc
            have : 2 ^ T.mantissaBits ≤ 16 ^ (c - 1) := by
              rw [show 16 = 2 ^ 4 by norm_num, ← pow_mul]
              exact Nat.pow_le_pow_right (by norm_num) (by omega)
            exact hbig (le_trans this hMge)
          have : (16 : ℚ) ^ c / 16 ^ 768 * 2 ^ (T.mantissaBits + 1) ≤ 1 := by
            rw [div_mul_eq_mul_div, div_le_one (by positivity), show (16 : ℚ) = 2 ^ 4 by norm_num, ← pow_mul, ← pow_mul, ← pow_add]
            exact pow_le_pow_right₀ (by norm_num) (by omega)
          exact le_trans this (one_le_pow₀ (by norm_num))
    · rw [hrest.1 rfl]; exact hb1 rfl

end STL.FloatConv
