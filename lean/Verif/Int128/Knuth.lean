import Verif.Int128.Digits

/-! # Correctness of `_Knuth_4_3_1_D` -/

namespace STL.Digits
open STL

theorem val_succ (b : Nat) (f : Nat → Nat) (j n : Nat) : val b f j (n + 1) = val b f j n + f (j + n) * b ^ n := rfl

theorem val_congr {b : Nat} {f g : Nat → Nat} {j n : Nat} (h : ∀ i, j ≤ i → i < j + n → f i = g i) : val b f j n = val b g j n := by
  induction n with
  | zero => rfl
  | succ n ih =>
    rw [val_succ, val_succ, ih fun i h1 h2 => h i h1 (by omega), h (j + n) (by omega) (by omega)]

theorem val_lt {b : Nat} {f : Nat → Nat} {j n : Nat} (h : ∀ i, j ≤ i → i < j + n → f i < b) : val b f j n < b ^ n := by
  induction n with
  | zero => simp [val]
  | succ n ih =>
    have h1 := ih fun i h1 h2 => h i h1 (by omega)
    have h2 := h (j + n) (by omega) (by omega)
    rw [val_succ, pow_succ]
    have h3 : (f (j + n) + 1) * b ^ n ≤ b * b ^ n := Nat.mul_le_mul_right _ h2
    rw [Nat.add_mul, Nat.one_mul] at h3
    rw [Nat.mul_comm (b ^ n) b]
    omega

/-- The first words are the low part. -/
theorem val_add (b : Nat) (f : Nat → Nat) (j m n : Nat) : val b f j (m + n) = val b f j m + b ^ m * val b f (j + m) n := by
  induction n with
  | zero => simp [val]
  | succ n ih =>
    rw [← Nat.add_assoc, val_succ, ih, val_succ, pow_add, show j + (m + n) = j + m + n by omega]
    ring

theorem val_cons (b : Nat) (f : Nat → Nat) (j n : Nat) : val b f j (n + 1) = f j + b * val b f (j + 1) n := by
  rw [Nat.add_comm n 1, val_add]; simp [val]

theorem val_unique {b : Nat} {f g : Nat → Nat} {j n : Nat} (hf : ∀ i, j ≤ i → i < j + n → f i < b) (hg : ∀ i, j ≤ i → i < j + n → g i < b)
    (h : val b f j n = val b g j n) : ∀ i, j ≤ i → i < j + n → f i = g i := by
  induction n generalizing j with
  | zero => intro i h1 h2; omega
  | succ n ih =>
    have hb := hf j (by omega) (by omega)
    have hb' := hg j (by omega) (by omega)
    rw [val_cons, val_cons] at h
    have h0 : f j = g j := by
      have := congrArg (· % b) h
      simpa [Nat.add_mul_mod_self_left, Nat.mod_eq_of_lt hb, Nat.mod_eq_of_lt hb'] using this
    have h1 : val b f (j + 1) n = val b g (j + 1) n := by
      rw [h0] at h
      exact Nat.eq_of_mul_eq_mul_left (by omega : 0 < b) (by omega)
    intro i hi hi2
    by_cases hj : i = j
    · rw [hj, h0]
    · exact ih (fun i h1 h2 => hf i (by omega) (by omega)) (fun i h1 h2 => hg i (by omega) (by omega)) h1 i (by omega) (by omega)

/-! ## The trial quotient -/

section trial
variable {b v1 v2 vl P T u2 ul : Nat}

/-- The trial quotient loop may lower `qh`: it was too large. -/
theorem trial_dec (hP : ul < P) {qh rh : Nat} (h : qh * v1 + rh = T) (hgt : qh * v2 > rh * b + u2) :
    (T * b + u2) * P + ul < qh * ((v1 * b + v2) * P + vl) := by
  have h1 : qh * (v1 * b + v2) ≥ T * b + u2 + 1 := by
    have : qh * (v1 * b + v2) = (qh * v1) * b + qh * v2 := by ring
    rw [this, ← h, Nat.add_mul]; omega
  have h2 : (T * b + u2 + 1) * P ≤ qh * (v1 * b + v2) * P := Nat.mul_le_mul_right _ h1
  have h3 : qh * ((v1 * b + v2) * P + vl) = qh * (v1 * b + v2) * P + qh * vl := by ring
  rw [h3]
  have h4 : (T * b + u2 + 1) * P = (T * b + u2) * P + P := by ring
  have := Nat.zero_le (qh * vl)
  omega

/-- On leaving the loop with the test passed the trial quotient is at most one too large. -/
theorem trial_exit (hb : 0 < b) (hv1 : b ≤ 2 * v1) (hb2 : 2 ≤ b) (hvl : vl < P) {qh rh : Nat} (h : qh * v1 + rh = T) (hqb : qh < b)
    (hle : qh * v2 ≤ rh * b + u2) : qh * ((v1 * b + v2) * P + vl) < (T * b + u2) * P + ul + ((v1 * b + v2) * P + vl) := by
  have h1 : qh * (v1 * b + v2) ≤ T * b + u2 := by
    have : qh * (v1 * b + v2) = (qh * v1) * b + qh * v2 := by ring
    rw [this, ← h, Nat.add_mul]; omega
  have h2 : qh * (v1 * b + v2) * P ≤ (T * b + u2) * P := Nat.mul_le_mul_right _ h1
  have h3 : qh * ((v1 * b + v2) * P + vl) = qh * (v1 * b + v2) * P + qh * vl := by ring
  have h4 : qh * vl < (v1 * b + v2) * P := by
    have h5 : qh * vl ≤ b * vl := Nat.mul_le_mul_right _ (by omega)
    have h6 : b * vl < b * P := Nat.mul_lt_mul_of_pos_left hvl hb
    have h7 : 1 * b ≤ v1 * b + v2 := le_trans (Nat.mul_le_mul_right b (by omega : 1 ≤ v1)) (Nat.le_add_right _ _)
    have h8 : b * P ≤ (v1 * b + v2) * P := Nat.mul_le_mul_right _ (by omega)
    omega
  omega

/-- On leaving the loop because `rhat` has overflowed. -/
theorem trial_break (hb2 : 2 ≤ b) (hv1 : b ≤ 2 * v1) (hv2 : v2 < b) (hvl : vl < P) (hu : (T * b + u2) * P + ul < b * ((v1 * b + v2) * P + vl)) {qh rh : Nat}
    (h : qh * v1 + rh = T) (hr : b ≤ rh) :
    qh < b ∧ qh * ((v1 * b + v2) * P + vl) < (T * b + u2) * P + ul + ((v1 * b + v2) * P + vl) := by
  have hP : 0 < P := by omega
  have hT : T ≤ v1 * b + v2 := by
    by_contra hc
    have h1 : (v1 * b + v2 + 1) * b ≤ T * b := Nat.mul_le_mul_right _ (by omega)
    have h2 : (v1 * b + v2 + 1) * b * P ≤ (T * b + u2) * P := Nat.mul_le_mul_right _ (by omega)
    have h3 : b * ((v1 * b + v2) * P + vl) < (v1 * b + v2 + 1) * b * P := by
      have h4 : (v1 * b + v2 + 1) * b * P = b * ((v1 * b + v2) * P + P) := by ring
      rw [h4]; exact Nat.mul_lt_mul_of_pos_left (by omega) (by omega)
    omega
  have hq : qh < b := by
    by_contra hc
    have : b * v1 ≤ qh * v1 := Nat.mul_le_mul_right _ (by omega)
    have : v1 * b = b * v1 := Nat.mul_comm _ _
    omega
  refine ⟨hq, trial_exit (by omega) hv1 hb2 hvl h hq ?_⟩
  have h1 : qh * v2 ≤ b * v2 := Nat.mul_le_mul_right _ (by omega)
  have h2 : b * v2 ≤ b * b := Nat.mul_le_mul_left _ (by omega)
  have h3 : b * b ≤ rh * b := Nat.mul_le_mul_right _ hr
  omega

end trial

theorem shl_or {a k c : Nat} (hc : c < 2 ^ k) : a <<< k ||| c = a * 2 ^ k + c := by
  rw [← Nat.shiftLeft_add_eq_or_of_lt hc, Nat.shiftLeft_eq]

/-- `(static_cast<uint64_t>(hi) << 32) | lo` -/
theorem two_words {a c : Nat} (ha : a < 2 ^ 32) (hc : c < 2 ^ 32) : (a <<< 32) % 2 ^ 64 ||| c = a * 2 ^ 32 + c := by
  rw [Nat.mod_eq_of_lt, shl_or hc]
  rw [Nat.shiftLeft_eq]; omega

/-- The specification of the corrected trial quotient: not below the true quotient digit and at most one above it. -/
theorem qhatLoop_ok {v1 v2 vl P T u2 ul q : Nat} (hv1 : 2 ^ 32 ≤ 2 * v1) (hv1' : v1 < 2 ^ 32) (hv2 : v2 < 2 ^ 32) (hvl : vl < P) (hu2 : u2 < 2 ^ 32) (hul : ul < P)
    (hu : (T * 2 ^ 32 + u2) * P + ul < 2 ^ 32 * ((v1 * 2 ^ 32 + v2) * P + vl)) (hq : q = ((T * 2 ^ 32 + u2) * P + ul) / ((v1 * 2 ^ 32 + v2) * P + vl)) :
    ∀ (fuel qh rh : Nat), qh * v1 + rh = T → q ≤ qh → rh < 2 ^ 32 → qh < 2 ^ 64 → (fuel ≥ 3 ∨ (fuel ≥ 2 ∧ v1 ≤ rh) ∨ (fuel ≥ 1 ∧ 2 * v1 ≤ rh)) →
      ∃ r, qhatLoop v1 v2 u2 fuel qh rh = .ok r ∧ r < 2 ^ 32 ∧ q ≤ r ∧ r ≤ q + 1 := by
  have hPp : 0 < P := by omega
  have hvpos : 0 < (v1 * 2 ^ 32 + v2) * P + vl := by
    have : 0 < (v1 * 2 ^ 32 + v2) * P := Nat.mul_pos (by omega) hPp
    omega
  have hqlt : q < 2 ^ 32 := by rw [hq]; rw [Nat.div_lt_iff_lt_mul hvpos]; exact hu
  have fin : ∀ r, r * ((v1 * 2 ^ 32 + v2) * P + vl) < (T * 2 ^ 32 + u2) * P + ul + ((v1 * 2 ^ 32 + v2) * P + vl) → r ≤ q + 1 := by
    intro r hr
    by_contra hc
    have h1 : (q + 2) * ((v1 * 2 ^ 32 + v2) * P + vl) ≤ r * ((v1 * 2 ^ 32 + v2) * P + vl) := Nat.mul_le_mul_right _ (by omega)
    have h2 := Nat.lt_div_mul_add (a := (T * 2 ^ 32 + u2) * P + ul) hvpos
    rw [← hq] at h2
    have h3 : (q + 2) * ((v1 * 2 ^ 32 + v2) * P + vl) = q * ((v1 * 2 ^ 32 + v2) * P + vl) + 2 * ((v1 * 2 ^ 32 + v2) * P + vl) := by ring
    omega
  intro fuel
  induction fuel with
  | zero => intro qh rh h1 h2 h3 h4 h5; omega
  | succ fuel ih =>
    intro qh rh h1 h2 h3 h4 h5
    unfold qhatLoop
    rw [Nat.shiftRight_eq_div_pow, two_words h3 hu2]
    have hcond : (qh / 2 ^ 32 ≠ 0 ∨ qh % 2 ^ 32 * v2 % 2 ^ 64 > rh * 2 ^ 32 + u2) ↔ (2 ^ 32 ≤ qh ∨ qh * v2 > rh * 2 ^ 32 + u2) := by
      by_cases hc : 2 ^ 32 ≤ qh
      · have : qh / 2 ^ 32 ≠ 0 := by omega
        simp only [hc, this, ne_eq, not_false_eq_true, true_or]
      · have h6 : qh / 2 ^ 32 = 0 := by omega
        have h7 : qh * v2 < 2 ^ 64 := by
          have : qh * v2 ≤ 2 ^ 32 * v2 := Nat.mul_le_mul_right _ (by omega)
          omega
        rw [Nat.mod_eq_of_lt (by omega : qh < 2 ^ 32), Nat.mod_eq_of_lt h7]
        simp only [hc, h6, ne_eq, not_true_eq_false, false_or]
    by_cases hc : 2 ^ 32 ≤ qh ∨ qh * v2 > rh * 2 ^ 32 + u2
    · rw [if_pos (hcond.2 hc)]
      have hqd : q + 1 ≤ qh := by
        rcases hc with hc | hc
        · omega
        · have := trial_dec (P := P) (vl := vl) (v1 := v1) (b := 2 ^ 32) hul h1 hc
          have h6 := Nat.div_mul_le_self ((T * 2 ^ 32 + u2) * P + ul) ((v1 * 2 ^ 32 + v2) * P + vl)
          rw [← hq] at h6
          by_contra hcc
          have h7 : qh * ((v1 * 2 ^ 32 + v2) * P + vl) ≤ q * ((v1 * 2 ^ 32 + v2) * P + vl) := Nat.mul_le_mul_right _ (by omega)
          omega
      have e1 : (qh + 2 ^ 64 - 1) % 2 ^ 64 = qh - 1 := by omega
      have e2 : (rh + v1) % 2 ^ 64 = rh + v1 := by omega
      have e3 : (qh - 1) * v1 + (rh + v1) = T := by
        obtain ⟨c, rfl⟩ : ∃ c, qh = c + 1 := ⟨qh - 1, by omega⟩
        rw [Nat.add_sub_cancel, ← h1, Nat.add_mul]; omega
      simp only [e1, e2]
      by_cases hr : 2 ^ 32 ≤ rh + v1
      · have : (rh + v1) >>> 32 ≠ 0 := by rw [Nat.shiftRight_eq_div_pow]; omega
        rw [if_pos this]
        obtain ⟨h6, h7⟩ := trial_break (b := 2 ^ 32) (by norm_num) hv1 hv2 hvl hu e3 hr
        exact ⟨_, rfl, h6, by omega, fin _ h7⟩
      · have : ¬ ((rh + v1) >>> 32 ≠ 0) := by rw [Nat.shiftRight_eq_div_pow]; omega
        rw [if_neg this]
        exact ih _ _ e3 (by omega) (by omega) (by omega) (by omega)
    · rw [if_neg (fun h => hc (hcond.1 h))]
      have hqb : qh < 2 ^ 32 := by omega
      exact ⟨qh, rfl, hqb, h2, fin _ (trial_exit (by norm_num) hv1 (by norm_num) hvl h1 hqb (by omega))⟩

/-! ## Multiply and subtract, add back -/

/-- All words of the array are below `2 ^ 32`. -/
def W32 (a : Arr) : Prop := ∀ i, i < a.size → a.f i < 2 ^ 32

theorem ld_ok {a : Arr} {i : Nat} (h : i < a.size) : a.ld i = .ok (a.f i) := by simp [Arr.ld, h]
theorem st_ok {a : Arr} {i v : Nat} (h : i < a.size) : a.st i v = .ok ⟨a.size, fun x => if x = i then v else a.f x⟩ := by simp [Arr.st, h]
theorem i64_ok {v : Int} (h : -2 ^ 63 ≤ v ∧ v < 2 ^ 63) : i64 v = .ok v := by unfold i64; rw [if_pos h]

theorem val_st (b : Nat) (f : Nat → Nat) (j n i v : Nat) (h : i < j ∨ j + n ≤ i) : val b (fun x => if x = i then v else f x) j n = val b f j n :=
  val_congr fun k h1 h2 => by rw [if_neg (by omega)]

theorem mulSub_ok {qh : Nat} (hq : qh < 2 ^ 32) {v : Arr} (hv : W32 v) {j n : Nat} (hvn : n ≤ v.size) :
    ∀ (todo i : Nat) (u : Arr) (k : Int), i + todo = n → W32 u → j + n ≤ u.size → 0 ≤ k → k < 2 ^ 32 →
      ∃ u' k', mulSub qh v j todo i u k = .ok (u', k') ∧ u'.size = u.size ∧ W32 u' ∧ 0 ≤ k' ∧ k' < 2 ^ 32 ∧
        (∀ x, x < i + j ∨ j + n ≤ x → u'.f x = u.f x) ∧
        (val (2 ^ 32) u'.f (i + j) todo : Int) - k' * (2 ^ 32) ^ todo = val (2 ^ 32) u.f (i + j) todo - k - qh * val (2 ^ 32) v.f i todo := by
  intro todo
  induction todo with
  | zero =>
    intro i u k h1 h2 h3 h4 h5
    exact ⟨u, k, rfl, rfl, h2, h4, h5, fun _ _ => rfl, by simp [val]⟩
  | succ todo ih =>
    intro i u k h1 h2 h3 h4 h5
    unfold mulSub
    have hvi := hv i (by omega)
    have hui := h2 (i + j) (by omega)
    have hp : qh * v.f i ≤ (2 ^ 32 - 1) * (2 ^ 32 - 1) := Nat.mul_le_mul (by omega) (by omega)
    rw [ld_ok (by omega : i < v.size), R.ok_bind, ld_ok (by omega : i + j < u.size), R.ok_bind, Nat.mod_eq_of_lt hq, Nat.shiftRight_eq_div_pow]
    generalize hpe : qh * v.f i = p at hp ⊢
    rw [Nat.mod_eq_of_lt (by omega : p < 2 ^ 64), i64_ok (by omega), R.ok_bind, i64_ok (by omega), R.ok_bind, st_ok (by omega), R.ok_bind]
    generalize ht : (u.f (i + j) : Int) - k - ((p % 2 ^ 32 : Nat) : Int) = t
    have hk' : 0 ≤ ((p / 2 ^ 32 : Nat) : Int) - t / 2 ^ 32 ∧ ((p / 2 ^ 32 : Nat) : Int) - t / 2 ^ 32 < 2 ^ 32 := by omega
    rw [i64_ok (by omega), R.ok_bind]
    obtain ⟨u', k', e1, e2, e3, e4, e5, e6, e7⟩ := ih (i + 1) ⟨u.size, fun x => if x = i + j then (t % 2 ^ 32).toNat else u.f x⟩ (((p / 2 ^ 32 : Nat) : Int) - t / 2 ^ 32) (by omega)
      (by intro x hx; simp only; split
          · omega
          · exact h2 x hx) h3 hk'.1 hk'.2
    refine ⟨u', k', e1, e2, e3, e4, e5, fun x hx => ?_, ?_⟩
    · rw [e6 x (by omega)]; simp only; rw [if_neg (by omega)]
    · have h6 : u'.f (i + j) = (t % 2 ^ 32).toNat := by rw [e6 (i + j) (by omega)]; simp
      simp only at e7
      rw [val_st _ _ _ _ _ _ (by omega)] at e7
      rw [val_cons, val_cons, val_cons, h6]
      rw [show i + j + 1 = i + 1 + j by omega]
      have h7 : ((t % 2 ^ 32).toNat : Int) = t - 2 ^ 32 * (t / 2 ^ 32) := by omega
      have h8 : (u.f (i + j) : Int) = t + k + p - 2 ^ 32 * (p / 2 ^ 32 : Nat) := by omega
      have h9 : (p : Int) = qh * v.f i := by rw [← hpe]; push_cast; ring
      clear hk' e1 e6 h6 e2
      rw [pow_succ]
      push_cast at e7 h7 h8 ⊢
      generalize val 4294967296 u'.f (i + 1 + j) todo = A at e7 ⊢
      generalize val 4294967296 u.f (i + 1 + j) todo = B at e7 ⊢
      generalize val 4294967296 v.f (i + 1) todo = C at e7 ⊢
      generalize ((t % 4294967296).toNat : Int) = D at h7 ⊢
      generalize t / 4294967296 = th at e7 h7
      generalize (p : Int) / 4294967296 = ph at e7 h8
      linear_combination h7 + (2 ^ 32 : Int) * e7 - h8 - h9

theorem addBack_ok {v : Arr} (hv : W32 v) {j n : Nat} (hvn : n ≤ v.size) :
    ∀ (todo i : Nat) (u : Arr) (k : Int), i + todo = n → W32 u → j + n ≤ u.size → 0 ≤ k → k ≤ 1 →
      ∃ u' k', addBack v j todo i u k = .ok (u', k') ∧ u'.size = u.size ∧ W32 u' ∧ 0 ≤ k' ∧ k' ≤ 1 ∧
        (∀ x, x < i + j ∨ j + n ≤ x → u'.f x = u.f x) ∧
        (val (2 ^ 32) u'.f (i + j) todo : Int) + k' * (2 ^ 32) ^ todo = val (2 ^ 32) u.f (i + j) todo + k + val (2 ^ 32) v.f i todo := by
  intro todo
  induction todo with
  | zero =>
    intro i u k h1 h2 h3 h4 h5
    exact ⟨u, k, rfl, rfl, h2, h4, h5, fun _ _ => rfl, by simp [val]⟩
  | succ todo ih =>
    intro i u k h1 h2 h3 h4 h5
    unfold addBack
    have hvi := hv i (by omega)
    have hui := h2 (i + j) (by omega)
    rw [ld_ok (by omega : i + j < u.size), R.ok_bind, i64_ok (by omega), R.ok_bind, ld_ok (by omega : i < v.size), R.ok_bind, i64_ok (by omega), R.ok_bind,
      st_ok (by omega), R.ok_bind]
    generalize ht : (u.f (i + j) : Int) + k + v.f i = t
    have hk' : 0 ≤ t / 2 ^ 32 ∧ t / 2 ^ 32 ≤ 1 := by omega
    obtain ⟨u', k', e1, e2, e3, e4, e5, e6, e7⟩ := ih (i + 1) ⟨u.size, fun x => if x = i + j then (t % 2 ^ 32).toNat else u.f x⟩ (t / 2 ^ 32) (by omega)
      (by intro x hx; simp only; split
          · omega
          · exact h2 x hx) h3 hk'.1 hk'.2
    refine ⟨u', k', e1, e2, e3, e4, e5, fun x hx => ?_, ?_⟩
    · rw [e6 x (by omega)]; simp only; rw [if_neg (by omega)]
    · have h6 : u'.f (i + j) = (t % 2 ^ 32).toNat := by rw [e6 (i + j) (by omega)]; simp
      simp only at e7
      rw [val_st _ _ _ _ _ _ (by omega)] at e7
      rw [val_cons, val_cons, val_cons, h6]
      rw [show i + j + 1 = i + 1 + j by omega]
      have h7 : ((t % 2 ^ 32).toNat : Int) = t - 2 ^ 32 * (t / 2 ^ 32) := by omega
      have h8 : (u.f (i + j) : Int) = t - k - v.f i := by omega
      clear hk' e1 e6 h6 e2
      rw [pow_succ]
      push_cast at e7 h7 h8 ⊢
      generalize val 4294967296 u'.f (i + 1 + j) todo = A at e7 ⊢
      generalize val 4294967296 u.f (i + 1 + j) todo = B at e7 ⊢
      generalize val 4294967296 v.f (i + 1) todo = C at e7 ⊢
      generalize ((t % 4294967296).toNat : Int) = D at h7 ⊢
      generalize t / 4294967296 = th at e7 h7
      linear_combination h7 + (2 ^ 32 : Int) * e7 - h8

end STL.Digits
