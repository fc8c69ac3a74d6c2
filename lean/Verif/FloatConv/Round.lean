import Verif.FloatConv.Spec

/-!
# Rounding

Magnitudes are measured in units of the smallest subnormal number, `2 ^ (2 - bias - p)`; `nm p b` is the magnitude of the pattern `b`.
-/

namespace STL.FloatConv
open STL Spec

/-- The magnitude of a pattern in units of the smallest subnormal number. -/
def nm (p b : Nat) : Nat :=
  if b / 2 ^ (p - 1) = 0 then b % 2 ^ (p - 1) else (2 ^ (p - 1) + b % 2 ^ (p - 1)) * 2 ^ (b / 2 ^ (p - 1) - 1)

theorem mag_eq (p w b : Nat) (hp : 1 ≤ p) : mag p w b = (nm p b : ℚ) * 2 ^ (2 - bias w - p) := by
  have h2 : (2 : ℚ) ≠ 0 := two_ne_zero
  have hs : (2 : ℚ) ^ (2 - bias w - p) = 2 ^ (1 - bias w) / 2 ^ (p - 1) := by
    rw [eq_div_iff (by positivity), ← zpow_natCast, ← zpow_add₀ h2]; congr 1; omega
  unfold mag nm
  dsimp only
  split
  · rw [hs]; ring
  · rename_i h
    rw [hs]
    have this : ∀ E : Nat, E ≠ 0 → (2 : ℚ) ^ ((E : Int) - bias w) = 2 ^ (E - 1) * 2 ^ (1 - bias w) := by
      intro E hE
      rw [← zpow_natCast, ← zpow_add₀ h2]; congr 1; omega
    rw [this _ h]
    push_cast
    field_simp

/-- Patterns as exponent and significand: `b = k * 2^(p-1) + m`. -/
theorem nm_mk {p k m : Nat} (hp : 1 ≤ p) (h : k = 0 ∨ 2 ^ (p - 1) ≤ m) (hm : m ≤ 2 ^ p) : nm p (k * 2 ^ (p - 1) + m) = m * 2 ^ k := by
  obtain ⟨P, hP⟩ : ∃ P, P = 2 ^ (p - 1) := ⟨_, rfl⟩
  have hp2 : 2 ^ p = 2 * P := by rw [hP, ← pow_succ']; congr 1; omega
  have hP0 : 0 < P := by rw [hP]; positivity
  unfold nm
  rw [← hP] at h ⊢
  rw [hp2] at hm
  by_cases h1 : m < P
  · have hk : k = 0 := by omega
    subst hk
    rw [Nat.zero_mul, Nat.zero_add, Nat.div_eq_of_lt h1, if_pos rfl, Nat.mod_eq_of_lt h1, pow_zero, Nat.mul_one]
  · by_cases h3 : m = 2 * P
    · subst h3
      have e1 : k * P + 2 * P = (k + 2) * P := by ring
      rw [e1, Nat.mul_div_cancel _ hP0, if_neg (by omega), Nat.mul_mod_left, Nat.add_zero, show k + 2 - 1 = k + 1 from rfl, pow_succ]
      ring
    · obtain ⟨d, rfl⟩ : ∃ d, m = P + d := ⟨m - P, by omega⟩
      have e1 : k * P + (P + d) = d + P * (k + 1) := by ring
      rw [e1, Nat.add_mul_div_left _ _ hP0, Nat.div_eq_of_lt (by omega), Nat.zero_add, if_neg (by omega), Nat.add_mul_mod_self_left, Nat.mod_eq_of_lt (by omega),
        Nat.add_sub_cancel]

/-- Every pattern has this form. -/
theorem pat_form (p b : Nat) : ∃ k m, b = k * 2 ^ (p - 1) + m ∧ (k = 0 ∨ 2 ^ (p - 1) ≤ m) ∧ m < 2 * 2 ^ (p - 1) := by
  have hP0 : 0 < 2 ^ (p - 1) := by positivity
  have hd := Nat.div_add_mod b (2 ^ (p - 1))
  have hm := Nat.mod_lt b hP0
  by_cases h : b / 2 ^ (p - 1) = 0
  · refine ⟨0, b, by omega, .inl rfl, ?_⟩
    rw [h] at hd; omega
  · refine ⟨b / 2 ^ (p - 1) - 1, 2 ^ (p - 1) + b % 2 ^ (p - 1), ?_, .inr (by omega), by omega⟩
    obtain ⟨q, hq⟩ : ∃ q, b / 2 ^ (p - 1) = q + 1 := ⟨_, (Nat.succ_pred_eq_of_ne_zero h).symm⟩
    rw [hq] at hd ⊢
    rw [Nat.add_sub_cancel]
    nlinarith

theorem nm_lt_succ {p : Nat} (hp : 1 ≤ p) (b : Nat) : nm p b < nm p (b + 1) := by
  obtain ⟨k, m, rfl, h, hm⟩ := pat_form p b
  have hp2 : 2 ^ p = 2 * 2 ^ (p - 1) := by rw [← pow_succ']; congr 1; omega
  rw [nm_mk hp h (by omega), Nat.add_assoc, nm_mk hp (by omega) (by omega)]
  exact Nat.mul_lt_mul_of_pos_right (by omega) (by positivity)

theorem nm_lt {p : Nat} (hp : 1 ≤ p) : ∀ {b c : Nat}, b < c → nm p b < nm p c := by
  intro b c h
  induction h with
  | refl => exact nm_lt_succ hp b
  | step _ ih => exact lt_trans ih (nm_lt_succ hp _)

theorem nm_le {p : Nat} (hp : 1 ≤ p) {b c : Nat} (h : b ≤ c) : nm p b ≤ nm p c := by
  rcases Nat.lt_or_eq_of_le h with h | h
  · exact le_of_lt (nm_lt hp h)
  · rw [h]

theorem nm_zero (p : Nat) : nm p 0 = 0 := by unfold nm; simp

/-- Rounding, up to ties: everything between `X` and `Y` is in the closed interval around `b` bounded by the midpoints. -/
structure Rd (p I b : Nat) (X Y : ℚ) : Prop where
  le : b ≤ I
  low : b ≠ 0 → (nm p (b - 1) + nm p b : ℚ) ≤ 2 * X
  high : b ≠ I → 2 * Y ≤ (nm p b + nm p (b + 1) : ℚ)

/-- Nearest with ties to even. -/
structure Rne (p I b : Nat) (X : ℚ) : Prop where
  rd : Rd p I b X X
  tie1 : b ≠ 0 → (nm p (b - 1) + nm p b : ℚ) = 2 * X → b % 2 = 0
  tie2 : b ≠ I → 2 * X = (nm p b + nm p (b + 1) : ℚ) → b % 2 = 0

/-- A point strictly inside. -/
theorem Rd.inside {p I b : Nat} {X Y Z : ℚ} (h : Rd p I b X Y) (h1 : X < Z) (h2 : Z < Y) : Rne p I b Z :=
  ⟨⟨h.le, fun h0 => by have := h.low h0; linarith, fun h0 => by have := h.high h0; linarith⟩, fun h0 e => by have := h.low h0; linarith,
    fun h0 e => by have := h.high h0; linarith⟩

theorem Rd.mono {p I b : Nat} {X Y X' Y' : ℚ} (h : Rd p I b X Y) (h1 : X ≤ X') (h2 : Y' ≤ Y) : Rd p I b X' Y' :=
  ⟨h.le, fun h0 => by have := h.low h0; linarith, fun h0 => by have := h.high h0; linarith⟩

theorem Rne.nearest {p w b : Nat} (hp : 1 ≤ p) {X x : ℚ} (hx : x = X * 2 ^ (2 - bias w - p)) (h : Rne p (inf p w) b X) : Nearest p w b x := by
  refine ⟨h.rd.le, fun c hc hne => ?_⟩
  rw [mag_eq p w b hp, mag_eq p w c hp, hx, ← sub_mul, ← sub_mul, abs_mul, abs_mul]
  have hu : 0 < |(2 : ℚ) ^ (2 - bias w - p)| := by positivity
  suffices H : |(nm p b : ℚ) - X| < |(nm p c : ℚ) - X| ∨ (|(nm p b : ℚ) - X| = |(nm p c : ℚ) - X| ∧ b % 2 = 0) by
    rcases H with H | ⟨H, H'⟩
    · exact .inl (mul_lt_mul_of_pos_right H hu)
    · exact .inr ⟨by rw [H], H'⟩
  rcases Nat.lt_or_gt_of_ne hne with hlt | hgt
  · -- `c < b`
    have h0 : b ≠ 0 := by omega
    have h1 : (nm p c : ℚ) ≤ nm p (b - 1) := by exact_mod_cast nm_le hp (by omega)
    have h2 : (nm p (b - 1) : ℚ) < nm p b := by exact_mod_cast nm_lt hp (by omega)
    have h3 := h.rd.low h0
    have h4 : |(nm p c : ℚ) - X| = X - nm p c := by rw [abs_sub_comm, abs_of_nonneg]; linarith
    rw [h4]
    rcases le_total (nm p b : ℚ) X with hb | hb
    · left; rw [abs_sub_comm, abs_of_nonneg (by linarith)]; linarith
    · rw [abs_of_nonneg (by linarith)]
      rcases lt_or_eq_of_le h3 with h5 | h5
      · left; linarith
      · rcases lt_or_eq_of_le h1 with h6 | h6
        · left; linarith
        · right; exact ⟨by linarith, h.tie1 h0 h5⟩
  · have h0 : b ≠ inf p w := by omega
    have h1 : (nm p (b + 1) : ℚ) ≤ nm p c := by exact_mod_cast nm_le hp (by omega)
    have h2 : (nm p b : ℚ) < nm p (b + 1) := by exact_mod_cast nm_lt hp (by omega)
    have h3 := h.rd.high h0
    have h4 : |(nm p c : ℚ) - X| = nm p c - X := by rw [abs_of_nonneg]; linarith
    rw [h4]
    rcases le_total X (nm p b : ℚ) with hb | hb
    · left; rw [abs_of_nonneg (by linarith)]; linarith
    · rw [abs_sub_comm, abs_of_nonneg (by linarith)]
      rcases lt_or_eq_of_le h3 with h5 | h5
      · left; linarith
      · rcases lt_or_eq_of_le h1 with h6 | h6
        · left; linarith
        · right; exact ⟨by linarith, h.tie2 h0 h5⟩

/-- The core of the rounding argument: a significand `r` with exponent `k`. -/
theorem core {p I k r : Nat} (hp : 2 ≤ p) {X Y : ℚ} (hk : k = 0 ∨ (2 ^ (p - 1) ≤ r ∧ ((2 ^ (p - 1) * 2 ^ k : Nat) : ℚ) ≤ X)) (hr : r ≤ 2 ^ p)
    (hI : k * 2 ^ (p - 1) + r ≤ I) (hl : r = 0 ∨ (2 * r - 1) * 2 ^ k ≤ 2 * X) (hh : 2 * Y ≤ (2 * r + 1) * 2 ^ k) :
    Rd p I (k * 2 ^ (p - 1) + r) X Y := by
  have hp2 : 2 ^ p = 2 * 2 ^ (p - 1) := by rw [← pow_succ']; congr 1; omega
  have hb : nm p (k * 2 ^ (p - 1) + r) = r * 2 ^ k := nm_mk (by omega) (by omega) hr
  refine ⟨hI, fun h0 => ?_, fun h0 => ?_⟩
  · rw [hb]
    by_cases hc : k ≠ 0 ∧ r = 2 ^ (p - 1)
    · have h1 := hk.resolve_left hc.1
      have h2 : (nm p (k * 2 ^ (p - 1) + r - 1) : ℚ) < nm p (k * 2 ^ (p - 1) + r) := by exact_mod_cast nm_lt (by omega) (by omega)
      rw [hb] at h2
      have h3 := h1.2
      rw [← hc.2] at h3
      linarith
    · have hr0 : r ≠ 0 := by
        rintro rfl
        rcases hk with hk | hk
        · subst hk; simp at h0
        · have : 0 < 2 ^ (p - 1) := by positivity
          omega
      obtain ⟨r', rfl⟩ : ∃ r', r = r' + 1 := ⟨_, (Nat.succ_pred_eq_of_ne_zero hr0).symm⟩
      have h1 : nm p (k * 2 ^ (p - 1) + (r' + 1) - 1) = r' * 2 ^ k := by
        rw [show k * 2 ^ (p - 1) + (r' + 1) - 1 = k * 2 ^ (p - 1) + r' from rfl]
        exact nm_mk (by omega) (by omega) (by omega)
      rw [h1]
      have := hl.resolve_left hr0
      push_cast at this ⊢
      linarith
  · rw [hb]
    have h1 : ((r : ℚ) + 1) * 2 ^ k ≤ nm p (k * 2 ^ (p - 1) + r + 1) := by
      rcases Nat.lt_or_eq_of_le hr with h | h
      · rw [Nat.add_assoc, nm_mk (by omega) (by omega) (by omega)]; push_cast; exact le_refl _
      · have e1 : k * 2 ^ (p - 1) + r + 1 = (k + 1) * 2 ^ (p - 1) + (2 ^ (p - 1) + 1) := by rw [h, hp2]; ring
        have h5 : 2 ^ 1 ≤ 2 ^ (p - 1) := Nat.pow_le_pow_right (by norm_num) (by omega)
        rw [e1, nm_mk (by omega) (.inr (by omega)) (by rw [hp2]; omega), h, hp2, pow_succ]
        push_cast
        have : (0 : ℚ) < 2 ^ k := by positivity
        nlinarith
    push_cast
    linarith

/-- The same for ties to even. -/
theorem core_ne {p I k r : Nat} (hp : 2 ≤ p) {X : ℚ} (hk : k = 0 ∨ (2 ^ (p - 1) ≤ r ∧ ((2 ^ (p - 1) * 2 ^ k : Nat) : ℚ) ≤ X)) (hr : r ≤ 2 ^ p)
    (hI : k * 2 ^ (p - 1) + r ≤ I) (hl : r = 0 ∨ (2 * r - 1) * 2 ^ k ≤ 2 * X) (hh : 2 * X ≤ (2 * r + 1) * 2 ^ k)
    (htl : (2 * r - 1) * 2 ^ k = 2 * X → r % 2 = 0) (hth : 2 * X = (2 * r + 1) * 2 ^ k → r % 2 = 0) :
    Rne p I (k * 2 ^ (p - 1) + r) X := by
  have hp2 : 2 ^ p = 2 * 2 ^ (p - 1) := by rw [← pow_succ']; congr 1; omega
  have hb : nm p (k * 2 ^ (p - 1) + r) = r * 2 ^ k := nm_mk (by omega) (by omega) hr
  have hpar : r % 2 = 0 → (k * 2 ^ (p - 1) + r) % 2 = 0 := by
    intro h
    have : 2 ^ (p - 1) = 2 * 2 ^ (p - 2) := by rw [← pow_succ']; congr 1; omega
    rw [this, show k * (2 * 2 ^ (p - 2)) = 2 * (k * 2 ^ (p - 2)) by ring]
    omega
  have hrd := core hp hk hr hI hl hh
  refine ⟨hrd, fun h0 e => hpar ?_, fun h0 e => hpar ?_⟩
  · rw [hb] at e
    by_cases hc : k ≠ 0 ∧ r = 2 ^ (p - 1)
    · have h1 := hk.resolve_left hc.1
      have h2 : (nm p (k * 2 ^ (p - 1) + r - 1) : ℚ) < nm p (k * 2 ^ (p - 1) + r) := by exact_mod_cast nm_lt (by omega) (by omega)
      rw [hb] at h2
      have h3 := h1.2
      rw [← hc.2] at h3
      linarith
    · have hr0 : r ≠ 0 := by
        rintro rfl
        rcases hk with hk | hk
        · subst hk; simp at h0
        · have : 0 < 2 ^ (p - 1) := by positivity
          omega
      obtain ⟨r', rfl⟩ : ∃ r', r = r' + 1 := ⟨_, (Nat.succ_pred_eq_of_ne_zero hr0).symm⟩
      have h1 : nm p (k * 2 ^ (p - 1) + (r' + 1) - 1) = r' * 2 ^ k := by
        rw [show k * 2 ^ (p - 1) + (r' + 1) - 1 = k * 2 ^ (p - 1) + r' from rfl]
        exact nm_mk (by omega) (by omega) (by omega)
      rw [h1] at e
      apply htl
      push_cast at e ⊢
      linarith
  · rw [hb] at e
    have h1 : ((r : ℚ) + 1) * 2 ^ k ≤ nm p (k * 2 ^ (p - 1) + r + 1) := by
      rcases Nat.lt_or_eq_of_le hr with h | h
      · rw [Nat.add_assoc, nm_mk (by omega) (by omega) (by omega)]; push_cast; exact le_refl _
      · have e1 : k * 2 ^ (p - 1) + r + 1 = (k + 1) * 2 ^ (p - 1) + (2 ^ (p - 1) + 1) := by rw [h, hp2]; ring
        have h5 : 2 ^ 1 ≤ 2 ^ (p - 1) := Nat.pow_le_pow_right (by norm_num) (by omega)
        rw [e1, nm_mk (by omega) (.inr (by omega)) (by rw [hp2]; omega), h, hp2, pow_succ]
        push_cast
        have : (0 : ℚ) < 2 ^ k := by positivity
        nlinarith
    apply hth
    push_cast at e ⊢
    linarith

end STL.FloatConv
