import Verif.Duration.Model
import Verif.Tac
import Mathlib.Data.Nat.GCD.Basic
import Mathlib.Data.Int.GCD
import Mathlib.Data.Rat.Cast.Order
import Mathlib.Tactic.FieldSimp
import Mathlib.Tactic.Positivity
import Mathlib.Tactic.NormNum

/-!
# Property C13: duration conversions and rounding
-/

namespace STL.Duration
open STL

namespace Spec

/-- A duration type the library accepts: positive reduced period, a signed representation of 32 to 64 bits. -/
structure Good (p : Ty) : Prop where
  num_pos : 0 < p.num
  den_pos : 0 < p.den
  red : Nat.Coprime p.num p.den
  w_lo : 32 ≤ p.w
  w_le : p.w ≤ 64

/-- The length of time, in seconds, that the count `c` of a duration of type `p` means. -/
def val (p : Ty) (c : Int) : ℚ := c * p.num / p.den

/-- `c` is representable in `w` signed bits. -/
def Fits (w : Nat) (c : Int) : Prop := -(2 ^ (w - 1) : Int) ≤ c ∧ c < 2 ^ (w - 1)

/-- The tick of the common type: the largest period dividing both. -/
def tick (p q : Ty) : ℚ := (Nat.gcd p.num q.num : ℚ) / (Nat.lcm p.den q.den : ℚ)

/-- The argument and its neighbours in the target type can be expressed in the common type, and the target counts within
one target tick of the argument can be expressed in the target type. -/
structure InRange (p q : Ty) (c : Int) : Prop where
  head : |val p c| + val q 1 < 2 ^ (max p.w q.w - 1) * tick p q
  fit : ∀ r : Int, |val q r - val p c| ≤ val q 1 → Fits q.w r

end Spec
open Spec

theorem gcdLoop_eq (a b : Nat) : gcdLoop a b = Nat.gcd a b := by
  fun_induction gcdLoop a b with
  | case1 a => simp
  | case2 a b h ih => rw [ih, Nat.gcd_comm a b, Nat.gcd_rec b a, Nat.gcd_comm]

theorem gcd_eq (a b : Nat) (h : 0 < a ∨ 0 < b) : gcd a b = Nat.gcd a b := by
  unfold gcd; rw [if_neg (by omega), gcdLoop_eq]

theorem lcm_eq (a b : Nat) (h : 0 < a) : lcm a b = Nat.lcm a b := by
  unfold lcm; rw [gcd_eq _ _ (.inl h)]
  unfold Nat.lcm
  rw [Nat.div_mul_right_comm (Nat.gcd_dvd_left a b)]

theorem mkRatio_red (n d : Nat) (hn : 0 < n) (h : Nat.Coprime n d) : mkRatio n d = (n, d) := by
  unfold mkRatio; rw [gcd_eq _ _ (.inl hn), h]; simp

/-- how many common ticks are in one tick of `p` -/
def A (p q : Ty) : Nat := p.num / Nat.gcd p.num q.num * (q.den / Nat.gcd p.den q.den)

theorem A_pos {p q : Ty} (hp : Good p) (hq : Good q) : 0 < A p q :=
  Nat.mul_pos (Nat.div_pos (Nat.gcd_le_left _ hp.num_pos) (Nat.gcd_pos_of_pos_left _ hp.num_pos))
    (Nat.div_pos (Nat.gcd_le_right _ hq.den_pos) (Nat.gcd_pos_of_pos_right _ hq.den_pos))

/-- decomposition of the two periods -/
theorem decomp {p q : Ty} (hp : Good p) (hq : Good q) : ∃ g a b d e f : Nat,
    p.num = g * a ∧ q.num = g * b ∧ p.den = d * e ∧ q.den = d * f ∧ Nat.gcd p.num q.num = g ∧ Nat.gcd p.den q.den = d ∧
    Nat.Coprime a b ∧ Nat.Coprime e f ∧ 0 < g ∧ 0 < a ∧ 0 < b ∧ 0 < d ∧ 0 < e ∧ 0 < f := by
  have g0 : 0 < Nat.gcd p.num q.num := Nat.gcd_pos_of_pos_left _ hp.num_pos
  have d0 : 0 < Nat.gcd p.den q.den := Nat.gcd_pos_of_pos_left _ hp.den_pos
  refine ⟨Nat.gcd p.num q.num, p.num / Nat.gcd p.num q.num, q.num / Nat.gcd p.num q.num, Nat.gcd p.den q.den,
    p.den / Nat.gcd p.den q.den, q.den / Nat.gcd p.den q.den,
    (Nat.mul_div_cancel' (Nat.gcd_dvd_left _ _)).symm, (Nat.mul_div_cancel' (Nat.gcd_dvd_right _ _)).symm,
    (Nat.mul_div_cancel' (Nat.gcd_dvd_left _ _)).symm, (Nat.mul_div_cancel' (Nat.gcd_dvd_right _ _)).symm, rfl, rfl,
    Nat.coprime_div_gcd_div_gcd g0, Nat.coprime_div_gcd_div_gcd d0, g0, ?_, ?_, d0, ?_, ?_⟩
  · exact Nat.div_pos (Nat.gcd_le_left _ hp.num_pos) g0
  · exact Nat.div_pos (Nat.gcd_le_right _ hq.num_pos) g0
  · exact Nat.div_pos (Nat.gcd_le_left _ hp.den_pos) d0
  · exact Nat.div_pos (Nat.gcd_le_right _ hq.den_pos) d0

theorem lcm_decomp (d e f : Nat) (h : Nat.Coprime e f) : Nat.lcm (d * e) (d * f) = d * e * f := by
  rw [Nat.lcm_mul_left, h.lcm_eq_mul, Nat.mul_assoc]

theorem A_comm_coprime {p q : Ty} (hp : Good p) (hq : Good q) : Nat.Coprime (A p q) (A q p) := by
  obtain ⟨g, a, b, d, e, f, h1, h2, h3, h4, h5, h6, h7, h8, g0, a0, b0, d0, e0, f0⟩ := decomp hp hq
  have e1 : A p q = a * f := by
    unfold A; rw [h5, h6, h1, h4, Nat.mul_div_cancel_left _ g0, Nat.mul_div_cancel_left _ d0]
  have e2 : A q p = b * e := by
    unfold A; rw [Nat.gcd_comm q.num, Nat.gcd_comm q.den, h5, h6, h2, h3, Nat.mul_div_cancel_left _ g0, Nat.mul_div_cancel_left _ d0]
  rw [e1, e2]
  have c1 := hp.red; have c2 := hq.red
  rw [h1, h3] at c1; rw [h2, h4] at c2
  have x1 : Nat.Coprime a e := (c1.coprime_mul_left).coprime_mul_left_right
  have x2 : Nat.Coprime b f := (c2.coprime_mul_left).coprime_mul_left_right
  exact Nat.Coprime.mul_left (h7.mul_right x1) (Nat.Coprime.mul_right x2.symm h8.symm)

theorem ratioDiv_eq {p q : Ty} (hp : Good p) (hq : Good q) : ratioDiv (p.num, p.den) (q.num, q.den) = (A p q, A q p) := by
  unfold ratioDiv ratioMul
  simp only
  rw [mkRatio_red q.den q.num hq.den_pos hq.red.symm]
  simp only
  rw [gcd_eq _ _ (.inl hp.num_pos), gcd_eq q.den p.den (.inl hq.den_pos), Nat.gcd_comm q.den p.den]
  have : p.den / Nat.gcd p.den q.den * (q.num / Nat.gcd p.num q.num) = A q p := by
    unfold A; rw [Nat.gcd_comm q.num, Nat.gcd_comm q.den, Nat.mul_comm]
  rw [this]
  exact mkRatio_red _ _ (A_pos hp hq) (A_comm_coprime hp hq)

theorem common_num_den {p q : Ty} (hp : Good p) (hq : Good q) :
    (common p q).num = Nat.gcd p.num q.num ∧ (common p q).den = Nat.lcm p.den q.den ∧ Nat.Coprime (Nat.gcd p.num q.num) (Nat.lcm p.den q.den) := by
  have hc : Nat.Coprime (Nat.gcd p.num q.num) (Nat.lcm p.den q.den) := by
    have h1 : Nat.Coprime (Nat.gcd p.num q.num) p.den := Nat.Coprime.of_dvd_left (Nat.gcd_dvd_left _ _) hp.red
    have h2 : Nat.Coprime (Nat.gcd p.num q.num) q.den := Nat.Coprime.of_dvd_left (Nat.gcd_dvd_right _ _) hq.red
    exact Nat.Coprime.of_dvd_right (Nat.lcm_dvd_mul _ _) (h1.mul_right h2)
  unfold common
  rw [gcd_eq _ _ (.inl hp.num_pos), lcm_eq _ _ hp.den_pos, mkRatio_red _ _ (Nat.gcd_pos_of_pos_left _ hp.num_pos) hc]
  exact ⟨rfl, rfl, hc⟩

theorem common_good {p q : Ty} (hp : Good p) (hq : Good q) : Good (common p q) := by
  obtain ⟨h1, h2, h3⟩ := common_num_den hp hq
  refine ⟨?_, ?_, ?_, ?_, ?_⟩
  · rw [h1]; exact Nat.gcd_pos_of_pos_left _ hp.num_pos
  · rw [h2]; exact Nat.lcm_pos hp.den_pos hq.den_pos
  · rw [h1, h2]; exact h3
  · have := hp.w_lo; simp only [common]; omega
  · have := hp.w_le; have := hq.w_le; simp only [common]; omega

theorem common_comm {p q : Ty} (hp : Good p) (hq : Good q) : common q p = common p q := by
  obtain ⟨h1, h2, _⟩ := common_num_den hp hq
  obtain ⟨g1, g2, _⟩ := common_num_den hq hp
  have w : (common q p).w = (common p q).w := by simp only [common]; omega
  cases hc : common q p with | mk a b c =>
  cases hd : common p q with | mk a' b' c' =>
  rw [hc, hd] at w; rw [hc] at g1 g2; rw [hd] at h1 h2
  simp only at *
  rw [w, g1, g2, h1, h2, Nat.gcd_comm, Nat.lcm_comm]

theorem A_common {p q : Ty} (hp : Good p) (hq : Good q) : A p (common p q) = A p q ∧ A (common p q) p = 1 := by
  obtain ⟨h1, h2, _⟩ := common_num_den hp hq
  obtain ⟨g, a, b, d, e, f, k1, k2, k3, k4, k5, k6, k7, k8, g0, a0, b0, d0, e0, f0⟩ := decomp hp hq
  have e1 : Nat.gcd p.num (Nat.gcd p.num q.num) = Nat.gcd p.num q.num := Nat.gcd_eq_right (Nat.gcd_dvd_left _ _)
  have e2 : Nat.gcd p.den (Nat.lcm p.den q.den) = p.den := Nat.gcd_eq_left (Nat.dvd_lcm_left _ _)
  have e3 : Nat.lcm p.den q.den = p.den * f := by rw [k3, k4, lcm_decomp _ _ _ k8]
  constructor
  · unfold A; rw [h1, h2, e1, e2, e3, Nat.mul_div_cancel_left _ hp.den_pos, k6, k4, Nat.mul_div_cancel_left _ d0]
  · unfold A; rw [h1, h2, Nat.gcd_comm _ p.num, Nat.gcd_comm _ p.den, e1, e2, Nat.div_self (by omega), Nat.div_self hp.den_pos]

theorem val_eq {p q : Ty} (hp : Good p) (hq : Good q) (c : Int) : val p c = ((c * A p q : Int) : ℚ) * tick p q := by
  obtain ⟨g, a, b, d, e, f, h1, h2, h3, h4, h5, h6, h7, h8, g0, a0, b0, d0, e0, f0⟩ := decomp hp hq
  have e1 : A p q = a * f := by
    unfold A; rw [h5, h6, h1, h4, Nat.mul_div_cancel_left _ g0, Nat.mul_div_cancel_left _ d0]
  have e2 : Nat.lcm p.den q.den = d * e * f := by rw [h3, h4, lcm_decomp _ _ _ h8]
  unfold val tick
  rw [h5, e2, e1, h1, h3]
  push_cast
  have : (d : ℚ) ≠ 0 := by positivity
  have : (e : ℚ) ≠ 0 := by positivity
  have : (f : ℚ) ≠ 0 := by positivity
  field_simp

theorem tick_pos {p q : Ty} (hp : Good p) (hq : Good q) : 0 < tick p q := by
  unfold tick
  have : 0 < Nat.gcd p.num q.num := Nat.gcd_pos_of_pos_left _ hp.num_pos
  have : 0 < Nat.lcm p.den q.den := Nat.lcm_pos hp.den_pos hq.den_pos
  positivity

theorem tick_comm (p q : Ty) : tick q p = tick p q := by unfold tick; rw [Nat.gcd_comm, Nat.lcm_comm]

theorem val_eq' {p q : Ty} (hp : Good p) (hq : Good q) (c : Int) : val q c = ((c * A q p : Int) : ℚ) * tick p q := by
  rw [val_eq hq hp, tick_comm p q]

/-- order of values is order of common-tick counts -/
theorem val_lt {p q : Ty} (hp : Good p) (hq : Good q) (a b : Int) : val p a < val q b ↔ a * A p q < b * A q p := by
  rw [val_eq hp hq a, val_eq' hp hq b, mul_lt_mul_iff_left₀ (tick_pos hp hq)]
  exact_mod_cast Iff.rfl

theorem toS_id {w : Nat} (hw : 1 ≤ w) {v : Int} (h : Fits w v) : toS w v = v := by
  obtain ⟨k, rfl⟩ : ∃ k, w = k + 1 := ⟨w - 1, by omega⟩
  unfold Fits at h
  unfold toS
  simp only [Nat.add_sub_cancel] at *
  rw [Int.emod_eq_of_lt (by omega) (by rw [pow_succ]; omega)]; omega

theorem fits_mono {w w' : Nat} (hw : w ≤ w') {v : Int} (h : Fits w v) : Fits w' v := by
  unfold Fits at *
  have : (2 : Int) ^ (w - 1) ≤ 2 ^ (w' - 1) := pow_le_pow_right₀ (by norm_num) (by omega)
  omega

theorem chkS_ok {w : Nat} {v : Int} (h : Fits w v) : chkS w v = .ok v := by
  unfold Fits at h; unfold chkS; rw [if_pos h]

theorem cast_spec {p q : Ty} (hp : Good p) (hq : Good q) (c : Int) (h1 : Fits 64 (c * A p q))
    (h2 : Fits q.w (Int.tdiv (c * A p q) (A q p))) : cast p q c = .ok (Int.tdiv (c * A p q) (A q p)) := by
  unfold cast
  rw [ratioDiv_eq hp hq]
  simp only
  have l : chkL (c * (A p q : Int)) = .ok (c * A p q) := chkS_ok h1
  split
  · rename_i e
    rw [e] at h2 ⊢
    simp only [Nat.cast_one, Int.tdiv_one] at h2 ⊢
    split
    · rename_i e'
      rw [e'] at h2 ⊢
      simp only [Nat.cast_one, mul_one] at h2 ⊢
      rw [toS_id (by have := hq.w_lo; omega) h2]
    · rw [l, R.ok_bind, toS_id (by have := hq.w_lo; omega) h2]
  · split
    · rename_i e'
      rw [e'] at h2 ⊢
      simp only [Nat.cast_one, mul_one] at h2 ⊢
      unfold cdiv
      rw [toS_id (by have := hq.w_lo; omega) h2]
    · rw [l, R.ok_bind]; unfold cdiv; rw [toS_id (by have := hq.w_lo; omega) h2]

theorem cast_common {p q : Ty} (hp : Good p) (hq : Good q) (c : Int) (h : Fits (max p.w q.w) (c * A p q)) :
    cast p (common p q) c = .ok (c * A p q) := by
  obtain ⟨e1, e2⟩ := A_common hp hq
  have hg := common_good hp hq
  have hw : (common p q).w = max p.w q.w := rfl
  have := cast_spec hp hg c (by rw [e1]; exact fits_mono (by have := hp.w_le; have := hq.w_le; omega) h)
    (by rw [e1, e2, hw]; simpa using h)
  rw [this, e1, e2]; simp

theorem cast_common' {p q : Ty} (hp : Good p) (hq : Good q) (c : Int) (h : Fits (max p.w q.w) (c * A q p)) :
    cast q (common p q) c = .ok (c * A q p) := by
  rw [← common_comm hp hq]; exact cast_common hq hp c (by rwa [Nat.max_comm])

theorem less_spec {p q : Ty} (hp : Good p) (hq : Good q) (a b : Int) (ha : Fits (max p.w q.w) (a * A p q))
    (hb : Fits (max p.w q.w) (b * A q p)) : less p q a b = .ok (decide (a * A p q < b * A q p)) := by
  unfold less; rw [cast_common hp hq a ha, R.ok_bind, cast_common' hp hq b hb, R.ok_bind]

/-- the range hypothesis in common ticks -/
theorem inRange_ticks {p q : Ty} (hp : Good p) (hq : Good q) {c : Int} (h : InRange p q c) :
    |c * A p q| + A q p < (2 : Int) ^ (max p.w q.w - 1) ∧
      ∀ r : Int, |r * A q p - c * A p q| ≤ A q p → Fits q.w r := by
  have ht := tick_pos hp hq
  constructor
  · have := h.head
    rw [val_eq hp hq, val_eq' hp hq, abs_mul, abs_of_pos ht, ← add_mul, mul_lt_mul_iff_left₀ ht] at this
    have : ((|c * A p q| + 1 * A q p : Int) : ℚ) < ((2 ^ (max p.w q.w - 1) : Int) : ℚ) := by push_cast; push_cast at this; exact this
    have := Int.cast_lt.1 this
    omega
  · intro r hr
    apply h.fit
    rw [val_eq hp hq, val_eq' hp hq, val_eq' hp hq, ← sub_mul, abs_mul, abs_of_pos ht, mul_le_mul_iff_left₀ ht]
    have : ((|r * A q p - c * A p q| : Int) : ℚ) ≤ ((1 * A q p : Int) : ℚ) := Int.cast_le.2 (by omega)
    push_cast at this ⊢
    exact this

/-- the truncated quotient, related to the exact one -/
theorem tdiv_bounds (x : Int) (b : Nat) (hb : 0 < b) : ∃ t, Int.tdiv x b = t ∧ |t * b| ≤ |x| ∧ |x - t * b| < b ∧
    (0 ≤ x → 0 ≤ x - t * b) ∧ (x ≤ 0 → x - t * b ≤ 0) := by
  refine ⟨_, rfl, ?_⟩
  have e : x - Int.tdiv x b * b = Int.tmod x b := by have := Int.mul_tdiv_add_tmod x b; linarith
  have hb' : (0 : Int) < b := by exact_mod_cast hb
  have hl : |Int.tmod x b| < b := by
    rw [abs_lt]; exact ⟨by have := Int.lt_tmod_of_pos x hb'; omega, Int.tmod_lt_of_pos x hb'⟩
  have h1 : 0 ≤ x → 0 ≤ Int.tmod x b := fun h => Int.tmod_nonneg _ h
  have h2 : x ≤ 0 → Int.tmod x b ≤ 0 := fun h => by
    have := Int.tmod_nonneg (b : Int) (show 0 ≤ -x by omega)
    rw [Int.neg_tmod] at this; omega
  have h3 : 0 ≤ x → 0 ≤ Int.tdiv x b := fun h => Int.tdiv_nonneg h (by omega)
  have h4 : x ≤ 0 → Int.tdiv x b ≤ 0 := fun h => by
    have := Int.tdiv_nonneg (show 0 ≤ -x by omega) (show (0 : Int) ≤ b by omega)
    rw [Int.neg_tdiv] at this; omega
  refine ⟨?_, by rw [e]; exact hl, by rw [e]; exact h1, by rw [e]; exact h2⟩
  rcases le_total 0 x with h | h
  · have := h1 h; have h3 := h3 h
    have : 0 ≤ Int.tdiv x b * b := by positivity
    rw [abs_of_nonneg this, abs_of_nonneg h]; omega
  · have := h2 h; have h4 := h4 h
    have : Int.tdiv x b * b ≤ 0 := mul_nonpos_of_nonpos_of_nonneg h4 (by omega)
    rw [abs_of_nonpos this, abs_of_nonpos h]; omega

/-- **C13.** `duration_cast` is the exact quotient truncated toward zero, whenever the intermediate product and the result
are representable. -/
theorem C13_duration_cast {p q : Ty} (hp : Good p) (hq : Good q) (c : Int)
    (hmul : |val p c| < 2 ^ 63 * tick p q)
    (hfit : ∀ r : Int, |val q r| ≤ |val p c| → Fits q.w r) :
    ∃ r, cast p q c = .ok r ∧ |val q r| ≤ |val p c| ∧ |val p c - val q r| < val q 1 ∧
      (0 ≤ c → val q r ≤ val p c) ∧ (c ≤ 0 → val p c ≤ val q r) := by
  obtain ⟨t, ht, h1, h2, h3, h4⟩ := tdiv_bounds (c * A p q) (A q p) (A_pos hq hp)
  have hu := tick_pos hp hq
  have hAp : (0 : Int) < A p q := by exact_mod_cast A_pos hp hq
  have v1 : |val q t| ≤ |val p c| := by
    rw [val_eq hp hq, val_eq' hp hq, abs_mul, abs_mul, abs_of_pos hu, mul_le_mul_iff_left₀ hu]
    exact_mod_cast h1
  refine ⟨t, ?_, v1, ?_, ?_, ?_⟩
  · rw [← ht]
    apply cast_spec hp hq
    · rw [val_eq hp hq, abs_mul, abs_of_pos hu, mul_lt_mul_iff_left₀ hu] at hmul
      have : |c * (A p q : Int)| < 2 ^ 63 := by exact_mod_cast hmul
      rw [abs_lt] at this
      unfold Fits; norm_num at this ⊢; omega
    · rw [ht]; exact hfit t v1
  · rw [val_eq hp hq, val_eq' hp hq, val_eq' hp hq, ← sub_mul, abs_mul, abs_of_pos hu, mul_lt_mul_iff_left₀ hu]
    have : ((|c * A p q - t * A q p| : Int) : ℚ) < ((1 * A q p : Int) : ℚ) := Int.cast_lt.2 (by omega)
    push_cast at this ⊢
    exact this
  · intro hc
    have := h3 (by positivity)
    rw [val_eq hp hq, val_eq' hp hq, mul_le_mul_iff_left₀ hu]
    exact Int.cast_le.2 (by omega)
  · intro hc
    have := h4 (mul_nonpos_of_nonpos_of_nonneg hc (by omega))
    rw [val_eq hp hq, val_eq' hp hq, mul_le_mul_iff_left₀ hu]
    exact Int.cast_le.2 (by omega)

/-- **C13.** Comparisons of durations of different periods are exact whenever both are representable in the common type. -/
theorem C13_compare {p q : Ty} (hp : Good p) (hq : Good q) (a b : Int)
    (ha : |val p a| < 2 ^ (max p.w q.w - 1) * tick p q) (hb : |val q b| < 2 ^ (max p.w q.w - 1) * tick p q) :
    less p q a b = .ok (decide (val p a < val q b)) ∧ equal p q a b = .ok (decide (val p a = val q b)) := by
  have hu := tick_pos hp hq
  have fa : Fits (max p.w q.w) (a * A p q) := by
    rw [val_eq hp hq, abs_mul, abs_of_pos hu, mul_lt_mul_iff_left₀ hu] at ha
    have : |a * (A p q : Int)| < 2 ^ (max p.w q.w - 1) := by exact_mod_cast ha
    rw [abs_lt] at this; exact ⟨by omega, this.2⟩
  have fb : Fits (max p.w q.w) (b * A q p) := by
    rw [val_eq' hp hq, abs_mul, abs_of_pos hu, mul_lt_mul_iff_left₀ hu] at hb
    have : |b * (A q p : Int)| < 2 ^ (max p.w q.w - 1) := by exact_mod_cast hb
    rw [abs_lt] at this; exact ⟨by omega, this.2⟩
  constructor
  · rw [less_spec hp hq a b fa fb]
    congr 1; exact (decide_eq_decide.2 (val_lt hp hq a b)).symm
  · unfold equal; rw [cast_common hp hq a fa, R.ok_bind, cast_common' hp hq b fb, R.ok_bind]
    congr 1; apply decide_eq_decide.2
    rw [val_eq hp hq, val_eq' hp hq, mul_left_inj' hu.ne']
    exact_mod_cast Iff.rfl

theorem le_mul_tick {p q : Ty} (hp : Good p) (hq : Good q) (x y : Int) : (x : ℚ) * tick p q ≤ y * tick p q ↔ x ≤ y := by
  rw [mul_le_mul_iff_left₀ (tick_pos hp hq), Int.cast_le]
theorem lt_mul_tick {p q : Ty} (hp : Good p) (hq : Good q) (x y : Int) : (x : ℚ) * tick p q < y * tick p q ↔ x < y := by
  rw [mul_lt_mul_iff_left₀ (tick_pos hp hq), Int.cast_lt]

theorem floor_ticks {p q : Ty} (hp : Good p) (hq : Good q) (c : Int) (h : InRange p q c) :
    ∃ r, floor p q c = .ok r ∧ r * A q p ≤ c * A p q ∧ c * A p q < (r + 1) * A q p := by
  obtain ⟨hh, hf⟩ := inRange_ticks hp hq h
  have hB : (0 : Int) < A q p := by exact_mod_cast A_pos hq hp
  obtain ⟨t, ht, h1, h2, h3, h4⟩ := tdiv_bounds (c * A p q) (A q p) (A_pos hq hp)
  generalize hx : c * (A p q : Int) = X at *
  have hft : Fits q.w t := hf t (by rw [abs_sub_comm]; exact h2.le)
  have hW : max p.w q.w ≤ 64 := by have := hp.w_le; have := hq.w_le; omega
  have fX : Fits (max p.w q.w) X := by
    have := abs_lt.1 (lt_of_le_of_lt (le_add_of_nonneg_right hB.le) hh); exact ⟨by omega, this.2⟩
  have ft : Fits (max p.w q.w) (t * A q p) := by
    have := abs_lt.1 (lt_of_le_of_lt h1 (lt_of_le_of_lt (le_add_of_nonneg_right hB.le) hh)); exact ⟨by omega, this.2⟩
  have hcast : cast p q c = .ok t := by
    rw [← ht, ← hx]; exact cast_spec hp hq c (by rw [hx]; exact fits_mono hW fX) (by rw [hx, ht]; exact hft)
  unfold floor
  rw [hcast, R.ok_bind, less_spec hp hq c t (by rw [hx]; exact fX) ft, R.ok_bind, hx]
  rw [abs_lt] at h2
  by_cases hlt : X < t * A q p
  · rw [if_pos (by simpa using hlt)]
    have e : (t - 1) * (A q p : Int) = t * A q p - A q p := by ring
    refine ⟨t - 1, chkS_ok (hf _ ?_), by rw [e]; omega, by rw [show t - 1 + 1 = t by ring]; exact hlt⟩
    rw [e, abs_le]; omega
  · rw [if_neg (by simpa using hlt)]
    refine ⟨t, rfl, by omega, ?_⟩
    rw [add_mul]; omega

/-- **C13.** `floor` is the greatest target duration not greater than the argument. -/
theorem C13_floor {p q : Ty} (hp : Good p) (hq : Good q) (c : Int) (h : InRange p q c) :
    ∃ r, floor p q c = .ok r ∧ val q r ≤ val p c ∧ ∀ s, val q s ≤ val p c → s ≤ r := by
  obtain ⟨r, h1, h2, h3⟩ := floor_ticks hp hq c h
  have hB : (0 : Int) < A q p := by exact_mod_cast A_pos hq hp
  refine ⟨r, h1, ?_, fun s hs => ?_⟩
  · rw [val_eq hp hq, val_eq' hp hq, le_mul_tick hp hq]; exact h2
  · rw [val_eq hp hq, val_eq' hp hq, le_mul_tick hp hq] at hs
    have := lt_of_mul_lt_mul_right (lt_of_le_of_lt hs h3) hB.le
    omega

/-- **C13.** `ceil` is the least target duration not less than the argument. -/
theorem C13_ceil {p q : Ty} (hp : Good p) (hq : Good q) (c : Int) (h : InRange p q c) :
    ∃ r, ceil p q c = .ok r ∧ val p c ≤ val q r ∧ ∀ s, val p c ≤ val q s → r ≤ s := by
  obtain ⟨hh, hf⟩ := inRange_ticks hp hq h
  have hB : (0 : Int) < A q p := by exact_mod_cast A_pos hq hp
  obtain ⟨t, ht, h1, h2, h3, h4⟩ := tdiv_bounds (c * A p q) (A q p) (A_pos hq hp)
  suffices hs : ∃ r, ceil p q c = .ok r ∧ c * A p q ≤ r * A q p ∧ (r - 1) * A q p < c * A p q by
    obtain ⟨r, g1, g2, g3⟩ := hs
    refine ⟨r, g1, ?_, fun s hs => ?_⟩
    · rw [val_eq hp hq, val_eq' hp hq, le_mul_tick hp hq]; exact g2
    · rw [val_eq hp hq, val_eq' hp hq, le_mul_tick hp hq] at hs
      have := lt_of_mul_lt_mul_right (lt_of_lt_of_le g3 hs) hB.le
      omega
  generalize hx : c * (A p q : Int) = X at *
  have hft : Fits q.w t := hf t (by rw [abs_sub_comm]; exact h2.le)
  have hW : max p.w q.w ≤ 64 := by have := hp.w_le; have := hq.w_le; omega
  have fX : Fits (max p.w q.w) X := by
    have := abs_lt.1 (lt_of_le_of_lt (le_add_of_nonneg_right hB.le) hh); exact ⟨by omega, this.2⟩
  have ft : Fits (max p.w q.w) (t * A q p) := by
    have := abs_lt.1 (lt_of_le_of_lt h1 (lt_of_le_of_lt (le_add_of_nonneg_right hB.le) hh)); exact ⟨by omega, this.2⟩
  have hcast : cast p q c = .ok t := by
    rw [← ht, ← hx]; exact cast_spec hp hq c (by rw [hx]; exact fits_mono hW fX) (by rw [hx, ht]; exact hft)
  unfold ceil
  rw [hcast, R.ok_bind, less_spec hq hp t c (by rwa [Nat.max_comm]) (by rw [hx, Nat.max_comm]; exact fX), R.ok_bind, hx]
  rw [abs_lt] at h2
  by_cases hlt : t * A q p < X
  · rw [if_pos (by simpa using hlt)]
    have e : (t + 1) * (A q p : Int) = t * A q p + A q p := by ring
    refine ⟨t + 1, chkS_ok (hf _ ?_), by rw [e]; omega, by rw [show t + 1 - 1 = t by ring]; exact hlt⟩
    rw [e, abs_le]; omega
  · rw [if_neg (by simpa using hlt)]
    refine ⟨t, rfl, by omega, ?_⟩
    rw [sub_mul]; omega

theorem A_self {p : Ty} (hp : Good p) : A p p = 1 := by
  unfold A; simp [Nat.div_self hp.num_pos, Nat.div_self hp.den_pos]

theorem common_self {p : Ty} (hp : Good p) : common p p = p := by
  obtain ⟨h1, h2, _⟩ := common_num_den hp hp
  have hw : (common p p).w = p.w := by simp [common]
  cases hc : common p p with | mk a b c =>
  rw [hc] at h1 h2 hw; simp at *; subst hw h1 h2; rfl

/-- **C13.** `round` is the nearest target duration, the even one when two are equally near. -/
theorem C13_round {p q : Ty} (hp : Good p) (hq : Good q) (c : Int) (h : InRange p q c) :
    ∃ r, round p q c = .ok r ∧ (∀ s, |val p c - val q r| ≤ |val p c - val q s|) ∧
      (∀ s, s ≠ r → |val p c - val q s| = |val p c - val q r| → 2 ∣ r) := by
  obtain ⟨f, hf1, hf2, hf3⟩ := floor_ticks hp hq c h
  obtain ⟨hh, hfit⟩ := inRange_ticks hp hq h
  have hB : (0 : Int) < A q p := by exact_mod_cast A_pos hq hp
  have hu := tick_pos hp hq
  suffices hs : ∃ r, round p q c = .ok r ∧ (∀ s : Int, |c * A p q - r * A q p| ≤ |c * A p q - s * A q p|) ∧
      (∀ s : Int, s ≠ r → |c * A p q - s * A q p| = |c * A p q - r * A q p| → 2 ∣ r) by
    obtain ⟨r, g1, g2, g3⟩ := hs
    have conv : ∀ s, |val p c - val q s| = (|c * A p q - s * A q p| : Int) * tick p q := by
      intro s
      rw [val_eq hp hq, val_eq' hp hq, ← sub_mul, abs_mul, abs_of_pos hu]; push_cast; rfl
    refine ⟨r, g1, fun s => ?_, fun s hs he => g3 s hs ?_⟩
    · rw [conv, conv, le_mul_tick hp hq]; exact g2 s
    · rw [conv, conv, mul_left_inj' hu.ne'] at he; exact_mod_cast he
  generalize hx : c * (A p q : Int) = X at *
  have e1 : (f + 1) * (A q p : Int) = f * A q p + A q p := by ring
  rw [e1] at hf3
  have hff : Fits q.w f := hfit f (by rw [abs_le]; omega)
  have hff1 : Fits q.w (f + 1) := hfit (f + 1) (by rw [e1, abs_le]; omega)
  obtain ⟨hl1, hl2⟩ := abs_lt.1 (show |X| < 2 ^ (max p.w q.w - 1) - A q p by omega)
  have h1w : Fits q.w (1 : Int) := by
    unfold Fits
    have : (2 : Int) ^ 1 ≤ 2 ^ (q.w - 1) := pow_le_pow_right₀ (by norm_num) (by have := hq.w_lo; omega)
    omega
  have hwq : (common q q).w = q.w := by rw [common_self hq]
  have hplus : plus q q f 1 = .ok (f + 1) := by
    unfold plus
    rw [cast_common hq hq f (by simpa [A_self hq] using hff), R.ok_bind, cast_common hq hq 1 (by simpa [A_self hq] using h1w), R.ok_bind,
      A_self hq, hwq]
    simpa using chkS_ok hff1
  have hwc : (common p q).w = max p.w q.w := rfl
  have hwc' : (common q p).w = max p.w q.w := by rw [common_comm hp hq]; rfl
  have fX : Fits (max p.w q.w) X := ⟨by omega, by omega⟩
  have ff : Fits (max p.w q.w) (f * A q p) := ⟨by omega, by omega⟩
  have ff1 : Fits (max p.w q.w) ((f + 1) * A q p) := by rw [e1]; exact ⟨by omega, by omega⟩
  have d1 : Fits (max p.w q.w) (X - f * A q p) := ⟨by omega, by omega⟩
  have d2 : Fits (max p.w q.w) ((f + 1) * A q p - X) := by rw [e1]; exact ⟨by omega, by omega⟩
  have hfa : minus p q c f = .ok (X - f * A q p) := by
    unfold minus
    rw [cast_common hp hq c (by rw [hx]; exact fX), R.ok_bind, cast_common' hp hq f ff, R.ok_bind, hx, hwc]
    exact chkS_ok d1
  have hca : minus q p (f + 1) c = .ok ((f + 1) * A q p - X) := by
    unfold minus
    rw [cast_common hq hp (f + 1) (by rw [Nat.max_comm]; exact ff1), R.ok_bind,
      cast_common' hq hp c (by rw [hx, Nat.max_comm]; exact fX), R.ok_bind, hx, hwc']
    exact chkS_ok d2
  have hC := common_good hp hq
  have hCC := common_self hC
  have hl : less (common p q) (common q p) (X - f * A q p) ((f + 1) * A q p - X) =
      .ok (decide (X - f * A q p < (f + 1) * A q p - X)) := by
    rw [common_comm hp hq, less_spec hC hC _ _ (by simpa [A_self hC, hwc] using d1) (by simpa [A_self hC, hwc] using d2), A_self hC]
    simp
  have he : equal (common p q) (common q p) (X - f * A q p) ((f + 1) * A q p - X) =
      .ok (decide (X - f * A q p = (f + 1) * A q p - X)) := by
    rw [common_comm hp hq]; unfold equal
    rw [cast_common hC hC _ (by simpa [A_self hC, hwc] using d1), R.ok_bind,
      cast_common hC hC _ (by simpa [A_self hC, hwc] using d2), R.ok_bind, A_self hC]
    simp
  have hr : round p q c = .ok (if (decide (X - f * A q p < (f + 1) * A q p - X) ||
      (decide (X - f * A q p = (f + 1) * A q p - X) && Int.tmod f 2 == 0)) = true then f else f + 1) := by
    unfold round
    rw [hf1, R.ok_bind, hplus, R.ok_bind, hfa, R.ok_bind, hca, R.ok_bind, hl, R.ok_bind, he, R.ok_bind]
    split <;> rfl
  refine ⟨_, hr, ?_⟩
  -- distances of every candidate
  have far : ∀ s : Int, (s ≤ f → (f - s) * A q p + (X - f * A q p) = |X - s * A q p|) ∧
      (f + 1 ≤ s → (s - (f + 1)) * A q p + (f * A q p + A q p - X) = |X - s * A q p|) := by
    intro s
    constructor
    · intro hs
      have : 0 ≤ (f - s) * (A q p : Int) := mul_nonneg (by omega) hB.le
      have e : (f - s) * (A q p : Int) = f * A q p - s * A q p := by ring
      rw [abs_of_nonneg (by omega)]; omega
    · intro hs
      have : 0 ≤ (s - (f + 1)) * (A q p : Int) := mul_nonneg (by omega) hB.le
      have e : (s - (f + 1)) * (A q p : Int) = s * A q p - (f * A q p + A q p) := by ring
      rw [abs_of_nonpos (by omega)]; omega
  have df : |X - f * A q p| = X - f * A q p := abs_of_nonneg (by omega)
  have dc : |X - (f + 1) * A q p| = f * A q p + A q p - X := by rw [e1, abs_of_nonpos (by omega)]; omega
  have ge1 : ∀ k : Int, 1 ≤ k → (A q p : Int) ≤ k * A q p := fun k hk => by nlinarith
  have tm : ∀ z : Int, Int.tmod z 2 = 0 ↔ (2 : Int) ∣ z := fun z => ⟨Int.dvd_of_tmod_eq_zero, Int.tmod_eq_zero_of_dvd⟩
  rw [e1] at hr ⊢
  split
  · rename_i hcnd
    simp only [Bool.or_eq_true, Bool.and_eq_true, decide_eq_true_eq, beq_iff_eq] at hcnd
    have hle : X - f * A q p ≤ f * A q p + A q p - X := by rcases hcnd with h | h <;> omega
    refine ⟨fun s => ?_, fun s hs hse => ?_⟩
    · rw [df]
      rcases lt_or_ge f s with h | h
      · rw [← (far s).2 (by omega)]
        have : 0 ≤ (s - (f + 1)) * (A q p : Int) := mul_nonneg (by omega) hB.le
        omega
      · rw [← (far s).1 h]
        have : 0 ≤ (f - s) * (A q p : Int) := mul_nonneg (by omega) hB.le
        omega
    · rw [df] at hse
      rcases hcnd with h | h
      · exfalso
        rcases lt_or_ge f s with hk | hk
        · rw [← (far s).2 (by omega)] at hse
          have : 0 ≤ (s - (f + 1)) * (A q p : Int) := mul_nonneg (by omega) hB.le
          omega
        · rw [← (far s).1 hk] at hse
          have := ge1 (f - s) (by omega)
          omega
      · exact (tm f).1 h.2
  · rename_i hcnd
    simp only [Bool.or_eq_true, Bool.and_eq_true, decide_eq_true_eq, beq_iff_eq, not_or, not_and] at hcnd
    obtain ⟨hn1, hn2⟩ := hcnd
    refine ⟨fun s => ?_, fun s hs hse => ?_⟩
    · rw [dc]
      rcases lt_or_ge f s with h | h
      · rw [← (far s).2 (by omega)]
        have : 0 ≤ (s - (f + 1)) * (A q p : Int) := mul_nonneg (by omega) hB.le
        omega
      · rw [← (far s).1 h]
        have : 0 ≤ (f - s) * (A q p : Int) := mul_nonneg (by omega) hB.le
        omega
    · rw [dc] at hse
      rcases lt_or_ge f s with hk | hk
      · exfalso
        rw [← (far s).2 (by omega)] at hse
        have := ge1 (s - (f + 1)) (by omega)
        omega
      · rw [← (far s).1 hk] at hse
        have h0 : 0 ≤ (f - s) * (A q p : Int) := mul_nonneg (by omega) hB.le
        have := mt (tm f).2 (hn2 (by omega))
        omega

/-- **C13.** `abs` is the absolute value for every count but the most negative one (whose negation overflows). -/
theorem C13_abs {p : Ty} (hp : Good p) (c : Int) (h : Fits p.w c) (hmin : c ≠ -(2 ^ (p.w - 1))) :
    abs p c = .ok |c| := by
  unfold abs
  have h0 : Fits p.w (0 : Int) := by
    unfold Fits; have : (0 : Int) < 2 ^ (p.w - 1) := by positivity
    omega
  rw [less_spec hp hp c 0 (by simpa [A_self hp] using h) (by simpa [A_self hp] using h0), R.ok_bind, A_self hp]
  simp only [Nat.cast_one, mul_one, decide_eq_true_eq]
  unfold Fits at h
  split
  · rw [abs_of_neg (by assumption)]; exact chkS_ok (by unfold Fits; omega)
  · rw [abs_of_nonneg (by omega)]

/-- **C13.** Converting to a duration type whose period divides the argument's is exact, so converting there and back is the
identity. -/
theorem C13_finer_roundtrip {p q : Ty} (hp : Good p) (hq : Good q) (c : Int) (k : Nat)
    (hk : p.num * q.den = k * (q.num * p.den)) (hc : Fits p.w c) (hf : Fits q.w (c * k)) :
    ∃ r, cast p q c = .ok r ∧ val q r = val p c ∧ cast q p r = .ok c := by
  have hB : A q p = 1 := by
    have hcop := A_comm_coprime hp hq
    have h1 := val_eq hp hq 1
    have h2 := val_eq' hp hq k
    have h3 : val p 1 = val q k := by
      unfold val
      have := hp.den_pos; have := hq.den_pos
      have hh : (p.num * q.den : ℚ) = k * (q.num * p.den) := by exact_mod_cast hk
      rw [div_eq_div_iff (by positivity) (by positivity)]
      push_cast; linarith
    rw [h3, h2, mul_left_inj' (tick_pos hp hq).ne'] at h1
    have h4 : (k : Int) * A q p = 1 * A p q := by exact_mod_cast h1
    have h5 : k * A q p = A p q := by exact_mod_cast (by linarith : (k : Int) * A q p = A p q)
    rw [← h5] at hcop
    exact (Nat.coprime_self _).1 (Nat.Coprime.coprime_mul_left hcop)
  have hA : A p q = k := by
    have h1 := val_eq hp hq 1
    have h2 := val_eq' hp hq k
    have h3 : val p 1 = val q k := by
      unfold val
      have := hp.den_pos; have := hq.den_pos
      have hh : (p.num * q.den : ℚ) = k * (q.num * p.den) := by exact_mod_cast hk
      rw [div_eq_div_iff (by positivity) (by positivity)]
      push_cast; linarith
    rw [h3, h2, mul_left_inj' (tick_pos hp hq).ne', hB] at h1
    have h4 : (k : Int) * (1 : Nat) = 1 * A p q := by exact_mod_cast h1
    push_cast at h4; omega
  have hw64 : Fits 64 (c * k) := fits_mono hq.w_le hf
  refine ⟨c * k, ?_, ?_, ?_⟩
  · have := cast_spec hp hq c (by rw [hA]; exact hw64) (by rw [hA, hB]; simpa using hf)
    rw [this, hA, hB]; simp
  · rw [val_eq hp hq, val_eq' hp hq, hA, hB]; simp
  · have hk0 : (k : Int) ≠ 0 := by
      have := A_pos hp hq; omega
    have e : Int.tdiv (c * k * (A q p : Int)) (A p q) = c := by
      rw [hA, hB]; simp [Int.mul_tdiv_cancel _ hk0]
    have := cast_spec hq hp (c * k) (by rw [hB]; simpa using hw64) (by rw [e]; exact hc)
    rw [this, e]

/-! ### non-vacuity: milliseconds (64 bits) to minutes (32 bits) -/

example : Good ⟨64, 1, 1000⟩ ∧ Good ⟨32, 60, 1⟩ :=
  ⟨⟨by decide, by decide, by decide, by decide, by decide⟩, ⟨by decide, by decide, by decide, by decide, by decide⟩⟩

example : InRange ⟨64, 1, 1000⟩ ⟨32, 60, 1⟩ (-90000) := by
  refine ⟨?_, fun r hr => ?_⟩
  · simp [val, tick]; norm_num [abs_of_neg]
  · simp only [val] at hr
    push_cast at hr
    rw [abs_le] at hr
    obtain ⟨h1, h2⟩ := hr
    have h1' : (-3 : ℚ) < r := by linarith
    have h2' : (r : ℚ) < 3 := by linarith
    have a : (-3 : Int) < r := by exact_mod_cast h1'
    have b : r < (3 : Int) := by exact_mod_cast h2'
    unfold Fits; norm_num; omega

end STL.Duration
