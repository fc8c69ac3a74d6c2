import Verif.Hms.Model
import Mathlib.Data.Nat.GCD.Basic
import Mathlib.Data.Nat.Prime.Basic
import Mathlib.Algebra.Order.Group.Nat
import Mathlib.Tactic.Ring
import Mathlib.Tactic.Linarith

/-!
C55: hh_mm_ss.
-/

namespace STL.Hms

/-- The length of a duration, in units of `1 / den` seconds. -/
def len (x : Dur) : Int := x.cnt * x.num

theorem cast_eq (den : Nat) (x : Dur) (u N : Nat) (hu : 0 < u) (h : len x = N) :
    cast den x u = ((N / (u * den) : Nat) : Int) := by
  have hg : 0 < Nat.gcd x.num u := Nat.gcd_pos_of_pos_right _ hu
  unfold cast
  generalize hgg : Nat.gcd x.num u = g at *
  obtain ⟨a, ha⟩ : g ∣ x.num := hgg ▸ Nat.gcd_dvd_left _ _
  obtain ⟨b, hb⟩ : g ∣ u := hgg ▸ Nat.gcd_dvd_right _ _
  rw [ha, hb, Nat.mul_div_cancel_left _ hg, Nat.mul_div_cancel_left _ hg]
  have h1 : (N : Int) = g * (x.cnt * a) := by rw [← h]; unfold len; rw [ha]; push_cast; ring
  have hc : 0 ≤ x.cnt * (a : Int) := by
    by_contra hn
    have : (g : Int) * (x.cnt * a) < 0 := Int.mul_neg_of_pos_of_neg (by omega) (by omega)
    omega
  rw [Int.tdiv_eq_ediv_of_nonneg hc]
  obtain ⟨m, hm⟩ := Int.eq_ofNat_of_zero_le hc
  rw [hm] at h1 ⊢
  have h2 : N = g * m := by exact_mod_cast h1
  rw [h2, Nat.mul_assoc g b den, Nat.mul_div_mul_left _ _ hg]
  rfl

theorem underflow_zero (den : Nat) (num u N : Nat) (hu : 0 < u) (hN : N ≤ 2 ^ 63 - 1)
    (h : underflows den num u = true) : N / (u * den) = 0 := by
  unfold underflows at h
  have h := of_decide_eq_true h
  have hg : 0 < Nat.gcd num u := Nat.gcd_pos_of_pos_right _ hu
  have hle : u / Nat.gcd num u ≤ u := Nat.div_le_self _ _
  have hp : 0 < u / Nat.gcd num u := Nat.div_pos (Nat.le_of_dvd hu (Nat.gcd_dvd_right _ _)) hg
  have h2 : intmax < den * (u / Nat.gcd num u) := (Nat.div_lt_iff_lt_mul hp).mp h
  have h3 : den * (u / Nat.gcd num u) ≤ u * den := by rw [Nat.mul_comm u]; exact Nat.mul_le_mul_left _ hle
  apply Nat.div_eq_of_lt
  unfold intmax at h2
  omega

theorem castZero_eq (den : Nat) (x : Dur) (u N : Nat) (hu : 0 < u) (h : len x = N) (hN : N ≤ 2 ^ 63 - 1) :
    castZero den x u = ((N / (u * den) : Nat) : Int) := by
  unfold castZero
  split
  · rename_i hh; rw [underflow_zero den x.num u N hu hN hh]; rfl
  · exact cast_eq den x u N hu h

theorem removePart_eq (den : Nat) (x : Dur) (u N : Nat) (hu : 0 < u) (h : len x = N) (hN : N ≤ 2 ^ 63 - 1) :
    len (removePart den x u) = ((N % (u * den) : Nat) : Int) ∧ (removePart den x u).num = Nat.gcd x.num u := by
  have hg : 0 < Nat.gcd x.num u := Nat.gcd_pos_of_pos_right _ hu
  have hc := cast_eq den x u N hu h
  have hz := underflow_zero den x.num u N hu hN
  have hmod := Nat.div_add_mod N (u * den)
  unfold removePart
  rw [hc]
  generalize hgg : Nat.gcd x.num u = g at *
  obtain ⟨a, ha⟩ : g ∣ x.num := hgg ▸ Nat.gcd_dvd_left _ _
  obtain ⟨b, hb⟩ : g ∣ u := hgg ▸ Nat.gcd_dvd_right _ _
  have ea : x.num / g = a := by rw [ha, Nat.mul_div_cancel_left _ hg]
  have eb : u / g = b := by rw [hb, Nat.mul_div_cancel_left _ hg]
  have h1 : x.cnt * a * g = N := by rw [← h]; unfold len; rw [ha]; push_cast; ring
  simp only [ea, eb]
  split
  · rename_i hh
    refine ⟨?_, rfl⟩
    rw [hz hh] at hmod
    simp only [len]
    rw [h1]
    have : N % (u * den) = N := by omega
    rw [this]
  · refine ⟨?_, rfl⟩
    simp only [len]
    have h2 : (N : Int) = (u * den : Nat) * ((N / (u * den) : Nat) : Int) + ((N % (u * den) : Nat) : Int) := by
      exact_mod_cast hmod.symm
    have hu' : ((u * den : Nat) : Int) = g * ((b * den : Nat) : Int) := by
      conv_lhs => rw [hb]
      push_cast; ring
    rw [sub_mul, h1]
    generalize ((N / (u * den) : Nat) : Int) = q at *
    generalize ((N % (u * den) : Nat) : Int) = r at *
    rw [hu'] at h2
    rw [h2]; ring

theorem strip_spec (p : Nat) (hp : 1 < p) : ∀ n, 0 < n →
    n = (strip p n).1 * p ^ (strip p n).2 ∧ ¬ p ∣ (strip p n).1 ∧ 0 < (strip p n).1 := by
  intro n
  induction n using Nat.strong_induction_on with
  | _ n ih =>
    intro hn
    rw [strip]
    by_cases h : n % p = 0 ∧ 1 < p ∧ 0 < n
    · rw [dif_pos h]
      have hd : p ∣ n := Nat.dvd_of_mod_eq_zero h.1
      obtain ⟨h1, h2, h3⟩ := ih (n / p) (Nat.div_lt_self hn hp) (Nat.div_pos (Nat.le_of_dvd hn hd) (by omega))
      refine ⟨?_, h2, h3⟩
      simp only []
      rw [Nat.pow_succ, ← Nat.mul_assoc, ← h1, Nat.div_mul_cancel hd]
    · rw [dif_neg h]
      refine ⟨by simp, ?_, hn⟩
      intro hd
      exact h ⟨Nat.mod_eq_zero_of_dvd hd, hp, hn⟩

/-- **C55 (digits)**: `fractional_width` is the least number of decimal digits (at most 18) that expresses the period, or 6
if there is none. -/
theorem C55_fractional_width (den : Nat) (hd : 0 < den) :
    ((∃ k ≤ 18, den ∣ 10 ^ k) → den ∣ 10 ^ fractionalWidth den ∧ fractionalWidth den ≤ 18 ∧
      ∀ k, den ∣ 10 ^ k → fractionalWidth den ≤ k) ∧
    (¬ (∃ k ≤ 18, den ∣ 10 ^ k) → fractionalWidth den = 6) := by
  obtain ⟨a1, a2, a3⟩ := strip_spec 2 (by decide) den hd
  unfold fractionalWidth
  simp only []
  generalize strip 2 den = A at *
  obtain ⟨b1, b2, b3⟩ := strip_spec 5 (by decide) A.1 a3
  generalize strip 5 A.1 = B at *
  obtain ⟨r1, a⟩ := A
  obtain ⟨r, b⟩ := B
  simp only at *
  have hden : den = r * 5 ^ b * 2 ^ a := by rw [a1, b1]
  have hr2 : ¬ 2 ∣ r := fun h => a2 (by rw [b1]; exact Dvd.dvd.mul_right h _)
  have c2 : Nat.Coprime r 2 := ((Nat.prime_two.coprime_iff_not_dvd).mpr hr2).symm
  have c5 : Nat.Coprime r 5 := ((Nat.prime_five.coprime_iff_not_dvd).mpr b2).symm
  have key : ∀ k, den ∣ 10 ^ k ↔ r = 1 ∧ a ≤ k ∧ b ≤ k := by
    intro k
    have h10 : (10 : Nat) ^ k = 5 ^ k * 2 ^ k := by rw [← Nat.mul_pow]
    rw [h10, hden]
    constructor
    · intro h
      refine ⟨?_, ?_, ?_⟩
      · have h1 : r ∣ 5 ^ k * 2 ^ k := Dvd.dvd.trans (by rw [Nat.mul_assoc]; exact Nat.dvd_mul_right _ _) h
        have h2 : r ∣ 5 ^ k := (Nat.Coprime.pow_right k c2).dvd_of_dvd_mul_right h1
        exact Nat.Coprime.eq_one_of_dvd (Nat.Coprime.pow_right k c5) h2
      · have h1 : 2 ^ a ∣ 5 ^ k * 2 ^ k := Dvd.dvd.trans (Nat.dvd_mul_left _ _) h
        have hc : Nat.Coprime (2 ^ a) (5 ^ k) := Nat.Coprime.pow _ _ (by decide)
        exact (Nat.pow_dvd_pow_iff_le_right (by decide)).mp (hc.dvd_of_dvd_mul_left h1)
      · have h1 : 5 ^ b ∣ 5 ^ k * 2 ^ k := Dvd.dvd.trans (by
          rw [Nat.mul_comm r, Nat.mul_assoc]; exact Nat.dvd_mul_right _ _) h
        have hc : Nat.Coprime (5 ^ b) (2 ^ k) := Nat.Coprime.pow _ _ (by decide)
        exact (Nat.pow_dvd_pow_iff_le_right (by decide)).mp (hc.dvd_of_dvd_mul_right h1)
    · rintro ⟨rfl, h1, h2⟩
      rw [Nat.one_mul]
      exact Nat.mul_dvd_mul (Nat.pow_dvd_pow 5 h2) (Nat.pow_dvd_pow 2 h1)
  constructor
  · rintro ⟨k, hk, h⟩
    obtain ⟨hr, h1, h2⟩ := (key k).mp h
    rw [if_neg (by omega), if_neg (by omega)]
    refine ⟨(key _).mpr ⟨hr, Nat.le_max_left _ _, Nat.le_max_right _ _⟩, by omega, ?_⟩
    intro k' h'
    obtain ⟨_, h3, h4⟩ := (key k').mp h'
    omega
  · intro h
    by_cases hr : r = 1
    · rw [if_neg (by omega)]
      by_cases hm : max a b > 18
      · rw [if_pos hm]
      · exact absurd ⟨max a b, by omega, (key _).mpr ⟨hr, Nat.le_max_left _ _, Nat.le_max_right _ _⟩⟩ h
    · rw [if_pos hr]

theorem abs_len (x : Dur) : len (absIfNeeded x (decide (x.cnt < 0))) = ((x.cnt.natAbs * x.num : Nat) : Int) ∧
    (absIfNeeded x (decide (x.cnt < 0))).num = x.num := by
  unfold absIfNeeded
  by_cases h : x.cnt < 0
  · rw [decide_eq_true h]
    simp only [if_true, len]
    refine ⟨?_, trivial⟩
    push_cast
    rw [abs_of_neg h]
  · rw [decide_eq_false h]
    simp only [Bool.false_eq_true, if_false, len]
    refine ⟨?_, trivial⟩
    push_cast
    rw [abs_of_nonneg (by omega)]

/-- **C55 (fields)**: for every duration and every period, `hh_mm_ss` splits its absolute value `N / den` seconds exactly into
hours, minutes and seconds below 60, and the digits of the fraction. -/
theorem C55_fields (den : Nat) (hd : 0 < den) (x : Dur) (hN : x.cnt.natAbs * x.num ≤ 2 ^ 63 - 1) :
    let N := x.cnt.natAbs * x.num
    let q := N / den
    (make den x).neg = decide (x.cnt < 0) ∧
    (make den x).hours = ((q / 3600 : Nat) : Int) ∧
    (make den x).mins = ((q / 60 % 60 : Nat) : Int) ∧
    (make den x).secs = ((q % 60 : Nat) : Int) ∧
    (make den x).sub = ((N % den * 10 ^ fractionalWidth den / den : Nat) : Int) := by
  intro N q
  obtain ⟨ha, _⟩ := abs_len x
  unfold make
  simp only []
  generalize absIfNeeded x (decide (x.cnt < 0)) = a at *
  change len a = ((N : Nat) : Int) at ha
  have hNN : N ≤ 2 ^ 63 - 1 := hN
  obtain ⟨r1, _⟩ := removePart_eq den a 3600 N (by decide) ha hNN
  have hm1 : N % (3600 * den) ≤ 2 ^ 63 - 1 := Nat.le_trans (Nat.mod_le _ _) hNN
  obtain ⟨r2, _⟩ := removePart_eq den _ 60 _ (by decide) r1 hm1
  obtain ⟨r3, r3n⟩ := removePart_eq den a 1 N (by decide) ha hNN
  have hq : ∀ u, N / (u * den) = q / u := by
    intro u; rw [Nat.mul_comm u den, ← Nat.div_div_eq_div_mul]
  refine ⟨trivial, ?_, ?_, ?_, ?_⟩
  · rw [castZero_eq den a 3600 N (by decide) ha hNN, hq]
  · rw [castZero_eq den _ 60 _ (by decide) r1 hm1]
    have : 3600 * den = 60 * den * 60 := by omega
    rw [this, Nat.mod_mul_right_div_self, hq]
  · rw [castZero_eq den _ 1 _ (by decide) r2 (Nat.le_trans (Nat.mod_le _ _) hm1)]
    have h1 : N % (3600 * den) % (60 * den) = N % (60 * den) :=
      Nat.mod_mod_of_dvd _ ⟨60, by omega⟩
    rw [h1, Nat.one_mul, Nat.mul_comm 60 den, Nat.mod_mul_right_div_self]
  · generalize fractionalWidth den = w
    have hr : (removePart den a 1).cnt = ((N % den : Nat) : Int) := by
      unfold len at r3
      rw [r3n, Nat.gcd_one_right, Nat.one_mul] at r3
      simpa using r3
    rw [hr]
    have hg : 0 < Nat.gcd (10 ^ w) den := Nat.gcd_pos_of_pos_right _ hd
    generalize hgg : Nat.gcd (10 ^ w) den = g at *
    obtain ⟨s, hs⟩ : g ∣ 10 ^ w := hgg ▸ Nat.gcd_dvd_left _ _
    obtain ⟨t, ht⟩ : g ∣ den := hgg ▸ Nat.gcd_dvd_right _ _
    have e1 : 10 ^ w / g = s := by rw [hs, Nat.mul_div_cancel_left _ hg]
    have e2 : den / g = t := by rw [ht, Nat.mul_div_cancel_left _ hg]
    rw [e1, e2]
    rw [Int.tdiv_eq_ediv_of_nonneg (by positivity)]
    rw [hs]
    have : N % den * (g * s) / den = N % den * s / t := by
      conv_lhs => rw [show N % den * (g * s) = g * (N % den * s) by ring]
      generalize N % den * s = m
      rw [ht, Nat.mul_div_mul_left _ _ hg]
    rw [this]
    push_cast
    rfl

/-- **C55 (round trip)**: if the period is decimal, `to_duration` gives back exactly the duration; always it is the duration
truncated toward zero to the digits of `precision`. -/
theorem C55_to_duration (den : Nat) (hd : 0 < den) (x : Dur) (hN : x.cnt.natAbs * x.num ≤ 2 ^ 63 - 1) :
    toDuration den (make den x) = Int.tdiv (x.cnt * x.num * 10 ^ fractionalWidth den) den ∧
    ((∃ k ≤ 18, den ∣ 10 ^ k) →
      toDuration den (make den x) * den = x.cnt * x.num * 10 ^ fractionalWidth den) := by
  obtain ⟨h1, h2, h3, h4, h5⟩ := C55_fields den hd x hN
  have hw := (C55_fractional_width den hd).1
  generalize hNN : x.cnt.natAbs * x.num = N at *
  unfold toDuration
  simp only [h1, h2, h3, h4, h5]
  generalize fractionalWidth den = w at *
  have hq : N / den / 3600 * 3600 + N / den / 60 % 60 * 60 + N / den % 60 = N / den := by
    generalize N / den = q; omega
  have hsum : ((N / den / 3600 : Nat) : Int) * 3600 * 10 ^ w + ((N / den / 60 % 60 : Nat) : Int) * 60 * 10 ^ w +
      ((N / den % 60 : Nat) : Int) * 10 ^ w + ((N % den * 10 ^ w / den : Nat) : Int) = ((N * 10 ^ w / den : Nat) : Int) := by
    have hN' : N * 10 ^ w / den = N / den * 10 ^ w + N % den * 10 ^ w / den := by
      conv_lhs => rw [← Nat.div_add_mod N den, Nat.add_mul, Nat.mul_assoc, Nat.mul_add_div hd]
    rw [hN']
    conv_rhs => rw [← hq]
    push_cast
    ring
  rw [hsum]
  have hval : (if decide (x.cnt < 0) = true then -((N * 10 ^ w / den : Nat) : Int) else ((N * 10 ^ w / den : Nat) : Int)) =
      Int.tdiv (x.cnt * x.num * 10 ^ w) den := by
    by_cases hneg : x.cnt < 0
    · rw [if_pos (by simpa using hneg)]
      have : x.cnt * x.num * 10 ^ w = -((N * 10 ^ w : Nat) : Int) := by
        rw [← hNN]; push_cast; rw [abs_of_neg hneg]; ring
      rw [this, Int.neg_tdiv]
      rfl
    · rw [if_neg (by simpa using hneg)]
      have : x.cnt * x.num * 10 ^ w = ((N * 10 ^ w : Nat) : Int) := by
        rw [← hNN]; push_cast; rw [abs_of_nonneg (by omega)]
      rw [this]
      rfl
  rw [hval]
  refine ⟨rfl, fun hk => ?_⟩
  obtain ⟨hdvd, _⟩ := hw hk
  apply Int.tdiv_mul_cancel
  apply Dvd.dvd.mul_left
  exact_mod_cast hdvd

/-- **C55 (12-hour clock)**: for every hour of the day exactly one of `is_am` and `is_pm` holds, `make12` is in 1..12 and
`make24` gives the hour back. -/
theorem C55_twelve_hours (h : Int) (h0 : 0 ≤ h) (h1 : h ≤ 23) :
    (isAm h = !isPm h) ∧ (isPm h = true ↔ 12 ≤ h) ∧ 1 ≤ make12 h ∧ make12 h ≤ 12 ∧ make12 h % 12 = h % 12 ∧
    make24 (make12 h) (isPm h) = h := by
  have : h = 0 ∨ h = 1 ∨ h = 2 ∨ h = 3 ∨ h = 4 ∨ h = 5 ∨ h = 6 ∨ h = 7 ∨ h = 8 ∨ h = 9 ∨ h = 10 ∨ h = 11 ∨ h = 12 ∨
    h = 13 ∨ h = 14 ∨ h = 15 ∨ h = 16 ∨ h = 17 ∨ h = 18 ∨ h = 19 ∨ h = 20 ∨ h = 21 ∨ h = 22 ∨ h = 23 := by omega
  rcases this with rfl | rfl | rfl | rfl | rfl | rfl | rfl | rfl | rfl | rfl | rfl | rfl | rfl | rfl | rfl | rfl | rfl |
    rfl | rfl | rfl | rfl | rfl | rfl | rfl <;> decide

/-- **C55 (12-hour clock, back)**: and every hour of the 12-hour clock comes back from the 24-hour clock. -/
theorem C55_twenty_four_hours (h : Int) (h0 : 1 ≤ h) (h1 : h ≤ 12) (pm : Bool) :
    0 ≤ make24 h pm ∧ make24 h pm ≤ 23 ∧ make12 (make24 h pm) = h ∧ isPm (make24 h pm) = pm := by
  have : h = 1 ∨ h = 2 ∨ h = 3 ∨ h = 4 ∨ h = 5 ∨ h = 6 ∨ h = 7 ∨ h = 8 ∨ h = 9 ∨ h = 10 ∨ h = 11 ∨ h = 12 := by omega
  rcases this with rfl | rfl | rfl | rfl | rfl | rfl | rfl | rfl | rfl | rfl | rfl | rfl <;> cases pm <;> decide

/-- **C55**: outside of the day neither holds. -/
theorem C55_outside_day (h : Int) (h0 : h < 0 ∨ 23 < h) : isAm h = false ∧ isPm h = false := by
  unfold isAm isPm
  constructor
  · rcases h0 with h0 | h0
    · rw [decide_eq_false (by omega)]; rfl
    · rw [decide_eq_false (show ¬ h ≤ 11 by omega), Bool.and_false]
  · rcases h0 with h0 | h0
    · rw [decide_eq_false (by omega)]; rfl
    · rw [decide_eq_false (show ¬ h ≤ 23 by omega), Bool.and_false]

/-! Concrete cases: milliseconds, eighths of a second, a period of 7/3 seconds, and one whose hours underflow. -/
example : (make 1000 ⟨-45296789, 1⟩).hours = 12 ∧ (make 1000 ⟨-45296789, 1⟩).mins = 34 ∧
    (make 1000 ⟨-45296789, 1⟩).secs = 56 := by decide
example : ((-45296789 : Int).natAbs * 1 : Nat) ≤ 2 ^ 63 - 1 := by decide
example : ∃ k ≤ 18, 1000 ∣ 10 ^ k := ⟨3, by decide, by decide⟩
example : ∃ k ≤ 18, 8 ∣ 10 ^ k := ⟨3, by decide, by decide⟩
example : underflows 1000000000000000000 1 3600 = true ∧ underflows 1000000000000000000 1 1 = false := by decide

end STL.Hms
