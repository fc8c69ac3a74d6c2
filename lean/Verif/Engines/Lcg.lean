import Verif.Engines.Model
import Mathlib.Data.Nat.ModEq
import Mathlib.Algebra.Order.Ring.Nat
import Mathlib.Tactic.Linarith
import Mathlib.Tactic.Ring

/-! # C51: linear_congruential_engine (proofs) -/

namespace STL.Engines

/-- Specification, N4950 [rand.eng.lcong]/2: the modulus, where 0 stands for `2^digits`. -/
def lcgModulus (D M : Nat) : Nat := if M = 0 then 2 ^ D else M

/-- Specification, N4950 [rand.eng.lcong]/1: `x' = (a x + c) mod m`. -/
def lcgSpec (D A C M x : Nat) : Nat := (A * x + C) % lcgModulus D M

/-- The `static_assert`s on the template arguments, which have the type `_Uint` of `D` digits, at most 64. -/
structure LcgOk (D A C M : Nat) : Prop where
  hD : D ≤ 64
  hA : A < 2 ^ D
  hC : C < 2 ^ D
  hM : M < 2 ^ D
  hp : M = 0 ∨ (A < M ∧ C < M)

theorem lcgModulus_le {D A C M : Nat} (h : LcgOk D A C M) : lcgModulus D M ≤ 2 ^ D := by
  unfold lcgModulus
  split
  · exact Nat.le_refl _
  · exact Nat.le_of_lt h.hM

theorem lcgModulus_pos (D M : Nat) : 0 < lcgModulus D M := by
  unfold lcgModulus
  split
  · exact Nat.pow_pos (by decide)
  · omega

theorem minstdReduce_eq (x : Nat) (hx : x ≤ 2147483646 * 2147483646) :
    minstdReduce 2147483647 x = x % 2147483647 := by
  unfold minstdReduce
  have h1 : x &&& 2147483647 = x % 2 ^ 31 := Nat.and_two_pow_sub_one_eq_mod x 31
  simp only [h1, Nat.shiftRight_eq_div_pow]
  clear h1
  have hq : x / 2 ^ 31 ≤ 2147483644 := by omega
  have hs : x % 2 ^ 31 < 2147483648 := Nat.mod_lt _ (by decide)
  have hd : x = 2147483647 * (x / 2 ^ 31) + (x / 2 ^ 31 + x % 2 ^ 31) := by omega
  have hm : (x / 2 ^ 31 + x % 2 ^ 31) % 2 ^ 64 = x / 2 ^ 31 + x % 2 ^ 31 := Nat.mod_eq_of_lt (by omega)
  rw [hm]
  have hx2 : x % 2147483647 = (x / 2 ^ 31 + x % 2 ^ 31) % 2147483647 := by
    rw [congrArg (· % 2147483647) hd]
    exact Nat.mul_add_mod _ _ _
  rw [hx2]
  generalize x / 2 ^ 31 = q at *
  generalize x % 2 ^ 31 = s at *
  split
  · next h => exact (Nat.mod_eq_of_lt h).symm
  · next h =>
    rw [Nat.mod_eq_sub_mod (by omega)]
    exact (Nat.mod_eq_of_lt (by omega)).symm

theorem lcgNext_eq {D A C M x : Nat} (h : LcgOk D A C M) (hx : x < lcgModulus D M) :
    lcgNext D A C M x = lcgSpec D A C M x := by
  have hD : 2 ^ D ≤ 2 ^ 64 := Nat.pow_le_pow_right (by decide) h.hD
  unfold lcgNext lcgSpec lcgModulus at *
  obtain ⟨_, hA, hC, hM, hp⟩ := h
  by_cases hA0 : A = 0
  · rw [if_pos hA0]
    subst hA0
    rw [Nat.zero_mul, Nat.zero_add]
    split
    · exact (Nat.mod_eq_of_lt hC).symm
    · next hM0 =>
      rcases hp with hp | hp
      · exact absurd hp hM0
      · exact (Nat.mod_eq_of_lt hp.2).symm
  rw [if_neg hA0]
  by_cases hM0 : M = 0
  · rw [if_pos hM0, if_pos hM0]
    simp
  rw [if_neg hM0] at hx ⊢
  obtain ⟨hAM, hCM⟩ : A < M ∧ C < M := by
    rcases hp with hp | hp
    · exact absurd hp hM0
    · exact hp
  rw [if_neg hM0]
  have hmod : ∀ y, y % M % 2 ^ D = y % M := fun y =>
    Nat.mod_eq_of_lt (Nat.lt_trans (Nat.mod_lt _ (by omega)) hM)
  have hbound : ∀ T, M - 1 ≤ (T - C) / A → C ≤ T → A * x + C ≤ T := by
    intro T h1 h2
    have h3 : x ≤ (T - C) / A := by omega
    have h4 : x * A ≤ T - C := (Nat.le_div_iff_mul_le (by omega)).1 h3
    rw [Nat.mul_comm] at h4
    omega
  have hcm : x * A = A * x := Nat.mul_comm _ _
  by_cases h1 : C = 0 ∧ M = 2147483647
  · rw [if_pos h1]
    obtain ⟨rfl, rfl⟩ := h1
    have hle : A * x ≤ 2147483646 * 2147483646 := Nat.mul_le_mul (by omega) (by omega)
    have : x * A % 2 ^ 64 = A * x := by rw [hcm]; exact Nat.mod_eq_of_lt (by omega)
    rw [this, minstdReduce_eq _ hle, hmod, Nat.add_zero]
  rw [if_neg h1]
  by_cases h2 : C ≤ 2 ^ 32 - 1 ∧ M - 1 ≤ (2 ^ 32 - 1 - C) / A
  · rw [if_pos h2]
    have hb := hbound (2 ^ 32 - 1) h2.2 h2.1
    have hx1 : x < 2 ^ 32 ∧ M ≤ 2 ^ 32 := by
      have := (Nat.div_le_self (2 ^ 32 - 1 - C) A)
      omega
    have e1 : x % 2 ^ 32 = x := Nat.mod_eq_of_lt hx1.1
    have e2 : A % 2 ^ 32 = A := Nat.mod_eq_of_lt (by omega)
    have e3 : C % 2 ^ 32 = C := Nat.mod_eq_of_lt (by omega)
    simp only [e1, e2, e3, hcm]
    have e4 : (A * x + C) % 2 ^ 32 = A * x + C := Nat.mod_eq_of_lt (by omega)
    rw [e4, hmod]
  rw [if_neg h2]
  by_cases h3 : M - 1 ≤ (2 ^ 64 - 1 - C) / A
  · rw [if_pos h3]
    have hb := hbound (2 ^ 64 - 1) h3 (by omega)
    have e4 : (x * A + C) % 2 ^ 64 = A * x + C := by rw [hcm]; exact Nat.mod_eq_of_lt (by omega)
    simp only [e4, hmod]
  rw [if_neg h3]
  have hb : A * x ≤ (2 ^ 64 - 1) * (2 ^ 64 - 1) := Nat.mul_le_mul (by omega) (by omega)
  have e4 : (x * A + C) % 2 ^ 128 = A * x + C := by rw [hcm]; exact Nat.mod_eq_of_lt (by omega)
  simp only [e4, hmod]

theorem lcgSpec_lt {D A C M x : Nat} : lcgSpec D A C M x < lcgModulus D M := Nat.mod_lt _ (lcgModulus_pos D M)

theorem lcgSkip_eq {D A C M : Nat} (h : LcgOk D A C M) (n : Nat) :
    ∀ x, x < lcgModulus D M → lcgSkip D A C M n x = (lcgSpec D A C M)^[n] x := by
  induction n with
  | zero => intro x _; rfl
  | succ n ih =>
    intro x hx
    rw [lcgSkip, lcgNext_eq h hx, ih _ lcgSpec_lt, Function.iterate_succ_apply]

theorem minstd_iterate (A x n : Nat) (hx : x < 2147483647) :
    (fun y => (A * y + 0) % 2147483647)^[n] x = A ^ n * x % 2147483647 := by
  induction n generalizing x with
  | zero => simpa using (Nat.mod_eq_of_lt hx).symm
  | succ n ih =>
    rw [Function.iterate_succ_apply, ih _ (Nat.mod_lt _ (by decide)), Nat.add_zero, Nat.pow_succ, Nat.mul_assoc]
    simp [Nat.mul_mod]

theorem minstdSkip_eq (n : Nat) : ∀ (temp mul : Nat), temp < 2147483647 → mul < 2147483647 →
    minstdSkip 2147483647 n temp mul = mul ^ n * temp % 2147483647 := by
  induction n using Nat.strongRecOn with
  | ind n ih =>
    intro temp mul ht hm
    have hred : ∀ a b, a < 2147483647 → b < 2147483647 →
        minstdReduce 2147483647 (a * b % 2 ^ 64) = a * b % 2147483647 := by
      intro a b ha hb
      have hle : a * b ≤ 2147483646 * 2147483646 := Nat.mul_le_mul (by omega) (by omega)
      have : a * b % 2 ^ 64 = a * b := Nat.mod_eq_of_lt (by omega)
      rw [this, minstdReduce_eq _ hle]
    rw [minstdSkip]
    simp only [Nat.and_one_is_mod, Nat.shiftRight_eq_div_pow, Nat.pow_one, hred _ _ ht hm, hred _ _ hm hm]
    have hlt : ∀ y, y % 2147483647 < 2147483647 := fun y => Nat.mod_lt _ (by decide)
    by_cases h0 : n / 2 ≠ 0
    · rw [dif_pos h0]
      have hlt2 : n / 2 < n := by omega
      by_cases hodd : n % 2 ≠ 0
      · rw [if_pos hodd, ih _ hlt2 _ _ (hlt _) (hlt _)]
        conv_rhs => rw [show n = 2 * (n / 2) + 1 by omega, Nat.pow_succ, Nat.pow_mul, Nat.pow_two]
        rw [Nat.mul_assoc, Nat.mul_comm mul temp]
        exact ((Nat.mod_modEq _ _).pow _).mul (Nat.mod_modEq _ _)
      · rw [if_neg hodd, ih _ hlt2 _ _ ht (hlt _)]
        conv_rhs => rw [show n = 2 * (n / 2) by omega, Nat.pow_mul, Nat.pow_two]
        exact ((Nat.mod_modEq _ _).pow _).mul_right _
    · rw [dif_neg h0]
      have h01 : n = 0 ∨ n = 1 := by omega
      rcases h01 with rfl | rfl
      · simpa using (Nat.mod_eq_of_lt ht).symm
      · simp [Nat.mul_comm]

theorem lcgDiscard_eq {D A C M : Nat} (h : LcgOk D A C M) (n x : Nat) (hx : x < lcgModulus D M) :
    lcgDiscard D A C M n x = (lcgSpec D A C M)^[n] x := by
  unfold lcgDiscard
  split
  · next h1 =>
    obtain ⟨rfl, rfl⟩ := h1
    have hx' : x < 2147483647 := hx
    have hA : A < 2147483647 := by
      rcases h.hp with hp | hp
      · omega
      · exact hp.1
    have := minstd_iterate A x n hx'
    rw [minstdSkip_eq n x A hx' hA]
    have e : lcgSpec D A 0 2147483647 = fun y => (A * y + 0) % 2147483647 := by
      funext y; rfl
    rw [e, this]
    have := h.hM
    exact Nat.mod_eq_of_lt (Nat.lt_trans (Nat.mod_lt _ (by decide)) this)
  · exact lcgSkip_eq h n x hx

end STL.Engines
