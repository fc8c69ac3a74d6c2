import Verif.FloatConv.Round
import Mathlib.Data.Nat.Bitwise

/-! # `_Right_shift_with_rounding` -/

namespace STL.FloatConv
open STL

theorem and_one_div (x s : Nat) : (x >>> s) &&& 1 = x / 2 ^ s % 2 := by rw [Nat.and_one_is_mod, Nat.shiftRight_eq_div_pow]

theorem and_or_bit (a b c s : Nat) : ((a &&& (b ||| c)) >>> s) &&& 1 = if a / 2 ^ s % 2 = 1 ∧ (b / 2 ^ s % 2 = 1 ∨ c / 2 ^ s % 2 = 1) then 1 else 0 := by
  rw [and_one_div]
  have h : (a &&& (b ||| c)).testBit s = (a.testBit s && (b.testBit s || c.testBit s)) := by rw [Nat.testBit_and, Nat.testBit_or]
  simp only [Nat.testBit_eq_decide_div_mod_eq] at h
  rw [Bool.eq_iff_iff] at h
  simp only [decide_eq_true_eq, Bool.and_eq_true, Bool.or_eq_true] at h
  split
  · rename_i h1; exact h.2 h1
  · rename_i h1
    have := mt h.1 h1
    omega

theorem rshift_eq {v s : Nat} (hv : v < 2 ^ 64) (hs : 1 ≤ s) (zt : Bool) :
    rshift v s zt = v / 2 ^ s + if 2 ^ s < 2 * (v % 2 ^ s) ∨ (2 ^ s = 2 * (v % 2 ^ s) ∧ (zt = false ∨ v / 2 ^ s % 2 = 1)) then 1 else 0 := by
  unfold rshift
  by_cases h64 : s ≥ 64
  · rw [if_pos h64]
    have hpow : 2 ^ 64 ≤ 2 ^ s := Nat.pow_le_pow_right (by norm_num) h64
    by_cases he : s = 64
    · subst he
      rw [if_pos rfl]
      dsimp only
      have e1 : v &&& (1 <<< 63) = if 2 ^ 63 ≤ v then 2 ^ 63 else 0 := by
        rw [Nat.one_shiftLeft, Nat.and_two_pow, Nat.testBit_eq_decide_div_mod_eq]
        by_cases h : 2 ^ 63 ≤ v
        · have : v / 2 ^ 63 = 1 := Nat.div_eq_of_lt_le (by omega) (by omega)
          rw [this, if_pos h]; rfl
        · have : v / 2 ^ 63 = 0 := Nat.div_eq_of_lt (by omega)
          rw [this, if_neg h]; rfl
      have e2 : v &&& ((1 <<< 63) - 1) = v % 2 ^ 63 := by rw [Nat.one_shiftLeft, Nat.and_two_pow_sub_one_eq_mod]
      rw [e1, e2, Nat.div_eq_of_lt hv, Nat.mod_eq_of_lt hv, Nat.zero_add]
      cases zt
      · by_cases h : 2 ^ 63 ≤ v
        · rw [if_pos h, if_pos, if_pos]
          · rcases Nat.lt_or_eq_of_le h with h | h
            · left; omega
            · right; exact ⟨by omega, .inl rfl⟩
          · rw [decide_eq_true]; · rfl
            norm_num
        · rw [if_neg h, if_neg, if_neg]
          · have : 2 ^ 64 = 2 * 2 ^ 63 := by norm_num
            omega
          · simp
      · by_cases h : 2 ^ 63 < v
        · rw [if_pos (by omega : 2 ^ 63 ≤ v), if_pos, if_pos]
          · left; omega
          · have : v % 2 ^ 63 ≠ 0 := by omega
            simp only [Bool.not_true, Bool.false_or, Bool.and_eq_true, decide_eq_true_eq]
            exact ⟨by norm_num, this⟩
        · rw [if_neg, if_neg]
          · push Not; constructor
            · omega
            · intro _; simp
          · by_cases h' : 2 ^ 63 ≤ v
            · have : v = 2 ^ 63 := by omega
              subst this; simp
            · rw [if_neg h']; simp
    · rw [if_neg he]
      have hpow : 2 ^ 65 ≤ 2 ^ s := Nat.pow_le_pow_right (by norm_num) (by omega)
      rw [Nat.div_eq_of_lt (by omega), Nat.mod_eq_of_lt (by omega), if_neg]
      omega
  · rw [if_neg h64]
    dsimp only
    rw [and_or_bit, Nat.shiftRight_eq_div_pow]
    congr 1
    obtain ⟨t, rfl⟩ : ∃ t, s = t + 1 := ⟨s - 1, by omega⟩
    obtain ⟨P, hP⟩ : ∃ P, P = 2 ^ t := ⟨_, rfl⟩
    have hP0 : 0 < P := by rw [hP]; positivity
    have hPs : 2 ^ (t + 1) = 2 * P := by rw [pow_succ, hP]; ring
    obtain ⟨K, hK⟩ : ∃ K, 2 ^ 64 = 2 * P * (2 * K) := by
      refine ⟨2 ^ (62 - t), ?_⟩
      rw [hP, ← pow_succ', ← pow_succ', ← pow_add]; congr 1; omega
    rw [hPs]
    have hq := Nat.div_add_mod v (2 * P)
    have hm := Nat.mod_lt v (show 0 < 2 * P by omega)
    obtain ⟨q, hqe⟩ : ∃ q, q = v / (2 * P) := ⟨_, rfl⟩
    obtain ⟨r, hre⟩ : ∃ r, r = v % (2 * P) := ⟨_, rfl⟩
    rw [← hqe, ← hre] at hq
    rw [← hre] at hm
    rw [← hqe, ← hre]
    -- `_Round_bit`
    obtain ⟨W, hW⟩ : ∃ W, W = (v <<< 1) % 2 ^ 64 := ⟨_, rfl⟩
    have hWv : W / (2 * P) % 2 = v / P % 2 ∧ W % (2 * P) = 2 * (v % P) := by
      rw [hW, Nat.shiftLeft_eq, pow_one, hK]
      constructor
      · rw [Nat.mod_mul_right_div_self, Nat.mod_mul_right_mod, Nat.mul_comm v 2, Nat.mul_div_mul_left _ _ (by norm_num)]
      · rw [Nat.mod_mul_right_mod, Nat.mul_comm v 2, Nat.mul_mod_mul_left]
    have hW64 : W < 2 ^ 64 := by rw [hW]; exact Nat.mod_lt _ (by norm_num)
    rw [← hW]
    have hvP : v / P % 2 = r / P ∧ v % P = r % P := by
      constructor
      · rw [hre, Nat.mul_comm 2 P, Nat.mod_mul_right_div_self]
      · rw [hre, Nat.mul_comm 2 P, Nat.mod_mul_right_mod]
    by_cases hr : r < P
    · rw [if_neg, if_neg]
      · omega
      · rw [hWv.1, hvP.1, Nat.div_eq_of_lt hr]; omega
    · have hrP : r / P = 1 := Nat.div_eq_of_lt_le (by omega) (by omega)
      have hrm : r % P = r - P := by
        have := Nat.div_add_mod r P
        rw [hrP] at this; omega
      have h1 : W / (2 * P) % 2 = 1 := by rw [hWv.1, hvP.1, hrP]
      have hW0 : W ≠ 0 := by rintro rfl; simp at h1
      have hWm : W % (2 * P) = 2 * (r - P) := by rw [hWv.2, hvP.2, hrm]
      have hWd := Nat.div_add_mod W (2 * P)
      rw [hWm] at hWd
      obtain ⟨a, ha⟩ : ∃ a, a = W / (2 * P) := ⟨_, rfl⟩
      rw [← ha] at hWd h1
      rw [← ha]
      have hT : ∀ z, (W + 2 ^ 64 - z) % 2 ^ 64 = W - z ∨ W < z := by
        intro z
        by_cases h : W < z
        · exact .inr h
        · left
          rw [show W + 2 ^ 64 - z = (W - z) + 2 ^ 64 by omega, Nat.add_mod_right, Nat.mod_eq_of_lt (by omega)]
      cases zt
      · -- a non-zero tail: the bit is that of `_Round_bit`
        have h2 := (hT 0).resolve_right (by omega)
        rw [Nat.sub_zero] at h2
        simp only [Bool.false_eq_true, if_false, h2, Nat.sub_zero]
        rw [← ha, if_pos ⟨h1, .inl h1⟩, if_pos (by
          rcases Nat.lt_or_eq_of_le (Nat.le_of_not_lt hr) with h | h
          · left; omega
          · right; exact ⟨by omega, .inl trivial⟩)]
      · have h2 := (hT 1).resolve_right (by omega)
        simp only [if_true, h2]
        by_cases hgt : r = P
        · -- exactly half
          have h3 : (W - 1) / (2 * P) = a - 1 := by
            obtain ⟨c, rfl⟩ : ∃ c, a = c + 1 := ⟨a - 1, by omega⟩
            apply Nat.div_eq_of_lt_le
            · have : 2 * P * (c + 1) = c * (2 * P) + 2 * P := by ring
              rw [Nat.add_sub_cancel]; omega
            · rw [Nat.add_sub_cancel, Nat.mul_comm (c + 1)]; omega
          rw [h3]
          by_cases hqo : q % 2 = 1
          · rw [if_pos ⟨h1, .inr hqo⟩, if_pos (by right; exact ⟨by omega, .inr hqo⟩)]
          · rw [if_neg, if_neg]
            · push Not
              refine ⟨by omega, fun _ => ⟨by simp, hqo⟩⟩
            · rintro ⟨_, h | h⟩
              · omega
              · exact hqo h
        · have h3 : (W - 1) / (2 * P) = a := by
            apply Nat.div_eq_of_lt_le
            · rw [Nat.mul_comm]; omega
            · rw [Nat.add_mul, Nat.mul_comm]; omega
          rw [h3, if_pos ⟨h1, .inl h1⟩, if_pos (by left; omega)]

/-- With a zero tail: nearest, ties to even. -/
theorem rshift_zt {v s : Nat} (hv : v < 2 ^ 64) (hs : 1 ≤ s) :
    2 * v ≤ (2 * rshift v s true + 1) * 2 ^ s ∧ 2 * rshift v s true * 2 ^ s ≤ 2 * v + 2 ^ s ∧
      (2 * v = (2 * rshift v s true + 1) * 2 ^ s → rshift v s true % 2 = 0) ∧ (2 * rshift v s true * 2 ^ s = 2 * v + 2 ^ s → rshift v s true % 2 = 0) := by
  rw [rshift_eq hv hs]
  have hd := Nat.div_add_mod v (2 ^ s)
  have hm := Nat.mod_lt v (show 0 < 2 ^ s by positivity)
  generalize v / 2 ^ s = q at *
  generalize v % 2 ^ s = r at *
  generalize 2 ^ s = P at *
  have e0 : ∀ a : Nat, (2 * a + 1) * P = 2 * (P * a) + P := fun a => by ring
  have e1 : ∀ a : Nat, 2 * a * P = 2 * (P * a) := fun a => by ring
  have e2 : P * (q + 1) = P * q + P := by ring
  split
  · rename_i h
    simp only [e0, e1, e2]
    refine ⟨by omega, by omega, fun h' => by omega, fun h' => ?_⟩
    rcases h with h | ⟨h, h' | h'⟩
    · omega
    · simp at h'
    · omega
  · rename_i h
    simp only [e0, e1, Nat.add_zero]
    push Not at h
    refine ⟨by omega, by omega, fun h' => ?_, fun h' => by omega⟩
    have := (h.2 (by omega)).2
    omega

/-- With a non-zero tail: everything in `(v, v + 1)` is on the same side of the midpoints. -/
theorem rshift_nz {v s : Nat} (hv : v < 2 ^ 64) (hs : 1 ≤ s) :
    2 * (v + 1) ≤ (2 * rshift v s false + 1) * 2 ^ s ∧ 2 * rshift v s false * 2 ^ s ≤ 2 * v + 2 ^ s := by
  rw [rshift_eq hv hs]
  have hd := Nat.div_add_mod v (2 ^ s)
  have hm := Nat.mod_lt v (show 0 < 2 ^ s by positivity)
  have hev : 2 ^ s = 2 * 2 ^ (s - 1) := by rw [← pow_succ']; congr 1; omega
  generalize v / 2 ^ s = q at *
  generalize v % 2 ^ s = r at *
  generalize 2 ^ (s - 1) = H at *
  generalize 2 ^ s = P at *
  have e0 : ∀ a : Nat, (2 * a + 1) * P = 2 * (P * a) + P := fun a => by ring
  have e1 : ∀ a : Nat, 2 * a * P = 2 * (P * a) := fun a => by ring
  have e2 : P * (q + 1) = P * q + P := by ring
  split
  · rename_i h
    simp only [e0, e1, e2]
    omega
  · rename_i h
    simp only [e0, e1, Nat.add_zero]
    push Not at h
    have : 2 * r ≠ P := fun h' => by have := (h.2 h'.symm).1; simp at this
    omega

theorem rshift_zero (s : Nat) (hs : 1 ≤ s) (zt : Bool) : rshift 0 s zt = 0 := by
  rw [rshift_eq (by norm_num) hs, Nat.zero_div, Nat.zero_mod, if_neg]
  have : 0 < 2 ^ s := by positivity
  omega

/-- The range of the result. -/
theorem rshift_range {v s : Nat} (hv : v < 2 ^ 64) (hs : 1 ≤ s) (zt : Bool) : v / 2 ^ s ≤ rshift v s zt ∧ rshift v s zt ≤ v / 2 ^ s + 1 := by
  rw [rshift_eq hv hs]; split <;> omega

end STL.FloatConv
