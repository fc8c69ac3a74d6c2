import Verif.VAlg.Model
import Mathlib.Data.Nat.Bitwise
import Mathlib.Tactic.Ring
import Mathlib.Tactic.SplitIfs

/-! # Masks. Proofs only. -/

namespace STL.VAlg

/-- `m` has `s` equal bits for each lane, described by `F`. -/
def Msk (s m : Nat) (F : Nat → Bool) : Prop := ∀ k, m.testBit k = F (k / s)

theorem movemask_msk {s : Nat} (hs : 1 ≤ s) : ∀ bs : List Bool, Msk s (movemask s bs) (fun i => bs.getD i false)
  | [], k => by simp [movemask]
  | b :: bs, k => by
    unfold movemask
    have hlt : (if b then 2 ^ s - 1 else 0) < 2 ^ s := by
      have := Nat.two_pow_pos s; split <;> omega
    rw [Nat.add_comm, Nat.testBit_two_pow_mul_add _ hlt]
    split
    · rename_i hk
      rw [Nat.div_eq_of_lt hk]
      cases b
      · simp
      · simp [Nat.testBit_two_pow_sub_one, hk]
    · rename_i hk
      rw [movemask_msk hs bs (k - s)]
      have : k / s = (k - s) / s + 1 := by
        conv_lhs => rw [show k = (k - s) + s by omega]
        rw [Nat.add_div_right _ (by omega)]
      rw [this]; simp

variable {s m : Nat} {F : Nat → Bool}

theorem Msk.congr {G : Nat → Bool} (h : Msk s m F) (e : ∀ i, F i = G i) : Msk s m G := fun k => by rw [h k, e]

theorem Msk.xor (h : Msk s m F) (hs : 1 ≤ s) (c : Nat) : Msk s (m ^^^ (2 ^ (s * c) - 1)) (fun i => F i ^^ decide (i < c)) := by
  intro k
  rw [Nat.testBit_xor, h k, Nat.testBit_two_pow_sub_one]
  congr 1
  rw [decide_eq_decide, Nat.div_lt_iff_lt_mul hs, Nat.mul_comm]

theorem Msk.zero (h : Msk s m F) (hs : 1 ≤ s) : m = 0 ↔ ∀ i, F i = false := by
  constructor
  · rintro rfl i
    have := h (s * i)
    rw [Nat.mul_div_cancel_left _ hs] at this
    simpa using this.symm
  · intro hF
    apply Nat.eq_of_testBit_eq
    intro k; rw [h k, hF]; simp

theorem tz_spec {m : Nat} (h : m ≠ 0) (h64 : m < 2 ^ 64) : m.testBit (tz m) = true ∧ ∀ j < tz m, m.testBit j = false := by
  have hex : ∃ i, i ∈ List.range 64 ∧ m.testBit i = true := by
    obtain ⟨i, hi⟩ := Nat.exists_testBit_of_ne_zero h
    refine ⟨i, ?_, hi⟩
    rw [List.mem_range]
    by_contra hc
    rw [Nat.testBit_lt_two_pow (lt_of_lt_of_le h64 (Nat.pow_le_pow_right (by omega) (by omega)))] at hi
    cases hi
  have hlt : tz m < (List.range 64).length := List.findIdx_lt_length_of_exists hex
  constructor
  · have := List.findIdx_getElem (w := hlt)
    exact (congrArg m.testBit (List.getElem_range hlt)).symm.trans this
  · intro j hj
    have := List.not_of_lt_findIdx hj
    rw [List.getElem_range] at this
    simpa using this

theorem Msk.tz (h : Msk s m F) (hs : 1 ≤ s) (h0 : m ≠ 0) (h64 : m < 2 ^ 64) : ∃ j, tz m = s * j ∧ F j = true ∧ ∀ i < j, F i = false := by
  obtain ⟨h1, h2⟩ := tz_spec h0 h64
  rw [h] at h1
  refine ⟨STL.VAlg.tz m / s, ?_, h1, ?_⟩
  · by_contra hne
    have hdm := Nat.div_add_mod (STL.VAlg.tz m) s
    have := h2 (s * (STL.VAlg.tz m / s)) (by omega)
    rw [h, Nat.mul_div_cancel_left _ hs, h1] at this
    cases this
  · intro i hi
    have hlt : s * i < STL.VAlg.tz m := by
      have h3 := (Nat.le_div_iff_mul_le hs).1 (Nat.succ_le_of_lt hi)
      rw [Nat.succ_mul, Nat.mul_comm] at h3; omega
    have := h2 _ hlt
    rwa [h, Nat.mul_div_cancel_left _ hs] at this

theorem log2_spec {m : Nat} (h : m ≠ 0) : m.testBit (Nat.log2 m) = true ∧ ∀ j, Nat.log2 m < j → m.testBit j = false := by
  have h1 := Nat.log2_self_le h
  have h2 : m < 2 ^ (Nat.log2 m + 1) := Nat.lt_log2_self
  constructor
  · rw [Nat.testBit_eq_decide_div_mod_eq]
    have : m / 2 ^ Nat.log2 m = 1 := by
      rw [Nat.pow_succ] at h2
      exact Nat.div_eq_of_lt_le (by omega) (by omega)
    rw [this]; rfl
  · intro j hj
    exact Nat.testBit_lt_two_pow (lt_of_lt_of_le h2 (Nat.pow_le_pow_right (by omega) (by omega)))

theorem Msk.log (h : Msk s m F) (hs : 1 ≤ s) (h0 : m ≠ 0) : ∃ j, Nat.log2 m = s * j + (s - 1) ∧ F j = true ∧ ∀ i, j < i → F i = false := by
  obtain ⟨h1, h2⟩ := log2_spec h0
  rw [h] at h1
  refine ⟨Nat.log2 m / s, ?_, h1, ?_⟩
  · by_contra hne
    have hdm := Nat.div_add_mod (Nat.log2 m) s
    have hml := Nat.mod_lt (Nat.log2 m) hs
    have := h2 (s * (Nat.log2 m / s) + (s - 1)) (by omega)
    rw [h, Nat.mul_add_div hs, Nat.div_eq_of_lt (by omega : s - 1 < s), Nat.add_zero, h1] at this
    cases this
  · intro i hi
    have hlt : Nat.log2 m < s * i := by
      rw [Nat.mul_comm]; exact (Nat.div_lt_iff_lt_mul hs).1 hi
    have := h2 _ hlt
    rwa [h, Nat.mul_div_cancel_left _ hs] at this

theorem Msk.shr (h : Msk s m F) (hs : 1 ≤ s) (d : Nat) : Msk s (m >>> (s * d)) (fun i => F (i + d)) := by
  intro k
  rw [Nat.testBit_shiftRight, h, Nat.mul_add_div hs, Nat.add_comm]

theorem Msk.and {m' : Nat} {G : Nat → Bool} (h : Msk s m F) (h' : Msk s m' G) : Msk s (m &&& m') (fun i => F i && G i) := fun k => by
  rw [Nat.testBit_and, h, h']

theorem Msk.or {m' : Nat} {G : Nat → Bool} (h : Msk s m F) (h' : Msk s m' G) : Msk s (m ||| m') (fun i => F i || G i) := fun k => by
  rw [Nat.testBit_or, h, h']

theorem Msk.shl (h : Msk s m F) (hs : 1 ≤ s) (c : Nat) : Msk s (m <<< (s * c)) (fun i => decide (c ≤ i) && F (i - c)) := by
  intro k
  rw [Nat.testBit_shiftLeft, h]
  have e1 : k ≥ s * c ↔ c ≤ k / s := by rw [Nat.le_div_iff_mul_le hs, Nat.mul_comm]
  have e2 : (k - s * c) / s = k / s - c := by rw [Nat.sub_mul_div]
  rw [e2]
  congr 1
  rw [decide_eq_decide]; exact e1

theorem Msk.mod (h : Msk s m F) (hs : 1 ≤ s) (c : Nat) : Msk s (m % 2 ^ (s * c)) (fun i => decide (i < c) && F i) := by
  intro k
  rw [Nat.testBit_mod_two_pow, h]
  congr 1
  rw [decide_eq_decide, Nat.div_lt_iff_lt_mul hs, Nat.mul_comm]

theorem Msk.lt (h : Msk s m F) (hs : 1 ≤ s) {c : Nat} (hF : ∀ i, c ≤ i → F i = false) : m < 2 ^ (s * c) := by
  apply Nat.lt_pow_two_of_testBit
  intro k hk
  rw [h, hF]
  rw [Nat.le_div_iff_mul_le hs, Nat.mul_comm]; exact hk

theorem and_1C (x : Nat) : x &&& 0x1C = x % 32 / 4 * 4 := by
  have h1 : x &&& 31 = x % 32 := Nat.and_two_pow_sub_one_eq_mod x 5
  have h2 : x &&& 0x1C = (x % 32) &&& 0x1C := by rw [← h1, Nat.and_assoc]; rfl
  rw [h2]
  have hy : ∀ y < 32, y &&& 0x1C = y / 4 * 4 := by decide
  exact hy _ (Nat.mod_lt _ (by omega))

end STL.VAlg
