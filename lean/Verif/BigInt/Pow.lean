import Verif.BigInt.Mul

/-! # Big integers: multiplication by a power of ten -/

namespace STL.BigInt
open STL Digits

/-- Row `k` of the table is a well-formed representation of `10 ^ (10 * k)`. -/
def checkRow (k : Nat) : Bool :=
  match unpack k with
  | .ok b => decide (b.used ≤ cap) && (List.range b.used).all (fun i => decide (b.f i < 2 ^ 32)) && decide (b.f (b.used - 1) ≠ 0) && decide (1 < b.used) &&
    decide (val (2 ^ 32) b.f 0 b.used = 10 ^ (10 * k))
  | .error _ => false

theorem table_ok : ∀ k, k < 38 → checkRow (k + 1) = true := by decide +kernel

theorem unpack_ok {k : Nat} (h0 : 0 < k) (h : k ≤ 38) : ∃ b, unpack k = .ok b ∧ Ok b ∧ 1 < b.used ∧ b.value = 10 ^ (10 * k) := by
  have ht := table_ok (k - 1) (by omega)
  rw [show k - 1 + 1 = k by omega] at ht
  unfold checkRow at ht
  split at ht
  · rename_i b hb
    simp only [Bool.and_eq_true, decide_eq_true_eq, List.all_eq_true, List.mem_range] at ht
    obtain ⟨⟨⟨⟨a, b'⟩, c⟩, d⟩, e⟩ := ht
    exact ⟨b, hb, ⟨⟨a, b'⟩, fun _ => c⟩, d, e⟩
  · exact absurd ht (by simp)

/-- Multiplication by a power of ten: exact, or overflow reported and the product needs at least 115 words. -/
theorem mulPowLoop_ok (g : Nat → Nat) : ∀ (fuel large : Nat) (x : Big), large < fuel → Ok x →
    (∃ y, mulPowLoop g fuel x large = .ok (y, true) ∧ Ok y ∧ y.value = x.value * 10 ^ (10 * large)) ∨
    (∃ y, mulPowLoop g fuel x large = .ok (y, false) ∧ y.used = 0 ∧ (2 ^ 32) ^ (cap - 1) ≤ x.value * 10 ^ (10 * large)) := by
  intro fuel
  induction fuel with
  | zero => intro large x h; omega
  | succ fuel ih =>
    intro large x h hx
    unfold mulPowLoop
    by_cases h0 : large = 0
    · rw [if_neg (by simpa using h0)]
      exact .inl ⟨x, rfl, hx, by rw [h0, Nat.mul_zero, pow_zero, Nat.mul_one]⟩
    rw [if_pos h0]
    obtain ⟨b, eb, hb, hb1, hbv⟩ := unpack_ok (k := min large 38) (by omega) (by omega)
    dsimp only
    rw [eb, R.ok_bind]
    have hsplit : ∀ v : Nat, v * 10 ^ (10 * large) = v * 10 ^ (10 * min large 38) * 10 ^ (10 * (large - min large 38)) := by
      intro v
      rw [Nat.mul_assoc, ← pow_add]
      congr 2
      omega
    rcases mul_ok g hx hb with ⟨y, e, hy, hv, _⟩ | ⟨y, e, hy, hv⟩
    · rw [e, R.ok_bind]
      dsimp only
      rw [if_neg (by simp)]
      have hh := ih (large - min large 38) y (by omega) hy
      rw [hv, hbv, ← hsplit] at hh
      exact hh
    · rw [e, R.ok_bind]
      dsimp only
      rw [if_pos rfl]
      refine .inr ⟨y, rfl, hy, ?_⟩
      rw [hsplit, ← hbv]
      have h1 : (2 ^ 32) ^ (cap - 1) ≤ (2 ^ 32) ^ (if 1 < x.used ∧ 1 < b.used then cap - 1 else cap) := by
        apply powB_mono; split <;> omega
      exact le_trans (le_trans h1 hv) (Nat.le_mul_of_pos_right _ (Nat.pow_pos (by norm_num)))

theorem small_pow {s : Nat} (h : s ≠ 0) (h' : s < 10) : [10, 100, 1000, 10000, 100000, 1000000, 10000000, 100000000, 1000000000].getD (s - 1) 0 = 10 ^ s := by
  rcases (by omega : s = 1 ∨ s = 2 ∨ s = 3 ∨ s = 4 ∨ s = 5 ∨ s = 6 ∨ s = 7 ∨ s = 8 ∨ s = 9) with rfl | rfl | rfl | rfl | rfl | rfl | rfl | rfl | rfl <;> rfl

theorem mulPow10_ok (g : Nat → Nat) {x : Big} (hx : Ok x) (p : Nat) :
    (∃ y, mulPow10 g x p = .ok (y, true) ∧ Ok y ∧ y.value = x.value * 10 ^ p) ∨
    (∃ y, mulPow10 g x p = .ok (y, false) ∧ y.used = 0 ∧ (2 ^ 32) ^ (cap - 1) ≤ x.value * 10 ^ p) := by
  have hp : 10 ^ p = 10 ^ (10 * (p / 10)) * 10 ^ (p % 10) := by rw [← pow_add]; congr 1; omega
  have hs : p % 10 < 10 := Nat.mod_lt _ (by norm_num)
  unfold mulPow10
  rw [hp]
  generalize p / 10 = lg at *
  generalize p % 10 = s at *
  rcases mulPowLoop_ok g (lg + 1) lg x (by omega) hx with ⟨y, e, hy, hv⟩ | ⟨y, e, hy, hv⟩
  · rw [e, R.ok_bind]
    dsimp only
    rw [if_neg (by simp), ← Nat.mul_assoc, ← hv]
    by_cases h0 : s = 0
    · rw [if_pos h0]; exact .inl ⟨y, rfl, hy, by rw [h0, pow_zero, Nat.mul_one]⟩
    · rw [if_neg h0, small_pow h0 hs]
      have hb : 10 ^ s < 2 ^ 32 := lt_of_le_of_lt (Nat.pow_le_pow_right (by norm_num) (by omega : s ≤ 9)) (by norm_num)
      rcases mul32_ok hy hb with ⟨z, ez, hz, hzv⟩ | ⟨z, ez, hz, hzv⟩
      · exact .inl ⟨z, ez, hz, hzv⟩
      · exact .inr ⟨z, ez, hz, le_trans (powB_mono (by omega)) hzv⟩
  · rw [e, R.ok_bind]
    dsimp only
    rw [if_pos rfl, ← Nat.mul_assoc]
    exact .inr ⟨y, rfl, hy, le_trans hv (Nat.le_mul_of_pos_right _ (Nat.pow_pos (by norm_num)))⟩

end STL.BigInt
