import Verif.BigInt.Pow
import Verif.BigInt.Div3

/-!
# Big integers: the theorems of C25

`Big.value` is the number represented, `Ok` says that the words in use fit in the object and that the top one is not zero. Every theorem also says that the operation does not
read a word that is not in use, does not write outside the array and keeps `Ok`, so that they chain. The object has room for 3680 bits.
-/

namespace STL.BigInt
open STL Digits

theorem cap_bits : (2 ^ 32) ^ cap = 2 ^ 3680 := by rw [powB, cap_eq]
theorem cap_bits' : (2 ^ 32) ^ (cap - 1) = 2 ^ 3648 := by rw [powB, cap_eq]

theorem Ok.lt_bits {x : Big} (h : Ok x) : x.value < 2 ^ 3680 := by rw [← cap_bits]; exact h.1.lt_cap

/-- `Res` unfolded: exact if the result fits in 3680 bits, otherwise `false` and the number is zeroed. -/
theorem Res.iff {v : Nat} {r : R (Big × Bool)} (h : Res v r) : ∃ y, r = .ok (y, decide (v < 2 ^ 3680)) ∧ Ok y ∧ y.value = if v < 2 ^ 3680 then v else 0 := by
  rcases h with ⟨y, e, hy, hv⟩ | ⟨y, e, hy, hv⟩
  · have : v < 2 ^ 3680 := by rw [← hv]; exact hy.lt_bits
    exact ⟨y, by rw [e, decide_eq_true this], hy, by rw [if_pos this]; exact hv⟩
  · rw [cap_bits] at hv
    have h1 : ¬ v < 2 ^ 3680 := Nat.not_lt.2 hv
    obtain ⟨u, f⟩ := y
    have hu : u = 0 := hy
    subst hu
    exact ⟨_, by rw [e, decide_eq_false h1], Ok.zero f, by rw [if_neg h1]; rfl⟩

/-- Shift left by any number of bits: exact, or overflow exactly when the result needs more than 3680 bits. -/
theorem C25_shift_left {x : Big} (h : Ok x) (n : Nat) :
    ∃ y, shiftLeft x n = .ok (y, decide (x.value * 2 ^ n < 2 ^ 3680)) ∧ Ok y ∧ y.value = if x.value * 2 ^ n < 2 ^ 3680 then x.value * 2 ^ n else 0 := (shiftLeft_ok h n).iff

/-- Addition of a 32-bit number. -/
theorem C25_add {x : Big} (h : Ok x) {v : Nat} (hv : v < 2 ^ 32) :
    ∃ y, add x v = .ok (y, decide (x.value + v < 2 ^ 3680)) ∧ Ok y ∧ y.value = if x.value + v < 2 ^ 3680 then x.value + v else 0 := (add_ok h hv).iff

/-- Multiplication by a 32-bit number. -/
theorem C25_multiply_word {x : Big} (h : Ok x) {m : Nat} (hm : m < 2 ^ 32) :
    ∃ y, mul32 x m = .ok (y, decide (x.value * m < 2 ^ 3680)) ∧ Ok y ∧ y.value = if x.value * m < 2 ^ 3680 then x.value * m else 0 := (mul32_ok h hm).iff

/-- Multiplication, whatever the uninitialized words of the temporary hold. It is exact or reports overflow; if both operands need more than 32 bits it does so exactly when
the product needs more than 3648 bits, otherwise exactly when it needs more than 3680. -/
theorem C25_multiply {x m : Big} (g : Nat → Nat) (hx : Ok x) (hm : Ok m) :
    ∃ y b, mul g x m = .ok (y, b) ∧ Ok y ∧ (y.value = if b then x.value * m.value else 0) ∧
      (b = true ↔ x.value * m.value < if 2 ^ 32 ≤ x.value ∧ 2 ^ 32 ≤ m.value then 2 ^ 3648 else 2 ^ 3680) := by
  have hu : ∀ {z : Big}, Ok z → (1 < z.used ↔ 2 ^ 32 ≤ z.value) := by
    intro z hz
    constructor
    · intro h
      have h1 := hz.ge (by omega)
      have h2 := powB_mono (a := 1) (b := z.used - 1) (by omega)
      rw [pow_one] at h2
      exact le_trans h2 h1
    · intro h
      by_contra hc
      have h1 := hz.1.lt
      have h2 := powB_mono (a := z.used) (b := 1) (by omega)
      rw [pow_one] at h2
      exact absurd (lt_of_lt_of_le h1 h2) (Nat.not_lt.2 h)
  have hc : (2 ^ 32) ^ (if 1 < x.used ∧ 1 < m.used then cap - 1 else cap) = if 2 ^ 32 ≤ x.value ∧ 2 ^ 32 ≤ m.value then 2 ^ 3648 else 2 ^ 3680 := by
    have hiff : (1 < x.used ∧ 1 < m.used) ↔ (2 ^ 32 ≤ x.value ∧ 2 ^ 32 ≤ m.value) := and_congr (hu hx) (hu hm)
    by_cases h : 2 ^ 32 ≤ x.value ∧ 2 ^ 32 ≤ m.value
    · rw [if_pos h, if_pos (hiff.2 h), cap_bits']
    · rw [if_neg h, if_neg (fun h' => h (hiff.1 h')), cap_bits]
  rcases mul_ok g hx hm with ⟨y, e, hy, hv, hl⟩ | ⟨y, e, hy, hv⟩
  · refine ⟨y, true, e, hy, by rw [if_pos rfl]; exact hv, fun _ => ?_, fun _ => rfl⟩
    by_cases h : 2 ^ 32 ≤ x.value ∧ 2 ^ 32 ≤ m.value
    · rw [if_pos h, ← cap_bits']; exact hl ((hu hx).2 h.1) ((hu hm).2 h.2)
    · rw [if_neg h, ← hv]; exact hy.lt_bits
  · rw [hc] at hv
    obtain ⟨u, f⟩ := y
    have hu0 : u = 0 := hy
    subst hu0
    exact ⟨_, false, e, Ok.zero f, rfl, fun h => absurd h (by simp), fun h => absurd h (Nat.not_lt.2 hv)⟩

/-- Multiplication by any power of ten: exact, and successful whenever the product fits in 3648 bits. -/
theorem C25_multiply_power_of_ten {x : Big} (g : Nat → Nat) (hx : Ok x) (p : Nat) :
    ∃ y b, mulPow10 g x p = .ok (y, b) ∧ Ok y ∧ (y.value = if b then x.value * 10 ^ p else 0) ∧ (x.value * 10 ^ p < 2 ^ 3648 → b = true) := by
  rcases mulPow10_ok g hx p with ⟨y, e, hy, hv⟩ | ⟨y, e, hy, hv⟩
  · exact ⟨y, true, e, hy, by rw [if_pos rfl]; exact hv, fun _ => rfl⟩
  · rw [cap_bits'] at hv
    obtain ⟨u, f⟩ := y
    have hu0 : u = 0 := hy
    subst hu0
    exact ⟨_, false, e, Ok.zero f, rfl, fun h => absurd h (Nat.not_lt.2 hv)⟩

/-- `operator<`. -/
theorem C25_less {x y : Big} (hx : Ok x) (hy : Ok y) : lt x y = .ok (decide (x.value < y.value)) := lt_ok hx hy

/-- `_Bit_scan_reverse`: the number of significant bits. -/
theorem C25_bit_scan_reverse {x : Big} (h : Ok x) : ∃ n, bitScan x = .ok n ∧ ∀ k, n ≤ k ↔ x.value < 2 ^ k := ⟨_, bitScan_ok h, fun _ => Nat.size_le⟩

/-- Division by a non-zero number: the remainder replaces the numerator, the low 64 bits of the quotient are returned. -/
theorem C25_divide {x d : Big} (hx : Ok x) (hd : Ok d) (h0 : d.value ≠ 0) :
    ∃ r, divide x d = .ok (r, x.value / d.value % 2 ^ 64) ∧ Ok r ∧ r.value = x.value % d.value := divide_ok hx hd h0

/-! ## The hypotheses are met -/

/-- A two-word number, `5 * 2 ^ 32 + 7`. -/
def ex2 : Big := ⟨2, fun i => if i = 0 then 7 else 5⟩
/-- A three-word number with an extreme top word. -/
def ex3 : Big := ⟨3, fun i => if i = 2 then 2 ^ 32 - 1 else 1⟩

theorem ex2_ok : Ok ex2 := by
  refine ⟨⟨by decide, fun i _ => ?_⟩, fun _ => by decide⟩
  show (if i = 0 then 7 else 5) < 2 ^ 32
  split <;> norm_num
theorem ex3_ok : Ok ex3 := by
  refine ⟨⟨by decide, fun i _ => ?_⟩, fun _ => by decide⟩
  show (if i = 2 then 2 ^ 32 - 1 else 1) < 2 ^ 32
  split <;> norm_num

example : ∃ r, divide ex3 ex2 = .ok (r, (1 + 2 ^ 32 + (2 ^ 32 - 1) * 2 ^ 64) / (7 + 5 * 2 ^ 32) % 2 ^ 64) ∧ Ok r ∧ r.value = (1 + 2 ^ 32 + (2 ^ 32 - 1) * 2 ^ 64) % (7 + 5 * 2 ^ 32) :=
  C25_divide ex3_ok ex2_ok (by decide)
example : ∃ y b, mulPow10 (fun _ => 0) one 1000 = .ok (y, b) ∧ Ok y ∧ (y.value = if b then one.value * 10 ^ 1000 else 0) ∧ (one.value * 10 ^ 1000 < 2 ^ 3648 → b = true) :=
  C25_multiply_power_of_ten _ one_ok.1 1000

end STL.BigInt
