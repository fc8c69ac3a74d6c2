import Verif.Bits.Pop
import Mathlib.Tactic.IntervalCases

/-! # Powers of two, rotation, byteswap: proofs -/

namespace STL.Bits
open STL

/-- `out` is `v` rotated left by `r` (any integer): bit `i` of the result is bit `i - r` modulo the width. -/
def IsRotl (w v : Nat) (r : Int) (out : Nat) : Prop := out < 2 ^ w ∧ ∀ i, i < w → out.testBit i = v.testBit (((i : Int) - r) % w).toNat

theorem toU_toS {w x : Nat} (hw : StdW w) (h : w < 32) : toU w (toS 32 (x : Int)) = x % 2 ^ w := by
  have : ((toU w (toS 32 (x : Int)) : Nat) : Int) = ((x % 2 ^ w : Nat) : Int) := by
    unfold toU toS
    rcases hw with rfl | rfl | rfl | rfl
    · norm_num; omega
    · norm_num; omega
    · omega
    · omega
  exact_mod_cast this

theorem shl_ok {w v n : Nat} (hw : StdW w) (hn : n < w) : ∃ a, shl w v n = .ok a ∧ toU w a = v * 2 ^ n % 2 ^ w := by
  unfold shl
  split
  · rename_i h
    rw [if_pos (by omega)]
    exact ⟨_, rfl, toU_toS hw h⟩
  · exact ⟨_, rfl, by rw [toU_natmod, toU_natmod, Nat.mod_mod]⟩

theorem rot_bits {w v r : Nat} (hv : v < 2 ^ w) (hr : r < w) (hr0 : 0 < r) : IsRotl w v r (v * 2 ^ r % 2 ^ w ||| v / 2 ^ (w - r)) := by
  have hd : v / 2 ^ (w - r) < 2 ^ w := lt_of_le_of_lt (Nat.div_le_self _ _) hv
  refine ⟨Nat.or_lt_two_pow (Nat.mod_lt _ (by positivity)) hd, fun i hi => ?_⟩
  rw [Nat.testBit_or, Nat.testBit_mod_two_pow, Nat.testBit_div_two_pow, mul_comm v, Nat.testBit_two_pow_mul]
  by_cases h : r ≤ i
  · have e : (((i : Int) - r) % w).toNat = i - r := by
      rw [Int.emod_eq_of_lt (by omega) (by omega)]; omega
    have h2 : v.testBit (i + (w - r)) = false := Nat.testBit_lt_two_pow (lt_of_lt_of_le hv (Nat.pow_le_pow_right (by omega) (by omega)))
    rw [e, h2]; simp [hi, h]
  · have e : (((i : Int) - r) % w).toNat = i + (w - r) := by
      have : ((i : Int) - r) % w = i - r + w := by
        rw [← Int.add_emod_right, Int.emod_eq_of_lt (by omega) (by omega)]
      omega
    rw [e]; simp [hi, h]

theorem isRotl_congr {w v out : Nat} {r r' : Int} (h : IsRotl w v r out) (he : r % w = r' % w) : IsRotl w v r' out := by
  refine ⟨h.1, fun i hi => ?_⟩
  rw [h.2 i hi, Int.sub_emod, he, ← Int.sub_emod]

theorem rotlPos_ok {w v r : Nat} (hw : StdW w) (hv : v < 2 ^ w) (hr : r < w) (hr0 : 0 < r) : ∃ out, rotlPos w v r = .ok out ∧ IsRotl w v r out := by
  unfold rotlPos
  obtain ⟨a, h1, h2⟩ := shl_ok (v := v) hw hr
  rw [h1, R.ok_bind, shr_ok (by omega), R.ok_bind, h2]
  exact ⟨_, rfl, rot_bits hv hr hr0⟩

theorem rotrPos_ok {w v r : Nat} (hw : StdW w) (hv : v < 2 ^ w) (hr : r < w) (hr0 : 0 < r) : ∃ out, rotrPos w v r = .ok out ∧ IsRotl w v (-r : Int) out := by
  unfold rotrPos
  obtain ⟨a, h1, h2⟩ := shl_ok (v := v) hw (show w - r < w by omega)
  rw [shr_ok (by omega), R.ok_bind, h1, R.ok_bind, h2]
  refine ⟨_, rfl, ?_⟩
  have := rot_bits (w := w) (r := w - r) hv (by omega) (by omega)
  rw [show w - (w - r) = r by omega] at this
  rw [Nat.or_comm]
  refine isRotl_congr this ?_
  rw [show ((w - r : Nat) : Int) = -r + w by omega, Int.add_emod_right]

theorem isRotl_zero {w v : Nat} {r : Int} (hv : v < 2 ^ w) (h : r % w = 0) : IsRotl w v r v := by
  refine ⟨hv, fun i hi => ?_⟩
  rw [Int.sub_emod, h, sub_zero, Int.emod_emod, Int.emod_eq_of_lt (by omega) (by omega)]; simp

theorem tmod_cases {w : Nat} (hw : StdW w) (rot : Int) : ((Int.tmod rot w) % w = rot % w) ∧ -(w : Int) < Int.tmod rot w ∧ Int.tmod rot w < w := by
  have hp : (0 : Int) < w := by obtain ⟨_, _, _, _, h8⟩ := hw.pow; omega
  refine ⟨?_, Int.lt_tmod_of_pos rot hp, Int.tmod_lt_of_pos rot hp⟩
  conv_rhs => rw [← Int.mul_tdiv_add_tmod rot w]
  rw [Int.mul_add_emod_self_left]

theorem rotl_ok {w v : Nat} (hw : StdW w) (hv : v < 2 ^ w) (rot : Int) : ∃ out, rotl w v rot = .ok out ∧ IsRotl w v rot out := by
  obtain ⟨h1, h2, h3⟩ := tmod_cases hw rot
  obtain ⟨_, _, _, h64, h8⟩ := hw.pow
  unfold rotl
  generalize Int.tmod rot w = m at *
  simp only
  by_cases hp : m > 0
  · rw [if_pos hp]
    obtain ⟨out, e, ho⟩ := rotlPos_ok hw hv (r := m.toNat) (by omega) (by omega)
    exact ⟨out, e, isRotl_congr ho (by rw [← h1]; congr 1; omega)⟩
  · rw [if_neg hp]
    by_cases hz : m = 0
    · rw [if_pos hz]; exact ⟨v, rfl, isRotl_zero hv (by rw [← h1, hz]; simp)⟩
    · rw [if_neg hz, chkI_ok (by omega), R.ok_bind]
      have : Int.tmod (-m) w = -m := by
        rw [Int.tmod_eq_emod_of_nonneg (by omega), Int.emod_eq_of_lt (by omega) (by omega)]
      rw [this, if_pos (by omega)]
      obtain ⟨out, e, ho⟩ := rotrPos_ok hw hv (r := (-m).toNat) (by omega) (by omega)
      exact ⟨out, e, isRotl_congr ho (by rw [← h1]; congr 1; omega)⟩

theorem rotr_ok {w v : Nat} (hw : StdW w) (hv : v < 2 ^ w) (rot : Int) : ∃ out, rotr w v rot = .ok out ∧ IsRotl w v (-rot) out := by
  obtain ⟨h1, h2, h3⟩ := tmod_cases hw rot
  obtain ⟨_, _, _, h64, h8⟩ := hw.pow
  unfold rotr
  generalize Int.tmod rot w = m at *
  simp only
  have hneg : (-m) % w = (-rot) % w := by rw [← Int.emod_emod_of_dvd (-rot) (dvd_refl (w : Int))]; rw [Int.emod_emod]; rw [← zero_sub, Int.sub_emod, h1, ← Int.sub_emod, zero_sub]
  by_cases hp : m > 0
  · rw [if_pos hp]
    obtain ⟨out, e, ho⟩ := rotrPos_ok hw hv (r := m.toNat) (by omega) (by omega)
    exact ⟨out, e, isRotl_congr ho (by rw [← hneg]; congr 1; omega)⟩
  · rw [if_neg hp]
    by_cases hz : m = 0
    · rw [if_pos hz]; exact ⟨v, rfl, isRotl_zero hv (by rw [← hneg, hz]; simp)⟩
    · rw [if_neg hz, chkI_ok (by omega), R.ok_bind]
      have : Int.tmod (-m) w = -m := by
        rw [Int.tmod_eq_emod_of_nonneg (by omega), Int.emod_eq_of_lt (by omega) (by omega)]
      rw [this, if_pos (by omega)]
      obtain ⟨out, e, ho⟩ := rotlPos_ok hw hv (r := (-m).toNat) (by omega) (by omega)
      exact ⟨out, e, isRotl_congr ho (by rw [← hneg]; congr 1; omega)⟩

theorem rotlHw_ok {w v : Nat} (hw : StdW w) (hv : v < 2 ^ w) (n : Int) : IsRotl w v n (rotlHw w v n) := by
  obtain ⟨_, _, _, h64, h8⟩ := hw.pow
  unfold rotlHw
  have h1 : 0 ≤ n % w := Int.emod_nonneg _ (by omega)
  have h2 : n % w < w := Int.emod_lt_of_pos _ (by omega)
  by_cases h0 : n % w = 0
  · rw [h0]
    simp only [Int.toNat_zero, pow_zero, mul_one, Nat.sub_zero]
    rw [Nat.mod_eq_of_lt hv, Nat.div_eq_of_lt hv, Nat.or_zero]
    exact isRotl_zero hv h0
  · have := rot_bits (w := w) (r := (n % w).toNat) hv (by omega) (by omega)
    refine isRotl_congr this ?_
    rw [Int.toNat_of_nonneg h1, Int.emod_emod]

theorem rotrHw_ok {w v : Nat} (hw : StdW w) (hv : v < 2 ^ w) (n : Int) : IsRotl w v (-n) (rotrHw w v n) := by
  obtain ⟨_, _, _, h64, h8⟩ := hw.pow
  unfold rotrHw
  have h1 : 0 ≤ n % w := Int.emod_nonneg _ (by omega)
  have h2 : n % w < w := Int.emod_lt_of_pos _ (by omega)
  have hn : (-n) % w = (-(n % w)) % w := by rw [← zero_sub, ← zero_sub, Int.sub_emod, Int.sub_emod 0 (n % w), Int.emod_emod]
  by_cases h0 : n % w = 0
  · rw [h0]
    simp only [Int.toNat_zero, pow_zero, Nat.div_one, Nat.sub_zero]
    rw [Nat.mul_mod_left, Nat.or_zero]
    exact isRotl_zero hv (by rw [hn, h0]; simp)
  · have := rot_bits (w := w) (r := w - (n % w).toNat) hv (by omega) (by omega)
    rw [show w - (w - (n % w).toNat) = (n % w).toNat by omega] at this
    rw [Nat.or_comm]
    refine isRotl_congr this ?_
    rw [hn, show ((w - (n % w).toNat : Nat) : Int) = -(n % w) + w by omega, Int.add_emod_right]

theorem toU8_mod {w : Nat} (hw : StdW w) (h : w ≤ 16) (rot : Int) : ((toU 8 rot : Nat) : Int) % w = rot % w := by
  unfold toU
  rcases hw with rfl | rfl | rfl | rfl
  · norm_num; omega
  · norm_num; omega
  · omega
  · omega

/-! ## Powers of two -/

/-- [bit.pow.two]: the value is a power of two. -/
def IsPow2 (v : Nat) : Prop := ∃ k, v = 2 ^ k

theorem xor_pred {v : Nat} (h0 : v ≠ 0) : ∃ k m, v = 2 ^ k * (2 * m + 1) ∧ v ^^^ (v - 1) = 2 ^ (k + 1) - 1 := by
  obtain ⟨k, q, he⟩ := odd_part h0
  refine ⟨k, q, he, ?_⟩
  have hp : 1 ≤ 2 ^ k := Nat.one_le_two_pow
  have hv1 : v - 1 = 2 ^ k * (2 * q) + (2 ^ k - 1) := by
    rw [he]
    have : 2 ^ k * (2 * q + 1) = 2 ^ k * (2 * q) + 2 ^ k := by ring
    omega
  apply Nat.eq_of_testBit_eq
  intro i
  rw [Nat.testBit_xor, Nat.testBit_two_pow_sub_one, hv1, Nat.testBit_two_pow_mul_add _ (by omega), he, testBit_odd_part, Nat.testBit_two_pow_sub_one]
  by_cases hi : i < k
  · simp [hi, show i < k + 1 by omega]
  · rw [if_neg hi]
    simp only [show k ≤ i by omega, decide_true, Bool.true_and]
    rcases Nat.eq_zero_or_pos (i - k) with h | h
    · rw [h]; simp; omega
    · obtain ⟨j, hj⟩ : ∃ j, i - k = j + 1 := ⟨i - k - 1, by omega⟩
      rw [hj, Nat.testBit_succ, Nat.testBit_succ]
      have h1 : (2 * q + 1) / 2 = q := by omega
      have h2 : 2 * q / 2 = q := by omega
      rw [h1, h2]
      simp; omega

theorem single_iff {v : Nat} (h0 : v ≠ 0) : v - 1 < v ^^^ (v - 1) ↔ IsPow2 v := by
  obtain ⟨k, m, he, hx⟩ := xor_pred h0
  have hp : 1 ≤ 2 ^ k := Nat.one_le_two_pow
  rw [hx, pow_succ]
  constructor
  · intro h
    have : 2 ^ k * (2 * m + 1) < 2 ^ k * 2 := by rw [← he]; omega
    have := Nat.lt_of_mul_lt_mul_left this
    have hm : m = 0 := by omega
    subst hm
    exact ⟨k, by simpa using he⟩
  · rintro ⟨j, hj⟩
    have hm : m = 0 := by
      by_contra hc
      have h1 : (2 ^ k * (2 * m + 1)).testBit k = true := by rw [testBit_odd_part]; simp
      have h2 : (2 ^ j).testBit k = true := by rw [← hj, he]; exact h1
      rw [Nat.testBit_two_pow] at h2
      have h3 : j = k := by simpa using h2
      subst h3
      rw [hj] at he
      have : 2 ^ j * (2 * m + 1) = 2 ^ j + 2 ^ j * (2 * m) := by ring
      have : 0 < 2 ^ j * (2 * m) := by positivity
      omega
    subst hm
    rw [he]; omega

theorem hasSingleBit_ok {w v : Nat} (hw : StdW w) (hv : v < 2 ^ w) : ∃ b, hasSingleBit w v = .ok b ∧ (b = true ↔ IsPow2 v) := by
  obtain ⟨_, _, _, h64, h8⟩ := hw.pow
  have hz : ¬ IsPow2 0 := by rintro ⟨k, hk⟩; have : 0 < 2 ^ k := by positivity
                             omega
  unfold hasSingleBit arith
  by_cases h32 : w < 32
  · have hv16 : v < 65536 := by rcases hw with rfl | rfl | rfl | rfl <;> norm_num at hv h32 <;> omega
    rw [if_pos h32, chkI_ok (by omega), R.ok_bind, if_pos h32]
    refine ⟨_, rfl, ?_⟩
    rw [decide_eq_true_eq]
    by_cases h0 : v = 0
    · subst h0
      simp only [hz, iff_false]
      decide
    · rw [← single_iff h0, show (v : Int) - 1 = ((v - 1 : Nat) : Int) by omega, toU_nat (by norm_num; omega), toU_nat (by norm_num; omega),
        toS32_small (by
          have : v ^^^ (v - 1) < 2 ^ 16 := Nat.xor_lt_two_pow (by norm_num; omega) (by norm_num; omega)
          norm_num at this; omega)]
      exact Nat.cast_lt
  · rw [if_neg h32, R.ok_bind, if_neg h32]
    refine ⟨_, rfl, ?_⟩
    rw [decide_eq_true_eq]
    obtain ⟨m, e1, e2⟩ := arith_pred hw hv
    have e3 : toU w ((v : Int) - 1) = (if v = 0 then 2 ^ w - 1 else v - 1) := by
      unfold arith at e1
      rw [if_neg h32] at e1
      injection e1 with e1
      rw [← e2, ← e1, toU_nat]
      unfold toU
      have := Int.emod_lt_of_pos ((v : Int) - 1) (show (0 : Int) < 2 ^ w by positivity)
      have h3 := Int.emod_nonneg ((v : Int) - 1) (show (2 : Int) ^ w ≠ 0 by positivity)
      have : (((v : Int) - 1) % 2 ^ w).toNat < (2 ^ w : Int).toNat := by omega
      have h4 : ((2 : Int) ^ w).toNat = 2 ^ w := by
        have : (2 : Int) ^ w = ((2 ^ w : Nat) : Int) := by push_cast; rfl
        rw [this, Int.toNat_natCast]
      omega
    rw [e3]
    have hp : 1 ≤ 2 ^ w := Nat.one_le_two_pow
    by_cases h0 : v = 0
    · subst h0
      rw [if_pos rfl, toU_nat (by omega), Nat.zero_xor]
      simp [hz]
    · rw [if_neg h0, toU_nat (by omega), ← single_iff h0]
      exact Nat.cast_lt

theorem size_pred {v k : Nat} (h : 2 ≤ v) : Nat.size (v - 1) = k ↔ (v ≤ 2 ^ k ∧ 2 ^ (k - 1) < v ∧ 1 ≤ k) := by
  constructor
  · rintro rfl
    have h1 := Nat.lt_size_self (v - 1)
    have hp : 0 < Nat.size (v - 1) := Nat.size_pos.2 (by omega)
    have h2 : 2 ^ (Nat.size (v - 1) - 1) ≤ v - 1 := Nat.lt_size.1 (by omega)
    omega
  · rintro ⟨h1, h2, h3⟩
    apply le_antisymm
    · rw [Nat.size_le]; omega
    · have := Nat.lt_size.2 (show 2 ^ (k - 1) ≤ v - 1 by omega)
      omega

theorem shl_one {w n : Nat} (hw : StdW w) (hn : n < w) : ∃ a, shl w 1 n = .ok a ∧ toU w a = 2 ^ n := by
  obtain ⟨a, h1, h2⟩ := shl_ok (v := 1) hw hn
  refine ⟨a, h1, ?_⟩
  rw [h2, one_mul, Nat.mod_eq_of_lt (Nat.pow_lt_pow_right (by omega) hn)]

/-! ## Byteswap -/

/-- Byte `j` of the result is byte `w/8 - 1 - j` of the operand. -/
def IsByteswap (w v out : Nat) : Prop := out < 2 ^ w ∧ ∀ j k, j < w / 8 → k < 8 → out.testBit (8 * j + k) = v.testBit (8 * (w / 8 - 1 - j) + k)

theorem bswap16_ok {v : Nat} (hv : v < 2 ^ 16) : IsByteswap 16 v (bswap16 v) := by
  have hhi : ∀ i, 16 ≤ i → v.testBit i = false := fun i hi => Nat.testBit_lt_two_pow (lt_of_lt_of_le hv (Nat.pow_le_pow_right (by omega) hi))
  refine ⟨Nat.mod_lt _ (by norm_num), fun j k hj hk => ?_⟩
  unfold bswap16
  simp only [Nat.testBit_or, Nat.testBit_mod_two_pow, Nat.testBit_shiftLeft, Nat.testBit_shiftRight]
  interval_cases j <;> interval_cases k <;> simp (decide := true) [hhi]

theorem mask_bits (n i : Nat) : (2 ^ n * (2 ^ 8 - 1)).testBit i = (decide (n ≤ i) && decide (i - n < 8)) := by
  rw [Nat.testBit_two_pow_mul, Nat.testBit_two_pow_sub_one]

theorem bswap32_ok {v : Nat} (hv : v < 2 ^ 32) : IsByteswap 32 v (bswap32 v) := by
  have hhi : ∀ i, 32 ≤ i → v.testBit i = false := fun i hi => Nat.testBit_lt_two_pow (lt_of_lt_of_le hv (Nat.pow_le_pow_right (by omega) hi))
  constructor
  · unfold bswap32
    have hs : ∀ k, v >>> k < 2 ^ 32 := fun k => by rw [Nat.shiftRight_eq_div_pow]; exact lt_of_le_of_lt (Nat.div_le_self _ _) hv
    refine Nat.or_lt_two_pow (Nat.or_lt_two_pow (Nat.or_lt_two_pow (Nat.mod_lt _ (by norm_num)) ?_) ?_) (hs 24)
    · exact Nat.and_lt_two_pow _ (by norm_num)
    · exact Nat.and_lt_two_pow _ (by norm_num)
  · intro j k hj hk
    unfold bswap32
    rw [show (0x00FF0000 : Nat) = 2 ^ 16 * (2 ^ 8 - 1) by norm_num, show (0x0000FF00 : Nat) = 2 ^ 8 * (2 ^ 8 - 1) by norm_num]
    simp only [Nat.testBit_or, Nat.testBit_and, Nat.testBit_mod_two_pow, Nat.testBit_shiftLeft, Nat.testBit_shiftRight, mask_bits]
    interval_cases j <;> interval_cases k <;> simp (decide := true) [hhi]

theorem bswap64_ok {v : Nat} (hv : v < 2 ^ 64) : IsByteswap 64 v (bswap64 v) := by
  have hhi : ∀ i, 64 ≤ i → v.testBit i = false := fun i hi => Nat.testBit_lt_two_pow (lt_of_lt_of_le hv (Nat.pow_le_pow_right (by omega) hi))
  constructor
  · unfold bswap64
    have hs : ∀ k, v >>> k < 2 ^ 64 := fun k => by rw [Nat.shiftRight_eq_div_pow]; exact lt_of_le_of_lt (Nat.div_le_self _ _) hv
    refine Nat.or_lt_two_pow (Nat.or_lt_two_pow (Nat.or_lt_two_pow (Nat.or_lt_two_pow (Nat.or_lt_two_pow (Nat.or_lt_two_pow (Nat.or_lt_two_pow (Nat.mod_lt _ (by norm_num)) ?_) ?_) ?_) ?_) ?_) ?_) (hs 56)
    all_goals exact Nat.and_lt_two_pow _ (by norm_num)
  · intro j k hj hk
    unfold bswap64
    rw [show (0x00FF000000000000 : Nat) = 2 ^ 48 * (2 ^ 8 - 1) by norm_num, show (0x0000FF0000000000 : Nat) = 2 ^ 40 * (2 ^ 8 - 1) by norm_num,
      show (0x000000FF00000000 : Nat) = 2 ^ 32 * (2 ^ 8 - 1) by norm_num, show (0x00000000FF000000 : Nat) = 2 ^ 24 * (2 ^ 8 - 1) by norm_num,
      show (0x0000000000FF0000 : Nat) = 2 ^ 16 * (2 ^ 8 - 1) by norm_num, show (0x000000000000FF00 : Nat) = 2 ^ 8 * (2 ^ 8 - 1) by norm_num]
    simp only [Nat.testBit_or, Nat.testBit_and, Nat.testBit_mod_two_pow, Nat.testBit_shiftLeft, Nat.testBit_shiftRight, mask_bits]
    interval_cases j <;> interval_cases k <;> simp (decide := true) [hhi]

end STL.Bits
