import Verif.Bits.Misc

/-!
# C15: `<bit>`

`StdW w`: `w` is 8, 16, 32 or 64, the widths of the standard unsigned types. `IsClz`, `IsCtz`, `IsRotl`, `IsPow2`, `IsByteswap` are the defining
conditions, bit by bit. `Path`/`PopPath` range over the portable code and every use of an intrinsic. Each theorem states that the call returns, so no
shift is oversized and no `int` overflows.
-/

namespace STL.Bits
open STL

theorem isCtz_compl {w v n : Nat} (hv : v < 2 ^ w) : IsCtz w (compl w v) n ↔ (n ≤ w ∧ (∀ i, i < n → v.testBit i = true) ∧ (n < w → v.testBit n = false)) := by
  unfold IsCtz compl
  constructor
  · rintro ⟨h1, h2, h3⟩
    refine ⟨h1, fun i hi => ?_, fun hn => ?_⟩
    · have := h2 i hi; rw [compl_testBit hv] at this; simpa [show i < w by omega] using this
    · have := h3 hn; rw [compl_testBit hv] at this; simpa [hn] using this
  · rintro ⟨h1, h2, h3⟩
    refine ⟨h1, fun i hi => ?_, fun hn => ?_⟩
    · rw [compl_testBit hv, h2 i hi]; simp
    · rw [compl_testBit hv, h3 hn]; simp [hn]

/-- `countl_zero` -/
theorem C15_countl_zero {w v : Nat} (hw : StdW w) (hv : v < 2 ^ w) (p : Path) : ∃ n : Nat, countlZero p w v = .ok (n : Int) ∧ IsClz w v n := by
  have := Nat.size_le.2 hv
  refine ⟨w - Nat.size v, by rw [countlZero_ok hw hv p]; congr 1; omega, (size_iff_clz hv).2 (by omega)⟩

/-- `countr_zero` -/
theorem C15_countr_zero {w v : Nat} (hw : StdW w) (hv : v < 2 ^ w) (p : Path) : ∃ n : Nat, countrZero p w v = .ok (n : Int) ∧ IsCtz w v n :=
  countrZero_ok hw hv p

theorem compl_lt {w v : Nat} : compl w v < 2 ^ w := by
  unfold compl
  have : 1 ≤ 2 ^ w := Nat.one_le_two_pow
  omega

/-- `countl_one`: the number of consecutive one bits from the most significant bit. -/
theorem C15_countl_one {w v : Nat} (hw : StdW w) (hv : v < 2 ^ w) (p : Path) :
    ∃ n : Nat, countlOne p w v = .ok (n : Int) ∧ n ≤ w ∧ (∀ i, w - n ≤ i → i < w → v.testBit i = true) ∧ (n < w → v.testBit (w - 1 - n) = false) := by
  obtain ⟨n, e, h1, h2, h3⟩ := C15_countl_zero hw (compl_lt (v := v)) p
  refine ⟨n, e, h1, fun i hi hiw => ?_, fun hn => ?_⟩
  · have := h2 i hi hiw
    unfold compl at this
    rw [compl_testBit hv] at this
    simpa [hiw] using this
  · have := h3 hn
    unfold compl at this
    rw [compl_testBit hv] at this
    simp only [Bool.and_eq_true, Bool.not_eq_true', decide_eq_true_eq] at this
    exact this.2

/-- `countr_one`: the number of consecutive one bits from the least significant bit. -/
theorem C15_countr_one {w v : Nat} (hw : StdW w) (hv : v < 2 ^ w) (p : Path) :
    ∃ n : Nat, countrOne p w v = .ok (n : Int) ∧ n ≤ w ∧ (∀ i, i < n → v.testBit i = true) ∧ (n < w → v.testBit n = false) := by
  obtain ⟨n, e, h⟩ := C15_countr_zero hw (compl_lt (v := v)) p
  exact ⟨n, e, (isCtz_compl hv).1 h⟩

theorem popBits_eq_card (v : Nat) : ∀ n, popBits n v = ((List.range n).filter fun i => v.testBit i).length
  | 0 => rfl
  | n + 1 => by
    unfold popBits
    rw [popBits_eq_card v n, List.range_succ, List.filter_append, List.length_append]
    cases h : v.testBit n <;> simp [h]; omega

theorem popBits_more {v w : Nat} (hv : v < 2 ^ w) : ∀ k, popBits (w + k) v = popBits w v
  | 0 => rfl
  | k + 1 => by
    show (v.testBit (w + k)).toNat + popBits (w + k) v = _
    rw [popBits_more hv k, Nat.testBit_lt_two_pow (lt_of_lt_of_le hv (Nat.pow_le_pow_right (by omega) (by omega)))]; simp

theorem popBits_halves {v : Nat} : popBits 64 v = popBits 32 (v / 2 ^ 32) + popBits 32 (v % 2 ^ 32) := by
  have := popBits_add (b := 32) (v / 2 ^ 32) (v % 2 ^ 32) (Nat.mod_lt _ (by norm_num)) 32
  rw [Nat.div_add_mod] at this
  exact this

theorem popSplit_ok {w v : Nat} (hw : StdW w) (hv : v < 2 ^ w) : popSplit w v = .ok (popBits w v : Int) := by
  unfold popSplit
  by_cases h : w = 64
  · subst h
    rw [if_pos rfl, popFallback_ok (Or.inr (Or.inr (Or.inl rfl))) (Nat.mod_lt _ (by norm_num)), R.ok_bind,
      popFallback_ok (Or.inr (Or.inr (Or.inl rfl))) (Nat.mod_lt _ (by norm_num)), R.ok_bind]
    have h1 := popBits_le 32 (v % 2 ^ 32)
    have h2 := popBits_le 32 (v / 2 ^ 32 % 2 ^ 32)
    have h3 := popBits_halves (v := v)
    rw [popBits_mod (n := 32) (v := v / 2 ^ 32)] at h3
    generalize popBits 64 v = A at *
    generalize popBits 32 (v % 2 ^ 32) = B at *
    generalize popBits 32 (v / 2 ^ 32 % 2 ^ 32) = C at *
    rw [chkI_ok (by omega), h3]
    congr 1
    push_cast
    ring
  · rw [if_neg h]; exact popFallback_ok hw hv

theorem popIntrinsic_ok {w v : Nat} (hw : StdW w) (hv : v < 2 ^ w) (x : Bool) : popIntrinsic x w v = (popBits w v : Int) := by
  unfold popIntrinsic
  rcases hw with rfl | rfl | rfl | rfl
  · rw [if_pos (by norm_num)]
    have := popBits_more hv 8
    generalize popBits 8 v = A at *
    rw [← this]
  · rw [if_pos (by norm_num)]
  · rw [if_neg (by norm_num), if_pos rfl]
  · rw [if_neg (by norm_num), if_neg (by norm_num)]
    have h3 := popBits_halves (v := v)
    generalize popBits 64 v = A at *
    generalize popBits 32 (v % 2 ^ 32) = B at *
    generalize popBits 32 (v / 2 ^ 32) = C at *
    cases x with
    | true => rw [if_pos rfl]
    | false => simp only [Bool.false_eq_true, if_false]; omega

/-- `popcount`: the number of positions below `w` holding a one. -/
theorem C15_popcount {w v : Nat} (hw : StdW w) (hv : v < 2 ^ w) (p : PopPath) :
    popcount p w v = .ok (((List.range w).filter fun i => v.testBit i).length : Int) := by
  rw [← popBits_eq_card]
  cases p with
  | fallback => exact popFallback_ok hw hv
  | split => exact popSplit_ok hw hv
  | popcnt x => simp only [popcount, popIntrinsic_ok hw hv]

/-- `has_single_bit` -/
theorem C15_has_single_bit {w v : Nat} (hw : StdW w) (hv : v < 2 ^ w) : ∃ b, hasSingleBit w v = .ok b ∧ (b = true ↔ IsPow2 v) :=
  hasSingleBit_ok hw hv

theorem popBits_one_iff {w v : Nat} (hv : v < 2 ^ w) : popBits w v = 1 ↔ IsPow2 v := by
  by_cases h0 : v = 0
  · subst h0
    rw [popBits_zero]
    refine ⟨fun h => by omega, ?_⟩
    rintro ⟨k, hk⟩
    have : 0 < 2 ^ k := by positivity
    omega
  · obtain ⟨k, m, he⟩ := odd_part h0
    have hk := k_lt he hv
    obtain ⟨q, hq⟩ : ∃ q, w = q + 1 + k := ⟨w - 1 - k, by omega⟩
    have hp : popBits w v = popBits q m + 1 := by
      have h1 := popBits_add (b := k) (2 * m + 1) 0 (by positivity) (q + 1)
      rw [Nat.add_zero (2 ^ k * (2 * m + 1)), ← he, ← hq, popBits_zero] at h1
      have h2 := popBits_add (b := 1) m 1 (by norm_num) q
      rw [pow_one] at h2
      rw [h1, h2]
      simp [popBits]
    have hm : m < 2 ^ q := by
      rw [he, hq, pow_add, mul_comm] at hv
      have := Nat.lt_of_mul_lt_mul_right hv
      rw [pow_succ] at this; omega
    rw [hp]
    constructor
    · intro h
      have hz : popBits q m = 0 := by omega
      have : m = 0 := by
        apply Nat.eq_of_testBit_eq
        intro i
        rw [Nat.zero_testBit]
        by_cases hi : i < q
        · rw [popBits_eq_card] at hz
          have := List.length_eq_zero_iff.1 hz
          by_contra hc
          have hmem : i ∈ (List.range q).filter fun i => m.testBit i := List.mem_filter.2 ⟨List.mem_range.2 hi, by simpa using hc⟩
          rw [this] at hmem
          simp at hmem
        · exact Nat.testBit_lt_two_pow (lt_of_lt_of_le hm (Nat.pow_le_pow_right (by omega) (by omega)))
      subst this
      exact ⟨k, by simpa using he⟩
    · intro h
      rw [← single_iff h0] at h
      obtain ⟨k', m', he', hx⟩ := xor_pred h0
      rw [hx] at h
      have h1 := ctz_of_odd_part he hk
      have h2 := ctz_of_odd_part he' (k_lt he' hv)
      have h3 := ctz_unique h1 h2
      subst h3
      have : m = 0 := by
        have h4 : 2 ^ k * (2 * m + 1) < 2 ^ k * 2 := by rw [← he, ← pow_succ]; have : 1 ≤ 2 ^ (k + 1) := Nat.one_le_two_pow
                                                        omega
        have := Nat.lt_of_mul_lt_mul_left h4
        omega
      subst this
      rw [popBits_zero]

/-- `has_single_bit` with the popcount instruction agrees. -/
theorem C15_has_single_bit_popcnt {w v : Nat} (hw : StdW w) (hv : v < 2 ^ w) (x64 : Bool) : hasSingleBitPop x64 w v = true ↔ IsPow2 v := by
  have h := C15_popcount hw hv (.popcnt x64)
  simp only [popcount] at h
  injection h with h
  unfold hasSingleBitPop
  rw [h, beq_iff_eq, ← popBits_eq_card, ← popBits_one_iff hv]
  norm_cast

/-- `bit_width`: the least `n` with `v < 2 ^ n`. -/
theorem C15_bit_width {w v : Nat} (hw : StdW w) (hv : v < 2 ^ w) (p : Path) : ∃ n : Nat, bitWidth p w v = .ok (n : Int) ∧ v < 2 ^ n ∧ ∀ m, v < 2 ^ m → n ≤ m := by
  obtain ⟨_, _, _, h64, _⟩ := hw.pow
  have := Nat.size_le.2 hv
  unfold bitWidth
  rw [countlZero_ok hw hv p, R.ok_bind, chkI_ok (by omega)]
  exact ⟨Nat.size v, by congr 1; omega, Nat.lt_size_self v, fun m hm => Nat.size_le.2 hm⟩

/-- `bit_ceil`: the least power of two not below `v`, whenever it is representable. -/
theorem C15_bit_ceil {w v : Nat} (hw : StdW w) (hv : v < 2 ^ w) (p : Path) (hrep : ∃ k, k < w ∧ v ≤ 2 ^ k) :
    ∃ n, bitCeil p w v = .ok n ∧ IsPow2 n ∧ v ≤ n ∧ ∀ m, IsPow2 m → v ≤ m → n ≤ m := by
  obtain ⟨_, _, _, h64, _⟩ := hw.pow
  unfold bitCeil
  by_cases h1 : v ≤ 1
  · rw [if_pos h1]
    refine ⟨1, rfl, ⟨0, rfl⟩, h1, ?_⟩
    rintro m ⟨k, rfl⟩ _
    exact Nat.one_le_two_pow
  · rw [if_neg h1, show (v : Int) - 1 = ((v - 1 : Nat) : Int) by omega, toU_nat (by omega), countlZero_ok hw (by omega) p, R.ok_bind]
    obtain ⟨k, hk, hvk⟩ := hrep
    have hsz : Nat.size (v - 1) ≤ k := Nat.size_le.2 (by have : 1 ≤ 2 ^ k := Nat.one_le_two_pow
                                                         omega)
    obtain ⟨a1, a2, a3⟩ := (size_pred (k := Nat.size (v - 1)) (by omega)).1 rfl
    rw [chkI_ok (by omega), R.ok_bind, show ((w : Int) - (w - (Nat.size (v - 1) : Nat))).toNat = Nat.size (v - 1) by omega]
    obtain ⟨a, e1, e2⟩ := shl_one hw (show Nat.size (v - 1) < w by omega)
    rw [e1, R.ok_bind, e2]
    refine ⟨_, rfl, ⟨_, rfl⟩, a1, ?_⟩
    rintro m ⟨j, rfl⟩ hm
    apply Nat.pow_le_pow_right (by omega)
    rw [Nat.size_le]; omega

/-- `bit_floor`: 0 for 0, otherwise the greatest power of two not above `v`. -/
theorem C15_bit_floor {w v : Nat} (hw : StdW w) (hv : v < 2 ^ w) (p : Path) :
    ∃ n, bitFloor p w v = .ok n ∧ (v = 0 → n = 0) ∧ (v ≠ 0 → IsPow2 n ∧ n ≤ v ∧ ∀ m, IsPow2 m → m ≤ v → m ≤ n) := by
  obtain ⟨_, _, _, h64, _⟩ := hw.pow
  unfold bitFloor
  by_cases h0 : v = 0
  · rw [if_pos h0]; exact ⟨0, rfl, fun _ => rfl, fun h => absurd h0 h⟩
  · rw [if_neg h0]
    have hs := Nat.size_le.2 hv
    have hp : 0 < Nat.size v := Nat.size_pos.2 (by omega)
    rw [countlZero_ok hw hv p, R.ok_bind, chkI_ok (by omega), R.ok_bind, show ((w : Int) - 1 - (w - (Nat.size v : Nat))).toNat = Nat.size v - 1 by omega]
    obtain ⟨a, e1, e2⟩ := shl_one hw (show Nat.size v - 1 < w by omega)
    rw [e1, R.ok_bind, e2]
    refine ⟨_, rfl, fun h => absurd h h0, fun _ => ⟨⟨_, rfl⟩, Nat.lt_size.1 (by omega), ?_⟩⟩
    rintro m ⟨j, rfl⟩ hm
    apply Nat.pow_le_pow_right (by omega)
    have := Nat.lt_size.2 hm
    omega

/-- `rotl`, every `int` count: bit `i` of the result is bit `i - count` modulo the width. -/
theorem C15_rotl {w v : Nat} (hw : StdW w) (hv : v < 2 ^ w) (rot : Int) :
    (∃ out, rotl w v rot = .ok out ∧ IsRotl w v rot out) ∧ IsRotl w v rot (rotlRt w v rot) := by
  refine ⟨rotl_ok hw hv rot, ?_⟩
  unfold rotlRt
  split
  · rename_i h
    exact isRotl_congr (rotlHw_ok hw hv _) (toU8_mod hw h rot)
  · exact rotlHw_ok hw hv rot

/-- `rotr` is rotation left by the opposite count. -/
theorem C15_rotr {w v : Nat} (hw : StdW w) (hv : v < 2 ^ w) (rot : Int) :
    (∃ out, rotr w v rot = .ok out ∧ IsRotl w v (-rot) out) ∧ IsRotl w v (-rot) (rotrRt w v rot) := by
  refine ⟨rotr_ok hw hv rot, ?_⟩
  unfold rotrRt
  split
  · rename_i h
    refine isRotl_congr (rotrHw_ok hw hv _) ?_
    rw [← zero_sub, ← zero_sub, Int.sub_emod, toU8_mod hw h rot, ← Int.sub_emod]
  · exact rotrHw_ok hw hv rot

/-- Rotation by a count and back is the identity (a consequence of the bitwise description). -/
theorem C15_rot_roundtrip {w v : Nat} (hw : StdW w) (hv : v < 2 ^ w) (rot : Int) : ∃ out, rotl w v rot = .ok out ∧ rotr w out rot = .ok v := by
  obtain ⟨out, e, h1, h2⟩ := rotl_ok hw hv rot
  obtain ⟨out', e', h1', h2'⟩ := rotr_ok hw h1 rot
  refine ⟨out, e, ?_⟩
  rw [e']
  congr 1
  obtain ⟨_, _, _, h64, h8⟩ := hw.pow
  apply Nat.eq_of_testBit_eq
  intro i
  by_cases hi : i < w
  · have hn := Int.emod_nonneg ((i : Int) - -rot) (show (w : Int) ≠ 0 by omega)
    have hl := Int.emod_lt_of_pos ((i : Int) - -rot) (show (0 : Int) < w by omega)
    rw [h2' i hi, h2 _ (by omega), Int.toNat_of_nonneg hn, Int.emod_sub_emod, show (i : Int) - -rot - rot = i by omega, Int.emod_eq_of_lt (by omega) (by omega), Int.toNat_natCast]
  · rw [Nat.testBit_lt_two_pow (lt_of_lt_of_le h1' (Nat.pow_le_pow_right (by omega) (by omega))), Nat.testBit_lt_two_pow (lt_of_lt_of_le hv (Nat.pow_le_pow_right (by omega) (by omega)))]

/-- `byteswap` -/
theorem C15_byteswap {w v : Nat} (hw : StdW w) (hv : v < 2 ^ w) : ∃ out, byteswap w v = .ok out ∧ IsByteswap w v out := by
  unfold byteswap
  rcases hw with rfl | rfl | rfl | rfl
  · exact ⟨v, rfl, hv, fun j k hj hk => by
      have : j = 0 := by omega
      subst this; rfl⟩
  · exact ⟨_, rfl, bswap16_ok hv⟩
  · exact ⟨_, rfl, bswap32_ok hv⟩
  · exact ⟨_, rfl, bswap64_ok hv⟩

/-! ## The hypotheses are met, and the results are not trivial -/

example : StdW 16 ∧ 40000 < 2 ^ 16 := ⟨Or.inr (Or.inl rfl), by norm_num⟩
example : IsClz 8 5 5 ∧ IsCtz 8 40 3 := ⟨⟨by norm_num, by decide, by decide⟩, by norm_num, by decide, by decide⟩
example : rotl 8 0b10010110 (-3) = .ok 0b11010010 := by decide
example : ∃ k, k < 8 ∧ 100 ≤ 2 ^ k := ⟨7, by norm_num⟩
example : byteswap 32 0x12345678 = .ok 0x78563412 := by decide

end STL.Bits
