import Verif.Bits.Count

/-! # `popcount`: proofs -/

namespace STL.Bits
open STL

/-- The fields of `b` bits of a word, least significant first. -/
def pack (b : Nat) : List Nat → Nat
  | [] => 0
  | x :: xs => 2 ^ b * pack b xs + x

theorem pack_cons (b x : Nat) (xs : List Nat) : pack b (x :: xs) = 2 ^ b * pack b xs + x := rfl

theorem pack_testBit {b : Nat} (hb : 0 < b) : ∀ {l : List Nat}, (∀ x ∈ l, x < 2 ^ b) → ∀ i, (pack b l).testBit i = (l.getD (i / b) 0).testBit (i % b)
  | [], _, i => by simp [pack]
  | x :: xs, h, i => by
    rw [pack_cons, Nat.testBit_two_pow_mul_add _ (h x (by simp))]
    by_cases hi : i < b
    · rw [if_pos hi, Nat.div_eq_of_lt hi, Nat.mod_eq_of_lt hi]; rfl
    · rw [if_neg hi, pack_testBit hb (fun y hy => h y (by simp [hy]))]
      have h1 : i / b = (i - b) / b + 1 := by
        rw [← Nat.sub_add_cancel (show b ≤ i by omega), Nat.add_div_right _ hb]; simp
      have h2 : i % b = (i - b) % b := by
        conv_lhs => rw [← Nat.sub_add_cancel (show b ≤ i by omega)]
        rw [Nat.add_mod_right]
      rw [h1, h2]; rfl

theorem pack_lt {b : Nat} : ∀ {l : List Nat}, (∀ x ∈ l, x < 2 ^ b) → pack b l < 2 ^ (b * l.length)
  | [], _ => by simp [pack]
  | x :: xs, h => by
    have h1 := pack_lt (l := xs) fun y hy => h y (by simp [hy])
    have h2 := h x (by simp)
    rw [pack_cons, List.length_cons, Nat.mul_add, pow_add, mul_one]
    nlinarith

theorem pack_surj (b : Nat) : ∀ (n v : Nat), v < 2 ^ (b * n) → ∃ l : List Nat, l.length = n ∧ (∀ x ∈ l, x < 2 ^ b) ∧ pack b l = v
  | 0, v, h => ⟨[], rfl, by simp, by simp at h; simp [pack, h]⟩
  | n + 1, v, h => by
    obtain ⟨l, h1, h2, h3⟩ := pack_surj b n (v / 2 ^ b) (by
      rw [Nat.div_lt_iff_lt_mul (by positivity), ← pow_add]; rw [Nat.mul_add, mul_one] at h; exact h)
    refine ⟨v % 2 ^ b :: l, by simp [h1], ?_, by rw [pack_cons, h3]; exact Nat.div_add_mod v (2 ^ b)⟩
    intro x hx
    rcases List.mem_cons.1 hx with rfl | hx
    · exact Nat.mod_lt _ (by positivity)
    · exact h2 x hx

/-- Shifting by part of a field and masking the low bits of each field acts field by field. -/
theorem pack_shift_mask {b k c : Nat} (hb : 0 < b) (hkc : k + c ≤ b) {l : List Nat} (h : ∀ x ∈ l, x < 2 ^ b) :
    (pack b l / 2 ^ k) &&& pack b (List.replicate l.length (2 ^ c - 1)) = pack b (l.map fun x => x / 2 ^ k % 2 ^ c) := by
  have hc1 : 1 ≤ 2 ^ c := Nat.one_le_two_pow
  have hcb : 2 ^ c ≤ 2 ^ b := Nat.pow_le_pow_right (by omega) (by omega)
  apply Nat.eq_of_testBit_eq
  intro i
  rw [Nat.testBit_and, Nat.testBit_div_two_pow, pack_testBit hb h, pack_testBit hb (fun x hx => by rw [List.eq_of_mem_replicate hx]; omega),
    pack_testBit hb (fun x hx => by
      obtain ⟨y, _, rfl⟩ := List.mem_map.1 hx
      exact lt_of_lt_of_le (Nat.mod_lt _ (by omega)) hcb)]
  by_cases hl : i / b < l.length
  · have e1 : (List.replicate l.length (2 ^ c - 1)).getD (i / b) 0 = 2 ^ c - 1 := by
      rw [List.getD_eq_getElem?_getD, List.getElem?_replicate, if_pos hl]; rfl
    have e2 : (l.map fun x => x / 2 ^ k % 2 ^ c).getD (i / b) 0 = l.getD (i / b) 0 / 2 ^ k % 2 ^ c := by
      rw [List.getD_eq_getElem?_getD, List.getElem?_map, List.getD_eq_getElem?_getD, List.getElem?_eq_getElem hl]; rfl
    rw [e1, e2, Nat.testBit_two_pow_sub_one, Nat.testBit_mod_two_pow, Nat.testBit_div_two_pow]
    by_cases hic : i % b < c
    · have hlt : i % b + k < b := by omega
      have h1 : (i + k) / b = i / b := by
        conv_lhs => rw [← Nat.div_add_mod i b, Nat.add_assoc]
        rw [Nat.mul_add_div hb, Nat.div_eq_of_lt hlt, Nat.add_zero]
      have h2 : (i + k) % b = i % b + k := by
        conv_lhs => rw [← Nat.div_add_mod i b, Nat.add_assoc]
        rw [Nat.mul_add_mod, Nat.mod_eq_of_lt hlt]
      rw [h1, h2]; simp [hic]
    · simp [hic]
  · have e1 : (List.replicate l.length (2 ^ c - 1)).getD (i / b) 0 = 0 := by
      rw [List.getD_eq_getElem?_getD, List.getElem?_eq_none (by simpa using hl)]; rfl
    have e2 : (l.map fun x => x / 2 ^ k % 2 ^ c).getD (i / b) 0 = 0 := by
      rw [List.getD_eq_getElem?_getD, List.getElem?_eq_none (by simpa using hl)]; rfl
    rw [e1, e2]; simp

theorem pack_add {b : Nat} (f g : Nat → Nat) : ∀ (l : List Nat), pack b (l.map f) + pack b (l.map g) = pack b (l.map fun x => f x + g x)
  | [] => rfl
  | x :: xs => by
    simp only [List.map_cons, pack_cons]
    rw [← pack_add f g xs]; ring

/-- Two adjacent fields as one. -/
def pair (b : Nat) : List Nat → List Nat
  | x :: y :: l => (2 ^ b * y + x) :: pair b l
  | _ => []

theorem pack_pair {b : Nat} : ∀ {l : List Nat}, l.length % 2 = 0 → pack (2 * b) (pair b l) = pack b l ∧ (pair b l).length = l.length / 2
  | [], _ => ⟨rfl, rfl⟩
  | [_], h => by simp at h
  | x :: y :: l, h => by
    obtain ⟨h1, h2⟩ := pack_pair (b := b) (l := l) (by simp only [List.length_cons] at h; omega)
    constructor
    · unfold pair
      rw [pack_cons, pack_cons, pack_cons, h1, show 2 * b = b + b by omega, pow_add]; ring
    · simp only [pair, List.length_cons, h2]; omega

/-- `Σ` of the fields and the number of set bits. -/
theorem popBits_mod {n v : Nat} : popBits n v = popBits n (v % 2 ^ n) := by
  have : ∀ m, m ≤ n → popBits m v = popBits m (v % 2 ^ n) := by
    intro m
    induction m with
    | zero => intro _; rfl
    | succ m ih =>
      intro hm
      unfold popBits
      rw [ih (by omega), Nat.testBit_mod_two_pow]
      simp [show m < n by omega]
  exact this n (le_refl _)

theorem popBits_zero : ∀ n, popBits n 0 = 0
  | 0 => rfl
  | n + 1 => by unfold popBits; rw [popBits_zero n]; simp

theorem popBits_add {b : Nat} (p x : Nat) (hx : x < 2 ^ b) : ∀ n, popBits (n + b) (2 ^ b * p + x) = popBits n p + popBits b x
  | 0 => by
    rw [Nat.zero_add, popBits_mod, Nat.mul_add_mod, Nat.mod_eq_of_lt hx]
    simp [popBits]
  | n + 1 => by
    rw [show n + 1 + b = (n + b) + 1 by omega]
    show ((2 ^ b * p + x).testBit (n + b)).toNat + popBits (n + b) (2 ^ b * p + x) = (p.testBit n).toNat + popBits n p + popBits b x
    rw [popBits_add p x hx n, Nat.testBit_two_pow_mul_add _ hx, if_neg (by omega)]
    simp; omega

theorem popBits_pack {b : Nat} : ∀ {l : List Nat}, (∀ x ∈ l, x < 2 ^ b) → popBits (b * l.length) (pack b l) = (l.map (popBits b)).sum
  | [], _ => by simp [popBits]
  | x :: xs, h => by
    rw [pack_cons, List.length_cons, Nat.mul_add, mul_one, popBits_add _ _ (h x (by simp)), popBits_pack fun y hy => h y (by simp [hy])]
    simp; omega

theorem popBits_le : ∀ (n v : Nat), popBits n v ≤ n
  | 0, _ => by simp [popBits]
  | n + 1, v => by
    have := popBits_le n v
    unfold popBits
    cases v.testBit n <;> simp <;> omega

/-! ### The steps -/

theorem step1 {l : List Nat} (h : ∀ x ∈ l, x < 2 ^ 2) :
    pack 2 l - ((pack 2 l / 2 ^ 1) &&& pack 2 (List.replicate l.length (2 ^ 1 - 1))) = pack 2 (l.map (popBits 2)) ∧
    (pack 2 l / 2 ^ 1) &&& pack 2 (List.replicate l.length (2 ^ 1 - 1)) ≤ pack 2 l := by
  rw [pack_shift_mask (by norm_num) (by norm_num) h]
  have key : pack 2 (l.map (popBits 2)) + pack 2 (l.map fun x => x / 2 ^ 1 % 2 ^ 1) = pack 2 l := by
    rw [pack_add]
    have : l.map (fun x => popBits 2 x + x / 2 ^ 1 % 2 ^ 1) = l := by
      conv_rhs => rw [← List.map_id l]
      apply List.map_congr_left
      intro x hx
      have := h x hx
      have : x = 0 ∨ x = 1 ∨ x = 2 ∨ x = 3 := by omega
      rcases this with rfl | rfl | rfl | rfl <;> rfl
    rw [this]
  omega

theorem sum_pair_map (b : Nat) (f g : Nat → Nat) (h : ∀ x y, x ∈ Set.Iio (2 ^ b) → f (2 ^ b * y + x) = g x + g y) : ∀ {l : List Nat}, l.length % 2 = 0 → (∀ x ∈ l, x < 2 ^ b) →
    ((pair b l).map f).sum = (l.map g).sum
  | [], _, _ => rfl
  | [_], hl, _ => by simp at hl
  | x :: y :: l, hl, hb => by
    unfold pair
    rw [List.map_cons, List.sum_cons, sum_pair_map b f g h (by simp only [List.length_cons] at hl; omega) fun z hz => hb z (by simp [hz]), h x y (hb x (by simp))]
    simp; omega

theorem step2 {l : List Nat} (h : ∀ x ∈ l, x < 2 ^ 4) :
    ((pack 4 l) &&& pack 4 (List.replicate l.length (2 ^ 2 - 1))) + ((pack 4 l / 2 ^ 2) &&& pack 4 (List.replicate l.length (2 ^ 2 - 1))) = pack 4 (l.map fun x => x % 4 + x / 4 % 4) := by
  have h0 := pack_shift_mask (k := 0) (c := 2) (b := 4) (by norm_num) (by norm_num) h
  rw [pow_zero, Nat.div_one] at h0
  rw [h0, pack_shift_mask (by norm_num) (by norm_num) h, pack_add]
  simp

theorem pair_bound {b m : Nat} : ∀ {l : List Nat}, (∀ x ∈ l, x ≤ m) → m < 2 ^ b → ∀ z ∈ pair b l, z % 2 ^ b ≤ m ∧ z / 2 ^ b ≤ m
  | [], _, _, z, hz => by simp [pair] at hz
  | [_], _, _, z, hz => by simp [pair] at hz
  | x :: y :: l, h, hm, z, hz => by
    unfold pair at hz
    rcases List.mem_cons.1 hz with rfl | hz
    · have hx := h x (by simp)
      have hy := h y (by simp)
      rw [Nat.mul_add_mod, Nat.mod_eq_of_lt (by omega), Nat.mul_add_div (by positivity), Nat.div_eq_of_lt (by omega)]
      omega
    · exact pair_bound (fun w hw => h w (by simp [hw])) hm z hz

/-- Step 3 works on nibbles: shifting by 4 drops the first nibble. -/
theorem pack_tail (b x : Nat) (l : List Nat) (hx : x < 2 ^ b) : pack b (x :: l) / 2 ^ b = pack b l := by
  rw [pack_cons, Nat.mul_add_div (by positivity), Nat.div_eq_of_lt hx, Nat.add_zero]

/-- Sums of neighbours. -/
def nsum : List Nat → List Nat
  | [] => []
  | [x] => [x]
  | x :: y :: l => (x + y) :: nsum (y :: l)

theorem pack_nsum {b : Nat} : ∀ {l : List Nat}, (∀ x ∈ l, x < 2 ^ b) → pack b l + pack b l / 2 ^ b = pack b (nsum l)
  | [], _ => by simp [pack, nsum]
  | [x], h => by
    rw [pack_tail b x [] (h x (by simp))]; simp [pack, nsum]
  | x :: y :: l, h => by
    have ih := pack_nsum (b := b) (l := y :: l) fun z hz => h z (by simp [List.mem_cons.1 hz])
    rw [pack_tail b x _ (h x (by simp))]
    unfold nsum
    rw [pack_cons b (x + y), ← ih, pack_tail b y _ (h y (by simp)), pack_cons b x, pack_cons b y]
    ring

theorem nsum_bound {m : Nat} : ∀ {l : List Nat}, (∀ x ∈ l, x ≤ m) → ∀ z ∈ nsum l, z ≤ 2 * m
  | [], _, z, hz => by simp [nsum] at hz
  | [x], h, z, hz => by simp [nsum] at hz; have := h x (by simp); omega
  | x :: y :: l, h, z, hz => by
    unfold nsum at hz
    rcases List.mem_cons.1 hz with rfl | hz
    · have := h x (by simp); have := h y (by simp); omega
    · exact nsum_bound (fun w hw => h w (by simp [List.mem_cons.1 hw])) z hz

theorem nsum_length : ∀ l : List Nat, (nsum l).length = l.length
  | [] => rfl
  | [_] => rfl
  | x :: y :: l => by unfold nsum; rw [List.length_cons, nsum_length (y :: l)]; rfl

/-- Sum of the even fields of `nsum` is the sum of all fields. -/
theorem nsum_even_sum (f : Nat → Nat) (b : Nat) (hf : ∀ x y, x < 2 ^ b → f (2 ^ b * y + x) = x) : ∀ {l : List Nat}, l.length % 2 = 0 → (∀ z ∈ nsum l, z < 2 ^ b) →
    ((pair b (nsum l)).map f).sum = l.sum
  | [], _, _ => rfl
  | [_], h, _ => by simp at h
  | [x, y], _, hb => by
    have := hb (x + y) (by simp [nsum])
    simp [nsum, pair, hf _ _ this]
  | x :: y :: z :: l, h, hb => by
    have hxy := hb (x + y) (by simp [nsum])
    have hstep : nsum (x :: y :: z :: l) = (x + y) :: (y + z) :: nsum (z :: l) := rfl
    rw [hstep]
    unfold pair
    rw [List.map_cons, List.sum_cons, hf _ _ hxy, nsum_even_sum f b hf (l := z :: l) (by simp only [List.length_cons] at h ⊢; omega) (fun w hw => hb w (by rw [hstep]; simp [hw]))]
    simp; omega

/-! ### The multiplication -/

theorem pack_ones_mul (b x : Nat) : ∀ n, x * pack b (List.replicate n 1) = pack b (List.replicate n x)
  | 0 => by simp [pack]
  | n + 1 => by
    rw [List.replicate_succ, List.replicate_succ, pack_cons, pack_cons, ← pack_ones_mul b x n]; ring

theorem pack_ones_succ (b : Nat) : ∀ n, pack b (List.replicate (n + 1) 1) = pack b (List.replicate n 1) + 2 ^ (b * n)
  | 0 => by simp [pack]
  | n + 1 => by
    have h := pack_ones_succ b n
    rw [List.replicate_succ, pack_cons] at h
    rw [List.replicate_succ (n := n + 1), pack_cons, List.replicate_succ (n := n), pack_cons, h, Nat.mul_add b, pow_add, mul_one]; linarith [h, (by ring : 2 ^ b * (pack b (List.replicate n 1) + 2 ^ (b * n)) = 2 ^ b * pack b (List.replicate n 1) + 2 ^ (b * n) * 2 ^ b)]

/-- The product with `0x0101…01` modulo the word is the packed prefix sums. -/
def psums (acc : Nat) : List Nat → List Nat
  | [] => []
  | x :: l => (acc + x) :: psums (acc + x) l

theorem psums_length : ∀ (l : List Nat) (acc : Nat), (psums acc l).length = l.length
  | [], _ => rfl
  | x :: l, acc => by simp [psums, psums_length l]

theorem psums_bound : ∀ (l : List Nat) (acc : Nat), ∀ z ∈ psums acc l, z ≤ acc + l.sum
  | [], _, z, hz => by simp [psums] at hz
  | x :: l, acc, z, hz => by
    simp [psums] at hz
    rcases hz with rfl | hz
    · simp
    · have := psums_bound l (acc + x) z hz
      simp; omega

theorem mul_psums (b : Nat) : ∀ (l : List Nat) (acc : Nat), ∃ q, pack b l * pack b (List.replicate l.length 1) + acc * pack b (List.replicate l.length 1) = pack b (psums acc l) + 2 ^ (b * l.length) * q
  | [], acc => ⟨0, by simp [pack, psums]⟩
  | x :: l, acc => by
    obtain ⟨q, hq⟩ := mul_psums b l (acc + x)
    refine ⟨q + pack b l, ?_⟩
    rw [List.length_cons]
    have hs := pack_ones_succ b l.length
    have hs' : pack b (List.replicate (l.length + 1) 1) = 2 ^ b * pack b (List.replicate l.length 1) + 1 := by rw [List.replicate_succ, pack_cons]
    generalize pack b (List.replicate l.length 1) = O at *
    generalize pack b (List.replicate (l.length + 1) 1) = O1 at *
    unfold psums
    rw [pack_cons, pack_cons, Nat.mul_add b, mul_one, pow_add]
    generalize pack b (psums (acc + x) l) = S at *
    generalize pack b l = P at *
    generalize 2 ^ (b * l.length) = E at *
    generalize 2 ^ b = B at *
    have h1 : (B * P + x) * O1 + acc * O1 = B * P * O1 + (x + acc) * O1 := by ring
    rw [h1]
    conv_lhs => rw [hs, ← hs]
    have h2 : B * P * O1 = B * (P * O) + B * P * E := by rw [hs]; ring
    have h3 : (x + acc) * O1 = B * ((acc + x) * O) + (acc + x) := by rw [hs']; ring
    rw [h2, h3]
    have h4 : B * (P * O) + B * ((acc + x) * O) = B * (S + E * q) := by rw [← hq]; ring
    linarith [h4, (by ring : B * (S + E * q) = B * S + B * E * q), (by ring : E * B * (q + P) = B * E * q + B * P * E)]

theorem psums_last : ∀ (l : List Nat) (acc : Nat), l ≠ [] → ∃ init, psums acc l = init ++ [acc + l.sum] ∧ init.length + 1 = l.length
  | [], _, h => absurd rfl h
  | [x], acc, _ => ⟨[], by simp [psums]⟩
  | x :: y :: l, acc, _ => by
    obtain ⟨init, h1, h2⟩ := psums_last (y :: l) (acc + x) (by simp)
    refine ⟨(acc + x) :: init, ?_, by simp at h2 ⊢; omega⟩
    unfold psums
    rw [h1]
    simp [Nat.add_assoc]

theorem pack_append (b : Nat) : ∀ (a c : List Nat), pack b (a ++ c) = pack b a + 2 ^ (b * a.length) * pack b c
  | [], c => by simp [pack]
  | x :: a, c => by
    rw [List.cons_append, pack_cons, pack_cons, pack_append b a c, List.length_cons, Nat.mul_add b, pow_add, mul_one]; ring

/-- The highest byte of the product is the sum of the bytes. -/
theorem top_byte {l : List Nat} (hl : l ≠ []) (hs : l.sum < 2 ^ 8) :
    (pack 8 l * pack 8 (List.replicate l.length 1)) % 2 ^ (8 * l.length) / 2 ^ (8 * l.length - 8) = l.sum := by
  obtain ⟨q, hq⟩ := mul_psums 8 l 0
  rw [zero_mul, Nat.add_zero] at hq
  have hb : ∀ z ∈ psums 0 l, z < 2 ^ 8 := fun z hz => by have := psums_bound l 0 z hz; omega
  have hlt := pack_lt hb
  rw [psums_length] at hlt
  rw [hq, Nat.add_mul_mod_self_left, Nat.mod_eq_of_lt hlt]
  obtain ⟨init, h1, h2⟩ := psums_last l 0 hl
  rw [h1, pack_append, show 8 * l.length - 8 = 8 * init.length by omega]
  have hi : pack 8 init < 2 ^ (8 * init.length) := pack_lt fun z hz => hb z (by rw [h1]; simp [hz])
  rw [Nat.add_mul_div_left _ _ (by positivity), Nat.div_eq_of_lt hi]
  simp [pack]

/-! ### The whole function -/

theorem masks {w : Nat} (hw : StdW w) : trunc w 0x5555555555555555 = pack 2 (List.replicate (w / 2) (2 ^ 1 - 1)) ∧ trunc w 0x3333333333333333 = pack 4 (List.replicate (w / 4) (2 ^ 2 - 1)) ∧
    trunc w 0x0F0F0F0F0F0F0F0F = pack 8 (List.replicate (w / 8) (2 ^ 4 - 1)) ∧ trunc w 0x0101010101010101 = pack 8 (List.replicate (w / 8) 1) := by
  rcases hw with rfl | rfl | rfl | rfl <;> refine ⟨by decide, by decide, by decide, by decide⟩

theorem arith_nat {w v : Nat} (hw : StdW w) (h : v < 2 ^ w ∨ (w < 32 ∧ v < 2147483648)) : ∃ e : Int, arith w (v : Int) = .ok e ∧ toU w e = v % 2 ^ w := by
  unfold arith
  split
  · rename_i h32
    have : v < 2147483648 := by
      rcases h with h | h
      · have : 2 ^ w ≤ 2 ^ 31 := Nat.pow_le_pow_right (by omega) (by omega)
        norm_num at this; omega
      · exact h.2
    rw [chkI_ok (by omega)]
    exact ⟨_, rfl, toU_natmod⟩
  · refine ⟨_, rfl, ?_⟩
    rw [toU_natmod, toU_natmod, Nat.mod_mod]

theorem arith_wrap {w v : Nat} (h : ¬ w < 32) : ∃ e : Int, arith w (v : Int) = .ok e ∧ toU w e = v % 2 ^ w := by
  unfold arith
  rw [if_neg h]
  exact ⟨_, rfl, by rw [toU_natmod, toU_natmod, Nat.mod_mod]⟩

theorem mul8 {l : List Nat} (h : l.length = 1) (hb : ∀ x ∈ l, x ≤ 8) : pack 8 l * pack 8 (List.replicate 1 1) < 2147483648 := by
  match l, h with
  | [x], _ =>
    have h1 := hb x (by simp)
    have e1 : pack 8 [x] = x := by simp [pack]
    have e2 : pack 8 (List.replicate 1 1) = 1 := by decide
    rw [e1, e2]; omega

theorem mul16 {l : List Nat} (h : l.length = 2) (hb : ∀ x ∈ l, x ≤ 8) : pack 8 l * pack 8 (List.replicate 2 1) < 2147483648 := by
  match l, h with
  | [x, y], _ =>
    have h1 := hb x (by simp)
    have h2 := hb y (by simp)
    have e1 : pack 8 [x, y] = 256 * y + x := by simp [pack]
    have e2 : pack 8 (List.replicate 2 1) = 257 := by decide
    rw [e1, e2]; omega

theorem shr_ok {w v n : Nat} (h : n < max w 32) : shr w v n = .ok (v / 2 ^ n) := by
  unfold shr; rw [if_pos h]

theorem popFallback_ok {w v : Nat} (hw : StdW w) (hv : v < 2 ^ w) : popFallback w v = .ok (popBits w v : Int) := by
  obtain ⟨m1, m2, m3, m4⟩ := masks hw
  obtain ⟨_, _, _, h64, h8⟩ := hw.pow
  have hw2 : 2 * (w / 2) = w ∧ 4 * (w / 4) = w ∧ 8 * (w / 8) = w := by rcases hw with rfl | rfl | rfl | rfl <;> decide
  unfold popFallback
  rw [m1, m2, m3, m4, shr_ok (by omega), R.ok_bind]
  -- step 1
  obtain ⟨l, hl, hlb, rfl⟩ := pack_surj 2 (w / 2) v (by rw [hw2.1]; exact hv)
  obtain ⟨s1, s1'⟩ := step1 hlb
  rw [hl] at s1 s1'
  have hsub : ((pack 2 l : Nat) : Int) - ((pack 2 l / 2 ^ 1 &&& pack 2 (List.replicate (w / 2) (2 ^ 1 - 1)) : Nat) : Int) = ((pack 2 (l.map (popBits 2)) : Nat) : Int) := by omega
  rw [hsub]
  have hb1 : ∀ x ∈ l.map (popBits 2), x ≤ 2 := fun x hx => by
    obtain ⟨y, _, rfl⟩ := List.mem_map.1 hx
    exact popBits_le 2 y
  have hlt1 : pack 2 (l.map (popBits 2)) < 2 ^ w := by
    have := pack_lt (b := 2) (l := l.map (popBits 2)) fun x hx => by have := hb1 x hx; omega
    rw [List.length_map, hl, hw2.1] at this; exact this
  obtain ⟨e1, a1, a1'⟩ := arith_nat hw (Or.inl hlt1)
  rw [a1, R.ok_bind]
  simp only
  rw [a1', Nat.mod_eq_of_lt hlt1, shr_ok (by omega), R.ok_bind]
  -- step 2
  have hev1 : (l.map (popBits 2)).length % 2 = 0 := by rw [List.length_map, hl]; rcases hw with rfl | rfl | rfl | rfl <;> rfl
  obtain ⟨p1, p1'⟩ := pack_pair (b := 2) hev1
  rw [List.length_map, hl] at p1'
  have hpb := pair_bound (b := 2) hb1 (by norm_num)
  have hpb4 : ∀ x ∈ pair 2 (l.map (popBits 2)), x < 2 ^ 4 := fun x hx => by have := hpb x hx; omega
  have s2 := step2 hpb4
  have hsum1 : ((pair 2 (l.map (popBits 2))).map fun x => x % 4 + x / 4 % 4).sum = popBits w (pack 2 l) := by
    have := popBits_pack hlb
    rw [hl, hw2.1] at this
    rw [this]
    have h3 := sum_pair_map 2 (fun x => x % 4 + x / 4 % 4) (fun x => x % 4) (fun x y hx => by
      have : x < 4 := hx
      omega) hev1 (fun x hx => by have := hb1 x hx; omega)
    rw [h3, List.map_map]
    congr 1
    apply List.map_congr_left
    intro x hx
    have := popBits_le 2 x
    simp only [Function.comp_apply]
    omega
  have hl2 : (pair 2 (l.map (popBits 2))).length = w / 4 := by rw [p1']; omega
  rw [show 2 * 2 = 4 by rfl] at p1
  rw [hl2, p1] at s2
  have hadd : ((pack 2 (l.map (popBits 2)) &&& pack 4 (List.replicate (w / 4) (2 ^ 2 - 1)) : Nat) : Int) + ((pack 2 (l.map (popBits 2)) / 2 ^ 2 &&& pack 4 (List.replicate (w / 4) (2 ^ 2 - 1)) : Nat) : Int) =
      ((pack 4 ((pair 2 (l.map (popBits 2))).map fun x => x % 4 + x / 4 % 4) : Nat) : Int) := by rw [← s2]; push_cast; rfl
  rw [hadd]
  generalize hq : ((pair 2 (l.map (popBits 2))).map fun x => x % 4 + x / 4 % 4) = l2 at *
  have hl2' : l2.length = w / 4 := by rw [← hq, List.length_map, hl2]
  have hb2 : ∀ x ∈ l2, x ≤ 4 := fun x hx => by
    rw [← hq] at hx
    obtain ⟨y, hy, rfl⟩ := List.mem_map.1 hx
    have := hpb y hy
    omega
  have hlt2 : pack 4 l2 < 2 ^ w := by
    have := pack_lt (b := 4) (l := l2) fun x hx => by have := hb2 x hx; omega
    rw [hl2', hw2.2.1] at this; exact this
  obtain ⟨e2, a2, a2'⟩ := arith_nat hw (Or.inl hlt2)
  rw [a2, R.ok_bind]
  rw [a2', Nat.mod_eq_of_lt hlt2, shr_ok (by omega), R.ok_bind]
  -- step 3
  have hns := pack_nsum (b := 4) (l := l2) fun x hx => by have := hb2 x hx; omega
  have hnb := nsum_bound hb2
  have hnb4 : ∀ x ∈ nsum l2, x < 2 ^ 4 := fun x hx => by have := hnb x hx; omega
  have hlt3 : pack 4 (nsum l2) < 2 ^ w := by
    have := pack_lt hnb4
    rw [nsum_length, hl2', hw2.2.1] at this; exact this
  have hadd3 : ((pack 4 l2 : Nat) : Int) + ((pack 4 l2 / 2 ^ 4 : Nat) : Int) = ((pack 4 (nsum l2) : Nat) : Int) := by rw [← hns]; push_cast; rfl
  rw [hadd3]
  obtain ⟨e3, a3, a3'⟩ := arith_nat hw (Or.inl hlt3)
  rw [a3, R.ok_bind]
  rw [a3', Nat.mod_eq_of_lt hlt3]
  have hev2 : (nsum l2).length % 2 = 0 := by rw [nsum_length, hl2']; rcases hw with rfl | rfl | rfl | rfl <;> rfl
  obtain ⟨p2, p2'⟩ := pack_pair (b := 4) hev2
  rw [nsum_length, hl2'] at p2'
  rw [show 2 * 4 = 8 by rfl] at p2
  have hpb2 := pair_bound (b := 4) hnb (by norm_num)
  have hlen8 : (pair 4 (nsum l2)).length = w / 8 := by rw [p2']; omega
  have hm := pack_shift_mask (b := 8) (k := 0) (c := 4) (by norm_num) (by norm_num) (l := pair 4 (nsum l2)) fun x hx => by have := hpb2 x hx; omega
  rw [pow_zero, Nat.div_one, hlen8, p2] at hm
  rw [hm]
  have hsum2 : ((pair 4 (nsum l2)).map fun x => x / 1 % 2 ^ 4).sum = l2.sum := nsum_even_sum _ 4 (fun x y hx => by
    simp only [Nat.div_one]
    rw [Nat.mul_add_mod, Nat.mod_eq_of_lt hx]) (by rw [hl2']; rcases hw with rfl | rfl | rfl | rfl <;> rfl) hnb4
  generalize hr : ((pair 4 (nsum l2)).map fun x => x / 1 % 2 ^ 4) = l3 at *
  have hl3 : l3.length = w / 8 := by rw [← hr, List.length_map, hlen8]
  have hb3 : ∀ x ∈ l3, x ≤ 8 := fun x hx => by
    rw [← hr] at hx
    obtain ⟨y, hy, rfl⟩ := List.mem_map.1 hx
    have := hpb2 y hy
    simp only [Nat.div_one]
    omega
  have hpop := popBits_le w (pack 2 l)
  -- step 4
  have htop := top_byte (l := l3) (by intro hc; rw [hc] at hl3; simp at hl3; omega) (by omega)
  rw [hl3, hw2.2.2] at htop
  have hmul : ((pack 8 l3 : Nat) : Int) * ((pack 8 (List.replicate (w / 8) 1) : Nat) : Int) = ((pack 8 l3 * pack 8 (List.replicate (w / 8) 1) : Nat) : Int) := by push_cast; rfl
  rw [hmul]
  have hbnd : ∃ e : Int, arith w ((pack 8 l3 * pack 8 (List.replicate (w / 8) 1) : Nat) : Int) = .ok e ∧ toU w e = (pack 8 l3 * pack 8 (List.replicate (w / 8) 1)) % 2 ^ w := by
    by_cases h32 : w < 32
    · apply arith_nat hw
      right
      refine ⟨h32, ?_⟩
      rcases hw with rfl | rfl | rfl | rfl
      · exact mul8 hl3 hb3
      · exact mul16 hl3 hb3
      · omega
      · omega
    · exact arith_wrap h32
  obtain ⟨e4, a4, a4'⟩ := hbnd
  rw [a4, R.ok_bind]
  rw [a4', shr_ok (by omega), R.ok_bind, htop, hsum2, hsum1, toS32_small (by omega)]

end STL.Bits
