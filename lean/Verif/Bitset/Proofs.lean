import Verif.Bitset.Model
import Verif.Bits.Props
import Verif.Tac

/-! # `bitset`: loops and word-level lemmas -/

namespace STL.Bset
open STL

/-- Bit `i` of an array of words of `w` bits. -/
def bitAt (w : Nat) (a : List Nat) (i : Nat) : Bool := (a.getD (i / w) 0).testBit (i % w)

/-- The array `a` represents the bits `v` of a `bitset<N>`: the right number of words, every word in range, bit `i` of the array is bit `i` of `v`; unused
bits of the last word are zero. -/
structure Is (N : Nat) (a : List Nat) (v : BitVec N) : Prop where
  len : a.length = words N + 1
  word : ∀ x ∈ a, x < 2 ^ wbits N
  bit : ∀ i, bitAt (wbits N) a i = v.getLsbD i

theorem wbits_or (N : Nat) : wbits N = 32 ∨ wbits N = 64 := by unfold wbits; split <;> simp
theorem wbits_pos (N : Nat) : 0 < wbits N := by rcases wbits_or N with h | h <;> omega
theorem std_wbits (N : Nat) : Bits.StdW (wbits N) := by
  rcases wbits_or N with h | h
  · exact Or.inr (Or.inr (Or.inl h))
  · exact Or.inr (Or.inr (Or.inr h))

theorem words_spec (N : Nat) : N ≤ (words N + 1) * wbits N ∧ (0 < N → words N * wbits N < N) := by
  have hw := wbits_pos N
  unfold words
  split
  · subst N; simp
  · have h1 := Nat.div_add_mod (N - 1) (wbits N)
    have h2 := Nat.mod_lt (N - 1) hw
    rw [Nat.add_mul, one_mul, mul_comm]
    constructor
    · omega
    · intro _; omega

/-- The position of a bit determines its word. -/
theorem div_le_words {N i : Nat} (h : i < N) : i / wbits N ≤ words N := by
  have hw := wbits_pos N
  have := (words_spec N).1
  have : i / wbits N < words N + 1 := (Nat.div_lt_iff_lt_mul hw).2 (by omega)
  omega

theorem rdw_ok {a : List Nat} {i : Nat} (h : i < a.length) : rdw a i = .ok (a.getD i 0) := by
  unfold rdw
  rw [List.getD_eq_getElem?_getD, List.getElem?_eq_getElem h]; rfl

theorem wrw_ok {a : List Nat} {i x : Nat} (h : i < a.length) : wrw a i x = .ok (a.set i x) := by unfold wrw; rw [if_pos h]

theorem getD_set {a : List Nat} {i j x : Nat} (h : i < a.length) : (a.set i x).getD j 0 = if j = i then x else a.getD j 0 := by
  rw [List.getD_eq_getElem?_getD, List.getElem?_set, List.getD_eq_getElem?_getD]
  by_cases e : i = j
  · subst e; simp [h]
  · rw [if_neg e, if_neg (fun h => e h.symm)]

/-- Result of a loop that overwrites each word of a range once. -/
structure Wrote (lo n : Nat) (G : Nat → Nat) (a c : List Nat) : Prop where
  len : c.length = a.length
  inn : ∀ k, lo ≤ k → k < lo + n → c.getD k 0 = G k
  out : ∀ k, (k < lo ∨ lo + n ≤ k) → c.getD k 0 = a.getD k 0

theorem forUp_wrote {f : Nat → List Nat → R (List Nat)} {G : Nat → Nat} {a0 : List Nat} :
    ∀ (n lo : Nat) (a : List Nat), a.length = a0.length → lo + n ≤ a0.length → (∀ k, lo ≤ k → a.getD k 0 = a0.getD k 0) →
    (∀ i a, lo ≤ i → i < lo + n → a.length = a0.length → (∀ k, i ≤ k → a.getD k 0 = a0.getD k 0) → f i a = wrw a i (G i)) →
    ∃ c, forUp f n lo a = .ok c ∧ Wrote lo n G a c
  | 0, lo, a, _, _, _, _ => ⟨a, rfl, rfl, fun k h1 h2 => by omega, fun k _ => rfl⟩
  | n + 1, lo, a, hl, hn, hs, hf => by
    unfold forUp
    rw [hf lo a (le_refl _) (by omega) hl hs, wrw_ok (by omega), R.ok_bind]
    obtain ⟨c, e, w1, w2, w3⟩ := forUp_wrote (f := f) (G := G) (a0 := a0) n (lo + 1) (a.set lo (G lo)) (by simp [hl]) (by omega)
      (fun k hk => by rw [getD_set (by omega), if_neg (by omega)]; exact hs k (by omega))
      (fun i a h1 h2 h3 h4 => hf i a (by omega) (by omega) h3 h4)
    refine ⟨c, e, by simpa using w1, fun k h1 h2 => ?_, fun k h => ?_⟩
    · by_cases hk : k = lo
      · subst hk; rw [w3 k (by omega), getD_set (by omega), if_pos rfl]
      · exact w2 k (by omega) (by omega)
    · rw [w3 k (by omega), getD_set (by omega), if_neg (by omega)]

theorem forDown_wrote {f : Nat → List Nat → R (List Nat)} {G : Nat → Nat} {a0 : List Nat} {lo : Nat} :
    ∀ (n : Nat) (a : List Nat), a.length = a0.length → lo + n ≤ a0.length → (∀ k, k < lo + n → a.getD k 0 = a0.getD k 0) →
    (∀ i a, lo ≤ i → i < lo + n → a.length = a0.length → (∀ k, k ≤ i → a.getD k 0 = a0.getD k 0) → f i a = wrw a i (G i)) →
    ∃ c, forDown f n lo a = .ok c ∧ Wrote lo n G a c
  | 0, a, _, _, _, _ => ⟨a, rfl, rfl, fun k h1 h2 => by omega, fun k _ => rfl⟩
  | n + 1, a, hl, hn, hs, hf => by
    unfold forDown
    rw [hf (lo + n) a (by omega) (by omega) hl (fun k hk => hs k (by omega)), wrw_ok (by omega), R.ok_bind]
    obtain ⟨c, e, w1, w2, w3⟩ := forDown_wrote (f := f) (G := G) (a0 := a0) (lo := lo) n (a.set (lo + n) (G (lo + n))) (by simp [hl]) (by omega)
      (fun k hk => by rw [getD_set (by omega), if_neg (by omega)]; exact hs k (by omega))
      (fun i a h1 h2 h3 h4 => hf i a (by omega) (by omega) h3 h4)
    refine ⟨c, e, by simpa using w1, fun k h1 h2 => ?_, fun k h => ?_⟩
    · by_cases hk : k = lo + n
      · subst hk; rw [w3 (lo + n) (by omega), getD_set (by omega), if_pos rfl]
      · exact w2 k (by omega) (by omega)
    · rw [w3 k (by omega), getD_set (by omega), if_neg (by omega)]

theorem word_getD {w : Nat} {a : List Nat} (h : ∀ x ∈ a, x < 2 ^ w) (k : Nat) : a.getD k 0 < 2 ^ w := by
  rw [List.getD_eq_getElem?_getD]
  by_cases hk : k < a.length
  · rw [List.getElem?_eq_getElem hk]; exact h _ (List.getElem_mem hk)
  · rw [List.getElem?_eq_none (by omega)]; simp

theorem word_of_getD {w : Nat} {a : List Nat} (h : ∀ k, k < a.length → a.getD k 0 < 2 ^ w) : ∀ x ∈ a, x < 2 ^ w := by
  intro x hx
  obtain ⟨k, hk, rfl⟩ := List.mem_iff_getElem.1 hx
  have := h k hk
  rwa [List.getD_eq_getElem?_getD, List.getElem?_eq_getElem hk] at this

theorem Wrote.word {w lo n : Nat} {G : Nat → Nat} {a c : List Nat} (h : Wrote lo n G a c) (ha : ∀ x ∈ a, x < 2 ^ w) (hG : ∀ k, lo ≤ k → k < lo + n → G k < 2 ^ w) :
    ∀ x ∈ c, x < 2 ^ w := by
  apply word_of_getD
  intro k hk
  by_cases h1 : lo ≤ k ∧ k < lo + n
  · rw [h.inn k h1.1 h1.2]; exact hG k h1.1 h1.2
  · rw [h.out k (by omega)]; exact word_getD ha k

theorem bitAt_out {w : Nat} (hw : 0 < w) {a : List Nat} {i : Nat} (h : a.length * w ≤ i) : bitAt w a i = false := by
  unfold bitAt
  have : a.length ≤ i / w := (Nat.le_div_iff_mul_le hw).2 h
  rw [List.getD_eq_getElem?_getD, List.getElem?_eq_none this]; simp

theorem shlw_ok {w v n : Nat} (h : n < w) : shlw w v n = .ok (v * 2 ^ n % 2 ^ w) := by unfold shlw; rw [if_pos h]
theorem shrw_ok {w v n : Nat} (h : n < w) : shrw w v n = .ok (v / 2 ^ n) := by unfold shrw; rw [if_pos h]

theorem shlw_one {w n : Nat} (h : n < w) : shlw w 1 n = .ok (2 ^ n) := by
  rw [shlw_ok h, one_mul, Nat.mod_eq_of_lt (Nat.pow_lt_pow_right (by omega) h)]

theorem predw_two_pow {w n : Nat} (h : n < w) : predw w (2 ^ n) = 2 ^ n - 1 := by
  have h1 : 1 ≤ 2 ^ n := Nat.one_le_two_pow
  have h2 : 2 ^ n < 2 ^ w := Nat.pow_lt_pow_right (by omega) h
  unfold predw
  rw [show 2 ^ n + 2 ^ w - 1 = 2 ^ n - 1 + 2 ^ w by omega, Nat.add_mod_right, Nat.mod_eq_of_lt (by omega)]

theorem div_mod_ext {w i j : Nat} (h1 : i / w = j / w) (h2 : i % w = j % w) : i = j := by
  rw [← Nat.div_add_mod i w, h1, h2, Nat.div_add_mod]

/-- Loose representation: like `Is`, but with arbitrary unused bits. -/
structure Pre (N : Nat) (a : List Nat) (f : Nat → Bool) : Prop where
  len : a.length = words N + 1
  word : ∀ x ∈ a, x < 2 ^ wbits N
  bit : ∀ i, i < N → bitAt (wbits N) a i = f i

theorem trim_ok {N : Nat} {a : List Nat} {v : BitVec N} (h : Pre N a v.getLsbD) : ∃ c, trim N a = .ok c ∧ Is N c v := by
  have hw := wbits_pos N
  have hws := words_spec N
  unfold trim
  by_cases h0 : N = 0 ∨ N % wbits N ≠ 0
  · have hm : N % wbits N < wbits N := Nat.mod_lt _ hw
    have hdiv : N / wbits N = words N := by
      rcases h0 with rfl | h0
      · simp [words]
      · unfold words
        rw [if_neg (by rintro rfl; simp at h0)]
        have h1 := Nat.div_add_mod N (wbits N)
        symm
        rw [Nat.div_eq_iff hw]
        have : N / wbits N * wbits N = wbits N * (N / wbits N) := mul_comm _ _
        constructor <;> omega
    rw [if_pos h0, rdw_ok (by rw [h.len]; omega), R.ok_bind, shlw_one hm, R.ok_bind, predw_two_pow hm, wrw_ok (by rw [h.len]; omega)]
    refine ⟨_, rfl, by simp [h.len], ?_, fun i => ?_⟩
    · apply word_of_getD
      intro k hk
      rw [getD_set (by rw [h.len]; omega)]
      split
      · exact lt_of_le_of_lt Nat.and_le_left (word_getD h.word _)
      · exact word_getD h.word _
    · unfold bitAt
      rw [getD_set (by rw [h.len]; omega)]
      by_cases hi : i / wbits N = words N
      · rw [if_pos hi, ← hi, Nat.testBit_and, Nat.testBit_two_pow_sub_one]
        have hi' := Nat.div_add_mod i (wbits N)
        have hN' := Nat.div_add_mod N (wbits N)
        rw [hi] at hi'
        rw [hdiv] at hN'
        by_cases hlt : i < N
        · have := h.bit i hlt
          unfold bitAt at this
          rw [this, decide_eq_true (by omega)]; simp
        · rw [decide_eq_false (by omega), BitVec.getLsbD_of_ge v i (by omega)]; simp
      · rw [if_neg hi]
        by_cases hlt : i < N
        · exact h.bit i hlt
        · rw [BitVec.getLsbD_of_ge v i (by omega)]
          have : words N < i / wbits N := by
            have := Nat.div_le_div_right (c := wbits N) (show N ≤ i by omega)
            omega
          rw [List.getD_eq_getElem?_getD, List.getElem?_eq_none (by rw [h.len]; omega)]; simp
  · rw [if_neg h0]
    push Not at h0
    refine ⟨a, rfl, h.len, h.word, fun i => ?_⟩
    by_cases hlt : i < N
    · exact h.bit i hlt
    · rw [BitVec.getLsbD_of_ge v i (by omega)]
      apply bitAt_out hw
      rw [h.len]
      have h1 := Nat.div_add_mod N (wbits N)
      have h2 := hws.2 (by omega)
      rw [h0.2, Nat.add_zero] at h1
      have h3 : words N < N / wbits N := by
        by_contra hc
        have := Nat.mul_le_mul_left (wbits N) (show N / wbits N ≤ words N by omega)
        rw [mul_comm (wbits N) (words N)] at this
        omega
      have h4 : wbits N * (words N + 1) ≤ wbits N * (N / wbits N) := Nat.mul_le_mul_left (wbits N) h3
      rw [mul_comm (words N + 1)]
      omega

theorem Is.pre {N : Nat} {a : List Nat} {v : BitVec N} (h : Is N a v) : Pre N a v.getLsbD := ⟨h.len, h.word, fun i _ => h.bit i⟩

/-! ### Word-wise operators -/

theorem zip_ok {N : Nat} {a b : List Nat} {x y : BitVec N} (ha : Is N a x) (hb : Is N b y) (op : Nat → Nat → Nat) (bop : Bool → Bool → Bool)
    (hop : ∀ p q i, (op p q).testBit i = bop (p.testBit i) (q.testBit i)) (hlt : ∀ p q, p < 2 ^ wbits N → q < 2 ^ wbits N → op p q < 2 ^ wbits N)
    (hff : bop false false = false) {z : BitVec N} (hz : ∀ i, i < N → z.getLsbD i = bop (x.getLsbD i) (y.getLsbD i)) :
    ∃ c, forUp (zipw op b) (words N + 1) 0 a = .ok c ∧ Is N c z := by
  obtain ⟨c, e, w⟩ := forUp_wrote (f := zipw op b) (G := fun k => op (a.getD k 0) (b.getD k 0)) (a0 := a) (words N + 1) 0 a rfl (by rw [ha.len]; omega) (fun _ _ => rfl) (by
    intro i a' _ hi hl hs
    unfold zipw
    rw [rdw_ok (by rw [hl, ha.len]; omega), R.ok_bind, rdw_ok (by rw [hb.len]; omega), R.ok_bind, hs i (le_refl _)])
  refine ⟨c, e, by rw [w.len, ha.len], w.word ha.word fun k _ _ => hlt _ _ (word_getD ha.word _) (word_getD hb.word _), fun i => ?_⟩
  by_cases hi : i / wbits N < words N + 1
  · unfold bitAt
    rw [w.inn _ (Nat.zero_le _) (by omega), hop]
    have h1 := ha.bit i
    have h2 := hb.bit i
    unfold bitAt at h1 h2
    rw [h1, h2]
    by_cases hlt : i < N
    · rw [hz i hlt]
    · rw [BitVec.getLsbD_of_ge x i (by omega), BitVec.getLsbD_of_ge y i (by omega), BitVec.getLsbD_of_ge z i (by omega), hff]
  · have hN : N ≤ i := by
      by_contra hc
      have := div_le_words (show i < N by omega)
      omega
    rw [BitVec.getLsbD_of_ge z i hN]
    apply bitAt_out (wbits_pos N)
    rw [w.len, ha.len]
    exact (Nat.le_div_iff_mul_le (wbits_pos N)).1 (by omega)

/-! ### Shifts -/

theorem shlWords_ok {N ws : Nat} {a : List Nat} (hl : a.length = words N + 1) (hword : ∀ x ∈ a, x < 2 ^ wbits N) :
    ∃ c, forDown (shlWords ws) (words N + 1) 0 a = .ok c ∧ c.length = words N + 1 ∧ (∀ x ∈ c, x < 2 ^ wbits N) ∧
      ∀ i, i / wbits N ≤ words N → bitAt (wbits N) c i = (decide (ws * wbits N ≤ i) && bitAt (wbits N) a (i - ws * wbits N)) := by
  have hw := wbits_pos N
  obtain ⟨c, e, w⟩ := forDown_wrote (f := shlWords ws) (G := fun k => if ws ≤ k then a.getD (k - ws) 0 else 0) (a0 := a) (lo := 0) (words N + 1) a rfl (by omega) (fun _ _ => rfl) (by
    intro i a' _ hi hl' hs
    unfold shlWords
    split
    · rw [rdw_ok (by omega), R.ok_bind, hs _ (by omega)]
    · rw [R.ok_bind])
  refine ⟨c, e, by rw [w.len, hl], w.word hword fun k _ _ => ?_, fun i hi => ?_⟩
  · split
    · exact word_getD hword _
    · positivity
  · unfold bitAt
    rw [w.inn _ (Nat.zero_le _) (by omega)]
    by_cases h : ws ≤ i / wbits N
    · have h' : ws * wbits N ≤ i := (Nat.le_div_iff_mul_le hw).1 h
      rw [if_pos h, decide_eq_true h', Bool.true_and]
      obtain ⟨q, rfl⟩ : ∃ q, i = q + ws * wbits N := ⟨i - ws * wbits N, by omega⟩
      rw [Nat.add_sub_cancel, Nat.add_mul_div_right _ _ hw, Nat.add_sub_cancel, Nat.add_mul_mod_self_right]
    · have h' : ¬ ws * wbits N ≤ i := fun hc => h ((Nat.le_div_iff_mul_le hw).2 hc)
      rw [if_neg h, decide_eq_false h']; simp

theorem shift_word_l {w p x y i : Nat} (hp : 0 < p) (hpw : p < w) (hi : i < w) (hy : y < 2 ^ w) :
    ((x * 2 ^ p % 2 ^ w) ||| (y / 2 ^ (w - p))).testBit i = if p ≤ i then x.testBit (i - p) else y.testBit (i + w - p) := by
  rw [Nat.testBit_or, Nat.testBit_mod_two_pow, Nat.testBit_div_two_pow, mul_comm x, Nat.testBit_two_pow_mul, decide_eq_true hi]
  by_cases h : p ≤ i
  · rw [if_pos h, Nat.testBit_lt_two_pow (lt_of_lt_of_le hy (Nat.pow_le_pow_right (by omega) (by omega)))]; simp [h]
  · rw [if_neg h, show i + w - p = i + (w - p) by omega]; simp [h]

theorem shlBits_ok {N p : Nat} {a : List Nat} (hp : 0 < p) (hpw : p < wbits N) (hl : a.length = words N + 1) (hword : ∀ x ∈ a, x < 2 ^ wbits N) :
    ∃ c, (do let a ← forDown (shlBits (wbits N) p) (words N) 1 a
             let x ← rdw a 0
             let h ← shlw (wbits N) x p
             wrw a 0 h) = .ok c ∧ c.length = words N + 1 ∧ (∀ x ∈ c, x < 2 ^ wbits N) ∧
      ∀ i, i / wbits N ≤ words N → bitAt (wbits N) c i = (decide (p ≤ i) && bitAt (wbits N) a (i - p)) := by
  have hw := wbits_pos N
  obtain ⟨c, e, w⟩ := forDown_wrote (f := shlBits (wbits N) p) (G := fun k => (a.getD k 0 * 2 ^ p % 2 ^ wbits N) ||| (a.getD (k - 1) 0 / 2 ^ (wbits N - p))) (a0 := a) (lo := 1) (words N) a rfl (by omega) (fun _ _ => rfl) (by
    intro i a' _ hi hl' hs
    unfold shlBits
    rw [rdw_ok (by omega), R.ok_bind, rdw_ok (by omega), R.ok_bind, shlw_ok hpw, R.ok_bind, shrw_ok (by omega), R.ok_bind, hs _ (le_refl _), hs _ (by omega)])
  have hcl : c.length = words N + 1 := by rw [w.len, hl]
  rw [e, R.ok_bind, rdw_ok (by omega), R.ok_bind, shlw_ok hpw, R.ok_bind, wrw_ok (by omega), w.out 0 (by omega)]
  refine ⟨_, rfl, by simp [hcl], ?_, fun i hi => ?_⟩
  · apply word_of_getD
    intro k hk
    rw [getD_set (by omega)]
    split
    · exact Nat.mod_lt _ (by positivity)
    · rw [w.inn k (by omega) (by simp at hk; omega)]
      apply Nat.or_lt_two_pow (Nat.mod_lt _ (by positivity))
      exact lt_of_le_of_lt (Nat.div_le_self _ _) (word_getD hword _)
  · unfold bitAt
    rw [getD_set (by omega)]
    have hmod := Nat.mod_lt i hw
    have hdm := Nat.div_add_mod i (wbits N)
    by_cases h0 : i / wbits N = 0
    · rw [if_pos h0, Nat.testBit_mod_two_pow, decide_eq_true hmod, mul_comm, Nat.testBit_two_pow_mul, Bool.true_and]
      rw [h0, Nat.mul_zero, Nat.zero_add] at hdm
      rw [hdm]
      by_cases hpi : p ≤ i
      · rw [decide_eq_true hpi, Nat.div_eq_of_lt (by omega : i - p < wbits N), Nat.mod_eq_of_lt (by omega : i - p < wbits N)]
      · rw [decide_eq_false hpi]; simp
    · rw [if_neg h0, w.inn _ (Nat.pos_of_ne_zero h0) (by omega), shift_word_l hp hpw hmod (word_getD hword _)]
      have hge : wbits N ≤ i := by
        by_contra hc
        exact h0 (Nat.div_eq_of_lt (by omega))
      rw [decide_eq_true (by omega : p ≤ i), Bool.true_and]
      by_cases hc : p ≤ i % wbits N
      · have e1 : i - p = (i % wbits N - p) + wbits N * (i / wbits N) := by omega
        have h1 : (i - p) / wbits N = i / wbits N := by
          conv_lhs => rw [e1]
          rw [Nat.add_mul_div_left _ _ hw, Nat.div_eq_of_lt (by omega), Nat.zero_add]
        have h2 : (i - p) % wbits N = i % wbits N - p := by
          conv_lhs => rw [e1]
          rw [Nat.add_mul_mod_self_left, Nat.mod_eq_of_lt (by omega)]
        rw [if_pos hc, h1, h2]
      · obtain ⟨q, hq⟩ : ∃ q, i / wbits N = q + 1 := ⟨i / wbits N - 1, by have := Nat.pos_of_ne_zero h0; omega⟩
        rw [hq, Nat.mul_add, mul_one] at hdm
        have e1 : i - p = (i % wbits N + wbits N - p) + wbits N * q := by omega
        have h1 : (i - p) / wbits N = q := by
          conv_lhs => rw [e1]
          rw [Nat.add_mul_div_left _ _ hw, Nat.div_eq_of_lt (by omega), Nat.zero_add]
        have h2 : (i - p) % wbits N = i % wbits N + wbits N - p := by
          conv_lhs => rw [e1]
          rw [Nat.add_mul_mod_self_left, Nat.mod_eq_of_lt (by omega)]
        rw [if_neg hc, h1, h2, hq, Nat.add_sub_cancel]

theorem div_mono {N i j : Nat} (h : j ≤ i) (hi : i / wbits N ≤ words N) : j / wbits N ≤ words N := by
  have := Nat.div_le_div_right (c := wbits N) h
  omega

theorem shlEq_ok {N pos : Nat} {a : List Nat} {v : BitVec N} (h : Is N a v) : ∃ c, shlEq N a pos = .ok c ∧ Is N c (v <<< pos) := by
  have hw := wbits_pos N
  have step1 : ∃ c, (if pos / wbits N ≠ 0 then forDown (shlWords (pos / wbits N)) (words N + 1) 0 a else .ok a : R (List Nat)) = .ok c ∧
      c.length = words N + 1 ∧ (∀ x ∈ c, x < 2 ^ wbits N) ∧
      ∀ i, i / wbits N ≤ words N → bitAt (wbits N) c i = (decide (pos / wbits N * wbits N ≤ i) && bitAt (wbits N) a (i - pos / wbits N * wbits N)) := by
    by_cases h0 : pos / wbits N ≠ 0
    · rw [if_pos h0]; exact shlWords_ok h.len h.word
    · rw [if_neg h0]
      push Not at h0
      exact ⟨a, rfl, h.len, h.word, fun i _ => by rw [h0]; simp⟩
  obtain ⟨c1, e1, l1, w1, b1⟩ := step1
  have step2 : ∃ c, (if pos % wbits N ≠ 0 then (do
        let a ← forDown (shlBits (wbits N) (pos % wbits N)) (words N) 1 c1
        let x ← rdw a 0
        let h ← shlw (wbits N) x (pos % wbits N)
        wrw a 0 h) else .ok c1 : R (List Nat)) = .ok c ∧
      c.length = words N + 1 ∧ (∀ x ∈ c, x < 2 ^ wbits N) ∧
      ∀ i, i / wbits N ≤ words N → bitAt (wbits N) c i = (decide (pos % wbits N ≤ i) && bitAt (wbits N) c1 (i - pos % wbits N)) := by
    by_cases h0 : pos % wbits N ≠ 0
    · rw [if_pos h0]; exact shlBits_ok (by omega) (Nat.mod_lt _ hw) l1 w1
    · rw [if_neg h0]
      push Not at h0
      exact ⟨c1, rfl, l1, w1, fun i _ => by rw [h0]; simp⟩
  obtain ⟨c2, e2, l2, w2, b2⟩ := step2
  unfold shlEq
  simp only
  rw [e1, R.ok_bind, e2, R.ok_bind]
  apply trim_ok
  refine ⟨l2, w2, fun i hi => ?_⟩
  have hiw := div_le_words hi
  have hpos := Nat.div_add_mod pos (wbits N)
  rw [mul_comm] at hpos
  rw [b2 i hiw, b1 _ (div_mono (by omega) hiw), h.bit, BitVec.getLsbD_shiftLeft, decide_eq_true hi, Bool.true_and]
  by_cases hp : pos ≤ i
  · rw [decide_eq_true (by omega : pos % wbits N ≤ i), decide_eq_true (by omega : pos / wbits N * wbits N ≤ i - pos % wbits N), decide_eq_false (by omega : ¬ i < pos), Bool.true_and, Bool.true_and, Bool.not_false, Bool.true_and]
    congr 1; omega
  · rw [decide_eq_true (by omega : i < pos), Bool.not_true, Bool.false_and]
    by_cases hq : pos % wbits N ≤ i
    · rw [decide_eq_false (by omega : ¬ pos / wbits N * wbits N ≤ i - pos % wbits N)]; simp
    · rw [decide_eq_false hq]; simp

theorem shrWords_ok {N ws : Nat} {a : List Nat} (hl : a.length = words N + 1) (hword : ∀ x ∈ a, x < 2 ^ wbits N) :
    ∃ c, forUp (shrWords N ws) (words N + 1) 0 a = .ok c ∧ c.length = words N + 1 ∧ (∀ x ∈ c, x < 2 ^ wbits N) ∧
      ∀ i, bitAt (wbits N) c i = bitAt (wbits N) a (i + ws * wbits N) := by
  have hw := wbits_pos N
  obtain ⟨c, e, w⟩ := forUp_wrote (f := shrWords N ws) (G := fun k => a.getD (k + ws) 0) (a0 := a) (words N + 1) 0 a rfl (by omega) (fun _ _ => rfl) (by
    intro i a' _ hi hl' hs
    unfold shrWords
    split
    · rw [rdw_ok (by omega), R.ok_bind, hs _ (by omega)]
    · rw [R.ok_bind]
      have : a.getD (i + ws) 0 = 0 := by rw [List.getD_eq_getElem?_getD, List.getElem?_eq_none (by omega)]; rfl
      rw [this])
  refine ⟨c, e, by rw [w.len, hl], w.word hword fun k _ _ => word_getD hword _, fun i => ?_⟩
  by_cases hi : i / wbits N ≤ words N
  · unfold bitAt
    rw [w.inn _ (Nat.zero_le _) (by omega), Nat.add_mul_div_right _ _ hw, Nat.add_mul_mod_self_right]
  · have h1 : (words N + 1) * wbits N ≤ i := (Nat.le_div_iff_mul_le hw).1 (by omega)
    rw [bitAt_out hw (by rw [w.len, hl]; omega), bitAt_out hw (by rw [hl]; omega)]

theorem shift_word_r {w p x y i : Nat} (hp : 0 < p) (hpw : p < w) (hi : i < w) (hx : x < 2 ^ w) :
    ((x / 2 ^ p) ||| (y * 2 ^ (w - p) % 2 ^ w)).testBit i = if i + p < w then x.testBit (i + p) else y.testBit (i + p - w) := by
  rw [Nat.testBit_or, Nat.testBit_mod_two_pow, Nat.testBit_div_two_pow, mul_comm y, Nat.testBit_two_pow_mul, decide_eq_true hi]
  by_cases h : i + p < w
  · rw [if_pos h, decide_eq_false (by omega : ¬ i ≥ w - p)]; simp
  · rw [if_neg h, Nat.testBit_lt_two_pow (lt_of_lt_of_le hx (Nat.pow_le_pow_right (by omega) (by omega))), decide_eq_true (by omega : i ≥ w - p), show i - (w - p) = i + p - w by omega]; simp

theorem shrBits_ok {N p : Nat} {a : List Nat} (hp : 0 < p) (hpw : p < wbits N) (hl : a.length = words N + 1) (hword : ∀ x ∈ a, x < 2 ^ wbits N) :
    ∃ c, (do let a ← forUp (shrBits (wbits N) p) (words N) 0 a
             let x ← rdw a (words N)
             let l ← shrw (wbits N) x p
             wrw a (words N) l) = .ok c ∧ c.length = words N + 1 ∧ (∀ x ∈ c, x < 2 ^ wbits N) ∧
      ∀ i, bitAt (wbits N) c i = bitAt (wbits N) a (i + p) := by
  have hw := wbits_pos N
  obtain ⟨c, e, w⟩ := forUp_wrote (f := shrBits (wbits N) p) (G := fun k => (a.getD k 0 / 2 ^ p) ||| (a.getD (k + 1) 0 * 2 ^ (wbits N - p) % 2 ^ wbits N)) (a0 := a) (words N) 0 a rfl (by omega) (fun _ _ => rfl) (by
    intro i a' _ hi hl' hs
    unfold shrBits
    rw [rdw_ok (by omega), R.ok_bind, rdw_ok (by omega), R.ok_bind, shrw_ok hpw, R.ok_bind, shlw_ok (by omega), R.ok_bind, hs _ (le_refl _), hs _ (by omega)])
  have hcl : c.length = words N + 1 := by rw [w.len, hl]
  rw [e, R.ok_bind, rdw_ok (by omega), R.ok_bind, shrw_ok hpw, R.ok_bind, wrw_ok (by omega), w.out (words N) (by omega)]
  refine ⟨_, rfl, by simp [hcl], ?_, fun i => ?_⟩
  · apply word_of_getD
    intro k hk
    rw [getD_set (by omega)]
    split
    · exact lt_of_le_of_lt (Nat.div_le_self _ _) (word_getD hword _)
    · rw [w.inn k (by omega) (by simp at hk; omega)]
      apply Nat.or_lt_two_pow
      · exact lt_of_le_of_lt (Nat.div_le_self _ _) (word_getD hword _)
      · exact Nat.mod_lt _ (by positivity)
  · by_cases hi : i / wbits N ≤ words N
    · unfold bitAt
      rw [getD_set (by omega)]
      have hmod := Nat.mod_lt i hw
      have hdm := Nat.div_add_mod i (wbits N)
      have key : ∀ r q, i + p = r + wbits N * q → r < wbits N → (i + p) / wbits N = q ∧ (i + p) % wbits N = r := by
        intro r q hE hr
        rw [hE, Nat.add_mul_div_left _ _ hw, Nat.add_mul_mod_self_left, Nat.div_eq_of_lt hr, Nat.mod_eq_of_lt hr]
        exact ⟨Nat.zero_add _, rfl⟩
      by_cases h0 : i % wbits N + p < wbits N
      · obtain ⟨k1, k2⟩ := key (i % wbits N + p) (i / wbits N) (by omega) h0
        rw [k1, k2]
        by_cases h1 : i / wbits N = words N
        · rw [if_pos h1, Nat.testBit_div_two_pow, h1]
        · rw [if_neg h1, w.inn _ (Nat.zero_le _) (by omega), shift_word_r hp hpw hmod (word_getD hword _), if_pos h0]
      · obtain ⟨k1, k2⟩ := key (i % wbits N + p - wbits N) (i / wbits N + 1) (by rw [Nat.mul_add, mul_one]; omega) (by omega)
        rw [k1, k2]
        by_cases h1 : i / wbits N = words N
        · rw [if_pos h1, Nat.testBit_div_two_pow, h1, Nat.testBit_lt_two_pow (lt_of_lt_of_le (word_getD hword _) (Nat.pow_le_pow_right (by omega) (by omega))),
            List.getD_eq_getElem?_getD, List.getElem?_eq_none (by omega)]; simp
        · rw [if_neg h1, w.inn _ (Nat.zero_le _) (by omega), shift_word_r hp hpw hmod (word_getD hword _), if_neg h0]
    · have h1 : (words N + 1) * wbits N ≤ i := (Nat.le_div_iff_mul_le hw).1 (by omega)
      rw [bitAt_out hw (by simp [hcl]; omega), bitAt_out hw (by rw [hl]; omega)]

theorem shrEq_ok {N pos : Nat} {a : List Nat} {v : BitVec N} (h : Is N a v) : ∃ c, shrEq N a pos = .ok c ∧ Is N c (v >>> pos) := by
  have hw := wbits_pos N
  have step1 : ∃ c, (if pos / wbits N ≠ 0 then forUp (shrWords N (pos / wbits N)) (words N + 1) 0 a else .ok a : R (List Nat)) = .ok c ∧
      c.length = words N + 1 ∧ (∀ x ∈ c, x < 2 ^ wbits N) ∧
      ∀ i, bitAt (wbits N) c i = bitAt (wbits N) a (i + pos / wbits N * wbits N) := by
    by_cases h0 : pos / wbits N ≠ 0
    · rw [if_pos h0]; exact shrWords_ok h.len h.word
    · rw [if_neg h0]
      push Not at h0
      exact ⟨a, rfl, h.len, h.word, fun i => by rw [h0]; simp⟩
  obtain ⟨c1, e1, l1, w1, b1⟩ := step1
  have hpos := Nat.div_add_mod pos (wbits N)
  rw [mul_comm] at hpos
  unfold shrEq
  simp only
  rw [e1, R.ok_bind]
  by_cases h0 : pos % wbits N ≠ 0
  · rw [if_pos h0]
    obtain ⟨c, e, l, w, b⟩ := shrBits_ok (by omega) (Nat.mod_lt pos hw) l1 w1
    refine ⟨c, e, l, w, fun i => ?_⟩
    rw [b, b1, h.bit, BitVec.getLsbD_ushiftRight]
    congr 1; omega
  · rw [if_neg h0]
    refine ⟨c1, rfl, l1, w1, fun i => ?_⟩
    push Not at h0
    rw [b1, h.bit, BitVec.getLsbD_ushiftRight]
    congr 1; omega

end STL.Bset
