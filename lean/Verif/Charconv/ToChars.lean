import Verif.Charconv.Props

namespace STL.Charconv
open STL Spec

/-! ### numerals -/

theorem numeral_lt {b n : Nat} (hn : n < b) : numeral b n = [digitChar n] := by
  unfold numeral
  by_cases h : n = 0
  · subst h; simp [digitChar]
  · rw [if_neg h, Nat.digits_of_lt b n h hn]; rfl

theorem numeral_ge {b n : Nat} (hb : 2 ≤ b) (hn : b ≤ n) : numeral b n = numeral b (n / b) ++ [digitChar (n % b)] := by
  unfold numeral
  have h1 : n / b ≠ 0 := by
    have := Nat.div_pos hn (by omega); omega
  rw [if_neg (by omega), if_neg h1, Nat.digits_def' (by omega) (by omega)]
  simp

theorem numeral_len_pos (b n : Nat) (hb : 2 ≤ b) : 0 < (numeral b n).length := by
  by_cases h : n < b
  · rw [numeral_lt h]; simp
  · rw [numeral_ge hb (by omega)]; simp

theorem numeral_len_le {b n k : Nat} (hb : 2 ≤ b) (hk : 1 ≤ k) (hn : n < b ^ k) : (numeral b n).length ≤ k := by
  unfold numeral
  split
  · simpa using hk
  · simp; exact (Nat.digits_length_le_iff (by omega) n).2 hn

theorem digitVal_digitChar (d : Nat) (h : d < 36) : digitVal (digitChar d) = some d := by
  unfold digitVal digitChar
  by_cases h1 : d < 10
  · rw [if_pos h1, if_pos (by omega)]; congr 1; omega
  · rw [if_neg h1, if_neg (by omega), if_neg (by omega), if_pos (by omega)]; congr 1; omega

theorem fv_append (base v : Nat) (s t : List Nat) : fv base v (s ++ t) = fv base (fv base v s) t := by
  unfold fv; rw [List.foldl_append]

theorem numeral_val (b : Nat) (hb : 2 ≤ b) (hb36 : b ≤ 36) (n : Nat) : numVal b (numeral b n) = n := by
  show fv b 0 (numeral b n) = n
  induction n using Nat.strongRecOn with
  | ind n ih =>
    by_cases h : n < b
    · rw [numeral_lt h]; simp [fv, digitVal_digitChar n (by omega)]
    · rw [numeral_ge hb (by omega), fv_append, ih (n / b) (Nat.div_lt_self (by omega) (by omega))]
      have hm := Nat.mod_lt n (by omega : b > 0)
      simp only [fv, List.foldl_cons, List.foldl_nil, digitVal_digitChar (n % b) (by omega), Option.getD_some]
      rw [Nat.mul_comm]; exact Nat.div_add_mod n b

theorem numeral_digits (b : Nat) (hb : 2 ≤ b) (hb36 : b ≤ 36) (n : Nat) : ∀ c ∈ numeral b n, isDigit b c = true := by
  induction n using Nat.strongRecOn with
  | ind n ih =>
    intro c hc
    by_cases h : n < b
    · rw [numeral_lt h] at hc
      simp at hc; subst hc
      simp [isDigit, digitVal_digitChar n (by omega), h]
    · rw [numeral_ge hb (by omega)] at hc
      rcases List.mem_append.1 hc with hc | hc
      · exact ih _ (Nat.div_lt_self (by omega) (by omega)) c hc
      · have hm := Nat.mod_lt n (by omega : b > 0)
        simp at hc; subst hc
        simp [isDigit, digitVal_digitChar (n % b) (by omega), hm]

/-! ### the digit buffer -/

/-- the result of printing `s` in front of what is already in the buffer -/
def Printed (buf : Mem Nat) (r : Nat) (S s : List Nat) (res : R (Mem Nat × Nat)) : Prop :=
  ∃ buf', res = .ok (buf', r - s.length) ∧ At buf' (r - s.length) (s ++ S) ∧ buf'.length = buf.length

theorem wr_front {buf : Mem Nat} {r : Nat} {S : List Nat} (c : Nat) (hr : 0 < r) (hS : At buf r S) (hl : r ≤ buf.length) :
    ∃ buf', wr buf (r - 1) c = .ok buf' ∧ At buf' (r - 1) (c :: S) ∧ buf'.length = buf.length := by
  obtain ⟨m1, h1, u1, g1⟩ := wr_upd (m := buf) (j := r - 1) (x := c) (by omega)
  refine ⟨m1, h1, ?_, u1.len⟩
  rw [At.cons_iff]
  refine ⟨g1, ?_⟩
  have : r - 1 + 1 = r := by omega
  rw [this]
  exact hS.upd u1 (fun j _ _ => by omega)

theorem pushFront_spec {buf : Mem Nat} {r : Nat} {S : List Nat} (c : Nat) (hr : 0 < r) (hS : At buf r S) (hl : r ≤ buf.length) :
    Printed buf r S [c] (pushFront buf r c) := by
  obtain ⟨b1, h1, h2, h3⟩ := wr_front c hr hS hl
  unfold pushFront
  rw [if_neg (by omega), h1, R.ok_bind]
  exact ⟨b1, rfl, h2, h3⟩

theorem pushPair_spec {buf : Mem Nat} {r : Nat} {S : List Nat} (i : Nat) (hi : i < 100) (hr : 2 ≤ r) (hS : At buf r S)
    (hl : r ≤ buf.length) : Printed buf r S [48 + i / 10, 48 + i % 10] (pushPair buf r i) := by
  unfold pushPair
  rw [if_neg (by omega), if_neg (by omega)]
  obtain ⟨m1, h1, u1, g1⟩ := wr_upd (m := buf) (j := r - 2) (x := (digitPair i).1) (by omega)
  obtain ⟨m2, h2, u2, g2⟩ := wr_upd (m := m1) (j := r - 2 + 1) (x := (digitPair i).2) (by rw [u1.len]; omega)
  rw [h1, R.ok_bind, h2, R.ok_bind]
  refine ⟨m2, rfl, ?_, by rw [u2.len, u1.len]⟩
  simp only [List.length_cons, List.length_nil, List.cons_append, List.nil_append]
  rw [At.cons_iff, At.cons_iff]
  refine ⟨?_, g2, ?_⟩
  · rw [u2.out _ (by omega)]; exact g1
  · have : r - (0 + 1 + 1) + 1 + 1 = r := by omega
    rw [this]
    exact hS.upd (u1.trans u2) (fun j _ _ => by omega)

theorem digitLoop_spec (b : Nat) (hb : 2 ≤ b) (dig : Nat → R Nat) (step : Nat → Nat)
    (hd : ∀ v, dig v = .ok (digitChar (v % b))) (hs : ∀ v, step v = v / b) (r : Nat) :
    ∀ (buf : Mem Nat) (v : Nat) (S : List Nat), (numeral b v).length ≤ r → At buf r S → r ≤ buf.length →
    Printed buf r S (numeral b v) (digitLoop dig step buf r v) := by
  induction r with
  | zero => intro buf v S hl; have := numeral_len_pos b v hb; omega
  | succ r ih =>
    intro buf v S hl hS hbl
    obtain ⟨b1, h1, h2, h3⟩ := wr_front (digitChar (v % b)) (by omega) hS hbl
    unfold digitLoop
    rw [dif_neg (by omega), hd, R.ok_bind, h1, R.ok_bind, hs]
    by_cases hv : v < b
    · rw [if_neg (by rw [Nat.div_eq_of_lt hv]; simp), numeral_lt hv]
      rw [Nat.mod_eq_of_lt hv] at h2
      exact ⟨b1, rfl, h2, h3⟩
    · have hp : v / b ≠ 0 := by have := Nat.div_pos (by omega : b ≤ v) (by omega); omega
      rw [if_pos hp]
      rw [numeral_ge hb (by omega)] at hl ⊢
      simp only [List.length_append, List.length_cons, List.length_nil] at hl
      obtain ⟨b2, g1, g2, g3⟩ := ih b1 (v / b) (digitChar (v % b) :: S) (by omega) h2 (by omega)
      have e : r + 1 - 1 = r := rfl
      rw [e]
      have e2 : r + 1 - (numeral b (v / b) ++ [digitChar (v % b)]).length = r - (numeral b (v / b)).length := by
        simp only [List.length_append, List.length_cons, List.length_nil]; omega
      unfold Printed
      rw [e2]
      exact ⟨b2, g1, by simpa using g2, by rw [g3, h3]⟩

theorem digitChar_lt10 (d : Nat) (h : d < 10) : digitChar d = 48 + d := by simp [digitChar, h]

theorem numeral10_pair_small {v : Nat} (h1 : 10 ≤ v) (h2 : v < 100) : numeral 10 v = [48 + v / 10, 48 + v % 10] := by
  rw [numeral_ge (by omega) h1, numeral_lt (by omega), digitChar_lt10 _ (by omega), digitChar_lt10 _ (by omega)]; rfl

theorem numeral10_pair {v : Nat} (h : 100 ≤ v) :
    numeral 10 v = numeral 10 (v / 100) ++ [48 + v % 100 / 10, 48 + v % 100 % 10] := by
  rw [numeral_ge (by omega) (by omega : 10 ≤ v), numeral_ge (n := v / 10) (by omega) (by omega), digitChar_lt10 _ (by omega),
    digitChar_lt10 _ (by omega), Nat.div_div_eq_div_mul, List.append_assoc]
  have e1 : v / 10 % 10 = v % 100 / 10 := by omega
  have e2 : v % 10 = v % 100 % 10 := by omega
  rw [e1, e2]; rfl

/-- what remains after the pair loop: an unpaired leading digit or nothing -/
theorem pairLoop_spec (r : Nat) : ∀ (buf : Mem Nat) (v : Nat) (S : List Nat), 10 ≤ v → (numeral 10 v).length ≤ r → At buf r S →
    r ≤ buf.length → ∃ buf' r' t, pairLoop buf r v = .ok (buf', r', t) ∧ t < 10 ∧ buf'.length = buf.length ∧
      ∃ s, At buf' r' (s ++ S) ∧ r = r' + s.length ∧ numeral 10 v = (if t = 0 then s else (48 + t) :: s) := by
  induction r using Nat.strongRecOn with
  | ind r ih =>
    intro buf v S hv hl hS hbl
    have h2 : 2 ≤ (numeral 10 v).length := by
      rw [numeral_ge (by omega) hv]; have := numeral_len_pos 10 (v / 10) (by omega); simp; omega
    unfold pairLoop
    obtain ⟨b1, g1, g2, g3⟩ := pushPair_spec (v % 100) (by omega) (by omega : 2 ≤ r) hS hbl
    rw [dif_neg (by omega), g1, R.ok_bind]
    simp only [List.length_cons, List.length_nil] at g2 ⊢
    by_cases h3 : v / 100 ≥ 10
    · rw [if_pos h3]
      rw [numeral10_pair (by omega)] at hl
      simp only [List.length_append, List.length_cons, List.length_nil] at hl
      obtain ⟨b2, r2, t, k1, k2, k3, s, k4, k5, k6⟩ := ih (r - 2) (by omega) b1 (v / 100) _ h3 (by omega) g2 (by omega)
      refine ⟨b2, r2, t, k1, k2, by rw [k3, g3], s ++ [48 + v % 100 / 10, 48 + v % 100 % 10], by simpa using k4, by simp; omega, ?_⟩
      rw [numeral10_pair (by omega), k6]
      split <;> simp
    · rw [if_neg h3]
      refine ⟨b1, _, v / 100, rfl, by omega, g3, _, g2, by simp; omega, ?_⟩
      by_cases h4 : v / 100 = 0
      · rw [if_pos h4, numeral10_pair_small hv (by omega)]
        have : v % 100 = v := by omega
        rw [this]
      · rw [if_neg h4, numeral10_pair (by omega), numeral_lt (by omega), digitChar_lt10 _ (by omega)]; rfl

theorem chunkLoop_spec (v : Nat) : ∀ (buf : Mem Nat) (r : Nat) (S : List Nat), (numeral 10 v).length ≤ r → At buf r S →
    r ≤ buf.length → ∃ buf' r' v', chunkLoop buf r v = .ok (buf', r', v') ∧ v' ≤ 0xFFFFFFFF ∧ buf'.length = buf.length ∧
      ∃ s, At buf' r' (s ++ S) ∧ r = r' + s.length ∧ numeral 10 v = numeral 10 v' ++ s := by
  induction v using Nat.strongRecOn with
  | ind v ih =>
    intro buf r S hl hS hbl
    unfold chunkLoop
    by_cases h : v > 0xFFFFFFFF
    · rw [dif_pos h]
      simp only []
      have e1 : numeral 10 v = numeral 10 (v / 100000000) ++ ([48 + v % 100000000 / 100 / 100 / 100 / 10, 48 + v % 100000000 / 100 / 100 / 100 % 10] ++
          ([48 + v % 100000000 / 100 / 100 % 100 / 10, 48 + v % 100000000 / 100 / 100 % 100 % 10] ++
          ([48 + v % 100000000 / 100 % 100 / 10, 48 + v % 100000000 / 100 % 100 % 10] ++
          [48 + v % 100000000 % 100 / 10, 48 + v % 100000000 % 100 % 10]))) := by
        rw [numeral10_pair (by omega : 100 ≤ v), numeral10_pair (v := v / 100) (by omega), numeral10_pair (v := v / 100 / 100) (by omega),
          numeral10_pair (v := v / 100 / 100 / 100) (by omega)]
        have a1 : v / 100 / 100 / 100 / 100 = v / 100000000 := by omega
        have a2 : v % 100000000 / 100 / 100 / 100 = v / 100 / 100 / 100 % 100 := by omega
        have a3 : v % 100000000 / 100 / 100 % 100 = v / 100 / 100 % 100 := by omega
        have a4 : v % 100000000 / 100 % 100 = v / 100 % 100 := by omega
        have a5 : v % 100000000 % 100 = v % 100 := by omega
        rw [a1, a2, a3, a4, a5]
        simp
      have hl' := hl
      rw [e1] at hl'
      have hp := numeral_len_pos 10 (v / 100000000) (by omega)
      simp only [List.length_append, List.length_cons, List.length_nil] at hl'
      obtain ⟨b1, g1, g2, g3⟩ := pushPair_spec (v % 100000000 % 100) (by omega) (by omega : 2 ≤ r) hS hbl
      obtain ⟨b2, k1, k2, k3⟩ := pushPair_spec (v % 100000000 / 100 % 100) (by omega) (by simp; omega) g2 (by simp; omega)
      obtain ⟨b3, l1, l2, l3⟩ := pushPair_spec (v % 100000000 / 100 / 100 % 100) (by omega) (by simp; omega) k2 (by simp; omega)
      obtain ⟨b4, n1, n2, n3⟩ := pushPair_spec (v % 100000000 / 100 / 100 / 100) (by omega) (by simp; omega) l2 (by simp; omega)
      simp only [g1, R.ok_bind, k1, l1, n1]
      simp only [List.length_cons, List.length_nil] at n2 ⊢
      obtain ⟨b5, r5, v5, q1, q2, q3, s, q4, q5, q6⟩ := ih (v / 100000000) (by omega) b4 _ _ (by omega) n2 (by omega)
      refine ⟨b5, r5, v5, q1, q2, by omega, s ++ ([48 + v % 100000000 / 100 / 100 / 100 / 10, 48 + v % 100000000 / 100 / 100 / 100 % 10] ++
          ([48 + v % 100000000 / 100 / 100 % 100 / 10, 48 + v % 100000000 / 100 / 100 % 100 % 10] ++
          ([48 + v % 100000000 / 100 % 100 / 10, 48 + v % 100000000 / 100 % 100 % 10] ++
          [48 + v % 100000000 % 100 / 10, 48 + v % 100000000 % 100 % 10]))), by simpa using q4, ?_, ?_⟩
      · simp only [List.length_append, List.length_cons, List.length_nil]; omega
      · rw [e1, q6]
        simp
    · rw [dif_neg h]
      exact ⟨buf, r, v, rfl, by omega, rfl, [], by simpa using hS, by simp, by simp⟩

theorem chunkLoop_pos (v : Nat) : ∀ (buf : Mem Nat) (r : Nat) b' r' v', chunkLoop buf r v = .ok (b', r', v') → (v ≤ 0xFFFFFFFF ∧ v' = v) ∨ 10 ≤ v' := by
  induction v using Nat.strongRecOn with
  | ind v ih =>
    intro buf r b' r' v' h
    unfold chunkLoop at h
    by_cases hv : v > 0xFFFFFFFF
    · right
      rw [dif_pos hv] at h
      simp only [] at h
      cases h1 : pushPair buf r (v % 100000000 % 100) with
      | error e => rw [h1] at h; cases h
      | ok p =>
      rw [h1, R.ok_bind] at h
      obtain ⟨b1, r1⟩ := p
      simp only [] at h
      cases h2 : pushPair b1 r1 (v % 100000000 / 100 % 100) with
      | error e => rw [h2] at h; cases h
      | ok p =>
      rw [h2, R.ok_bind] at h
      obtain ⟨b2, r2⟩ := p
      simp only [] at h
      cases h3 : pushPair b2 r2 (v % 100000000 / 100 / 100 % 100) with
      | error e => rw [h3] at h; cases h
      | ok p =>
      rw [h3, R.ok_bind] at h
      obtain ⟨b3, r3⟩ := p
      simp only [] at h
      cases h4 : pushPair b3 r3 (v % 100000000 / 100 / 100 / 100) with
      | error e => rw [h4] at h; cases h
      | ok p =>
      rw [h4, R.ok_bind] at h
      obtain ⟨b4, r4⟩ := p
      rcases ih _ (by omega) _ _ _ _ _ h with ⟨_, rfl⟩ | h5
      · omega
      · exact h5
    · rw [dif_neg hv] at h
      left
      injection h with h; injection h with _ h; injection h with _ h
      exact ⟨by omega, h.symm⟩

theorem trunc_spec (buf : Mem Nat) (r v : Nat) (S : List Nat) (hl : (numeral 10 v).length ≤ r) (hS : At buf r S)
    (hbl : r ≤ buf.length) : Printed buf r S (numeral 10 v)
      (if v < 10 then pushFront buf r (48 + v)
        else do
          let (buf, r, trunc) ← pairLoop buf r v
          if trunc ≠ 0 then pushFront buf r (48 + trunc) else .ok (buf, r)) := by
  have hp := numeral_len_pos 10 v (by omega)
  by_cases h : v < 10
  · rw [if_pos h, numeral_lt h, digitChar_lt10 _ h]
    exact pushFront_spec _ (by omega) hS hbl
  · rw [if_neg h]
    obtain ⟨b1, r1, t, h1, h2, h3, s, h4, h5, h6⟩ := pairLoop_spec r buf v S (by omega) hl hS hbl
    simp only [h1, R.ok_bind]
    by_cases ht : t = 0
    · rw [if_neg (by simpa using ht)]
      rw [if_pos ht] at h6
      rw [h6]
      have : r - s.length = r1 := by omega
      exact ⟨b1, by rw [this], by rw [this]; exact h4, h3⟩
    · rw [if_pos ht]
      rw [if_neg ht] at h6
      rw [h6] at hl ⊢
      simp only [List.length_cons] at hl
      obtain ⟨b2, g1, g2, g3⟩ := pushFront_spec (48 + t) (by omega) h4 (by omega)
      have : r - ((48 + t) :: s).length = r1 - 1 := by simp only [List.length_cons]; omega
      unfold Printed
      rw [this]
      exact ⟨b2, g1, by simpa using g2, by rw [g3, h3]⟩

theorem uintegralToBuff_spec (win64 : Bool) (w : Nat) (buf : Mem Nat) (r v : Nat) (S : List Nat) (hv : v < 2 ^ w) (hw : w ≤ 32 ∨ w > 32)
    (hl : (numeral 10 v).length ≤ r) (hS : At buf r S) (hbl : r ≤ buf.length) :
    Printed buf r S (numeral 10 v) (uintegralToBuff win64 w buf r v) := by
  unfold uintegralToBuff
  cases win64 with
  | true =>
    simp only [Bool.not_true, Bool.false_and, Bool.false_eq_true, if_false, R.ok_bind, if_true]
    exact trunc_spec buf r v S hl hS hbl
  | false =>
    simp only [Bool.not_false, Bool.true_and, Bool.false_eq_true, if_false]
    by_cases h32 : w > 32
    · rw [if_pos (by simpa using h32)]
      obtain ⟨b1, r1, v1, h1, h2, h3, s, h4, h5, h6⟩ := chunkLoop_spec v buf r S hl hS hbl
      simp only [h1, R.ok_bind]
      have e : v1 % 2 ^ 32 = v1 := Nat.mod_eq_of_lt (by omega)
      rw [e]
      rw [h6] at hl ⊢
      simp only [List.length_append] at hl
      obtain ⟨b2, g1, g2, g3⟩ := trunc_spec b1 r1 v1 _ (by omega) h4 (by omega)
      refine ⟨b2, ?_, ?_, by omega⟩
      · rw [g1, List.length_append]; congr 2; omega
      · rw [List.append_assoc]
        have : r - (numeral 10 v1 ++ s).length = r1 - (numeral 10 v1).length := by rw [List.length_append]; omega
        rw [this]; exact g2
    · rw [if_neg (by simpa using h32)]
      simp only [R.ok_bind]
      have e : v % 2 ^ 32 = v := Nat.mod_eq_of_lt (Nat.lt_of_lt_of_le hv (Nat.pow_le_pow_right (by omega) (by omega)))
      rw [e]
      exact trunc_spec buf r v S hl hS hbl

theorem charconvDigits_spec : ∀ d, d < 36 → charconvDigits[d]? = some (digitChar d) := by decide

theorem rdc_digits (d : Nat) (h : d < 36) : rdc charconvDigits d = .ok (digitChar d) := by
  unfold rdc; rw [charconvDigits_spec d h]

theorem toBuff_spec (win64 : Bool) (w base : Nat) (hb : 2 ≤ base) (hb36 : base ≤ 36) (buf : Mem Nat) (r v : Nat) (S : List Nat)
    (hv : v < 2 ^ w) (hl : (numeral base v).length ≤ r) (hS : At buf r S) (hbl : r ≤ buf.length) :
    Printed buf r S (numeral base v) (toBuff win64 w base buf r v) := by
  unfold toBuff
  have hand : ∀ k v : Nat, v &&& (2 ^ k - 1) = v % 2 ^ k := fun k v => Nat.and_two_pow_sub_one_eq_mod v k
  split
  · rename_i h; subst h; exact uintegralToBuff_spec win64 w buf r v S hv (by omega) hl hS hbl
  split
  · rename_i h; subst h
    exact digitLoop_spec 2 (by omega) _ _ (fun v => by rw [digitChar_lt10 _ (by omega)]; congr 2; exact hand 1 v)
      (fun v => Nat.shiftRight_eq_div_pow v 1) r buf v S hl hS hbl
  split
  · rename_i h; subst h
    exact digitLoop_spec 4 (by omega) _ _ (fun v => by rw [digitChar_lt10 _ (by omega)]; congr 2; exact hand 2 v)
      (fun v => Nat.shiftRight_eq_div_pow v 2) r buf v S hl hS hbl
  split
  · rename_i h; subst h
    exact digitLoop_spec 8 (by omega) _ _ (fun v => by rw [digitChar_lt10 _ (by omega)]; congr 2; exact hand 3 v)
      (fun v => Nat.shiftRight_eq_div_pow v 3) r buf v S hl hS hbl
  split
  · rename_i h; subst h
    exact digitLoop_spec 16 (by omega) _ _ (fun v => by
        show rdc charconvDigits (v &&& (2 ^ 4 - 1)) = _
        rw [hand 4 v]; exact rdc_digits _ (by omega))
      (fun v => Nat.shiftRight_eq_div_pow v 4) r buf v S hl hS hbl
  split
  · rename_i h; subst h
    exact digitLoop_spec 32 (by omega) _ _ (fun v => by
        show rdc charconvDigits (v &&& (2 ^ 5 - 1)) = _
        rw [hand 5 v]; exact rdc_digits _ (by omega))
      (fun v => Nat.shiftRight_eq_div_pow v 5) r buf v S hl hS hbl
  split
  · refine digitLoop_spec base hb _ _ (fun v => ?_) (fun v => rfl) r buf v S hl hS hbl
    have := Nat.mod_lt v (by omega : base > 0)
    rw [digitChar_lt10 _ (by omega)]
  · refine digitLoop_spec base hb _ _ (fun v => ?_) (fun v => rfl) r buf v S hl hS hbl
    have := Nat.mod_lt v (by omega : base > 0)
    exact rdc_digits _ (by omega)

theorem copyN_spec (s : List Nat) : ∀ (buf : Mem Nat) (src : Nat) (m : Mem Nat) (dest : Nat), At buf src s → dest + s.length ≤ m.length →
    ∃ m', copyN buf src m dest s.length = .ok m' ∧ At m' dest s ∧ Upd m m' (fun j => dest ≤ j ∧ j < dest + s.length) := by
  induction s with
  | nil => intro buf src m dest _ _; exact ⟨m, rfl, At.nil _ _, Upd.refl _ _⟩
  | cons c s ih =>
    intro buf src m dest hA hl
    obtain ⟨h1, h2⟩ := At.cons_iff.1 hA
    simp only [List.length_cons] at hl ⊢
    obtain ⟨m1, g1, u1, g2⟩ := wr_upd (m := m) (j := dest) (x := c) (by omega)
    obtain ⟨m2, k1, k2, u2⟩ := ih buf (src + 1) m1 (dest + 1) h2 (by rw [u1.len]; omega)
    refine ⟨m2, ?_, ?_, (u1.trans u2).mono (fun j => by omega)⟩
    · unfold copyN; rw [rd_of h1, R.ok_bind, g1, R.ok_bind, k1]
    · rw [At.cons_iff]
      exact ⟨by rw [u2.out _ (by omega)]; exact g2, k2⟩

theorem rebuild_buf0 {P B S : Mem Nat} {m2 : Mem Nat} {s : List Nat} (k2 : At m2 P.length s)
    (u2 : Upd (P ++ B ++ S) m2 (fun j => P.length ≤ j ∧ j < P.length + s.length)) (hl : s.length ≤ B.length) :
    m2 = P ++ (full s ++ B.drop s.length) ++ S := by
  apply List.ext_getElem?
  intro i
  by_cases hi : P.length ≤ i ∧ i < P.length + s.length
  · obtain ⟨j, rfl⟩ : ∃ j, i = P.length + j := ⟨i - P.length, by omega⟩
    rw [k2 j (by omega), List.append_assoc, List.getElem?_append_right (by omega), Nat.add_sub_cancel_left,
      List.append_assoc, List.getElem?_append_left (by simp; omega)]
    simp [full, (by omega : j < s.length)]
  · rw [u2.out i hi]
    simp only [List.getElem?_append, List.length_append, full_length, List.length_drop, List.getElem?_drop]
    by_cases h1 : i < P.length
    · grind
    · by_cases h2 : i < P.length + B.length
      · rw [if_pos (by omega), if_neg (by omega), if_pos (by omega), if_neg (by omega), if_neg (by omega)]
        congr 1; omega
      · rw [if_neg (by omega), if_neg (by omega)]
        congr 1; omega

theorem takeWhile_all {p : Nat → Bool} {l : List Nat} (h : ∀ c ∈ l, p c = true) : l.takeWhile p = l := by
  induction l with
  | nil => rfl
  | cons c l ih =>
    rw [List.takeWhile_cons, if_pos (h c (by simp)), ih (fun d hd => h d (by simp [hd]))]

theorem rebuild_buf {P B S m1 : Mem Nat} {m2 : Mem Nat} {s : List Nat} {c : Nat} (hm : m1 = P ++ (some c :: B.drop 1) ++ S)
    (k2 : At m2 (P.length + 1) s)
    (u2 : Upd m1 m2 (fun j => P.length + 1 ≤ j ∧ j < P.length + 1 + s.length)) (hl : s.length + 1 ≤ B.length) :
    m2 = P ++ (full (c :: s) ++ B.drop (s.length + 1)) ++ S := by
  have e : m1 = (P ++ [some c]) ++ B.drop 1 ++ S := by rw [hm]; simp
  rw [e] at u2
  have := rebuild_buf0 (P := P ++ [some c]) (B := B.drop 1) (S := S) (m2 := m2) (s := s) (by simpa using k2) (by simpa using u2)
    (by simp; omega)
  rw [this]
  simp [full]

/-! ### the theorems -/

theorem castU_of_range {w : Nat} {v : Int} (h0 : 0 ≤ v) (h1 : v < 2 ^ w) : castU w v = v.natAbs ∧ v.natAbs < 2 ^ w := by
  obtain ⟨n, rfl⟩ := Int.eq_ofNat_of_zero_le h0
  have hn : n < 2 ^ w := by exact_mod_cast h1
  exact ⟨by rw [castU_nat _ _ hn]; simp, by simpa using hn⟩

theorem castU_neg {w : Nat} {v : Int} (hw : 1 ≤ w) (h0 : v < 0) (h1 : -(2 ^ (w - 1) : Int) ≤ v) :
    castU w (0 - (castU w v : Int)) = v.natAbs ∧ v.natAbs < 2 ^ w ∧ v.natAbs ≤ 2 ^ (w - 1) := by
  have hp1 : 2 ^ (w - 1) * 2 = 2 ^ w := by rw [← Nat.pow_succ]; congr 1; omega
  obtain ⟨n, hn, hvn⟩ : ∃ n : Nat, 0 < n ∧ v = 0 - (n : Int) := ⟨v.natAbs, by omega, by omega⟩
  subst hvn
  have hle : n ≤ 2 ^ (w - 1) := by
    have : (n : Int) ≤ ((2 ^ (w - 1) : Nat) : Int) := by push_cast; omega
    exact_mod_cast this
  have hpos := Nat.two_pow_pos (w - 1)
  rw [castU_zero_sub w n (by omega), if_neg (by omega), castU_zero_sub w _ (by omega), if_neg (by omega)]
  omega

/-- **C11.** `to_chars` for every in-range value of every integer type, base 2..36, and any caller buffer `B` inside a larger
memory `P ++ B ++ S`: no undefined behaviour (in particular the local digit buffer never overflows), memory outside the
buffer is unchanged; if the canonical numeral fits, exactly it is written at the start of the buffer, the rest of the buffer
is unchanged and the end of the text is returned; otherwise `{last, value_too_large}` is returned. -/
theorem C11_to_chars (win64 signed : Bool) (w base : Nat) (hw : 8 ≤ w) (hb : 2 ≤ base) (hb36 : base ≤ 36) (P B S : Mem Nat)
    (v : Int) (hv : InRange signed w v) :
    let s := numeralInt base v
    (s.length ≤ B.length → toChars win64 signed w base (P ++ B ++ S) P.length (P.length + B.length) v =
      .ok (P ++ (full s ++ B.drop s.length) ++ S, P.length + s.length, .none)) ∧
    (B.length < s.length → ∃ B' : Mem Nat, B'.length = B.length ∧
      toChars win64 signed w base (P ++ B ++ S) P.length (P.length + B.length) v =
        .ok (P ++ B' ++ S, P.length + B.length, .valueTooLarge)) := by
  intro s
  have hneg : v < 0 → signed = true ∧ -(2 ^ (w - 1) : Int) ≤ v := by
    intro h
    cases signed with
    | false => simp [InRange] at hv; omega
    | true => simp [InRange] at hv; exact ⟨rfl, hv.1⟩
  have hbuf : ∀ (k : Nat), k < 2 ^ w → ∃ buf, toBuff win64 w base (List.replicate w none) w k = .ok (buf, w - (numeral base k).length) ∧
      At buf (w - (numeral base k).length) (numeral base k) ∧ (numeral base k).length ≤ w := by
    intro k hk
    have hlen : (numeral base k).length ≤ w :=
      numeral_len_le hb (by omega) (Nat.lt_of_lt_of_le hk (Nat.pow_le_pow_left hb w))
    obtain ⟨buf, h1, h2, h3⟩ := toBuff_spec win64 w base hb hb36 (List.replicate w none) w k [] hk hlen (At.nil _ _) (by simp)
    exact ⟨buf, h1, by simpa using h2, hlen⟩
  -- copying the numeral `t` to `first`
  unfold toChars
  simp only []
  by_cases hn : v < 0
  · obtain ⟨hsg, hge⟩ := hneg hn
    obtain ⟨c1, c2, _⟩ := castU_neg (by omega) hn hge
    obtain ⟨buf, b1, b2, b3⟩ := hbuf v.natAbs c2
    have hs : s = 45 :: numeral base v.natAbs := by simp [s, numeralInt, hn]
    rw [hs]
    subst hsg
    simp only [hn, decide_true, Bool.true_and, if_true, List.length_cons]
    by_cases hB : B = []
    · subst hB
      simp only [List.length_nil, Nat.add_zero, beq_self_eq_true, if_true]
      exact ⟨fun h => by omega, fun _ => ⟨[], rfl, rfl⟩⟩
    · have hBl : 0 < B.length := List.length_pos_iff.2 hB
      rw [if_neg (by simp; omega)]
      obtain ⟨m1, g1, u1, g2⟩ := wr_upd (m := P ++ B ++ S) (j := P.length) (x := 45) (by simp; omega)
      have hm1 : m1 = P ++ (some 45 :: B.drop 1) ++ S := by
        unfold wr at g1
        split at g1
        · injection g1 with g1
          rw [← g1]
          cases B with
          | nil => simp at hBl
          | cons b B => simp
        · cases g1
      simp only [g1, R.ok_bind, c1, b1]
      have e1 : w - (w - (numeral base v.natAbs).length) = (numeral base v.natAbs).length := by omega
      rw [e1]
      constructor
      · intro h
        rw [if_neg (by omega)]
        obtain ⟨m2, k1, k2, u2⟩ := copyN_spec _ buf _ m1 (P.length + 1) b2 (by rw [u1.len]; simp; omega)
        simp only [k1, R.ok_bind]
        congr 2
        · exact rebuild_buf hm1 k2 u2 (by omega)
        · congr 1; omega
      · intro h
        rw [if_pos (by omega)]
        exact ⟨some 45 :: B.drop 1, by simp; omega, by rw [hm1]⟩
  · have hr : castU w v = v.natAbs ∧ v.natAbs < 2 ^ w := by
      refine castU_of_range (by omega) ?_
      cases signed with
      | false => simp [InRange] at hv; exact hv.2
      | true =>
        simp [InRange] at hv
        exact lt_of_lt_of_le hv.2 (by exact_mod_cast Nat.pow_le_pow_right (by omega : 0 < 2) (by omega : w - 1 ≤ w))
    obtain ⟨buf, b1, b2, b3⟩ := hbuf v.natAbs hr.2
    have hs : s = numeral base v.natAbs := by simp [s, numeralInt, hn]
    rw [hs]
    simp only [hn, decide_false, Bool.and_false, Bool.false_and, Bool.false_eq_true, if_false, R.ok_bind, hr.1, b1]
    have e1 : w - (w - (numeral base v.natAbs).length) = (numeral base v.natAbs).length := by omega
    rw [e1]
    constructor
    · intro h
      rw [if_neg (by omega)]
      obtain ⟨m2, k1, k2, u2⟩ := copyN_spec _ buf _ (P ++ B ++ S) P.length b2 (by simp; omega)
      simp only [k1, R.ok_bind]
      congr 2
      exact rebuild_buf0 k2 u2 h
    · intro h
      rw [if_pos (by omega)]
      exact ⟨B, rfl, rfl⟩

/-- **C11.** Parsing what `to_chars` produces (the canonical numeral) gives the value back and consumes everything. -/
theorem C11_roundtrip (signed : Bool) (w base : Nat) (hw : 8 ≤ w) (hb : 2 ≤ base) (hb36 : base ≤ 36) (v : Int)
    (hv : InRange signed w v) :
    Charconv.fromChars signed w base (numeralInt base v) = .ok ((numeralInt base v).length, .none, some v) := by
  have hdig : ∀ n c, c ∈ numeral base n → isDigit base c = true := fun n => numeral_digits base hb hb36 n
  have hlt : ∀ n c, c ∈ numeral base n → c < 256 ∧ c ≠ 45 := by
    intro n c hc
    have := hdig n c hc
    unfold isDigit digitVal at this
    split at this
    · rename_i d hd
      split at hd
      · omega
      · split at hd
        · omega
        · split at hd
          · omega
          · cases hd
    · cases this
  have htw : ∀ n, (numeral base n).takeWhile (isDigit base) = numeral base n :=
    fun n => takeWhile_all (fun c hc => hdig n c hc)
  have hne : ∀ n, numeral base n ≠ [] := fun n h => by have := numeral_len_pos base n hb; rw [h] at this; simp at this
  rw [C10_from_chars signed w base hw hb hb36]
  · congr 1
    unfold numeralInt Spec.fromChars
    by_cases hn : v < 0
    · have hsg : signed = true := by
        cases signed with
        | false => simp [InRange] at hv; omega
        | true => rfl
      subst hsg
      rw [if_pos hn]
      simp only [List.head?_cons, beq_self_eq_true, Bool.true_and, if_true, List.tail_cons, htw, if_neg (hne _),
        numeral_val base hb hb36]
      have : -(v.natAbs : Int) = v := by omega
      rw [this, if_pos hv]
      simp [Nat.add_comm]
    · rw [if_neg hn]
      have hh : ((numeral base v.natAbs).head? == some 45) = false := by
        cases hc : numeral base v.natAbs with
        | nil => rfl
        | cons c t =>
          have := (hlt v.natAbs c (by rw [hc]; simp)).2
          simp [this]
      simp only [hh, Bool.and_false, Bool.false_eq_true, if_false, htw, if_neg (hne _), numeral_val base hb hb36]
      have : (v.natAbs : Int) = v := by omega
      rw [this, if_pos hv]
      simp
  · intro c hc
    unfold numeralInt at hc
    split at hc
    · rcases List.mem_cons.1 hc with rfl | hc
      · omega
      · exact (hlt _ c hc).1
    · exact (hlt _ c hc).1

/-- **C11.** `to_string` of an integer of at most 64 bits is its canonical decimal numeral; its 21-character buffer never
overflows. -/
theorem C11_to_string (win64 signed : Bool) (w : Nat) (hw : 8 ≤ w) (hw64 : w ≤ 64) (v : Int) (hv : InRange signed w v) :
    integralToString win64 signed w v = .ok (numeralInt 10 v) := by
  have hneg : v < 0 → signed = true ∧ -(2 ^ (w - 1) : Int) ≤ v := by
    intro h
    cases signed with
    | false => simp [InRange] at hv; omega
    | true => simp [InRange] at hv; exact ⟨rfl, hv.1⟩
  have hfin : ∀ (buf : Mem Nat) (s : List Nat), s.length ≤ 21 → At buf (21 - s.length) s →
      (do let out ← copyN buf (21 - s.length) (List.replicate (21 - (21 - s.length)) none) 0 (21 - (21 - s.length))
          .ok (out.filterMap id) : R (List Nat)) = .ok s := by
    intro buf s hl hA
    have e : 21 - (21 - s.length) = s.length := by omega
    rw [e]
    obtain ⟨m, h1, h2, h3⟩ := copyN_spec s buf _ (List.replicate s.length none) 0 hA (by simp)
    rw [h1, R.ok_bind, eq_full_of_at h2 (by rw [h3.len]; simp)]
    congr 1
    simp [full, List.filterMap_map]
  have hp64 : (2 : Nat) ^ w ≤ 2 ^ 64 := Nat.pow_le_pow_right (by omega) hw64
  have hp63 : (2 : Nat) ^ (w - 1) ≤ 2 ^ 63 := Nat.pow_le_pow_right (by omega) (by omega)
  unfold integralToString numeralInt
  simp only []
  by_cases hn : v < 0
  · obtain ⟨hsg, hge⟩ := hneg hn
    obtain ⟨c1, c2, c3⟩ := castU_neg (by omega) hn hge
    subst hsg
    have hlen : (numeral 10 v.natAbs).length ≤ 19 := numeral_len_le (by omega) (by omega) (by omega)
    simp only [hn, decide_true, Bool.true_and, if_true, c1]
    obtain ⟨b1, h1, h2, h3⟩ := uintegralToBuff_spec win64 w (List.replicate 21 none) 21 v.natAbs [] c2 (by omega) (by omega) (At.nil _ _)
      (by rw [List.length_replicate])
    rw [List.length_replicate] at h3
    simp only [h1, R.ok_bind]
    obtain ⟨b2, g1, g2, g3⟩ := pushFront_spec 45 (by omega) h2 (by omega)
    simp only [g1, R.ok_bind]
    have e : 21 - (numeral 10 v.natAbs).length - [45].length = 21 - (45 :: numeral 10 v.natAbs).length := by simp; omega
    rw [e] at g2 ⊢
    exact hfin b2 (45 :: numeral 10 v.natAbs) (by simp; omega) (by simpa using g2)
  · have hr : castU w v = v.natAbs ∧ v.natAbs < 2 ^ w := by
      refine castU_of_range (by omega) ?_
      cases signed with
      | false => simp [InRange] at hv; exact hv.2
      | true =>
        simp [InRange] at hv
        exact lt_of_lt_of_le hv.2 (by exact_mod_cast Nat.pow_le_pow_right (by omega : 0 < 2) (by omega : w - 1 ≤ w))
    have hlen : (numeral 10 v.natAbs).length ≤ 20 := numeral_len_le (by omega) (by omega) (by omega)
    simp only [hn, decide_false, Bool.and_false, Bool.false_eq_true, if_false, hr.1]
    obtain ⟨b1, h1, h2, h3⟩ := uintegralToBuff_spec win64 w (List.replicate 21 none) 21 v.natAbs [] hr.2 (by omega) (by omega) (At.nil _ _)
      (by rw [List.length_replicate])
    simp only [h1, R.ok_bind]
    exact hfin b1 (numeral 10 v.natAbs) (by omega) (by simpa using h2)

/-! ### non-vacuity -/

example : numeralInt 16 (-255) = [45, 102, 102] ∧ InRange true 16 (-255) := by
  constructor
  · simp [numeralInt, numeral, digitChar]
  · simp [InRange]

example : Charconv.fromChars true 8 10 [45, 49, 50, 56, 120] = .ok (4, .none, some (-128)) := by
  rw [C10_from_chars true 8 10 (by omega) (by omega) (by omega) _ (by decide)]; decide

example : Charconv.fromChars true 8 10 [49, 50, 56, 120] = .ok (3, .resultOutOfRange, none) := by
  rw [C10_from_chars true 8 10 (by omega) (by omega) (by omega) _ (by decide)]; decide

end STL.Charconv
