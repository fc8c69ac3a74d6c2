import Verif.Random.Core

/-! # `operator()` of the generator is rejection sampling. Proofs only. -/

namespace STL.Rnd
open STL

variable {E : Eng}

theorem mask_step {W L B : Nat} (hB : B ≤ W) : ((2 ^ min W L - 1) <<< B) % 2 ^ W ||| (2 ^ B - 1) = 2 ^ min W (L + B) - 1 := by
  apply Nat.eq_of_testBit_eq
  intro i
  rw [Nat.testBit_or, Nat.testBit_mod_two_pow, Nat.testBit_shiftLeft, Nat.testBit_two_pow_sub_one, Nat.testBit_two_pow_sub_one, Nat.testBit_two_pow_sub_one]
  rw [Bool.eq_iff_iff]
  simp only [Bool.or_eq_true, Bool.and_eq_true, decide_eq_true_eq, ge_iff_le]
  omega

/-- The mask loop always ends and its mask covers the wanted range. -/
theorem maskLoop_ok (o : E.Ok) {s : Nat} (hs : 1 ≤ s) (hsW : s < 2 ^ E.W) : ∀ (f k : Nat), 1 ≤ k → k ≤ E.W → E.W - min E.W (E.bits * k) < f →
    ∃ k', 1 ≤ k' ∧ k' ≤ E.W ∧ maskLoop E s f (2 ^ min E.W (E.bits * k) - 1) k = .ok (2 ^ min E.W (E.bits * k') - 1, k') ∧ s ≤ 2 ^ min E.W (E.bits * k')
  | 0, _, _, _, h => by omega
  | f + 1, k, hk, hkW, h => by
    have h1 : toU E.W ((s : Int) - 1) = s - 1 := toU_sub (b := 1) hs hsW
    have hb := o.bits_pos
    have hB := o.bits_le
    unfold maskLoop
    rw [h1]
    split
    · rename_i hlt
      have hne : min E.W (E.bits * k) ≠ E.W := by
        intro hc; rw [hc] at hlt; omega
      rw [o.bmask, mask_step hB, show E.bits * k + E.bits = E.bits * (k + 1) by ring]
      have hkb : k ≤ E.bits * k := Nat.le_mul_of_pos_left _ hb
      have hk1 : E.bits * (k + 1) = E.bits * k + E.bits := by ring
      exact maskLoop_ok o hs hsW f (k + 1) (by omega) (by omega) (by omega)
    · have := Nat.two_pow_pos (min E.W (E.bits * k))
      exact ⟨k, hk, hkW, rfl, by omega⟩

theorem popcount_mask (L : Nat) : popcount (2 ^ L - 1) = L := by
  unfold popcount
  have hp := Nat.two_pow_pos L
  have hL : L ≤ 2 ^ L := Nat.lt_two_pow_self.le
  rw [show 2 ^ L - 1 + 1 = L + (2 ^ L - L) by omega, List.range_add, List.countP_append]
  have e1 : (List.range L).countP (fun i => (2 ^ L - 1).testBit i) = L := by
    rw [List.countP_eq_length.2]
    · simp
    · intro i hi; rw [Nat.testBit_two_pow_sub_one]; simpa using hi
  have e2 : ((List.range (2 ^ L - L)).map (fun x => L + x)).countP (fun i => (2 ^ L - 1).testBit i) = 0 := by
    rw [List.countP_eq_zero]
    intro i hi
    rw [Nat.testBit_two_pow_sub_one]
    obtain ⟨x, _, rfl⟩ := List.mem_map.1 hi
    simp
  rw [e1, e2]; rfl

/-- The draw of `L` bits is rejected. -/
def rej (L s X : Nat) : Bool := decide (X % 2 ^ L * s % 2 ^ L < 2 ^ L % s)

theorem getProduct_eq (o : E.Ok) {k s : Nat} (hk : 1 ≤ k) (hk1 : E.bits = E.W → k = 1) (hsW : s < 2 ^ E.W) (l : List Nat) (hV : ∀ e ∈ l, E.V e) :
    getProduct E s k l = toG ((getX E k 0 l).map fun x => (x.1 % 2 ^ min E.W (E.bits * k) * s, x.2)) := by
  have hB := o.bits_le
  have hb := o.bits_pos
  have hP : 2 ^ E.W * 2 ^ E.W ≤ 2 ^ E.P := by
    rw [← Nat.pow_add]
    refine Nat.pow_le_pow_right (by omega) ?_
    have := o.W64
    unfold Eng.P; split_ifs <;> omega
  have hmul : ∀ x : Nat, x % 2 ^ E.W * s % 2 ^ E.P = x % 2 ^ E.W * s := by
    intro x
    refine Nat.mod_eq_of_lt (lt_of_lt_of_le ?_ hP)
    exact Nat.mul_lt_mul_of_lt_of_lt (Nat.mod_lt _ (Nat.two_pow_pos _)) hsW
  have hmod : ∀ x r, getX E k 0 l = some (x, r) → x % 2 ^ min E.W (E.bits * k) = x % 2 ^ E.W := by
    intro x r h
    have h2 := getX_bound o k 0 l x r h
    rw [Nat.zero_add, Nat.one_mul] at h2
    rcases Nat.le_total E.W (E.bits * k) with h' | h'
    · rw [Nat.min_eq_left h']
    · rw [Nat.min_eq_right h', Nat.mod_eq_of_lt h2, Nat.mod_eq_of_lt (lt_of_lt_of_le h2 (Nat.pow_le_pow_right (by omega) h'))]
  have hch := chunks_eq o (k - 1) l hV
  rw [show k - 1 + 1 = k by omega] at hch
  have hg : getProduct E s k l = (do let r ← (do let r ← getBits E l; moreBits E (k - 1) r.1 r.2); Except.ok (r.1 * s % 2 ^ E.P, r.2)) := by
    unfold getProduct
    cases getBits E l with
    | error e => rfl
    | ok r =>
      simp only [G.ok_bind]
      split
      · rfl
      · rw [hk1 (by omega)]; rfl
  rw [hg, hch]
  cases hx : getX E k 0 l with
  | none => rfl
  | some x =>
    obtain ⟨x, r⟩ := x
    show (Except.ok _ : G _) = Except.ok _
    simp only
    rw [hmul, hmod x r hx]

/-- The code's rejection loop is `untilR`. -/
theorem rejectLoop_eq (o : E.Ok) {k s : Nat} (hk : 1 ≤ k) (hk1 : E.bits = E.W → k = 1) (hsW : s < 2 ^ E.W) :
    ∀ (f : Nat) (X : Nat) (l : List Nat), l.length < f → (∀ e ∈ l, E.V e) →
    rejectLoop E s k (2 ^ min E.W (E.bits * k) - 1) (2 ^ min E.W (E.bits * k) % s) f (X % 2 ^ min E.W (E.bits * k) * s) (X % 2 ^ min E.W (E.bits * k) * s % 2 ^ min E.W (E.bits * k)) l =
      toG ((if rej (min E.W (E.bits * k)) s X then untilR (getX E k 0) (rej (min E.W (E.bits * k)) s) f l else some (X, l)).map fun x => (x.1 % 2 ^ min E.W (E.bits * k) * s, x.2))
  | 0, _, _, h, _ => by omega
  | f + 1, X, l, h, hV => by
    unfold rejectLoop rej
    simp only [decide_eq_true_eq]
    split
    · rw [getProduct_eq o hk hk1 hsW l hV]
      unfold untilR
      cases hx : getX E k 0 l with
      | none => rfl
      | some x =>
        obtain ⟨x, r⟩ := x
        have hr := getX_len k 0 l x r hx
        obtain ⟨p, e1, _⟩ := getX_reads k 0 l x r hx
        simp only [Option.map_some, toG, G.ok_bind]
        have hm : x % 2 ^ min E.W (E.bits * k) * s % 2 ^ E.W &&& (2 ^ min E.W (E.bits * k) - 1) = x % 2 ^ min E.W (E.bits * k) * s % 2 ^ min E.W (E.bits * k) := by
          rw [Nat.and_two_pow_sub_one_eq_mod, Nat.mod_mod_of_dvd _ (Nat.pow_dvd_pow _ (by omega))]
        rw [hm, rejectLoop_eq o hk hk1 hsW f x r (by omega) (fun e he => hV e (by rw [e1]; simp [he]))]
        rfl
    · rfl

theorem gen_eq (o : E.Ok) {s : Nat} (hs : 1 ≤ s) (hsW : s < 2 ^ E.W) : ∃ k, 1 ≤ k ∧ k ≤ E.W ∧ s ≤ 2 ^ min E.W (E.bits * k) ∧ ∀ l, (∀ e ∈ l, E.V e) →
    gen E s l = toG ((untilR (getX E k 0) (rej (min E.W (E.bits * k)) s) (l.length + 1) l).map fun x => (x.1 % 2 ^ min E.W (E.bits * k) * s / 2 ^ min E.W (E.bits * k), x.2)) := by
  have hB := o.bits_le
  have hb := o.bits_pos
  have hW1 := o.W1
  have hm : ∃ k, 1 ≤ k ∧ k ≤ E.W ∧ (E.bits = E.W → k = 1) ∧ (if E.bits < E.W then maskLoop E s (E.W + 1) E.bmask 1 else .ok (E.bmask, 1) : G (Nat × Nat)) = .ok (2 ^ min E.W (E.bits * k) - 1, k) ∧ s ≤ 2 ^ min E.W (E.bits * k) := by
    split
    · obtain ⟨k, h1, h2, h3, h4⟩ := maskLoop_ok o hs hsW (E.W + 1) 1 (le_refl _) hW1 (by omega)
      rw [Nat.mul_one, Nat.min_eq_right hB] at h3
      exact ⟨k, h1, h2, by omega, by rw [o.bmask]; exact h3, h4⟩
    · have : E.bits = E.W := by omega
      refine ⟨1, le_refl _, hW1, fun _ => rfl, by rw [o.bmask, this]; simp, by rw [this]; simp; omega⟩
  obtain ⟨k, hk, hkW, hk1, hme, hsL⟩ := hm
  refine ⟨k, hk, hkW, hsL, fun l hV => ?_⟩
  unfold gen
  rw [hme, G.ok_bind]
  simp only
  rw [getProduct_eq o hk hk1 hsW l hV]
  unfold untilR
  cases hx : getX E k 0 l with
  | none => rfl
  | some x =>
    obtain ⟨x, r⟩ := x
    have hr := getX_len k 0 l x r hx
    obtain ⟨p, e1, _⟩ := getX_reads k 0 l x r hx
    have hVr : ∀ e ∈ r, E.V e := fun e he => hV e (by rw [e1]; simp [he])
    have hLW : min E.W (E.bits * k) ≤ E.W := by omega
    have hg : (if E.bits < E.W then popcount (2 ^ min E.W (E.bits * k) - 1) else E.W) = min E.W (E.bits * k) := by
      split
      · rw [popcount_mask]
      · have h1 : E.bits = E.W := by omega
        rw [hk1 h1, h1]; simp
    generalize hL : min E.W (E.bits * k) = L at *
    simp only [Option.map_some, toG, G.ok_bind]
    rw [hg]
    have hm : x % 2 ^ L * s % 2 ^ E.W &&& (2 ^ L - 1) = x % 2 ^ L * s % 2 ^ L := by
      rw [Nat.and_two_pow_sub_one_eq_mod, Nat.mod_mod_of_dvd _ (Nat.pow_dvd_pow _ hLW)]
    have hp := Nat.two_pow_pos L
    have hth : toU E.W (((2 ^ L - 1 : Nat) : Int) - s + 1) % s = 2 ^ L % s := by
      have hpow : 2 ^ L ≤ 2 ^ E.W := Nat.pow_le_pow_right (by omega) hLW
      rw [show (((2 ^ L - 1 : Nat) : Int) - s + 1) = ((2 ^ L - s : Nat) : Int) by
        rw [Nat.cast_sub hsL, Nat.cast_sub hp]; push_cast; ring]
      have : toU E.W ((2 ^ L - s : Nat) : Int) = 2 ^ L - s := by
        unfold toU
        rw [Int.emod_eq_of_lt (by omega) (by exact_mod_cast (by omega : 2 ^ L - s < 2 ^ E.W))]; simp
      rw [this]
      conv_rhs => rw [show 2 ^ L = (2 ^ L - s) + s by omega, Nat.add_mod_right]
    rw [hm, hth]
    have hrl := rejectLoop_eq o hk hk1 hsW (r.length + 1) x r (by omega) hVr
    rw [hL] at hrl
    have hts : 2 ^ L % s < s := Nat.mod_lt _ hs
    split
    · rw [if_neg (by omega), hrl]
      unfold rej
      have hst : untilR (getX E k 0) (rej L s) (r.length + 1) r = untilR (getX E k 0) (rej L s) l.length r := untilR_fuel (getX_strict k hk) _ _ r (by omega) (by omega)
      unfold rej at hst
      simp only [decide_eq_true_eq]
      split
      · rw [hst]
        cases untilR (getX E k 0) (fun X => decide (X % 2 ^ L * s % 2 ^ L < 2 ^ L % s)) l.length r with
        | none => rfl
        | some y => simp [toG, Nat.shiftRight_eq_div_pow, G.ok_bind]
      · simp [toG, Nat.shiftRight_eq_div_pow, G.ok_bind]
    · rename_i hge
      unfold rej
      simp only [decide_eq_true_eq]
      rw [if_neg (by omega)]
      simp [Nat.shiftRight_eq_div_pow, G.ok_bind]

/-! ## Equidistribution -/

/-- First accepted draw for the value `c`. -/
def firstOf (N s c : Nat) : Nat := (c * N + N % s + (s - 1)) / s

theorem le_ceil {a s x : Nat} (hs : 1 ≤ s) : (a + (s - 1)) / s ≤ x ↔ a ≤ x * s := by
  rw [Nat.div_le_iff_le_mul_add_pred hs]
  rw [Nat.mul_comm s x]; omega

theorem accepted_iff {N s c x : Nat} (hs : 1 ≤ s) (hN : 1 ≤ N) :
    (x * s / N = c ∧ ¬ x * s % N < N % s) ↔ firstOf N s c ≤ x ∧ x < firstOf N s c + N / s := by
  have h1 : (x * s / N = c ∧ ¬ x * s % N < N % s) ↔ c * N + N % s ≤ x * s ∧ x * s < (c + 1) * N := by
    have hd := Nat.div_add_mod (x * s) N
    have hm := Nat.mod_lt (x * s) hN
    have ht := Nat.mod_le N s
    constructor
    · rintro ⟨rfl, h⟩
      rw [Nat.add_mul, Nat.mul_comm (x * s / N)]; omega
    · rintro ⟨h1, h2⟩
      have e : x * s / N = c := Nat.div_eq_of_lt_le (by omega) h2
      refine ⟨e, ?_⟩
      rw [e, Nat.mul_comm] at hd; omega
  rw [h1]
  have hN' := Nat.div_add_mod N s
  have e1 : firstOf N s c ≤ x ↔ c * N + N % s ≤ x * s := le_ceil hs
  rw [e1]
  have hc1 : (c + 1) * N = c * N + N := by ring
  have hq : N / s * s = s * (N / s) := Nat.mul_comm _ _
  by_cases hx : N / s ≤ x
  · have e2 : firstOf N s c ≤ x - N / s ↔ c * N + N % s ≤ (x - N / s) * s := le_ceil hs
    rw [Nat.sub_mul] at e2
    have hmul : N / s * s ≤ x * s := Nat.mul_le_mul_right _ hx
    omega
  · have : x * s + s ≤ N / s * s := by
      have := Nat.mul_le_mul_right s (by omega : x + 1 ≤ N / s)
      rw [Nat.add_mul] at this; omega
    constructor
    · rintro ⟨a, b⟩; exact ⟨a, by omega⟩
    · rintro ⟨a, b⟩; exact ⟨a, by omega⟩

theorem firstOf_lt {N s c : Nat} (hs : 1 ≤ s) (hN : s ≤ N) (hc : c < s) (x : Nat) (h : x < firstOf N s c + N / s) : x < N := by
  have h1 : ∀ y, firstOf N s c ≤ y ∧ y < firstOf N s c + N / s → y < N := by
    intro y hy
    have := ((accepted_iff hs (by omega)).2 hy).1
    by_contra hn
    have h2 : N * s ≤ y * s := Nat.mul_le_mul_right _ (by omega)
    have h3 : s ≤ y * s / N := (Nat.le_div_iff_mul_le (by omega)).2 (by rw [Nat.mul_comm]; exact h2)
    omega
  have hq : 1 ≤ N / s := (Nat.le_div_iff_mul_le hs).2 (by omega)
  have := h1 (firstOf N s c + N / s - 1) (by omega)
  omega

/-- The reader behind `gen`. -/
def genR (E : Eng) (k s : Nat) : Rdr Nat := fun l =>
  (untilR (getX E k 0) (rej (min E.W (E.bits * k)) s) (l.length + 1) l).map fun x => (x.1 % 2 ^ min E.W (E.bits * k) * s / 2 ^ min E.W (E.bits * k), x.2)

theorem rej_false {L s X : Nat} : rej L s X = false ↔ ¬ X % 2 ^ L * s % 2 ^ L < 2 ^ L % s := by unfold rej; simp

theorem genR_unif (o : E.Ok) {k s : Nat} (hk : 1 ≤ k) (hs : 1 ≤ s) (hsL : s ≤ 2 ^ min E.W (E.bits * k)) : Unif E.V (genR E k s) (fun c => c < s) := by
  have hu := until_unif (rej := rej (min E.W (E.bits * k)) s) (getX_unif o k) (getX_reads k 0) (getX_strict k hk)
  have hLk : min E.W (E.bits * k) ≤ E.bits * k := by omega
  generalize hL : min E.W (E.bits * k) = L at *
  have hp := Nat.two_pow_pos L
  have hpow : 2 ^ (E.bits * k) = 2 ^ L * 2 ^ (E.bits * k - L) := by rw [← Nat.pow_add]; congr 1; omega
  have := hu.map (γ := Nat) (fun X => X % 2 ^ L * s / 2 ^ L) (fun c => c < s) ?_
    (fun c c' X => X / 2 ^ L * 2 ^ L + (X % 2 ^ L - firstOf (2 ^ L) s c + firstOf (2 ^ L) s c')) ?_
  · unfold genR; rw [hL]; exact this
  · intro l b r hV h
    obtain ⟨p, e1, _, e3⟩ := untilR_reads (getX_reads k 0) _ _ _ _ h
    refine ⟨?_, e3⟩
    have : ∀ n l, untilR (getX E k 0) (rej L s) n l = some (b, r) → b < 2 ^ (E.bits * k) := by
      intro n
      induction n with
      | zero => intro l h; cases h
      | succ n ih =>
        intro l h
        unfold untilR at h
        cases hx : getX E k 0 l with
        | none => rw [hx] at h; cases h
        | some x =>
          obtain ⟨x, r0⟩ := x
          rw [hx] at h; simp only at h
          split at h
          · exact ih _ h
          · injection h with h; injection h with h1 h2; subst h1 h2
            simpa using getX_bound o k 0 l x r0 hx
    exact this _ _ h
  · intro c c' hc hc' X ⟨hX, hr⟩ hXc
    have hac := (accepted_iff hs hp).1 ⟨hXc, rej_false.1 hr⟩
    have hnew : firstOf (2 ^ L) s c' ≤ X % 2 ^ L - firstOf (2 ^ L) s c + firstOf (2 ^ L) s c' ∧ X % 2 ^ L - firstOf (2 ^ L) s c + firstOf (2 ^ L) s c' < firstOf (2 ^ L) s c' + 2 ^ L / s := by omega
    have hlt := firstOf_lt hs hsL hc' _ hnew.2
    have hacc := (accepted_iff hs hp).2 hnew
    generalize hY : X % 2 ^ L - firstOf (2 ^ L) s c + firstOf (2 ^ L) s c' = Y at *
    have hmod : (X / 2 ^ L * 2 ^ L + Y) % 2 ^ L = Y := by rw [Nat.mul_comm, Nat.mul_add_mod, Nat.mod_eq_of_lt hlt]
    have hdiv : (X / 2 ^ L * 2 ^ L + Y) / 2 ^ L = X / 2 ^ L := by
      rw [Nat.mul_comm, Nat.mul_add_div hp, Nat.div_eq_of_lt hlt]; omega
    refine ⟨⟨?_, ?_⟩, ?_, ?_⟩
    · have : X / 2 ^ L < 2 ^ (E.bits * k - L) := Nat.div_lt_of_lt_mul (by rw [← hpow]; exact hX)
      rw [hpow]
      calc _ < X / 2 ^ L * 2 ^ L + 2 ^ L := by omega
        _ = (X / 2 ^ L + 1) * 2 ^ L := by ring
        _ ≤ 2 ^ (E.bits * k - L) * 2 ^ L := Nat.mul_le_mul_right _ this
        _ = _ := Nat.mul_comm _ _
    · rw [rej_false, hmod]; exact hacc.2
    · rw [hmod]; exact hacc.1
    · rw [hmod, hdiv]
      have := Nat.div_add_mod X (2 ^ L)
      rw [Nat.mul_comm] at this
      omega

theorem genR_reads (k s : Nat) (hk : 1 ≤ k) : Reads (genR E k s) := by
  intro l b r h
  unfold genR at h
  cases hx : untilR (getX E k 0) (rej (min E.W (E.bits * k)) s) (l.length + 1) l with
  | none => rw [hx] at h; cases h
  | some x =>
    obtain ⟨X, r0⟩ := x
    rw [hx] at h
    simp only [Option.map_some, Option.some.injEq, Prod.mk.injEq] at h
    obtain ⟨h1, rfl⟩ := h
    obtain ⟨p, e1, e2, _⟩ := untilR_reads (getX_reads k 0) _ _ _ _ hx
    refine ⟨p, e1, fun r' => ?_⟩
    have e3 : untilR (getX E k 0) (rej (min E.W (E.bits * k)) s) ((p ++ r').length + 1) (p ++ r') = some (X, r') := by
      have e4 := e2 []
      have hst := getX_strict (E := E) k hk
      -- enough fuel for `p` alone is enough
      have : ∀ n m p, untilR (getX E k 0) (rej (min E.W (E.bits * k)) s) n (p ++ r') = some (X, r') → (p ++ r').length < m → untilR (getX E k 0) (rej (min E.W (E.bits * k)) s) m (p ++ r') = some (X, r') := by
        intro n
        induction n with
        | zero => intro m p h; cases h
        | succ n ih =>
          intro m p h hm
          cases m with
          | zero => omega
          | succ m =>
            unfold untilR at h ⊢
            cases hg : getX E k 0 (p ++ r') with
            | none => rw [hg] at h; cases h
            | some y =>
              obtain ⟨y, r1⟩ := y
              rw [hg] at h
              simp only at h ⊢
              have hlt := hst _ _ _ hg
              split
              · rename_i hrj
                rw [if_pos hrj] at h
                obtain ⟨p1, g1, _, _⟩ := untilR_reads (getX_reads k 0) _ _ _ _ h
                subst g1
                exact ih m p1 h (by omega)
              · rename_i hrj
                rw [if_neg hrj] at h; exact h
      exact this _ _ p (e2 r') (by omega)
    unfold genR
    rw [e3]; simp [h1]

theorem genR_bound (o : E.Ok) {k s : Nat} (hs : 1 ≤ s) {l : List Nat} {c : Nat} {r : List Nat} (h : genR E k s l = some (c, r)) : c < s := by
  unfold genR at h
  cases hx : untilR (getX E k 0) (rej (min E.W (E.bits * k)) s) (l.length + 1) l with
  | none => rw [hx] at h; cases h
  | some x =>
    rw [hx] at h
    simp only [Option.map_some, Option.some.injEq, Prod.mk.injEq] at h
    rw [← h.1]
    have hp := Nat.two_pow_pos (min E.W (E.bits * k))
    refine (Nat.div_lt_iff_lt_mul hp).2 ?_
    rw [Nat.mul_comm s]
    exact Nat.mul_lt_mul_of_pos_right (Nat.mod_lt _ hp) hs

/-! ## The generator can always finish -/

theorem getX_lo (o : E.Ok) : ∀ k acc, getX E k acc (List.replicate k E.lo) = some (acc * 2 ^ (E.bits * k), [])
  | 0, acc => by simp [getX]
  | k + 1, acc => by
    rw [List.replicate_succ, getX.eq_3, if_pos (by simp), getX_lo o k]
    congr 2; rw [Nat.mul_succ, Nat.pow_add]; simp; ring

theorem getX_reach (o : E.Ok) {k Y : Nat} (hY : Y < 2 ^ (E.bits * k)) : ∃ p, p.length = k ∧ (∀ e ∈ p, E.V e) ∧ getX E k 0 p = some (Y, []) := by
  refine ⟨setX E k Y (List.replicate k E.lo), by rw [setX_len]; simp, setX_V o k Y _ ?_, ?_⟩
  · intro e he; rw [(List.mem_replicate.1 he).2]; exact ⟨le_refl _, o.lh.le⟩
  · rw [getX_set o k 0 _ _ _ (getX_lo o k 0), Nat.mod_eq_of_lt hY]; simp

theorem getX_finish (o : E.Ok) : ∀ (l : List Nat) (k acc : Nat), getX E k acc l = none → ∃ q b, q.length ≤ k ∧ (∀ e ∈ q, E.V e) ∧ getX E k acc (l ++ q) = some (b, [])
  | [], k, acc, _ => ⟨List.replicate k E.lo, _, by simp, fun e he => by rw [(List.mem_replicate.1 he).2]; exact ⟨le_refl _, o.lh.le⟩, getX_lo o k acc⟩
  | e :: l, 0, acc, h => by simp [getX] at h
  | e :: l, k + 1, acc, h => by
    rw [getX.eq_3] at h
    split at h
    · rename_i hc
      obtain ⟨q, b, h1, h2, h3⟩ := getX_finish o l k _ h
      exact ⟨q, b, by omega, h2, by rw [List.cons_append, getX.eq_3, if_pos hc]; exact h3⟩
    · rename_i hc
      obtain ⟨q, b, h1, h2, h3⟩ := getX_finish o l (k + 1) _ h
      exact ⟨q, b, h1, h2, by rw [List.cons_append, getX.eq_3, if_neg hc]; exact h3⟩

theorem accepted_exists {L s c : Nat} (hs : 1 ≤ s) (hsL : s ≤ 2 ^ L) (hc : c < s) : ∃ Y, Y < 2 ^ L ∧ rej L s Y = false ∧ Y % 2 ^ L * s / 2 ^ L = c := by
  have hp := Nat.two_pow_pos L
  have hq : 1 ≤ 2 ^ L / s := (Nat.le_div_iff_mul_le hs).2 (by omega)
  have h1 : firstOf (2 ^ L) s c ≤ firstOf (2 ^ L) s c ∧ firstOf (2 ^ L) s c < firstOf (2 ^ L) s c + 2 ^ L / s := by omega
  have hlt := firstOf_lt hs hsL hc _ h1.2
  have h2 := (accepted_iff hs hp).2 h1
  exact ⟨firstOf (2 ^ L) s c, hlt, by rw [rej_false, Nat.mod_eq_of_lt hlt]; exact h2.2, by rw [Nat.mod_eq_of_lt hlt]; exact h2.1⟩

theorem untilR_app {k : Nat} (hk : 1 ≤ k) (rj : Nat → Bool) : ∀ (n : Nat) (l r : List Nat) (b : Nat), getX E k 0 l = some (b, r) → rj b = true → l.length < n → untilR (getX E k 0) rj n l = untilR (getX E k 0) rj (r.length + 1) r
  | 0, _, _, _, _, _, h => by omega
  | n + 1, l, r, b, h, hj, hn => by
    conv_lhs => unfold untilR
    rw [h]; simp only [hj, if_true]
    have := getX_len k 0 l b r h
    exact untilR_fuel (getX_strict k hk) _ _ _ (by omega) (by omega)

/-- From any waiting point there is a short continuation that finishes the call. -/
theorem genR_finish (o : E.Ok) {k s : Nat} (hk : 1 ≤ k) (hs : 1 ≤ s) (hsL : s ≤ 2 ^ min E.W (E.bits * k)) :
    ∀ (n : Nat) (l : List Nat), l.length ≤ n → genR E k s l = none → ∃ q c, q.length ≤ 2 * k ∧ (∀ e ∈ q, E.V e) ∧ genR E k s (l ++ q) = some (c, [])
  | n, l, hn, h => by
    have hstart : ∃ p c, p.length = k ∧ (∀ e ∈ p, E.V e) ∧ genR E k s p = some (c, []) := by
      obtain ⟨Y, h1, h2, h3⟩ := accepted_exists (c := 0) hs hsL (by omega)
      obtain ⟨p, g1, g2, g3⟩ := getX_reach o (k := k) (Y := Y) (lt_of_lt_of_le h1 (Nat.pow_le_pow_right (by omega) (by omega)))
      refine ⟨p, 0, g1, g2, ?_⟩
      unfold genR untilR; rw [g3]; simp only [h2]; simp [h3]
    have hun : ∀ l b r, getX E k 0 l = some (b, r) → rej (min E.W (E.bits * k)) s b = true → genR E k s l = genR E k s r := by
      intro l b r h1 h2
      unfold genR; rw [untilR_app hk _ _ l r b h1 h2 (by omega)]
    cases hx : getX E k 0 l with
    | none =>
      obtain ⟨q, b, h1, h2, h3⟩ := getX_finish o l k 0 hx
      cases hr : rej (min E.W (E.bits * k)) s b with
      | false =>
        refine ⟨q, b % 2 ^ min E.W (E.bits * k) * s / 2 ^ min E.W (E.bits * k), by omega, h2, ?_⟩
        unfold genR untilR; rw [h3]; simp only [hr]; rfl
      | true =>
        obtain ⟨p, c, g1, g2, g3⟩ := hstart
        refine ⟨q ++ p, c, by simp; omega, ?_, ?_⟩
        · intro e he; rcases List.mem_append.1 he with h | h
          · exact h2 e h
          · exact g2 e h
        · obtain ⟨p0, f1, f2⟩ := getX_reads k 0 _ _ _ h3
          rw [List.append_nil] at f1
          have := f2 p
          rw [← f1, List.append_assoc] at this
          rw [hun _ _ _ this hr]; exact g3
    | some x =>
      obtain ⟨b, r⟩ := x
      have hlen := getX_len k 0 l b r hx
      cases hr : rej (min E.W (E.bits * k)) s b with
      | false =>
        exfalso
        unfold genR untilR at h; rw [hx] at h; simp [hr] at h
      | true =>
        rw [hun _ _ _ hx hr] at h
        obtain ⟨p, f1, f2⟩ := getX_reads k 0 _ _ _ hx
        have hn' : r.length ≤ n - 1 := by omega
        obtain ⟨q, c, h1, h2, h3⟩ := genR_finish o hk hs hsL (n - 1) r hn' h
        refine ⟨q, c, h1, h2, ?_⟩
        rw [hun (l ++ q) b (r ++ q) (by rw [f1, List.append_assoc]; exact f2 _) hr]
        exact h3
  termination_by n => n
  decreasing_by omega

end STL.Rnd
