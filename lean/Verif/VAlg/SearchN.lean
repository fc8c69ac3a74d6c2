import Verif.VAlg.Find

/-! # search_n. Proofs only. -/

namespace STL.VAlg

/-- `L` elements from `i` on. -/
def runB (F : Nat → Bool) (L i : Nat) : Bool := decide (∀ t < L, F (i + t) = true)

theorem runB_iff {F : Nat → Bool} {L i : Nat} : runB F L i = true ↔ ∀ t < L, F (i + t) = true := by simp [runB]

theorem run_step {s m L d sh : Nat} {F : Nat → Bool} (hs : 1 ≤ s) (h : Msk s m (runB F L)) (hd : d ≤ L) (hsh : sh = s * d) : Msk s ((m >>> sh) &&& m) (runB F (L + d)) := by
  subst hsh
  refine ((h.shr hs d).and h).congr fun i => ?_
  rw [Bool.eq_iff_iff, Bool.and_eq_true, runB_iff, runB_iff, runB_iff]
  constructor
  · rintro ⟨h1, h2⟩ t ht
    by_cases htL : t < L
    · exact h2 t htL
    · have := h1 (t - d) (by omega)
      rwa [show i + d + (t - d) = i + t by omega] at this
  · intro h1
    refine ⟨fun t ht => ?_, fun t ht => h1 t (by omega)⟩
    have := h1 (d + t) (by omega)
    rwa [← Nat.add_assoc] at this

theorem run_one {s m : Nat} {F : Nat → Bool} (h : Msk s m F) : Msk s m (runB F 1) := h.congr fun i => by
  rw [Bool.eq_iff_iff, runB_iff]
  constructor
  · intro h t ht
    have : t = 0 := by omega
    subst this; exact h
  · intro h; exact h 0 (by omega)

theorem Msk.cast {s m L L' : Nat} {F : Nat → Bool} (h : Msk s m (runB F L)) (e : L = L') : Msk s m (runB F L') := e ▸ h

theorem runMask_msk {s count m : Nat} {F : Nat → Bool} (hs : Sz s) (h2 : 2 ≤ count) (hc : count ≤ 16 / s) (h : Msk s m F) : Msk s (runMask s count m) (runB F count) := by
  have h1 := hs.pos
  have g := run_step (d := 1) (sh := s) h1 (run_one h) (le_refl 1) (by omega)
  unfold runMask
  rcases hs with rfl | rfl | rfl | rfl
  · simp only [ne_eq, not_true_eq_false, if_false, Nat.mul_one, if_true, (by decide : ¬ 4 ≤ 1), (by decide : ¬ 1 = 8), (by decide : 1 < 4), (by decide : 1 < 8)]
    norm_num at hc
    have g2 := run_step (d := if count < 4 then count - 2 else 2) (sh := if count < 4 then count - 2 else 2) h1 g (by split <;> omega) (by omega)
    have g3 := run_step (d := if count < 4 then 0 else if count < 8 then count - 4 else 4) (sh := if count < 4 then 0 else if count < 8 then count - 4 else 4) h1 g2 (by split_ifs <;> omega) (by omega)
    have g4 := run_step (d := if count < 8 then 0 else count - 8) (sh := if count < 8 then 0 else count - 8) h1 g3 (by split_ifs <;> omega) (by omega)
    exact g4.cast (by split_ifs <;> omega)
  · simp only [ne_eq, if_true, if_false, (by decide : ¬ 2 = 1), (by decide : ¬ 4 ≤ 2), (by decide : ¬ 2 = 8), (by decide : 2 < 4), (by decide : 2 < 8)]
    norm_num at hc
    have g3 := run_step (d := if count < 2 then 0 else if count < 4 then count - 2 else 2) (sh := if count * 2 < 4 then 0 else if count * 2 < 8 then count * 2 - 4 else 4) h1 g (by split_ifs <;> omega) (by split_ifs <;> omega)
    have g4 := run_step (d := if count < 4 then 0 else count - 4) (sh := if count * 2 < 8 then 0 else count * 2 - 8) h1 g3 (by split_ifs <;> omega) (by split_ifs <;> omega)
    exact g4.cast (by split_ifs <;> omega)
  · simp only [ne_eq, if_true, if_false, (by decide : ¬ 4 = 1), (by decide : 4 ≤ 4), (by decide : ¬ 4 = 8), (by decide : ¬ 4 < 4), (by decide : 4 < 8)]
    norm_num at hc
    have g4 := run_step (d := count - 2) (sh := if count * 4 < 8 then 0 else count * 4 - 8) h1 g (by omega) (by split_ifs <;> omega)
    exact g4.cast (by omega)
  · norm_num at hc
    simp only [if_false, (by decide : ¬ 8 = 1), (by decide : ¬ 8 < 4), (by decide : ¬ 8 < 8)]
    exact g.cast (by omega)

theorem runMaskSse_msk {s count m : Nat} {F : Nat → Bool} (hs : Sz s) (h8 : s < 8) (h2 : 2 ≤ count) (hc : count ≤ 8 / s) (h : Msk s m F) : Msk s (runMaskSse s count m) (runB F count) := by
  have h1 := hs.pos
  have g := run_step (d := 1) (sh := s) h1 (run_one h) (le_refl 1) (by omega)
  unfold runMaskSse
  rcases hs with rfl | rfl | rfl | rfl
  · simp only [ne_eq, not_true_eq_false, if_false, Nat.mul_one, if_true, (by decide : ¬ 4 ≤ 1), (by decide : 1 < 4)]
    norm_num at hc
    have g2 := run_step (d := if count < 4 then count - 2 else 2) (sh := if count < 4 then count - 2 else 2) h1 g (by split <;> omega) (by omega)
    have g3 := run_step (d := if count < 4 then 0 else if count < 8 then count - 4 else 4) (sh := if count < 4 then 0 else if count < 8 then count - 4 else 4) h1 g2 (by split_ifs <;> omega) (by omega)
    exact g3.cast (by split_ifs <;> omega)
  · simp only [ne_eq, if_true, if_false, (by decide : ¬ 2 = 1), (by decide : ¬ 4 ≤ 2), (by decide : 2 < 4)]
    norm_num at hc
    have g3 := run_step (d := if count < 2 then 0 else if count < 4 then count - 2 else 2) (sh := if count * 2 < 4 then 0 else if count * 2 < 8 then count * 2 - 4 else 4) h1 g (by split_ifs <;> omega) (by split_ifs <;> omega)
    exact g3.cast (by split_ifs <;> omega)
  · norm_num at hc
    simp only [if_false, (by decide : ¬ 4 = 1), (by decide : ¬ 4 < 4)]
    exact g.cast (by omega)
  · omega

/-- Index `i` holds the value. -/
abbrev Ev (a : List Nat) (val i : Nat) : Bool := Qf false a val i

/-- A run begins at `j`. -/
def Run (a : List Nat) (val count j : Nat) : Prop := ∀ t < count, Ev a val (j + t) = true

theorem Ev_lt {a : List Nat} {val i : Nat} (h : Ev a val i = true) : i < a.length := by
  by_contra hc
  simp [Ev, Qf, List.getElem?_eq_none (by omega : a.length ≤ i)] at h

theorem Run.le {a : List Nat} {val count j : Nat} (h1 : 1 ≤ count) (h : Run a val count j) : j + count ≤ a.length := by
  have := Ev_lt (h (count - 1) (by omega)); omega

/-- The answer. -/
def SnAns (a : List Nat) (val count j : Nat) : Prop := (Run a val count j ∧ ∀ i < j, ¬ Run a val count i) ∨ (j = a.length ∧ ∀ i, ¬ Run a val count i)

/-- The window: `w` elements from `k - c` on. -/
def winF (a : List Nat) (val c k w i : Nat) : Bool := decide (i < w) && decide (c ≤ k + i) && Ev a val (k + i - c)

theorem win_run {a : List Nat} {val c k w count i : Nat} (h1 : 1 ≤ count) : runB (winF a val c k w) count i = true ↔ i + count ≤ w ∧ c ≤ k + i ∧ Run a val count (k + i - c) := by
  rw [runB_iff]
  simp only [winF, Bool.and_eq_true, decide_eq_true_eq]
  constructor
  · intro h
    have h0 := h 0 (by omega)
    have hl := h (count - 1) (by omega)
    refine ⟨by omega, by omega, fun t ht => ?_⟩
    have := (h t ht).2
    rwa [show k + (i + t) - c = k + i - c + t by omega] at this
  · rintro ⟨g1, g2, g3⟩ t ht
    refine ⟨⟨by omega, by omega⟩, ?_⟩
    rw [show k + (i + t) - c = k + i - c + t by omega]
    exact g3 t ht

theorem win_step {s a val c k w count m} (hs : 1 ≤ s) (h1 : 1 ≤ count) (hcc : count ≤ c) (hw : s * w ≤ 64) (hcw : c ≤ w) (hm : Msk s m (runB (winF a val c k w) count))
    (hno : ∀ j, j + count ≤ k → ¬ Run a val count j) :
    (m ≠ 0 → ∃ j, ¬ (s * k + tz m < s * c) ∧ s * k + tz m - s * c = s * j ∧ SnAns a val count j) ∧ (m = 0 → ∀ j, j + count ≤ k + w - c → ¬ Run a val count j) := by
  constructor
  · intro h0
    have hlt : m < 2 ^ 64 := lt_of_lt_of_le (hm.lt hs (c := w) (fun i hi => by
      rw [← Bool.not_eq_true, win_run h1]; omega)) (Nat.pow_le_pow_right (by omega) hw)
    obtain ⟨i, g1, g2, g3⟩ := hm.tz hs h0 hlt
    rw [win_run h1] at g2
    obtain ⟨g2a, g2b, g2c⟩ := g2
    have e : s * k + s * i - s * c = s * (k + i - c) := by rw [← Nat.mul_add, ← Nat.mul_sub]
    refine ⟨k + i - c, ?_, by rw [g1, e], Or.inl ⟨g2c, ?_⟩⟩
    · rw [g1, ← Nat.mul_add]; exact Nat.not_lt.2 (Nat.mul_le_mul_left _ g2b)
    · intro j hj hr
      by_cases hjk : j + count ≤ k
      · exact hno j hjk hr
      · have := g3 (j + c - k) (by omega)
        rw [← Bool.not_eq_true, win_run h1] at this
        apply this
        refine ⟨by omega, by omega, ?_⟩
        rwa [show k + (j + c - k) - c = j by omega]
  · intro h0 j hj hr
    by_cases hjk : j + count ≤ k
    · exact hno j hjk hr
    · have := (hm.zero hs).1 h0 (j + c - k)
      rw [← Bool.not_eq_true, win_run h1] at this
      apply this
      refine ⟨by omega, by omega, ?_⟩
      rwa [show k + (j + c - k) - c = j by omega]

theorem win_mask {s a val c k t carry mask} (hs : 1 ≤ s) (htc : t ≤ c) (h1 : Msk s carry (fun i => decide (i < c) && decide (c ≤ k + i) && Ev a val (k + i - c))) (h2 : Msk s mask (fun i => decide (i < t) && Ev a val (k + i))) :
    Msk s (carry ||| (mask <<< (s * c))) (winF a val c k (c + t)) := by
  refine (h1.or (h2.shl hs c)).congr fun i => ?_
  unfold winF
  by_cases hi : i < c
  · simp [hi, show i < c + t by omega, show ¬ c ≤ i by omega]
  · have : k + (i - c) = k + i - c := by omega
    by_cases hit : i < c + t
    · simp [hi, hit, show c ≤ i by omega, show i - c < t by omega, show c ≤ k + i by omega, this]
    · simp [hi, hit, show ¬ i - c < t by omega]

theorem map_beq (val : Nat) (l : List Nat) : l.map (val == ·) = l.map (· == val) := by
  apply List.map_congr_left; intro x _; exact Bool.beq_comm

theorem snVecLoop_spec {s c count : Nat} {rm : Nat → Nat} (hs : 1 ≤ s) (h1 : 1 ≤ count) (hcc : count ≤ c) (h64 : s * (c + c) ≤ 64) {a : List Nat} (val : Nat)
    (hrm : ∀ m F, Msk s m F → Msk s (rm m) (runB F count)) {k' : Nat} (hk' : k' ≤ a.length) :
    ∀ (f n k carry : Nat), n < f → k' = k + (n + 1) * c → Msk s carry (fun i => decide (i < c) && decide (c ≤ k + i) && Ev a val (k + i - c)) → (∀ j, j + count ≤ k → ¬ Run a val count j) →
      (∃ j, snVecLoop s (s * c) rm a val (s * k') f (s * k) carry = some (.inl (s * j)) ∧ SnAns a val count j) ∨
      (∃ carry', snVecLoop s (s * c) rm a val (s * k') f (s * k) carry = some (.inr (s * k', carry')) ∧ Msk s carry' (fun i => decide (i < c) && decide (c ≤ k' + i) && Ev a val (k' + i - c)) ∧ ∀ j, j + count ≤ k' → ¬ Run a val count j)
  | 0, n, k, carry, h, _, _, _ => by omega
  | f + 1, n, k, carry, hn, hk, hcar, hno => by
    have hkc : k + c ≤ k' := by rw [hk, Nat.add_mul]; omega
    unfold snVecLoop
    rw [ld_some hs (by omega : k + c ≤ a.length)]
    simp only [Option.bind_eq_bind, Option.bind_some]
    rw [map_beq]
    have hm := find_mask hs false val (by omega : k + c ≤ a.length)
    simp only [Bool.false_eq_true, if_false] at hm
    generalize movemask s _ = mask at *
    have hX := hrm _ _ (win_mask hs (le_refl c) hcar hm)
    obtain ⟨p1, p2⟩ := win_step hs h1 hcc h64 (by omega) hX hno
    generalize rm _ = mX at *
    by_cases hm0 : mX = 0
    · rw [if_neg (by simp [hm0])]
      have p3 := p2 hm0
      rw [show k + (c + c) - c = k + c by omega] at p3
      have hcar' : Msk s mask (fun i => decide (i < c) && decide (c ≤ k + c + i) && Ev a val (k + c + i - c)) := by
        refine hm.congr fun i => ?_
        simp [show c ≤ k + c + i by omega, show k + c + i - c = k + i by omega]
      rw [← Nat.mul_add]
      cases n with
      | zero =>
        have : k' = k + c := by rw [hk]; ring
        subst this
        rw [if_neg (by simp)]
        exact Or.inr ⟨mask, rfl, hcar', p3⟩
      | succ n =>
        have hkk : k' = (k + c) + (n + 1) * c := by rw [hk]; ring
        have hne : s * (k + c) ≠ s * k' := by
          intro h
          have := Nat.eq_of_mul_eq_mul_left hs h
          have : 1 * 1 ≤ (n + 1) * c := Nat.mul_le_mul (by omega) (by omega)
          omega
        rw [if_pos hne]
        exact snVecLoop_spec hs h1 hcc h64 val hrm hk' f n (k + c) mask (by omega) hkk hcar' p3
    · rw [if_pos hm0]
      obtain ⟨j, g1, g2, g3⟩ := p1 hm0
      rw [if_neg g1, g2]
      exact Or.inl ⟨j, rfl, g3⟩

theorem snVecTail_spec {s count : Nat} {rm : Nat → Nat} (hs : Sz s) (h1 : 1 ≤ count) (hcc : count ≤ 32 / s) {a : List Nat} (val : Nat)
    (hrm : ∀ m F, Msk s m F → Msk s (rm m) (runB F count)) {k carry : Nat} (hk : k = a.length / (32 / s) * (32 / s))
    (hcar : Msk s carry (fun i => decide (i < 32 / s) && decide (32 / s ≤ k + i) && Ev a val (k + i - 32 / s))) (hno : ∀ j, j + count ≤ k → ¬ Run a val count j) :
      (∃ j, snVecTail s rm a val (s * k) carry = some (.inl (s * j)) ∧ SnAns a val count j) ∨
      (∃ k' carry', snVecTail s rm a val (s * k) carry = some (.inr (s * k', carry')) ∧ k ≤ k' ∧ k' ≤ a.length ∧ Msk s carry' (fun i => decide (i < 32 / s) && decide (32 / s ≤ k' + i) && Ev a val (k' + i - 32 / s)) ∧ ∀ j, j + count ≤ k' → ¬ Run a val count j) := by
  obtain ⟨t1, t2, _⟩ := tailN_le (n := a.length) hs
  have hp := hs.pos
  unfold snVecTail
  rw [tail_eq hs]
  simp only []
  by_cases h0 : s * tailN s a.length = 0
  · have : tailN s a.length = 0 := by
      rcases Nat.mul_eq_zero.1 h0 with h | h <;> omega
    rw [if_neg (by simp [h0])]
    exact Or.inr ⟨k, carry, rfl, le_refl _, by omega, hcar, hno⟩
  · rw [if_pos h0, mld_some hs (by omega : k + tailN s a.length ≤ a.length) t2]
    simp only [Option.bind_eq_bind, Option.bind_some]
    rw [map_beq]
    have hm := find_tailMask (k := k) hs t2 false val (by omega : k + tailN s a.length ≤ a.length)
    simp only [Bool.false_eq_true, if_false] at hm
    have hc' : tailN s a.length ≤ 32 / s := (Nat.le_div_iff_mul_le hp).2 (by rw [Nat.mul_comm]; exact t2)
    generalize tailN s a.length = t at *
    generalize movemask s _ = mask at *
    have hw := win_mask hp hc' hcar hm
    rw [hs.v32] at hw
    have hX := hrm _ _ hw
    obtain ⟨p1, p2⟩ := win_step hp h1 hcc (by rw [Nat.mul_add, hs.v32]; omega) (by omega) hX hno
    rw [hs.v32] at p1
    generalize carry ||| mask <<< 32 = m at *
    generalize rm m = mX at *
    by_cases hm0 : mX = 0
    · rw [if_neg (by simp [hm0])]
      have p3 := p2 hm0
      rw [show k + (32 / s + t) - 32 / s = k + t by omega] at p3
      refine Or.inr ⟨k + t, _, by rw [Nat.mul_add], by omega, by omega, ?_, p3⟩
      have := (hw.shr hp t).mod hp (32 / s)
      rw [hs.v32] at this
      refine this.congr fun i => ?_
      unfold winF
      by_cases hi : i < 32 / s
      · simp [hi, show i + t < 32 / s + t by omega, show k + (i + t) = k + t + i by omega]
      · simp [hi]
    · rw [if_pos hm0]
      obtain ⟨j, g1, g2, g3⟩ := p1 hm0
      rw [if_neg g1, g2]
      exact Or.inl ⟨j, rfl, g3⟩

/-- The run of matching elements at the end. -/
theorem carry_run {s c count : Nat} (hs : 1 ≤ s) (h1 : 1 ≤ count) (hcc : count ≤ c) {a : List Nat} {val k carry : Nat} (hck : c ≤ k)
    (hcar : Msk s carry (fun i => decide (i < c) && decide (c ≤ k + i) && Ev a val (k + i - c))) (hno : ∀ j, j + count ≤ k → ¬ Run a val count j) :
    ∃ b, carry ^^^ (2 ^ (s * c) - 1) ≠ 0 ∧ s * c - 1 - Nat.log2 (carry ^^^ (2 ^ (s * c) - 1)) = s * b ∧ b < count ∧ b ≤ k ∧ (∀ i, k - b ≤ i → i < k → Ev a val i = true) ∧ ∀ j < k - b, ¬ Run a val count j := by
  have hx := hcar.xor hs c
  generalize carry ^^^ (2 ^ (s * c) - 1) = m at *
  have hm0 : m ≠ 0 := by
    intro h0
    have hF := (hx.zero hs).1 h0
    apply hno (k - c) (by omega)
    intro t ht
    have := hF t
    simpa [show t < c by omega, show c ≤ k + t by omega, show k + t - c = k - c + t by omega] using this
  obtain ⟨j, g1, g2, g3⟩ := hx.log hs hm0
  have hjc : j < c := by
    by_contra hc
    simp [hc] at g2
  have hEj : Ev a val (k + j - c) = false := by
    simpa [hjc, show c ≤ k + j by omega] using g2
  have hE : ∀ i, k + j - c < i → i < k → Ev a val i = true := by
    intro i hi hik
    have := g3 (i + c - k) (by omega)
    simpa [show i + c - k < c by omega, show c ≤ k + (i + c - k) by omega, show k + (i + c - k) - c = i by omega] using this
  have hb : c - 1 - j < count := by
    by_contra hc
    apply hno (k - (c - 1 - j)) (by omega)
    intro t ht
    by_cases hin : k - (c - 1 - j) + t < k
    · exact hE _ (by omega) hin
    · omega
  refine ⟨c - 1 - j, hm0, ?_, hb, by omega, ?_, ?_⟩
  · rw [g1]
    obtain ⟨d, rfl⟩ : ∃ d, c = j + 1 + d := ⟨c - (j + 1), by omega⟩
    rw [show j + 1 + d - 1 - j = d by omega, Nat.mul_add, Nat.mul_add]; omega
  · intro i hi hik
    exact hE i (by omega) hik
  · intro j' hj' hr
    by_cases hjk : j' + count ≤ k
    · exact hno j' hjk hr
    · have := hr (k + j - c - j') (by omega)
      rw [show j' + (k + j - c - j') = k + j - c by omega, hEj] at this
      cases this

theorem snLoop_spec {a : List Nat} {count val : Nat} (h1 : 1 ≤ count) : ∀ (f start mid1 mid2 endp : Nat), (a.length - start) * (a.length + 1) + mid2 < f → endp = start + count → endp ≤ a.length → start ≤ mid1 → mid1 < mid2 → mid2 ≤ endp →
    (∀ i, start ≤ i → i < mid1 → Ev a val i = true) → (∀ i, mid2 ≤ i → i < endp → Ev a val i = true) → (∀ j < start, ¬ Run a val count j) →
    ∃ j, snLoop a count val f start mid1 mid2 endp = some j ∧ SnAns a val count j
  | 0, start, mid1, mid2, endp, hf, _, _, _, _, _, _, _, _ => by omega
  | f + 1, start, mid1, mid2, endp, hf, he, hel, hs1, h12, h2e, hE1, hE2, hno => by
    obtain ⟨q, rfl⟩ : ∃ q, mid2 = q + 1 := ⟨mid2 - 1, by omega⟩
    unfold snLoop
    rw [if_neg (by omega)]
    simp only [Nat.add_sub_cancel]
    have hq : q < a.length := by omega
    have hEq : Ev a val q = (a[q] == val) := by simp [Ev, Qf, hit, hq]
    rw [List.getElem?_eq_getElem hq]
    simp only
    by_cases hx : a[q] = val
    · rw [if_pos hx]
      have hEt : Ev a val q = true := by rw [hEq]; simp [hx]
      by_cases hm : mid1 = q
      · rw [if_pos hm]
        refine ⟨start, rfl, Or.inl ⟨fun t ht => ?_, hno⟩⟩
        by_cases h : start + t < mid1
        · exact hE1 _ (by omega) h
        · by_cases h' : start + t = q
          · rw [h']; exact hEt
          · exact hE2 _ (by omega) (by omega)
      · rw [if_neg hm]
        refine snLoop_spec h1 f start mid1 q endp (by omega) he hel hs1 (by omega) (by omega) hE1 ?_ hno
        intro i hi hie
        rcases Nat.eq_or_lt_of_le hi with rfl | h
        · exact hEt
        · exact hE2 i h hie
    · rw [if_neg hx]
      have hEf : Ev a val q = false := by rw [hEq]; simp [hx]
      have hno' : ∀ j < q + 1, ¬ Run a val count j := by
        intro j hj hr
        by_cases hjs : j < start
        · exact hno j hjs hr
        · have := hr (q - j) (by omega)
          rw [show j + (q - j) = q by omega, hEf] at this
          cases this
      by_cases hl : a.length - (q + 1) < count
      · rw [if_pos hl]
        refine ⟨a.length, rfl, Or.inr ⟨rfl, fun j hr => ?_⟩⟩
        have := hr.le h1
        exact hno' j (by omega) hr
      · rw [if_neg hl]
        refine snLoop_spec h1 f (q + 1) endp (q + 1 + count) (q + 1 + count) ?_ rfl (by omega) (by omega) (by omega) (le_refl _) (fun i hi hie => hE2 i hi hie) (fun i hi hie => by omega) hno'
        obtain ⟨d, hd⟩ : ∃ d, a.length - start = a.length - (q + 1) + 1 + d := ⟨a.length - start - (a.length - (q + 1) + 1), by omega⟩
        have hex : (a.length - start) * (a.length + 1) = (a.length - (q + 1)) * (a.length + 1) + (a.length + 1) + d * (a.length + 1) := by rw [hd]; ring
        omega

theorem snTail_spec {s : Nat} (hs : 1 ≤ s) {a : List Nat} {count val start mid1 : Nat} (h1 : 1 ≤ count) (hsl : start ≤ a.length) (hsm : start ≤ mid1) (hm : mid1 < start + count)
    (hE : ∀ i, start ≤ i → i < mid1 → Ev a val i = true) (hno : ∀ j < start, ¬ Run a val count j) :
    ∃ j, snTail s a (s * start) count (s * mid1) val = some (s * j) ∧ SnAns a val count j := by
  unfold snTail
  rw [Nat.mul_div_cancel_left _ hs, Nat.mul_div_cancel_left _ hs]
  simp only
  by_cases hl : a.length - start < count
  · rw [if_pos hl]
    refine ⟨a.length, rfl, Or.inr ⟨rfl, fun j hr => ?_⟩⟩
    have := hr.le h1
    exact hno j (by omega) hr
  · rw [if_neg hl]
    obtain ⟨j, g1, g2⟩ := snLoop_spec (a := a) (val := val) h1 ((a.length + 1) * (a.length + 1)) start mid1 (start + count) (start + count) (by
      have h3 : (a.length - start) * (a.length + 1) ≤ a.length * (a.length + 1) := Nat.mul_le_mul_right _ (by omega)
      have h4 : (a.length + 1) * (a.length + 1) = a.length * (a.length + 1) + (a.length + 1) := by ring
      omega) rfl (by omega) hsm hm (le_refl _) hE (fun i hi hie => by omega) hno
    rw [g1]
    exact ⟨j, rfl, g2⟩

theorem searchN_spec {s : Nat} (c : Cpu) (hs : Sz s) (a : List Nat) (count val : Nat) : ∃ j, searchN c s a count val = some (s * j) ∧ SnAns a val count j := by
  have hp := hs.pos
  have hle : a.length ≤ s * a.length := Nat.le_mul_of_pos_left _ hp
  unfold searchN
  simp only
  split
  · rename_i h0
    subst h0
    exact ⟨0, by simp, Or.inl ⟨fun t ht => by omega, fun i hi => by omega⟩⟩
  · rename_i h0
    split
    · rename_i h1
      subst h1
      refine ⟨_, find_eq c hs false a val, ?_⟩
      have hh : ∀ x, hit false val x = (x == val) := fun x => by simp [hit]
      by_cases hex : ∃ x ∈ a, hit false val x = true
      · have hlt := List.findIdx_lt_length_of_exists hex
        refine Or.inl ⟨fun t ht => ?_, fun i hi hr => ?_⟩
        · have ht0 : t = 0 := by omega
          subst ht0
          have := List.findIdx_getElem (w := hlt)
          simpa [Ev, Qf, hlt] using this
        · have := List.not_of_lt_findIdx hi
          have hr0 := hr 0 (by omega)
          rw [Nat.add_zero] at hr0
          have hia := Ev_lt hr0
          simp only [Ev, Qf, List.getElem?_eq_getElem hia] at hr0
          rw [hr0] at this; cases this
      · refine Or.inr ⟨?_, fun i hr => ?_⟩
        · rw [List.findIdx_eq_length]
          intro x hx
          by_contra hc
          exact hex ⟨x, hx, by simpa using hc⟩
        · have hr0 := hr 0 (by omega)
          rw [Nat.add_zero] at hr0
          have hia := Ev_lt hr0
          simp only [Ev, Qf, List.getElem?_eq_getElem hia] at hr0
          exact hex ⟨_, List.getElem_mem hia, hr0⟩
    · rename_i h1
      have h2 : 2 ≤ count := by omega
      have hfull : ∀ V cc, 1 ≤ cc → V = s * cc → V ≤ s * a.length → full (s * a.length) V = s * (a.length / cc * cc) ∧ 1 ≤ a.length / cc ∧ a.length / cc < s * a.length + 1 ∧ a.length / cc * cc ≤ a.length ∧ cc ≤ a.length / cc * cc := by
        rintro V cc hcc rfl hV
        have hca : cc ≤ a.length := Nat.le_of_mul_le_mul_left hV hp
        have hq : 1 ≤ a.length / cc := (Nat.one_le_div_iff hcc).2 hca
        have hd : a.length / cc ≤ a.length := Nat.div_le_self _ _
        exact ⟨full_eq hp rfl, hq, by omega, Nat.div_mul_le_self _ _, Nat.le_mul_of_pos_left _ hq⟩
      split
      · rename_i hc
        obtain ⟨hc1, hc2, _⟩ := hc
        have hcc : count ≤ 32 / s := le_trans hc1 (Nat.div_le_div_right (by omega))
        have hpos : 1 ≤ 32 / s := by omega
        obtain ⟨f1, f2, f3, f4, f5⟩ := hfull 32 (32 / s) hpos hs.v32.symm hc2
        have hrm : ∀ m F, Msk s m F → Msk s (runMask s count m) (runB F count) := fun m F h => runMask_msk hs h2 hc1 h
        have hloop := snVecLoop_spec (c := 32 / s) hp (by omega) hcc (by rw [Nat.mul_add, hs.v32]) val hrm f4 (s * a.length + 1) (a.length / (32 / s) - 1) 0 0 (lt_of_le_of_lt (Nat.sub_le _ _) f3) (by rw [Nat.sub_add_cancel f2, Nat.zero_add])
          (fun i => by
            simp only [Nat.zero_testBit, Nat.zero_add]
            by_cases hi : i / s < 32 / s
            · simp [show ¬ 32 / s ≤ i / s by omega]
            · simp [hi]) (fun j hj => by omega)
        rw [hs.v32, Nat.mul_zero, ← f1] at hloop
        rcases hloop with ⟨j, e, hj⟩ | ⟨carry, e, hcar, hno⟩
        · rw [e]; exact ⟨j, rfl, hj⟩
        · rw [e, f1]
          simp only [Option.bind_eq_bind, Option.bind_some]
          rcases snVecTail_spec hs (by omega) hcc val hrm rfl hcar hno with ⟨j, e, hj⟩ | ⟨k, carry, e, hk1, hk2, hcar, hno⟩
          · rw [e]; exact ⟨j, rfl, hj⟩
          · rw [e]
            simp only [Option.bind_some]
            obtain ⟨b, b0, b1, b2, b3, b4, b5⟩ := carry_run hp (by omega) hcc (by omega) hcar hno
            rw [hs.v32] at b0 b1
            have hlz : lz32 (carry ^^^ (2 ^ 32 - 1)) = s * b := by
              unfold lz32
              rw [if_neg b0]; omega
            have hsb : s * b ≤ s * k := Nat.mul_le_mul_left _ b3
            rw [hlz, if_neg (by omega), ← Nat.mul_sub]
            exact snTail_spec hp (by omega) (by omega) (by omega) (by omega) b4 b5
      · split
        · rename_i hc
          obtain ⟨h8, hc1, hc2, _⟩ := hc
          have hcc : count ≤ 16 / s := le_trans hc1 (Nat.div_le_div_right (by omega))
          have hpos : 1 ≤ 16 / s := by omega
          obtain ⟨f1, f2, f3, f4, f5⟩ := hfull 16 (16 / s) hpos hs.v16.symm hc2
          have hrm : ∀ m F, Msk s m F → Msk s (runMaskSse s count m) (runB F count) := fun m F h => runMaskSse_msk hs h8 h2 hc1 h
          have hloop := snVecLoop_spec (c := 16 / s) hp (by omega) hcc (by rw [Nat.mul_add, hs.v16]; omega) val hrm f4 (s * a.length + 1) (a.length / (16 / s) - 1) 0 0 (lt_of_le_of_lt (Nat.sub_le _ _) f3) (by rw [Nat.sub_add_cancel f2, Nat.zero_add])
            (fun i => by
              simp only [Nat.zero_testBit, Nat.zero_add]
              by_cases hi : i / s < 16 / s
              · simp [show ¬ 16 / s ≤ i / s by omega]
              · simp [hi]) (fun j hj => by omega)
          rw [hs.v16, Nat.mul_zero, ← f1] at hloop
          rcases hloop with ⟨j, e, hj⟩ | ⟨carry, e, hcar, hno⟩
          · rw [e]; exact ⟨j, rfl, hj⟩
          · rw [e, f1]
            simp only [Option.bind_eq_bind, Option.bind_some]
            obtain ⟨b, b0, b1, b2, b3, b4, b5⟩ := carry_run hp (by omega) hcc f5 hcar hno
            rw [hs.v16] at b0 b1
            norm_num only at b0 b1
            have hsb : s * b ≤ s * (a.length / (16 / s) * (16 / s)) := Nat.mul_le_mul_left _ b3
            rw [b1, if_neg b0, if_neg (by omega), ← Nat.mul_sub]
            exact snTail_spec hp (by omega) (by omega) (by omega) (by omega) b4 b5
        · have := snTail_spec (a := a) (val := val) (start := 0) (mid1 := 0) hp (by omega : 1 ≤ count) (by omega) (le_refl _) (by omega) (fun i _ hi => by omega) (fun j hj => by omega)
          rwa [Nat.mul_zero] at this

end STL.VAlg
