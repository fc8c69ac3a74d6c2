import Verif.VAlg.Find

/-! # find_last, adjacent_find. Proofs only. -/

namespace STL.VAlg

/-! ## adjacent_find -/

/-- Index `i` is the first of two equal neighbours. -/
def Qa (a : List Nat) (i : Nat) : Bool := match a[i]?, a[i + 1]? with | some x, some y => x == y | _, _ => false

theorem adj_mask {s k c : Nat} (hs : 1 ≤ s) {a : List Nat} (h : k + c + 1 ≤ a.length) :
    Msk s (movemask s (List.zipWith (· == ·) ((a.drop k).take c) ((a.drop (k + 1)).take c))) (fun i => decide (i < c) && Qa a (k + i)) := by
  refine (movemask_msk hs _).congr fun i => ?_
  rw [List.getD_eq_getElem?_getD, List.getElem?_zipWith, List.getElem?_take, List.getElem?_take]
  by_cases hi : i < c
  · simp [hi, Qa, show k + i < a.length by omega, show k + i + 1 < a.length by omega, show k + 1 + i = k + i + 1 by omega]
  · simp [hi]

theorem adjLoop_loopG (s V : Nat) (a : List Nat) (stop : Nat) : ∀ f p, adjLoop s V a stop f p = loopG (fun p => (ld s a p V).bind fun d => (ld s a (p + s) V).map fun e => movemask s (List.zipWith (· == ·) d e)) V stop f p
  | 0, p => rfl
  | f + 1, p => by
    unfold adjLoop loopG
    cases ld s a p V with
    | none => rfl
    | some d =>
      simp only [Option.bind_eq_bind, Option.bind_some]
      cases ld s a (p + s) V with
      | none => rfl
      | some e =>
        simp only [Option.map_some, Option.bind_some]
        rw [adjLoop_loopG s V a stop f]

theorem adjLoop_spec {s V c n : Nat} (hs : 1 ≤ s) (hc : 1 ≤ c) (hV : V = s * c) (h64 : V ≤ 64) {a : List Nat} (hn : a.length = n + 1) (h : full (s * n) V ≠ 0) :
    (∃ j, adjLoop s V a (full (s * n) V) (s * n + 1) 0 = some (.inl (s * j)) ∧ FirstAt (Qa a) j) ∨
    (adjLoop s V a (full (s * n) V) (s * n + 1) 0 = some (.inr (s * (n / c * c))) ∧ ∀ i < n / c * c, Qa a i = false) := by
  rw [full_eq hs hV] at h ⊢
  have hq : 1 ≤ n / c := by
    rw [Nat.one_le_iff_ne_zero]
    intro this
    rw [this] at h; simp at h
  have hle : n / c ≤ n := Nat.div_le_self _ _
  have hle2 : n ≤ s * n := Nat.le_mul_of_pos_left _ hs
  have hle3 : n / c * c ≤ n := Nat.div_mul_le_self _ _
  rw [adjLoop_loopG]
  subst hV
  have := loopG_spec (s := s) (c := c) (Q := Qa a) (k' := n / c * c) (step := fun p => (ld s a p (s * c)).bind fun d => (ld s a (p + s) (s * c)).map fun e => movemask s (List.zipWith (· == ·) d e)) hs hc h64 (by
    intro k hk
    refine ⟨_, ?_, adj_mask hs (by omega : k + c + 1 ≤ a.length)⟩
    simp only [show s * k + s = s * (k + 1) by ring, ld_some hs (by omega : k + c ≤ a.length), ld_some hs (by omega : k + 1 + c ≤ a.length), Option.bind_some, Option.map_some])
    (s * n + 1) (n / c - 1) 0 (lt_of_le_of_lt (Nat.sub_le _ _) (by omega)) (by rw [Nat.sub_add_cancel hq, Nat.zero_add]) (by intro i hi; omega)
  rw [Nat.mul_zero] at this
  rcases this with ⟨j, h1, h2, h3⟩ | h1
  · exact Or.inl ⟨j, h1, h2⟩
  · exact Or.inr h1

theorem adj_tailMask {s k c : Nat} (hs : Sz s) (hc : s * c ≤ 32) {a : List Nat} (h : k + c + 1 ≤ a.length) :
    Msk s (movemask s (List.zipWith (· && ·) (List.zipWith (· == ·) ((a.drop k).take c ++ List.replicate (32 / s - c) 0) ((a.drop (k + 1)).take c ++ List.replicate (32 / s - c) 0)) (tailMask s (s * c)))) (fun i => decide (i < c) && Qa a (k + i)) := by
  have h1 := hs.pos
  have hc' : c ≤ 32 / s := (Nat.le_div_iff_mul_le h1).2 (by rw [Nat.mul_comm]; exact hc)
  refine (movemask_msk h1 _).congr fun i => ?_
  rw [and_tailMask hs hc (by simp; omega)]
  by_cases hi : i < c
  · rw [List.getD_eq_getElem?_getD, List.getElem?_zipWith, List.getElem?_append_left (by simp; omega), List.getElem?_append_left (by simp; omega), List.getElem?_take, List.getElem?_take]
    simp [hi, Qa, show k + i < a.length by omega, show k + i + 1 < a.length by omega, show k + 1 + i = k + i + 1 by omega]
  · simp [hi]

theorem adjTail_spec {s n : Nat} (hs : Sz s) {a : List Nat} (hn : a.length = n + 1) {k : Nat} (hk : k = n / (32 / s) * (32 / s)) (hQ : ∀ i < k, Qa a i = false) :
    (∃ j, adjTail s a (s * n) (s * k) = some (.inl (s * j)) ∧ FirstAt (Qa a) j) ∨
    (adjTail s a (s * n) (s * k) = some (.inr (s * (k + tailN s n))) ∧ ∀ i < k + tailN s n, Qa a i = false) := by
  obtain ⟨t1, t2, _⟩ := tailN_le (n := n) hs
  have h1 := hs.pos
  unfold adjTail
  rw [tail_eq hs]
  simp only []
  by_cases h0 : s * tailN s n = 0
  · have : tailN s n = 0 := by
      rcases Nat.mul_eq_zero.1 h0 with h | h <;> omega
    rw [if_neg (by simp [h0]), this]
    exact Or.inr ⟨rfl, hQ⟩
  · rw [if_pos h0]
    rw [show s * k + s = s * (k + 1) by ring, mld_some hs (by omega : k + tailN s n ≤ a.length) t2, mld_some hs (by omega : k + 1 + tailN s n ≤ a.length) t2]
    simp only [Option.bind_eq_bind, Option.bind_some]
    have hm := adj_tailMask (k := k) hs t2 (by omega : k + tailN s n + 1 ≤ a.length)
    obtain ⟨p1, p2⟩ := tail_first hs t2 hm hQ
    generalize movemask s _ = m at *
    by_cases hm0 : m = 0
    · rw [if_neg (by simp [hm0])]
      exact Or.inr ⟨by congr 2; ring, p2 hm0⟩
    · rw [if_pos hm0]
      obtain ⟨j, e, hj⟩ := p1 hm0
      exact Or.inl ⟨j, by rw [e], hj⟩

theorem adjScalar_spec {s n : Nat} (hs : 1 ≤ s) {a : List Nat} (hn : a.length = n + 1) : ∀ (f k : Nat), n - k < f → k ≤ n → (∀ i < k, Qa a i = false) →
    ∃ j, adjScalar s a f (s * k) = some (s * j) ∧ (FirstAt (Qa a) j ∨ (j = a.length ∧ ∀ i < n, Qa a i = false))
  | 0, k, h, _, _ => by omega
  | f + 1, k, h, hk, hQ => by
    unfold adjScalar
    rw [show s * k + s = s * (k + 1) by ring]
    by_cases he : k = n
    · rw [if_neg (by simp [he, hn])]
      exact ⟨a.length, rfl, Or.inr ⟨rfl, he ▸ hQ⟩⟩
    · have hne : s * (k + 1) ≠ s * a.length := fun h => by have := Nat.eq_of_mul_eq_mul_left hs h; omega
      rw [if_pos hne, ld1_some hs (by omega : k < a.length), ld1_some hs (by omega : k + 1 < a.length)]
      simp only [Option.bind_eq_bind, Option.bind_some]
      have hq : Qa a k = (a[k] == a[k + 1]) := by simp [Qa, show k < a.length by omega, show k + 1 < a.length by omega]
      by_cases hh : a[k] = a[k + 1]
      · rw [if_pos (by simp [hh])]
        exact ⟨k, rfl, Or.inl ⟨by rw [hq]; simp [hh], hQ⟩⟩
      · rw [if_neg (by simp [hh])]
        refine adjScalar_spec hs hn f (k + 1) (by omega) (by omega) ?_
        intro i hi
        rcases Nat.lt_succ_iff_lt_or_eq.1 hi with h | rfl
        · exact hQ i h
        · rw [hq]; simp [hh]

theorem adjacentFind_spec {s : Nat} (c : Cpu) (hs : Sz s) (a : List Nat) :
    ∃ j, adjacentFind c s a = some (s * j) ∧ (FirstAt (Qa a) j ∨ (j = a.length ∧ ∀ i, Qa a i = false)) := by
  have h1 := hs.pos
  unfold adjacentFind
  cases hn : a.length with
  | zero =>
    simp only [Nat.mul_zero, if_true]
    refine ⟨0, rfl, Or.inr ⟨rfl, fun i => ?_⟩⟩
    simp [Qa, List.getElem?_eq_none (by omega : a.length ≤ i)]
  | succ n =>
    have hle2 : n ≤ s * n := Nat.le_mul_of_pos_left _ h1
    rw [if_neg (Nat.ne_of_gt (Nat.mul_pos h1 (Nat.succ_pos n))), show s * (n + 1) - s = s * n by rw [Nat.mul_add]; omega]
    have fin : ∀ r, (∃ j, r = some (s * j) ∧ (FirstAt (Qa a) j ∨ (j = a.length ∧ ∀ i < n, Qa a i = false))) → ∃ j, r = some (s * j) ∧ (FirstAt (Qa a) j ∨ (j = n + 1 ∧ ∀ i, Qa a i = false)) := by
      rintro r ⟨j, rfl, hj⟩
      refine ⟨j, rfl, ?_⟩
      rcases hj with h | ⟨h, h'⟩
      · exact Or.inl h
      · refine Or.inr ⟨by omega, fun i => ?_⟩
        by_cases hi : i < n
        · exact h' i hi
        · simp [Qa, List.getElem?_eq_none (by omega : a.length ≤ i + 1)]
    apply fin
    have sc : ∀ k, k ≤ n → (∀ i < k, Qa a i = false) → ∃ j, adjScalar s a (s * n + 1) (s * k) = some (s * j) ∧ (FirstAt (Qa a) j ∨ (j = a.length ∧ ∀ i < n, Qa a i = false)) :=
      fun k hk hQ => adjScalar_spec h1 hn _ k (by omega) hk hQ
    simp only
    split
    · rename_i hc
      rcases adjLoop_spec (s := s) (c := 32 / s) h1 (by rcases hs with rfl | rfl | rfl | rfl <;> decide) hs.v32.symm (by omega) hn hc.1 with ⟨j, e, hj⟩ | ⟨e, hQ⟩
      · rw [e]; exact ⟨j, rfl, Or.inl hj⟩
      · rw [e]
        simp only [Option.bind_eq_bind, Option.bind_some]
        obtain ⟨t1, t2, t3⟩ := tailN_le (n := n) hs
        rcases adjTail_spec hs hn rfl hQ with ⟨j, e, hj⟩ | ⟨e, hQ⟩
        · rw [e]; exact ⟨j, rfl, Or.inl hj⟩
        · rw [e]
          simp only [Option.bind_some]
          split
          · rename_i h4
            exact ⟨n + 1, rfl, Or.inr ⟨hn.symm, t3 h4 ▸ hQ⟩⟩
          · exact sc _ (by omega) hQ
    · split
      · rename_i hc
        rcases adjLoop_spec (s := s) (c := 16 / s) h1 (by rcases hs with rfl | rfl | rfl | rfl <;> decide) hs.v16.symm (by omega) hn hc.1 with ⟨j, e, hj⟩ | ⟨e, hQ⟩
        · rw [e]; exact ⟨j, rfl, Or.inl hj⟩
        · rw [e]
          simp only [Option.bind_eq_bind, Option.bind_some]
          exact sc _ (Nat.div_mul_le_self _ _) hQ
      · have := sc 0 (by omega) (by intro i hi; omega)
        rwa [Nat.mul_zero] at this

/-! ## find_last -/

/-- The last index with `Q`. -/
def LastAt (Q : Nat → Bool) (j : Nat) : Prop := Q j = true ∧ ∀ i, j < i → Q i = false

theorem mask_last {s k c m : Nat} (hs : 1 ≤ s) {Q : Nat → Bool} (hm : Msk s m (fun i => decide (i < c) && Q (k + i))) (hQ : ∀ i, k + c ≤ i → Q i = false) :
    (m ≠ 0 → ∃ j, s * k + (Nat.log2 m - (s - 1)) = s * j ∧ Nat.log2 m < s * c ∧ LastAt Q j) ∧ (m = 0 → ∀ i, k ≤ i → Q i = false) := by
  constructor
  · intro h
    obtain ⟨j, g1, g2, g3⟩ := hm.log hs h
    simp only [Bool.and_eq_true, decide_eq_true_eq] at g2
    have hle : s * (j + 1) ≤ s * c := Nat.mul_le_mul_left _ g2.1
    rw [Nat.mul_add] at hle
    refine ⟨k + j, by rw [g1, Nat.add_sub_cancel]; ring, by omega, g2.2, ?_⟩
    intro i hi
    by_cases hik : k + c ≤ i
    · exact hQ i hik
    · have := g3 (i - k) (by omega)
      rw [show k + (i - k) = i by omega] at this
      simpa [show i - k < c by omega] using this
  · intro h i hi
    by_cases hik : k + c ≤ i
    · exact hQ i hik
    · have := (hm.zero hs).1 h (i - k)
      rw [show k + (i - k) = i by omega] at this
      simpa [show i - k < c by omega] using this

theorem findLastLoop_spec {s c : Nat} (hs : 1 ≤ s) (hc : 1 ≤ c) (ne : Bool) {a : List Nat} (val : Nat) {k' : Nat} :
    ∀ (f n k : Nat), n < f → k = k' + (n + 1) * c → k ≤ a.length → (∀ i, k ≤ i → Qf ne a val i = false) →
      (∃ j, findLastLoop s (s * c) ne a val (s * k') f (s * k) = some (.inl (s * j)) ∧ LastAt (Qf ne a val) j) ∨
      (findLastLoop s (s * c) ne a val (s * k') f (s * k) = some (.inr (s * k')) ∧ ∀ i, k' ≤ i → Qf ne a val i = false)
  | 0, n, k, h, _, _, _ => by omega
  | f + 1, n, k, hn, hk, hka, hQ => by
    obtain ⟨k0, rfl⟩ : ∃ k0, k = k0 + c := ⟨k - c, by
      rw [Nat.add_mul, Nat.one_mul] at hk; omega⟩
    have hk0 : k0 = k' + n * c := by rw [Nat.add_mul, Nat.one_mul] at hk; omega
    unfold findLastLoop
    rw [if_neg (by rw [Nat.mul_add]; omega), show s * (k0 + c) - s * c = s * k0 by rw [Nat.mul_add]; omega]
    simp only []
    rw [ld_some hs hka]
    simp only [Option.bind_eq_bind, Option.bind_some]
    have hm := find_mask hs ne val hka
    simp only at hm
    obtain ⟨p1, p2⟩ := mask_last hs hm hQ
    generalize (if ne = true then _ else _ : Nat) = m at *
    by_cases hm0 : m = 0
    · rw [if_neg (by simp [hm0])]
      cases n with
      | zero =>
        have : k0 = k' := by rw [hk0]; ring
        subst this
        rw [if_neg (by simp)]
        exact Or.inr ⟨rfl, p2 hm0⟩
      | succ n =>
        have hne : s * k0 ≠ s * k' := by
          intro h
          have := Nat.eq_of_mul_eq_mul_left hs h
          have : 1 * 1 ≤ (n + 1) * c := Nat.mul_le_mul (by omega) hc
          omega
        rw [if_pos hne]
        exact findLastLoop_spec hs hc ne val f n k0 (by omega) hk0 (by omega) (p2 hm0)
    · rw [if_pos hm0]
      obtain ⟨j, e, _, hj⟩ := p1 hm0
      exact Or.inl ⟨j, by rw [e], hj⟩

theorem Qf_none {ne : Bool} {a : List Nat} {val i : Nat} (h : a.length ≤ i) : Qf ne a val i = false := by
  simp [Qf, List.getElem?_eq_none h]

theorem findLastTail_spec {s : Nat} (hs : Sz s) (ne : Bool) {a : List Nat} (val : Nat) {k : Nat} (hk : k = a.length % (32 / s)) (hQ : ∀ i, k ≤ i → Qf ne a val i = false) :
    (∃ j, findLastTail s ne a val (s * k) = some (.inl (s * j)) ∧ LastAt (Qf ne a val) j) ∨
    (findLastTail s ne a val (s * k) = some (.inr (s * (k - tailN s a.length))) ∧ ∀ i, k - tailN s a.length ≤ i → Qf ne a val i = false) := by
  obtain ⟨t1, t2, _⟩ := tailN_le (n := a.length) hs
  have h1 := hs.pos
  have htk : tailN s a.length ≤ k := by
    rw [hk]; unfold tailN; exact Nat.div_mul_le_self _ _
  have hka : k ≤ a.length := by rw [hk]; exact Nat.mod_le _ _
  unfold findLastTail
  rw [tail_eq hs]
  simp only []
  by_cases h0 : s * tailN s a.length = 0
  · have : tailN s a.length = 0 := by
      rcases Nat.mul_eq_zero.1 h0 with h | h <;> omega
    rw [if_neg (by simp [h0]), this]
    exact Or.inr ⟨rfl, hQ⟩
  · rw [if_pos h0]
    obtain ⟨k0, hk0⟩ : ∃ k0, k = k0 + tailN s a.length := ⟨k - tailN s a.length, by omega⟩
    have hle : s * tailN s a.length ≤ s * k := Nat.mul_le_mul_left _ htk
    rw [if_neg (by omega), show s * k - s * tailN s a.length = s * k0 by rw [hk0, Nat.mul_add]; omega, mld_some hs (by omega : k0 + tailN s a.length ≤ a.length) t2]
    simp only [Option.bind_eq_bind, Option.bind_some]
    have hm := find_tailMask (k := k0) hs t2 ne val (by omega : k0 + tailN s a.length ≤ a.length)
    simp only at hm
    obtain ⟨p1, p2⟩ := mask_last h1 hm (by rw [← hk0]; exact hQ)
    generalize (if ne = true then _ else _ : Nat) = m at *
    rw [show k - tailN s a.length = k0 by omega]
    by_cases hm0 : m = 0
    · rw [if_neg (by simp [hm0])]
      exact Or.inr ⟨rfl, p2 hm0⟩
    · rw [if_pos hm0]
      obtain ⟨j, e, el, hj⟩ := p1 hm0
      refine Or.inl ⟨j, ?_, hj⟩
      unfold lz32
      rw [if_neg hm0, show 31 - (31 - Nat.log2 m) = Nat.log2 m by omega, e]

theorem findLastScalar_spec {s : Nat} (hs : 1 ≤ s) (ne : Bool) {a : List Nat} (val : Nat) : ∀ (f k : Nat), k < f → k ≤ a.length → (∀ i, k ≤ i → Qf ne a val i = false) →
    ∃ j, findLastScalar s ne a val f (s * k) = some (s * j) ∧ (LastAt (Qf ne a val) j ∨ (j = a.length ∧ ∀ i, Qf ne a val i = false))
  | 0, k, h, _, _ => by omega
  | f + 1, 0, h, hk, hQ => by
    unfold findLastScalar
    rw [if_neg (by simp)]
    exact ⟨_, rfl, Or.inr ⟨rfl, fun i => hQ i (Nat.zero_le _)⟩⟩
  | f + 1, k + 1, h, hk, hQ => by
    unfold findLastScalar
    have hpos := Nat.mul_pos hs (Nat.succ_pos k)
    have e : s * (k + 1) = s * k + s := by ring
    rw [if_pos (by omega), if_neg (by omega), show s * (k + 1) - s = s * k by omega]
    simp only []
    rw [ld1_some hs (by omega : k < a.length)]
    simp only [Option.bind_eq_bind, Option.bind_some]
    have hq : Qf ne a val k = hit ne val a[k] := by simp [Qf, show k < a.length by omega]
    have hh : ((([a[k]] : List Nat) == [val]) != ne) = hit ne val a[k] := by
      have : (([a[k]] : List Nat) == [val]) = (a[k] == val) := by simp
      rw [this]; rfl
    rw [hh]
    have hQ' : ∀ i, k < i → Qf ne a val i = false := fun i hi => hQ i hi
    cases hhit : hit ne val a[k] with
    | true =>
      simp only [if_true]
      exact ⟨k, rfl, Or.inl ⟨by rw [hq, hhit], hQ'⟩⟩
    | false =>
      simp only [Bool.false_eq_true, if_false]
      refine findLastScalar_spec hs ne val f k (by omega) (by omega) ?_
      intro i hi
      rcases Nat.eq_or_lt_of_le hi with rfl | h
      · rw [hq, hhit]
      · exact hQ' i h

theorem findLast_spec {s : Nat} (c : Cpu) (hs : Sz s) (ne : Bool) (a : List Nat) (val : Nat) :
    ∃ j, findLast c s ne a val = some (s * j) ∧ (LastAt (Qf ne a val) j ∨ (j = a.length ∧ ∀ i, Qf ne a val i = false)) := by
  have h1 := hs.pos
  have hle2 : a.length ≤ s * a.length := Nat.le_mul_of_pos_left _ h1
  have sc : ∀ k, k ≤ a.length → (∀ i, k ≤ i → Qf ne a val i = false) → ∃ j, findLastScalar s ne a val (s * a.length + 1) (s * k) = some (s * j) ∧ (LastAt (Qf ne a val) j ∨ (j = a.length ∧ ∀ i, Qf ne a val i = false)) :=
    fun k hk hQ => findLastScalar_spec h1 ne val _ k (by omega) hk hQ
  have lp : ∀ V cc, 1 ≤ cc → V = s * cc → full (s * a.length) V ≠ 0 →
      (∃ j, findLastLoop s V ne a val (s * a.length - full (s * a.length) V) (s * a.length + 1) (s * a.length) = some (.inl (s * j)) ∧ LastAt (Qf ne a val) j) ∨
      (findLastLoop s V ne a val (s * a.length - full (s * a.length) V) (s * a.length + 1) (s * a.length) = some (.inr (s * (a.length % cc))) ∧ ∀ i, a.length % cc ≤ i → Qf ne a val i = false) := by
    rintro V cc hcc rfl hf
    rw [full_eq h1 rfl] at hf ⊢
    have hq : 1 ≤ a.length / cc := by
      rw [Nat.one_le_iff_ne_zero]
      intro this
      rw [this] at hf; simp at hf
    have hdm := Nat.mod_add_div' a.length cc
    have hle : a.length / cc ≤ a.length := Nat.div_le_self _ _
    rw [show s * a.length - s * (a.length / cc * cc) = s * (a.length % cc) by rw [← Nat.mul_sub]; congr 1; omega]
    exact findLastLoop_spec h1 hcc ne val (s * a.length + 1) (a.length / cc - 1) a.length (lt_of_le_of_lt (Nat.sub_le _ _) (by omega)) (by rw [Nat.sub_add_cancel hq]; exact hdm.symm) le_rfl (fun i hi => Qf_none hi)
  unfold findLast
  simp only
  split
  · rename_i hc
    rcases lp 32 (32 / s) (by rcases hs with rfl | rfl | rfl | rfl <;> decide) hs.v32.symm hc.1 with ⟨j, e, hj⟩ | ⟨e, hQ⟩
    · rw [e]; exact ⟨j, rfl, Or.inl hj⟩
    · rw [e]
      simp only [Option.bind_eq_bind, Option.bind_some]
      obtain ⟨t1, t2, t3⟩ := tailN_le (n := a.length) hs
      have hka : a.length % (32 / s) ≤ a.length := Nat.mod_le _ _
      rcases findLastTail_spec hs ne val rfl hQ with ⟨j, e, hj⟩ | ⟨e, hQ⟩
      · rw [e]; exact ⟨j, rfl, Or.inl hj⟩
      · rw [e]
        simp only [Option.bind_some]
        split
        · rename_i h4
          refine ⟨_, rfl, Or.inr ⟨rfl, fun i => hQ i ?_⟩⟩
          have := t3 h4
          have hdm := Nat.mod_add_div' a.length (32 / s)
          omega
        · exact sc _ (by omega) hQ
  · split
    · rename_i hc
      rcases lp 16 (16 / s) (by rcases hs with rfl | rfl | rfl | rfl <;> decide) hs.v16.symm hc.1 with ⟨j, e, hj⟩ | ⟨e, hQ⟩
      · rw [e]; exact ⟨j, rfl, Or.inl hj⟩
      · rw [e]
        simp only [Option.bind_eq_bind, Option.bind_some]
        exact sc _ (Nat.mod_le _ _) hQ
    · exact sc a.length le_rfl (fun i hi => Qf_none hi)

end STL.VAlg
