import Verif.VAlg.Bits

/-! # find, find_last, adjacent_find. Proofs only. -/

namespace STL.VAlg

/-- The element sizes. -/
def Sz (s : Nat) : Prop := s = 1 ∨ s = 2 ∨ s = 4 ∨ s = 8

theorem Sz.pos {s : Nat} (h : Sz s) : 1 ≤ s := by unfold Sz at h; omega

theorem Sz.v32 {s : Nat} (h : Sz s) : s * (32 / s) = 32 := by rcases h with rfl | rfl | rfl | rfl <;> rfl
theorem Sz.v16 {s : Nat} (h : Sz s) : s * (16 / s) = 16 := by rcases h with rfl | rfl | rfl | rfl <;> rfl

/-- The first index with `Q`, from `k` on. -/
def FirstAt (Q : Nat → Bool) (j : Nat) : Prop := Q j = true ∧ ∀ i < j, Q i = false

/-- A search loop over registers; `step` computes the mask at a pointer. -/
def loopG (step : Nat → Option Nat) (V stop : Nat) : Nat → Nat → Option (Nat ⊕ Nat)
  | 0, _ => none
  | f + 1, p => do
    let m ← step p
    if m ≠ 0 then some (.inl (p + tz m))
    else
      let p := p + V
      if p ≠ stop then loopG step V stop f p else some (.inr p)

theorem loopG_spec {s c : Nat} (hs : 1 ≤ s) (hc : 1 ≤ c) (h64 : s * c ≤ 64) {step : Nat → Option Nat} {Q : Nat → Bool} {k' : Nat}
    (hstep : ∀ k, k + c ≤ k' → ∃ m, step (s * k) = some m ∧ Msk s m (fun i => decide (i < c) && Q (k + i))) :
    ∀ (f n k : Nat), n < f → k' = k + (n + 1) * c → (∀ i < k, Q i = false) →
      (∃ j, loopG step (s * c) (s * k') f (s * k) = some (.inl (s * j)) ∧ FirstAt Q j ∧ j < k') ∨ (loopG step (s * c) (s * k') f (s * k) = some (.inr (s * k')) ∧ ∀ i < k', Q i = false)
  | 0, n, k, h, _, _ => by omega
  | f + 1, n, k, hn, hk, hQ => by
    have hkc : k + c ≤ k' := by rw [hk, Nat.add_mul]; omega
    obtain ⟨m, h1, h2⟩ := hstep k hkc
    unfold loopG
    rw [h1]
    show (_ ∨ _) 
    simp only [Option.bind_eq_bind, Option.bind_some]
    by_cases hm : m = 0
    · simp only [hm, ne_eq, not_true_eq_false, if_false]
      have hF := (h2.zero hs).1 hm
      have hQ' : ∀ i < k + c, Q i = false := by
        intro i hi
        by_cases hik : i < k
        · exact hQ i hik
        · have := hF (i - k)
          rw [show k + (i - k) = i by omega] at this
          simpa [show i - k < c by omega] using this
      have e1 : s * k + s * c = s * (k + c) := by ring
      rw [e1]
      cases n with
      | zero =>
        have : k' = k + c := by rw [hk]; ring
        rw [this, if_neg (by simp)]
        exact Or.inr ⟨rfl, hQ'⟩
      | succ n =>
        have hkk : k' = (k + c) + (n + 1) * c := by rw [hk]; ring
        have hne : s * (k + c) ≠ s * k' := by
          intro h
          have := Nat.eq_of_mul_eq_mul_left hs h
          have : 1 * 1 ≤ (n + 1) * c := Nat.mul_le_mul (by omega) hc
          omega
        rw [if_pos hne]
        exact loopG_spec hs hc h64 hstep f n (k + c) (by omega) hkk hQ'
    · rw [if_pos hm]
      have hlt : m < 2 ^ 64 := lt_of_lt_of_le (h2.lt hs (c := c) (fun i hi => by simp; omega)) (Nat.pow_le_pow_right (by omega) h64)
      obtain ⟨j, g1, g2, g3⟩ := h2.tz hs hm hlt
      left
      simp only [Bool.and_eq_true, decide_eq_true_eq] at g2
      refine ⟨k + j, by rw [g1]; congr 2; ring, ⟨g2.2, ?_⟩, by omega⟩
      intro i hi
      by_cases hik : i < k
      · exact hQ i hik
      · have := g3 (i - k) (by omega)
        rw [show k + (i - k) = i by omega] at this
        simpa [show i - k < c by omega] using this

/-- `x` is what is searched for. -/
def hit (ne : Bool) (val x : Nat) : Bool := (x == val) != ne

/-- Index `i` is in range and is a hit. -/
def Qf (ne : Bool) (a : List Nat) (val i : Nat) : Bool := match a[i]? with | some x => hit ne val x | none => false

theorem ld_some {s k c : Nat} (hs : 1 ≤ s) {a : List Nat} (h : k + c ≤ a.length) : ld s a (s * k) (s * c) = some ((a.drop k).take c) := by
  unfold ld
  rw [if_pos]
  · rw [Nat.mul_div_cancel_left _ hs, Nat.mul_div_cancel_left _ hs]
  · refine ⟨Nat.mul_mod_right _ _, ?_⟩
    rw [← Nat.mul_add]; exact Nat.mul_le_mul_left _ h

theorem ld1_some {s k : Nat} (hs : 1 ≤ s) {a : List Nat} (h : k < a.length) : ld s a (s * k) s = some [a[k]] := by
  have := ld_some (s := s) (k := k) (c := 1) hs (a := a) (by omega)
  rw [Nat.mul_one] at this
  rw [this]
  congr 1
  apply List.ext_getElem?
  intro i
  cases i with
  | zero => simp [h]
  | succ i => simp

/-- The mask of a chunk. -/
theorem find_mask {s k c : Nat} (hs : 1 ≤ s) (ne : Bool) {a : List Nat} (val : Nat) (h : k + c ≤ a.length) :
    Msk s (let b := movemask s (((a.drop k).take c).map (· == val)); if ne then b ^^^ (2 ^ (s * c) - 1) else b) (fun i => decide (i < c) && Qf ne a val (k + i)) := by
  have h1 := movemask_msk hs (((a.drop k).take c).map (· == val))
  have hget : ∀ i, (((a.drop k).take c).map (· == val)).getD i false = if h' : i < c then (a[k + i]'(by omega) == val) else false := by
    intro i
    rw [List.getD_eq_getElem?_getD, List.getElem?_map, List.getElem?_take]
    by_cases hi : i < c
    · simp [hi, show k + i < a.length by omega]
    · simp [hi]
  simp only
  cases ne with
  | false =>
    simp only [Bool.false_eq_true, if_false]
    refine h1.congr fun i => ?_
    rw [hget i]
    by_cases hi : i < c
    · simp [hi, Qf, hit, show k + i < a.length by omega]
    · simp [hi]
  | true =>
    simp only [if_true]
    refine (h1.xor hs c).congr fun i => ?_
    rw [hget i]
    by_cases hi : i < c
    · simp [hi, Qf, hit, show k + i < a.length by omega]
    · simp [hi]

theorem findLoop_loopG (s V : Nat) (ne : Bool) (a : List Nat) (val stop : Nat) : ∀ f p, findLoop s V ne a val stop f p = loopG (fun p => (ld s a p V).map fun d => let b := movemask s (d.map (· == val)); if ne then b ^^^ (2 ^ V - 1) else b) V stop f p
  | 0, p => rfl
  | f + 1, p => by
    unfold findLoop loopG
    cases ld s a p V with
    | none => rfl
    | some d =>
      simp only [Option.map_some, Option.bind_eq_bind, Option.bind_some]
      rw [findLoop_loopG s V ne a val stop f]

theorem full_eq {s V c n : Nat} (hs : 1 ≤ s) (hV : V = s * c) : full (s * n) V = s * (n / c * c) := by
  unfold full
  rw [hV, Nat.mul_div_mul_left _ _ hs]; ring

theorem findLoop_spec {s V c : Nat} (hs : 1 ≤ s) (hc : 1 ≤ c) (hV : V = s * c) (h64 : V ≤ 64) (ne : Bool) {a : List Nat} (val : Nat) (h : full (s * a.length) V ≠ 0) :
    (∃ j, findLoop s V ne a val (full (s * a.length) V) (s * a.length + 1) 0 = some (.inl (s * j)) ∧ FirstAt (Qf ne a val) j) ∨
    (findLoop s V ne a val (full (s * a.length) V) (s * a.length + 1) 0 = some (.inr (s * (a.length / c * c))) ∧ ∀ i < a.length / c * c, Qf ne a val i = false) := by
  rw [full_eq hs hV] at h ⊢
  have hq : 1 ≤ a.length / c := by
    rw [Nat.one_le_iff_ne_zero]
    intro this
    rw [this] at h; simp at h
  have hle : a.length / c ≤ a.length := Nat.div_le_self _ _
  have hle2 : a.length ≤ s * a.length := Nat.le_mul_of_pos_left _ hs
  have hle3 : a.length / c * c ≤ a.length := Nat.div_mul_le_self _ _
  rw [findLoop_loopG]
  subst hV
  have := loopG_spec (s := s) (c := c) (Q := Qf ne a val) (k' := a.length / c * c) (step := fun p => (ld s a p (s * c)).map fun d => let b := movemask s (d.map (· == val)); if ne then b ^^^ (2 ^ (s * c) - 1) else b) hs hc h64 (by
    intro k hk
    exact ⟨_, by simp only [ld_some hs (by omega : k + c ≤ a.length)]; rfl, find_mask hs ne val (by omega)⟩) (s * a.length + 1) (a.length / c - 1) 0 (lt_of_le_of_lt (Nat.sub_le _ _) (by omega)) (by rw [Nat.sub_add_cancel hq, Nat.zero_add]) (by intro i hi; omega)
  rw [Nat.mul_zero] at this
  rcases this with ⟨j, h1, h2, h3⟩ | h1
  · exact Or.inl ⟨j, h1, h2⟩
  · exact Or.inr h1

/-- number of elements in the AVX2 tail -/
def tailN (s n : Nat) : Nat := n % (32 / s) / (if s < 4 then 4 / s else 1) * (if s < 4 then 4 / s else 1)

/-- The tail of `T` bytes starts at the last full register. -/
theorem tail_eq {s n : Nat} (hs : Sz s) : (s * n) &&& 0x1C = s * tailN s n := by
  rw [and_1C]
  unfold tailN
  rcases hs with rfl | rfl | rfl | rfl <;> simp <;> omega

theorem mld_some {s k c : Nat} (hs : Sz s) {a : List Nat} (h : k + c ≤ a.length) (hc : s * c ≤ 32) : mld s a (s * k) (s * c) = some ((a.drop k).take c ++ List.replicate (32 / s - c) 0) := by
  unfold mld
  have h1 := hs.pos
  rw [if_pos]
  · rw [Nat.mul_div_cancel_left _ h1, Nat.mul_div_cancel_left _ h1, Nat.sub_mul_div]
  · refine ⟨Nat.mul_mod_right _ _, ?_, hc⟩
    rw [← Nat.mul_add]; exact Nat.mul_le_mul_left _ h

theorem and_tailMask {s c : Nat} (hs : Sz s) (hc : s * c ≤ 32) {bs : List Bool} (hl : bs.length = 32 / s) (i : Nat) :
    (List.zipWith (· && ·) bs (tailMask s (s * c))).getD i false = (decide (i < c) && bs.getD i false) := by
  have h1 := hs.pos
  have hc' : c ≤ 32 / s := (Nat.le_div_iff_mul_le h1).2 (by rw [Nat.mul_comm]; exact hc)
  rw [List.getD_eq_getElem?_getD, List.getD_eq_getElem?_getD, List.getElem?_zipWith]
  unfold tailMask
  rw [List.getElem?_map]
  by_cases hi : i < 32 / s
  · rw [List.getElem?_eq_getElem (by omega : i < bs.length), List.getElem?_range hi]
    have : s * i < s * c ↔ i < c := Nat.mul_lt_mul_left h1
    simp [this, Bool.and_comm]
  · rw [List.getElem?_eq_none (by omega)]
    have : ¬ i < c := by omega
    simp [this]

theorem find_tailMask {s k c : Nat} (hs : Sz s) (hc : s * c ≤ 32) (ne : Bool) {a : List Nat} (val : Nat) (h : k + c ≤ a.length) :
    Msk s (let b := movemask s (List.zipWith (· && ·) (((a.drop k).take c ++ List.replicate (32 / s - c) 0).map (· == val)) (tailMask s (s * c))); if ne then b ^^^ (2 ^ (s * c) - 1) else b) (fun i => decide (i < c) && Qf ne a val (k + i)) := by
  have h1 := hs.pos
  have hc' : c ≤ 32 / s := (Nat.le_div_iff_mul_le h1).2 (by rw [Nat.mul_comm]; exact hc)
  have h0 := movemask_msk h1 (List.zipWith (· && ·) (((a.drop k).take c ++ List.replicate (32 / s - c) 0).map (· == val)) (tailMask s (s * c)))
  have hget : ∀ i, (List.zipWith (· && ·) (((a.drop k).take c ++ List.replicate (32 / s - c) 0).map (· == val)) (tailMask s (s * c))).getD i false = if h' : i < c then (a[k + i]'(by omega) == val) else false := by
    intro i
    rw [and_tailMask hs hc (by simp; omega)]
    by_cases hi : i < c
    · rw [List.getD_eq_getElem?_getD, List.getElem?_map, List.getElem?_append_left (by simp; omega), List.getElem?_take]
      simp [hi, show k + i < a.length by omega]
    · simp [hi]
  simp only
  cases ne with
  | false =>
    simp only [Bool.false_eq_true, if_false]
    refine h0.congr fun i => ?_
    rw [hget i]
    by_cases hi : i < c
    · simp [hi, Qf, hit, show k + i < a.length by omega]
    · simp [hi]
  | true =>
    simp only [if_true]
    refine (h0.xor h1 c).congr fun i => ?_
    rw [hget i]
    by_cases hi : i < c
    · simp [hi, Qf, hit, show k + i < a.length by omega]
    · simp [hi]

theorem tailN_le {s n : Nat} (hs : Sz s) : n / (32 / s) * (32 / s) + tailN s n ≤ n ∧ s * tailN s n ≤ 32 ∧ (4 ≤ s → n / (32 / s) * (32 / s) + tailN s n = n) := by
  unfold tailN
  rcases hs with rfl | rfl | rfl | rfl <;> simp <;> omega

/-- A tail described by its mask. -/
theorem tail_first {s k c m : Nat} (hs : Sz s) (hc : s * c ≤ 32) {Q : Nat → Bool} (hm : Msk s m (fun i => decide (i < c) && Q (k + i))) (hQ : ∀ i < k, Q i = false) :
    (m ≠ 0 → ∃ j, s * k + tz m = s * j ∧ FirstAt Q j) ∧ (m = 0 → ∀ i < k + c, Q i = false) := by
  have h1 := hs.pos
  constructor
  · intro h
    have hlt : m < 2 ^ 64 := lt_of_lt_of_le (hm.lt h1 (c := c) (fun i hi => by simp; omega)) (Nat.pow_le_pow_right (by omega) (by omega))
    obtain ⟨j, g1, g2, g3⟩ := hm.tz h1 h hlt
    simp only [Bool.and_eq_true, decide_eq_true_eq] at g2
    refine ⟨k + j, by rw [g1]; ring, g2.2, ?_⟩
    intro i hi
    by_cases hik : i < k
    · exact hQ i hik
    · have := g3 (i - k) (by omega)
      rw [show k + (i - k) = i by omega] at this
      simpa [show i - k < c by omega] using this
  · intro h i hi
    by_cases hik : i < k
    · exact hQ i hik
    · have := (hm.zero h1).1 h (i - k)
      rw [show k + (i - k) = i by omega] at this
      simpa [show i - k < c by omega] using this

theorem findTail_spec {s : Nat} (hs : Sz s) (ne : Bool) {a : List Nat} (val : Nat) {k : Nat} (hk : k = a.length / (32 / s) * (32 / s)) (hQ : ∀ i < k, Qf ne a val i = false) :
    (∃ j, findTail s ne a val (s * k) = some (.inl (s * j)) ∧ FirstAt (Qf ne a val) j) ∨
    (findTail s ne a val (s * k) = some (.inr (s * (k + tailN s a.length))) ∧ ∀ i < k + tailN s a.length, Qf ne a val i = false) := by
  obtain ⟨t1, t2, _⟩ := tailN_le (n := a.length) hs
  have h1 := hs.pos
  unfold findTail
  rw [tail_eq hs]
  simp only []
  by_cases h0 : s * tailN s a.length = 0
  · have : tailN s a.length = 0 := by
      rcases Nat.mul_eq_zero.1 h0 with h | h <;> omega
    rw [if_neg (by simp [h0]), this]
    exact Or.inr ⟨rfl, hQ⟩
  · rw [if_pos h0]
    rw [mld_some hs (by omega) t2]
    simp only [Option.bind_eq_bind, Option.bind_some]
    have hm := find_tailMask (k := k) hs t2 ne val (by omega : k + tailN s a.length ≤ a.length)
    simp only at hm
    obtain ⟨p1, p2⟩ := tail_first hs t2 hm hQ
    generalize (if ne = true then _ else _ : Nat) = m at *
    by_cases hm0 : m = 0
    · rw [if_neg (by simp [hm0])]
      exact Or.inr ⟨by congr 2; ring, p2 hm0⟩
    · rw [if_pos hm0]
      obtain ⟨j, e, hj⟩ := p1 hm0
      exact Or.inl ⟨j, by rw [e], hj⟩

theorem findScalar_spec {s : Nat} (hs : 1 ≤ s) (ne : Bool) {a : List Nat} (val : Nat) : ∀ (f k : Nat), a.length - k < f → k ≤ a.length → (∀ i < k, Qf ne a val i = false) →
    ∃ j, findScalar s ne a val f (s * k) = some (s * j) ∧ (FirstAt (Qf ne a val) j ∨ (j = a.length ∧ ∀ i < j, Qf ne a val i = false))
  | 0, k, h, _, _ => by omega
  | f + 1, k, h, hk, hQ => by
    unfold findScalar
    by_cases he : k = a.length
    · rw [if_neg (by simp [he])]
      exact ⟨k, rfl, Or.inr ⟨he, hQ⟩⟩
    · have hne : s * k ≠ s * a.length := fun h => he (Nat.eq_of_mul_eq_mul_left hs h)
      rw [if_pos hne, ld1_some hs (by omega : k < a.length)]
      simp only [Option.bind_eq_bind, Option.bind_some]
      have hq : Qf ne a val k = hit ne val a[k] := by simp [Qf, show k < a.length by omega]
      have hh : ((([a[k]] : List Nat) == [val]) == ne) = !(hit ne val a[k]) := by
        have : (([a[k]] : List Nat) == [val]) = (a[k] == val) := by simp
        rw [this]; unfold hit
        cases (a[k] == val) <;> cases ne <;> rfl
      rw [hh]
      cases hhit : hit ne val a[k] with
      | true =>
        simp only [Bool.not_true, Bool.false_eq_true, if_false]
        exact ⟨k, rfl, Or.inl ⟨by rw [hq, hhit], hQ⟩⟩
      | false =>
        simp only [Bool.not_false, if_true]
        rw [show s * k + s = s * (k + 1) by ring]
        refine findScalar_spec hs ne val f (k + 1) (by omega) (by omega) ?_
        intro i hi
        rcases Nat.lt_succ_iff_lt_or_eq.1 hi with h | rfl
        · exact hQ i h
        · rw [hq, hhit]

theorem first_findIdx {ne : Bool} {a : List Nat} {val j : Nat} (h : FirstAt (Qf ne a val) j ∨ (j = a.length ∧ ∀ i < j, Qf ne a val i = false)) : j = a.findIdx (hit ne val) := by
  have hlow : ∀ i < j, ∀ (hi : i < a.length), hit ne val a[i] = false := by
    intro i hij hi
    have hQ : Qf ne a val i = false := by rcases h with h | h <;> exact h.2 i hij
    simpa [Qf, hi] using hQ
  rcases h with ⟨h1, h2⟩ | ⟨rfl, h2⟩
  · have hj : j < a.length := by
      by_contra hc
      simp [Qf, List.getElem?_eq_none (by omega : a.length ≤ j)] at h1
    symm
    rw [List.findIdx_eq hj]
    refine ⟨by simpa [Qf, hj] using h1, ?_⟩
    intro i hij
    exact hlow i hij (by omega)
  · symm
    rw [List.findIdx_eq_length]
    intro x hx
    obtain ⟨i, hi, rfl⟩ := List.mem_iff_getElem.1 hx
    exact hlow i hi hi

theorem find_eq {s : Nat} (c : Cpu) (hs : Sz s) (ne : Bool) (a : List Nat) (val : Nat) : find c s ne a val = some (s * a.findIdx (hit ne val)) := by
  have h1 := hs.pos
  have hle2 : a.length ≤ s * a.length := Nat.le_mul_of_pos_left _ h1
  have fin : ∀ r, (∃ j, r = some (s * j) ∧ (FirstAt (Qf ne a val) j ∨ (j = a.length ∧ ∀ i < j, Qf ne a val i = false))) → r = some (s * a.findIdx (hit ne val)) := by
    rintro r ⟨j, rfl, hj⟩; rw [first_findIdx hj]
  apply fin
  have sc : ∀ k, k ≤ a.length → (∀ i < k, Qf ne a val i = false) → ∃ j, findScalar s ne a val (s * a.length + 1) (s * k) = some (s * j) ∧ (FirstAt (Qf ne a val) j ∨ (j = a.length ∧ ∀ i < j, Qf ne a val i = false)) :=
    fun k hk hQ => findScalar_spec h1 ne val _ k (by omega) hk hQ
  unfold find
  simp only
  split
  · rename_i hc
    rcases findLoop_spec (s := s) (c := 32 / s) h1 (by rcases hs with rfl | rfl | rfl | rfl <;> decide) hs.v32.symm (by omega) ne val hc.1 with ⟨j, e, hj⟩ | ⟨e, hQ⟩
    · rw [e]; exact ⟨j, rfl, Or.inl hj⟩
    · rw [e]
      simp only [Option.bind_eq_bind, Option.bind_some]
      obtain ⟨t1, t2, t3⟩ := tailN_le (n := a.length) hs
      rcases findTail_spec hs ne val rfl hQ with ⟨j, e, hj⟩ | ⟨e, hQ⟩
      · rw [e]; exact ⟨j, rfl, Or.inl hj⟩
      · rw [e]
        simp only [Option.bind_some]
        split
        · rename_i h4
          exact ⟨_, rfl, Or.inr ⟨t3 h4, hQ⟩⟩
        · exact sc _ (by omega) hQ
  · split
    · rename_i hc
      rcases findLoop_spec (s := s) (c := 16 / s) h1 (by rcases hs with rfl | rfl | rfl | rfl <;> decide) hs.v16.symm (by omega) ne val hc.1 with ⟨j, e, hj⟩ | ⟨e, hQ⟩
      · rw [e]; exact ⟨j, rfl, Or.inl hj⟩
      · rw [e]
        simp only [Option.bind_eq_bind, Option.bind_some]
        exact sc _ (Nat.div_mul_le_self _ _) hQ
    · have := sc 0 (by omega) (by intro i hi; omega)
      rwa [Nat.mul_zero] at this

end STL.VAlg
