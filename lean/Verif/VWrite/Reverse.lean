import Verif.VWrite.Replace

/-! # reverse and reverse_copy -/

namespace STL.VWrite

open STL.VAlg (Cpu full Sz tailN tail_eq tailN_le tailMask)

/-! ## The shuffles -/

theorem grp_map (f : Nat → Nat) (w : Nat) (l : List Nat) : grp w (l.map f) = (grp w l).map (List.map f) := by
  simp [grp, List.map_drop, List.map_take]

theorem shuffle_map (f : Nat → Nat) (ps : List (List Nat)) (idx : List Nat) : shuffle (ps.map (List.map f)) idx = (shuffle ps idx).map (List.map f) := by
  unfold shuffle
  rw [List.map_map]
  apply List.map_congr_left
  intro i _
  simp only [Function.comp, List.length_map, List.getD_eq_getElem?_getD, List.getElem?_map]
  cases ps[i % ps.length]? <;> simp

theorem permute4_map (f : Nat → Nat) (i0 i1 i2 i3 : Nat) (b : List Nat) : permute4 i0 i1 i2 i3 (b.map f) = (permute4 i0 i1 i2 i3 b).map f := by
  unfold permute4
  rw [grp_map, shuffle_map, List.map_flatten]

theorem revAvx_map (f : Nat → Nat) (s : Nat) (v : List Elem) : revAvx s (v.map (List.map f)) = (revAvx s v).map (List.map f) := by
  unfold revAvx
  rw [← List.map_flatten]
  simp only [permute4_map, grp_map, shuffle_map, ← List.map_flatten, ← List.map_take, ← List.map_drop, ← List.map_append]
  split
  · rfl
  · split <;> rfl

theorem revSse_map (f : Nat → Nat) (s : Nat) (v : List Elem) : revSse s (v.map (List.map f)) = (revSse s v).map (List.map f) := by
  unfold revSse
  rw [← List.map_flatten]
  simp only [grp_map, shuffle_map, ← List.map_flatten]
  split
  · rfl
  · split <;> rfl

theorem as_map {s n : Nat} (hs : 0 < s) {v : List Elem} (hl : s * v.length = n) (he : ∀ x ∈ v, x.length = s) :
    ∃ f : Nat → Nat, v = (grp s (List.range n)).map (List.map f) := by
  refine ⟨fun i => v.flatten.getD i 0, ?_⟩
  rw [← grp_map]
  have hfl : v.flatten.length = n := by
    rw [List.length_flatten, ← hl]
    clear hl
    induction v with
    | nil => simp
    | cons x v ih =>
      rw [List.map_cons, List.sum_cons, ih (fun y hy => he y (by simp [hy])), he x (by simp), List.length_cons, Nat.mul_succ, Nat.add_comm]
  have := map_getD_range 0 v.flatten
  rw [hfl] at this
  rw [List.range_eq_range', this, grp_flatten hs v he]

theorem revAvx_eq {s : Nat} (hs : Sz s) {v : List Elem} (hl : v.length = 32 / s) (he : ∀ x ∈ v, x.length = s) : revAvx s v = v.reverse := by
  obtain ⟨f, rfl⟩ := as_map hs.pos (n := 32) (by rw [hl]; exact hs.v32) he
  rw [revAvx_map, ← List.map_reverse]
  congr 1
  rcases hs with rfl | rfl | rfl | rfl <;> decide

theorem revSse_eq {s : Nat} (hs : Sz s) {v : List Elem} (hl : v.length = 16 / s) (he : ∀ x ∈ v, x.length = s) : revSse s v = v.reverse := by
  obtain ⟨f, rfl⟩ := as_map hs.pos (n := 16) (by rw [hl]; exact hs.v16) he
  rw [revSse_map, ← List.map_reverse]
  congr 1
  rcases hs with rfl | rfl | rfl | rfl <;> decide

/-! ## reverse -/

theorem wr_get {a v : List Elem} {k : Nat} (h : k + v.length ≤ a.length) (i : Nat) :
    (wr a k v)[i]? = if k ≤ i ∧ i < k + v.length then v[i - k]? else a[i]? := by
  have h1 : (a.take k).length = k := by simp; omega
  unfold wr
  rw [List.append_assoc, List.getElem?_append, h1]
  split
  · next hi => rw [if_neg (by omega), List.getElem?_take, if_pos hi]
  · next hi =>
    rw [List.getElem?_append]
    split
    · next hj => rw [if_pos (by omega)]
    · next hj =>
      rw [if_neg (by omega), List.getElem?_drop]
      congr 1; omega

theorem blk_get {a : List Elem} {k c : Nat} (h : k + c ≤ a.length) (j : Nat) (hj : j < c) : ((a.drop k).take c).reverse[j]? = a[k + (c - 1 - j)]? := by
  have hl : ((a.drop k).take c).length = c := by simp; omega
  rw [List.getElem?_reverse (by omega), hl, List.getElem?_take, if_pos (by omega), List.getElem?_drop]

/-- The first and the last `k` elements are in their final place. -/
structure InvR (a0 : List Elem) (k : Nat) (a : List Elem) : Prop where
  len : a.length = a0.length
  k2 : 2 * k ≤ a0.length
  get : ∀ i < a0.length, a[i]? = if i < k ∨ a0.length - k ≤ i then a0[a0.length - 1 - i]? else a0[i]?

theorem InvR.src {a0 a : List Elem} {k p c : Nat} (h : InvR a0 k a) (h1 : k ≤ p) (h2 : p + c ≤ a0.length - k) : (a.drop p).take c = (a0.drop p).take c := by
  have hlen := h.len
  apply List.ext_getElem?
  intro i
  rw [List.getElem?_take, List.getElem?_take]
  split
  · next hi =>
    rw [List.getElem?_drop, List.getElem?_drop, h.get _ (by omega), if_neg (by omega)]
  · rfl

theorem InvR.step {a0 a : List Elem} {k c : Nat} (h : InvR a0 k a) (hc : 2 * (k + c) ≤ a0.length) :
    InvR a0 (k + c) (wr (wr a k ((a0.drop (a0.length - k - c)).take c).reverse) (a0.length - k - c) ((a0.drop k).take c).reverse) := by
  have hlen := h.len
  have l1 : ((a0.drop (a0.length - k - c)).take c).reverse.length = c := by simp; omega
  have l2 : ((a0.drop k).take c).reverse.length = c := by simp; omega
  have l3 : (wr a k ((a0.drop (a0.length - k - c)).take c).reverse).length = a.length := wr_length (by omega)
  refine ⟨by rw [wr_length (by omega), l3, hlen], hc, ?_⟩
  intro i hi
  rw [wr_get (by omega), l2, wr_get (by omega), l1]
  by_cases c1 : a0.length - k - c ≤ i ∧ i < a0.length - k - c + c
  · rw [if_pos c1, if_pos (by omega), blk_get (by omega) _ (by omega)]
    congr 1; omega
  · rw [if_neg c1]
    by_cases c2 : k ≤ i ∧ i < k + c
    · rw [if_pos c2, if_pos (by omega), blk_get (by omega) _ (by omega)]
      congr 1; omega
    · rw [if_neg c2, h.get i hi]
      by_cases c3 : i < k ∨ a0.length - k ≤ i
      · rw [if_pos c3, if_pos (by omega)]
      · rw [if_neg c3, if_neg (by omega)]

theorem InvR.init {a0 : List Elem} : InvR a0 0 a0 := ⟨rfl, by omega, fun i hi => by rw [if_neg (by omega)]⟩

theorem InvR.done {a0 a : List Elem} {k : Nat} (h : InvR a0 k a) (hk : a0.length ≤ 2 * k + 1) : a = a0.reverse := by
  have hlen := h.len
  have hk2 := h.k2
  apply List.ext_getElem?
  intro i
  by_cases hi : i < a0.length
  · rw [h.get i hi, List.getElem?_reverse hi]
    split
    · rfl
    · congr 1; omega
  · rw [List.getElem?_eq_none (by omega), List.getElem?_eq_none (by simp; omega)]

theorem reverseLoop_spec {s c : Nat} (hs : 0 < s) (hc : 0 < c) {rev : List Elem → List Elem} {a0 : List Elem} (he : ∀ x ∈ a0, x.length = s)
    (hrev : ∀ v : List Elem, v.length = c → (∀ x ∈ v, x.length = s) → rev v = v.reverse) :
    ∀ (m f k : Nat) (a : List Elem), m < f → 2 * (k + c * (m + 1)) ≤ a0.length → InvR a0 k a →
      ∃ a', reverseLoop s (s * c) rev (s * (k + c * (m + 1))) f (s * k) (s * (a0.length - k)) a =
          some (s * (k + c * (m + 1)), s * (a0.length - (k + c * (m + 1))), a') ∧ InvR a0 (k + c * (m + 1)) a'
  | m, 0, k, a, hf, _, _ => by omega
  | m, f + 1, k, a, hf, hk, hI => by
    have hcm : c ≤ c * (m + 1) := Nat.le_mul_of_pos_right c (Nat.succ_pos m)
    have hlen := hI.len
    have hk2 := hI.k2
    have hkc : 2 * (k + c) ≤ a0.length := by omega
    have hsub : s * (a0.length - k) - s * c = s * (a0.length - k - c) := by rw [Nat.mul_sub s (a0.length - k) c]
    have hmem : ∀ p, ∀ x ∈ (a0.drop p).take c, x.length = s := fun p x hx => he x (List.mem_of_mem_drop (List.mem_of_mem_take hx))
    have l1 : ((a0.drop (a0.length - k - c)).take c).length = c := by simp; omega
    have l2 : ((a0.drop k).take c).length = c := by simp; omega
    have e1 := ld_some hs (a := a) (k := k) (c := c) (by omega)
    have e2 := ld_some hs (a := a) (k := a0.length - k - c) (c := c) (by omega)
    rw [hI.src (by omega) (by omega)] at e1 e2
    have e3 := st_some hs (a := a) (k := k) (v := ((a0.drop (a0.length - k - c)).take c).reverse) (by rw [List.length_reverse, l1]; omega)
    have l3 : (wr a k ((a0.drop (a0.length - k - c)).take c).reverse).length = a.length := wr_length (by rw [List.length_reverse, l1]; omega)
    have e4 := st_some hs (a := wr a k ((a0.drop (a0.length - k - c)).take c).reverse) (k := a0.length - k - c) (v := ((a0.drop k).take c).reverse)
      (by rw [List.length_reverse, l2]; omega)
    have hI' := hI.step hkc
    unfold reverseLoop
    rw [if_neg (by
      have : s * c ≤ s * (a0.length - k) := Nat.mul_le_mul_left _ (by omega)
      omega)]
    simp only [hsub, Option.bind_eq_bind, e1, e2, Option.bind_some, hrev _ l1 (hmem _), hrev _ l2 (hmem _), e3, e4]
    rw [← Nat.mul_add, show a0.length - k - c = a0.length - (k + c) by omega] at *
    match m with
    | 0 =>
      rw [if_neg (by simp)]
      exact ⟨_, by simp; rfl, by simpa using hI'⟩
    | m + 1 =>
      have e2 : k + c * (m + 1 + 1) = k + c + c * (m + 1) := by rw [Nat.mul_succ c (m + 1)]; omega
      have hpos : 0 < c * (m + 1) := Nat.mul_pos hc (Nat.succ_pos m)
      rw [if_pos (by
        intro h
        have := Nat.eq_of_mul_eq_mul_left hs h
        omega), e2]
      exact reverseLoop_spec hs hc he hrev m f (k + c) _ (by omega) (by omega) hI'

theorem reverseTail_spec {s : Nat} (hs : 0 < s) {a0 : List Elem} :
    ∀ (n f k : Nat) (a : List Elem), n < f → 2 * k + n = a0.length → InvR a0 k a → reverseTail s f (s * k) (s * (a0.length - k)) a = some a0.reverse
  | n, 0, k, a, hf, _, _ => by omega
  | 0, f + 1, k, a, hf, hk, hI => by
    unfold reverseTail
    rw [if_neg (by rw [show a0.length - k = k by omega]; simp), hI.done (by omega)]
  | 1, f + 1, k, a, hf, hk, hI => by
    unfold reverseTail
    rw [if_pos (by
      intro h
      have := Nat.eq_of_mul_eq_mul_left hs h
      omega), if_neg (by
        have : s * 1 ≤ s * (a0.length - k) := Nat.mul_le_mul_left _ (by omega)
        omega)]
    have : s * (a0.length - k) - s = s * k := by rw [show a0.length - k = k + 1 by omega, Nat.mul_succ]; omega
    simp only [this]
    rw [if_neg (by simp), hI.done (by omega)]
  | n + 2, f + 1, k, a, hf, hk, hI => by
    have hlen := hI.len
    have hsub : s * (a0.length - k) - s = s * (a0.length - k - 1) := by rw [Nat.mul_sub s (a0.length - k) 1, Nat.mul_one]
    have e1 := ld_some hs (a := a) (k := k) (c := 1) (by omega)
    have e2 := ld_some hs (a := a) (k := a0.length - k - 1) (c := 1) (by omega)
    rw [hI.src (by omega) (by omega), Nat.mul_one, take_one (by omega)] at e1 e2
    have e3 := st_some hs (a := a) (k := k) (v := [a0[a0.length - k - 1]]) (by simp; omega)
    have l3 : (wr a k [a0[a0.length - k - 1]]).length = a.length := wr_length (by simp; omega)
    have e4 := st_some hs (a := wr a k [a0[a0.length - k - 1]]) (k := a0.length - k - 1) (v := [a0[k]]) (by simp; omega)
    have hI' := hI.step (c := 1) (by omega)
    rw [take_one (by omega), take_one (by omega)] at hI'
    simp only [List.reverse_singleton] at hI'
    unfold reverseTail
    rw [if_pos (by
      intro h
      have := Nat.eq_of_mul_eq_mul_left hs h
      omega), if_neg (by
        have : s * 1 ≤ s * (a0.length - k) := Nat.mul_le_mul_left _ (by omega)
        omega)]
    simp only [hsub]
    rw [if_pos (by
      intro h
      have := Nat.eq_of_mul_eq_mul_left hs h
      omega)]
    simp only [Option.bind_eq_bind, e1, e2, e3, e4, Option.bind_some]
    rw [show s * k + s = s * (k + 1) by rw [Nat.mul_succ], show a0.length - k - 1 = a0.length - (k + 1) by omega] at *
    exact reverseTail_spec hs n f (k + 1) _ (by omega) (by omega) hI'

theorem full_half {s c n : Nat} (hs : 0 < s) : full (s * n / 2) (s * c) = s * (c * (n / (2 * c))) := by
  unfold full
  have : s * n / 2 / (s * c) = n / (2 * c) := by
    rw [Nat.div_div_eq_div_mul, show 2 * (s * c) = s * (2 * c) by rw [Nat.mul_left_comm], Nat.mul_div_mul_left _ _ hs]
  rw [this, Nat.mul_comm, Nat.mul_assoc]

theorem revStage {s c : Nat} (hs : 0 < s) (hc : 0 < c) {rev : List Elem → List Elem} {a0 : List Elem} (he : ∀ x ∈ a0, x.length = s)
    (hrev : ∀ v : List Elem, v.length = c → (∀ x ∈ v, x.length = s) → rev v = v.reverse) {k f : Nat} {a : List Elem} (hI : InvR a0 k a)
    (hf : s * (a0.length - 2 * k) < f) (h : 2 * (s * c) ≤ s * (a0.length - 2 * k)) :
    ∃ k' a', reverseLoop s (s * c) rev (s * k + full (s * (a0.length - 2 * k) / 2) (s * c)) f (s * k) (s * (a0.length - k)) a =
      some (s * k', s * (a0.length - k'), a') ∧ k ≤ k' ∧ InvR a0 k' a' := by
  have h2c : 2 * c ≤ a0.length - 2 * k := by
    rw [Nat.mul_left_comm] at h
    exact Nat.le_of_mul_le_mul_left h hs
  obtain ⟨m, hm⟩ : ∃ m, (a0.length - 2 * k) / (2 * c) = m + 1 := ⟨(a0.length - 2 * k) / (2 * c) - 1, by
    have := Nat.div_pos h2c (by omega)
    exact (Nat.sub_add_cancel this).symm⟩
  have hle : 2 * c * (m + 1) ≤ a0.length - 2 * k := by rw [← hm]; exact Nat.mul_div_le _ _
  rw [Nat.mul_assoc] at hle
  have hd := Nat.div_le_self (a0.length - 2 * k) (2 * c)
  have hsz : a0.length - 2 * k ≤ s * (a0.length - 2 * k) := Nat.le_mul_of_pos_left _ hs
  rw [hm] at hd
  have hk2 := hI.k2
  rw [full_half hs, hm, ← Nat.mul_add]
  obtain ⟨a', e, hI'⟩ := reverseLoop_spec hs hc he hrev m f k a (by omega) (by omega) hI
  exact ⟨_, a', e, by omega, hI'⟩

theorem reverse_spec (c : Cpu) {s : Nat} (hs : Sz s) {a : List Elem} (he : ∀ x ∈ a, x.length = s) : reverse c s a = some a.reverse := by
  have hs0 : 0 < s := hs.pos
  have h32 := hs.v32
  have h16 := hs.v16
  have p32 : 0 < 32 / s := by rcases hs with rfl | rfl | rfl | rfl <;> decide
  have p16 : 0 < 16 / s := by rcases hs with rfl | rfl | rfl | rfl <;> decide
  have st1 : ∃ k' a', (if 64 ≤ s * a.length ∧ c.avx2 = true then reverseLoop s 32 (revAvx s) (full (s * a.length / 2) 32) (s * a.length + 1) 0 (s * a.length) a
      else some (0, s * a.length, a)) = some (s * k', s * (a.length - k'), a') ∧ InvR a k' a' := by
    split
    · next h =>
      obtain ⟨k', a', e, _, hI⟩ := revStage hs0 p32 he (fun v h1 h2 => revAvx_eq hs h1 h2) InvR.init (f := s * a.length + 1) (by simp) (by rw [h32]; simpa using h.1)
      rw [h32] at e
      exact ⟨k', a', by simpa using e, hI⟩
    · exact ⟨0, a, by simp, InvR.init⟩
  obtain ⟨k1, a1, e1, hI1⟩ := st1
  have hk1 := hI1.k2
  have hsz : s * (a.length - k1) - s * k1 = s * (a.length - 2 * k1) := by rw [← Nat.mul_sub]; congr 1; omega
  have st2 : ∃ k' a', (if 32 ≤ s * (a.length - 2 * k1) ∧ c.sse42 = true then reverseLoop s 16 (revSse s) (s * k1 + full (s * (a.length - 2 * k1) / 2) 16) (s * (a.length - 2 * k1) + 1)
      (s * k1) (s * (a.length - k1)) a1 else some (s * k1, s * (a.length - k1), a1)) = some (s * k', s * (a.length - k'), a') ∧ k1 ≤ k' ∧ InvR a k' a' := by
    split
    · next h =>
      obtain ⟨k', a', e, hk, hI⟩ := revStage hs0 p16 he (fun v h1 h2 => revSse_eq hs h1 h2) hI1 (f := s * (a.length - 2 * k1) + 1) (by omega) (by rw [h16]; omega)
      rw [h16] at e
      exact ⟨k', a', e, hk, hI⟩
    · exact ⟨k1, a1, rfl, Nat.le_refl _, hI1⟩
  obtain ⟨k2, a2, e2, hk12, hI2⟩ := st2
  have hk2 := hI2.k2
  have hszle : a.length - 2 * k1 ≤ s * (a.length - 2 * k1) := Nat.le_mul_of_pos_left _ hs0
  unfold reverse
  simp only [Option.bind_eq_bind, e1, Option.bind_some, hsz, e2]
  exact reverseTail_spec hs0 (a.length - 2 * k2) _ k2 a2 (by omega) (by omega) hI2

/-! ## reverse_copy -/

theorem rev_block {a : List Elem} {k c : Nat} (h : k + c ≤ a.length) : (a.reverse.drop k).take c = ((a.drop (a.length - k - c)).take c).reverse := by
  apply List.ext_getElem?
  intro i
  rw [List.getElem?_take]
  split
  · next hi =>
    rw [blk_get (by omega) _ hi, List.getElem?_drop, List.getElem?_reverse (by omega)]
    congr 1; omega
  · next hi => rw [List.getElem?_eq_none (by simp; omega)]

theorem rcopy_step {a0 d0 d : List Elem} {k r : Nat} (hk : k + r ≤ a0.length) (hd : a0.length ≤ d0.length) (h : InvD d0 (a0.reverse.take k) d) :
    InvD d0 (a0.reverse.take (k + r)) (wr d k ((a0.drop (a0.length - k - r)).take r).reverse) := by
  have := copy_step (f := id) (a0 := a0.reverse) (r := r) (by simpa using hk) (by simpa using hd) (by simpa using h)
  rw [rev_block hk] at this
  simpa using this

theorem reverseCopyLoop_spec {s c : Nat} (hs : 0 < s) (hc : 0 < c) {rev : List Elem → List Elem} {a0 d0 : List Elem} (he : ∀ x ∈ a0, x.length = s)
    (hrev : ∀ v : List Elem, v.length = c → (∀ x ∈ v, x.length = s) → rev v = v.reverse) (hd : a0.length ≤ d0.length) :
    ∀ (m f k : Nat) (d : List Elem), m < f → k + c * (m + 1) ≤ a0.length → InvD d0 (a0.reverse.take k) d →
      ∃ d', reverseCopyLoop s (s * c) rev a0 (s * (k + c * (m + 1))) f (s * (a0.length - k)) (s * k) d =
          some (s * (a0.length - (k + c * (m + 1))), s * (k + c * (m + 1)), d') ∧ InvD d0 (a0.reverse.take (k + c * (m + 1))) d'
  | m, 0, k, d, hf, _, _ => by omega
  | m, f + 1, k, d, hf, hk, hI => by
    have hcm : c ≤ c * (m + 1) := Nat.le_mul_of_pos_right c (Nat.succ_pos m)
    have hlen := hI.len
    have hkc : k + c ≤ a0.length := by omega
    have hsub : s * (a0.length - k) - s * c = s * (a0.length - k - c) := by rw [Nat.mul_sub s (a0.length - k) c]
    have l1 : ((a0.drop (a0.length - k - c)).take c).length = c := by simp; omega
    have hmem : ∀ x ∈ (a0.drop (a0.length - k - c)).take c, x.length = s := fun x hx => he x (List.mem_of_mem_drop (List.mem_of_mem_take hx))
    have e1 := ld_some hs (a := a0) (k := a0.length - k - c) (c := c) (by omega)
    have e3 := st_some hs (a := d) (k := k) (v := ((a0.drop (a0.length - k - c)).take c).reverse) (by rw [List.length_reverse, l1]; omega)
    have hI' := rcopy_step hkc hd hI
    unfold reverseCopyLoop
    rw [if_neg (by
      have : s * c ≤ s * (a0.length - k) := Nat.mul_le_mul_left _ (by omega)
      omega)]
    simp only [hsub, Option.bind_eq_bind, e1, Option.bind_some, hrev _ l1 hmem, e3]
    rw [← Nat.mul_add, show a0.length - k - c = a0.length - (k + c) by omega] at *
    match m with
    | 0 =>
      rw [if_neg (by simp)]
      exact ⟨_, by simp; rfl, by simpa using hI'⟩
    | m + 1 =>
      have e2 : k + c * (m + 1 + 1) = k + c + c * (m + 1) := by rw [Nat.mul_succ c (m + 1)]; omega
      have hpos : 0 < c * (m + 1) := Nat.mul_pos hc (Nat.succ_pos m)
      rw [if_pos (by
        intro h
        have := Nat.eq_of_mul_eq_mul_left hs h
        omega), e2]
      exact reverseCopyLoop_spec hs hc he hrev hd m f (k + c) _ (by omega) (by omega) hI'

theorem reverseCopyTail_spec {s : Nat} (hs : 0 < s) {a0 d0 : List Elem} (hd : a0.length ≤ d0.length) :
    ∀ (n f k : Nat) (d : List Elem), n < f → k + n = a0.length → InvD d0 (a0.reverse.take k) d →
      ∃ d', reverseCopyTail s a0 f (s * (a0.length - k)) (s * k) d = some d' ∧ InvD d0 a0.reverse d'
  | n, 0, k, d, hf, _, _ => by omega
  | 0, f + 1, k, d, hf, hk, hI => by
    unfold reverseCopyTail
    rw [List.take_of_length_le (by simp; omega)] at hI
    rw [if_neg (by rw [show a0.length - k = 0 by omega]; simp)]
    exact ⟨d, rfl, hI⟩
  | n + 1, f + 1, k, d, hf, hk, hI => by
    have hlen := hI.len
    have hsub : s * (a0.length - k) - s = s * (a0.length - k - 1) := by rw [Nat.mul_sub s (a0.length - k) 1, Nat.mul_one]
    have e1 := ld_some hs (a := a0) (k := a0.length - k - 1) (c := 1) (by omega)
    rw [Nat.mul_one, take_one (by omega)] at e1
    have e3 := st_some hs (a := d) (k := k) (v := [a0[a0.length - k - 1]]) (by simp; omega)
    have hI' := rcopy_step (r := 1) (by omega) hd hI
    rw [take_one (by omega)] at hI'
    simp only [List.reverse_singleton] at hI'
    have h1 : s * 1 ≤ s * (a0.length - k) := Nat.mul_le_mul_left _ (by omega)
    unfold reverseCopyTail
    rw [if_pos (by omega), if_neg (by omega)]
    simp only [hsub, Option.bind_eq_bind, e1, Option.bind_some, e3]
    rw [show s * k + s = s * (k + 1) by rw [Nat.mul_succ], show a0.length - k - 1 = a0.length - (k + 1) by omega] at *
    exact reverseCopyTail_spec hs hd n f (k + 1) _ (by omega) (by omega) hI'

theorem reverseCopyAvxTail_spec {s : Nat} (hs : Sz s) {a0 d0 : List Elem} (he : ∀ x ∈ a0, x.length = s) (hd : a0.length ≤ d0.length) {k : Nat} {d : List Elem}
    (hk : k = 32 / s * (a0.length / (32 / s))) (hI : InvD d0 (a0.reverse.take k) d) :
    ∃ d', reverseCopyAvxTail s a0 (s * (a0.length - k)) (s * k) d = some (s * (a0.length - (k + tailN s a0.length)), s * (k + tailN s a0.length), d') ∧
      InvD d0 (a0.reverse.take (k + tailN s a0.length)) d' := by
  have hs0 : 0 < s := hs.pos
  obtain ⟨t1, t2, _⟩ := tailN_le (n := a0.length) hs
  rw [Nat.mul_comm, ← hk] at t1
  have t3 := tail_le (n := a0.length) hs
  unfold reverseCopyAvxTail
  rw [tail_eq hs]
  generalize tailN s a0.length = r at *
  simp only []
  by_cases h0 : r = 0
  · subst h0
    exact ⟨d, by simp, by simpa using hI⟩
  · have hsub : s * (a0.length - k) - s * r = s * (a0.length - k - r) := by rw [Nat.mul_sub s (a0.length - k) r]
    rw [if_pos (by
      intro h
      rcases Nat.mul_eq_zero.1 h with h | h <;> omega), if_neg (by
        have : s * r ≤ s * (a0.length - k) := Nat.mul_le_mul_left _ (by omega)
        omega)]
    have hlen := hI.len
    have h2 : (32 - s * r) / s = 32 / s - r := by
      have := hs.v32
      conv => lhs; rw [← this]
      rw [← Nat.mul_sub, Nat.mul_div_cancel_left _ hs0]
    rw [hsub, ld_some hs0 (by omega)]
    simp only [Option.bind_eq_bind, Option.bind_some, h2]
    have l1 : ((a0.drop (a0.length - k - r)).take r).length = r := by simp; omega
    rw [revAvx_eq hs (by rw [List.length_append, l1]; simp; omega) (by
      intro x hx
      rcases List.mem_append.1 hx with hx | hx
      · rw [(List.mem_replicate.1 hx).2]; simp
      · exact he x (List.mem_of_mem_drop (List.mem_of_mem_take hx)))]
    rw [tailMask_eq hs0 t3, Nat.mul_div_cancel_left _ hs0, List.reverse_append, mst_rep _ _ _ _ _ (by simp; omega) (by omega),
      List.take_left' (by rw [List.length_reverse, l1])]
    simp only [Option.bind_some]
    rw [← Nat.mul_add, show a0.length - k - r = a0.length - (k + r) by omega]
    refine ⟨_, rfl, ?_⟩
    have := rcopy_step t1 hd hI
    rwa [show a0.length - k - r = a0.length - (k + r) by omega] at this

theorem reverseCopy_spec (c : Cpu) {s : Nat} (hs : Sz s) {a d : List Elem} (he : ∀ x ∈ a, x.length = s) (hd : a.length ≤ d.length) :
    reverseCopy c s a d = some (a.reverse ++ d.drop a.length) := by
  have hs0 : 0 < s := hs.pos
  have hsz : a.length ≤ s * a.length := Nat.le_mul_of_pos_left _ hs0
  suffices h : ∃ d', reverseCopy c s a d = some d' ∧ InvD d a.reverse d' by
    obtain ⟨d', e, hD⟩ := h
    rw [e, hD.eq, List.length_reverse]
  have h0 : InvD d (a.reverse.take 0) d := by simpa using InvD.init
  have main : ∀ v, 0 < v → ∀ rev : List Elem → List Elem, (∀ l : List Elem, l.length = v → (∀ x ∈ l, x.length = s) → rev l = l.reverse) → s * v ≤ s * a.length →
      ∃ d', reverseCopyLoop s (s * v) rev a (full (s * a.length) (s * v)) (s * a.length + 1) (s * a.length) 0 d =
        some (s * (a.length - v * (a.length / v)), s * (v * (a.length / v)), d') ∧ InvD d (a.reverse.take (v * (a.length / v))) d' := by
    intro v hv rev hrev hle
    rw [full_eq hs0]
    have hn : v ≤ a.length := Nat.le_of_mul_le_mul_left hle hs0
    obtain ⟨m, hm⟩ : ∃ m, a.length / v = m + 1 := ⟨a.length / v - 1, (Nat.sub_add_cancel (Nat.div_pos hn hv)).symm⟩
    have hle : v * (m + 1) ≤ a.length := by rw [← hm]; exact Nat.mul_div_le _ _
    have hdl := Nat.div_le_self a.length v
    rw [hm] at hdl
    have := reverseCopyLoop_spec hs0 hv he hrev hd m (s * a.length + 1) 0 d (by omega) (by omega) h0
    rw [hm]
    simpa using this
  unfold reverseCopy
  simp only []
  split
  · next h =>
    obtain ⟨d1, e1, hI1⟩ := main (32 / s) (by rcases hs with rfl | rfl | rfl | rfl <;> decide) (revAvx s) (fun v h1 h2 => revAvx_eq hs h1 h2) (by rw [hs.v32]; exact h.1)
    rw [hs.v32] at e1
    obtain ⟨d2, e2, hI2⟩ := reverseCopyAvxTail_spec hs he hd rfl hI1
    simp only [Option.bind_eq_bind, e1, e2, Option.bind_some]
    obtain ⟨t1, _, t4⟩ := tailN_le (n := a.length) hs
    rw [Nat.mul_comm] at t1 t4
    split
    · next h4 =>
      rw [t4 h4, List.take_of_length_le (by simp)] at hI2
      exact ⟨d2, rfl, hI2⟩
    · exact reverseCopyTail_spec hs0 hd (a.length - (32 / s * (a.length / (32 / s)) + tailN s a.length)) _ _ d2 (by omega) (by omega) hI2
  · split
    · next h =>
      obtain ⟨d1, e1, hI1⟩ := main (16 / s) (by rcases hs with rfl | rfl | rfl | rfl <;> decide) (revSse s) (fun v h1 h2 => revSse_eq hs h1 h2) (by rw [hs.v16]; exact h.1)
      rw [hs.v16] at e1
      simp only [Option.bind_eq_bind, e1, Option.bind_some]
      have hle := Nat.mul_div_le a.length (16 / s)
      exact reverseCopyTail_spec hs0 hd (a.length - 16 / s * (a.length / (16 / s))) _ _ d1 (by omega) (by omega) hI1
    · have := reverseCopyTail_spec hs0 hd a.length (s * a.length + 1) 0 d (by omega) (by omega) h0
      simpa using this

end STL.VWrite
