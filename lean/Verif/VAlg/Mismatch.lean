import Verif.VAlg.Find

/-! # mismatch. Proofs only. -/

namespace STL.VAlg

theorem bytes_length : ∀ s x, (bytes s x).length = s
  | 0, _ => rfl
  | s + 1, x => by simp [bytes, bytes_length s]

theorem bytes_inj : ∀ (s x y : Nat), x < 2 ^ (8 * s) → y < 2 ^ (8 * s) → bytes s x = bytes s y → x = y
  | 0, x, y, hx, hy, _ => by simp at hx hy; first | omega | simp_all
  | s + 1, x, y, hx, hy, h => by
    simp only [bytes, List.cons.injEq] at h
    have e : 2 ^ (8 * (s + 1)) = 2 ^ (8 * s) * 256 := by rw [Nat.mul_add, Nat.pow_add]
    rw [e] at hx hy
    have := bytes_inj s (x / 256) (y / 256) (by omega) (by omega) h.2
    omega

theorem toBytes_get {s : Nat} : ∀ (d : List Nat) (i r : Nat), r < s → (toBytes s d)[s * i + r]? = d[i]?.bind fun x => (bytes s x)[r]?
  | [], i, r, _ => by simp [toBytes]
  | x :: d, i, r, hr => by
    have e : toBytes s (x :: d) = bytes s x ++ toBytes s d := by simp [toBytes]
    rw [e]
    cases i with
    | zero => rw [Nat.mul_zero, Nat.zero_add, List.getElem?_append_left (by rw [bytes_length]; exact hr)]; rfl
    | succ i =>
      rw [List.getElem?_append_right (by rw [bytes_length, Nat.mul_add]; omega), bytes_length, show s * (i + 1) + r - s = s * i + r by rw [Nat.mul_add]; omega, toBytes_get d i r hr]
      simp

theorem toBytes_length {s : Nat} (d : List Nat) : (toBytes s d).length = s * d.length := by
  induction d with
  | nil => simp [toBytes]
  | cons x d ih =>
    have e : toBytes s (x :: d) = bytes s x ++ toBytes s d := by simp [toBytes]
    rw [e, List.length_append, ih, bytes_length, List.length_cons]; ring

/-- The mask of two registers. -/
theorem mm_mask {s c : Nat} (hs : 1 ≤ s) (h64 : s * c ≤ 64) {d e : List Nat} (hd : d.length = c) (he : e.length = c) (hdb : ∀ x ∈ d, x < 2 ^ (8 * s)) (heb : ∀ x ∈ e, x < 2 ^ (8 * s))
    {m : Nat} (hm : m = movemask 1 (List.zipWith (· == ·) (toBytes s d) (toBytes s e)) ^^^ (2 ^ (s * c) - 1)) :
    (m = 0 → d = e) ∧ (m ≠ 0 → ∃ j, tz m / s = j ∧ j < c ∧ d[j]? ≠ e[j]? ∧ ∀ i < j, d[i]? = e[i]?) := by
  have h1 : Msk 1 m (fun i => decide (i < s * c) && decide ((toBytes s d)[i]? ≠ (toBytes s e)[i]?)) := by
    rw [hm]
    have := (movemask_msk (le_refl 1) (List.zipWith (· == ·) (toBytes s d) (toBytes s e))).xor (le_refl 1) (s * c)
    rw [Nat.one_mul] at this
    refine this.congr fun i => ?_
    rw [List.getD_eq_getElem?_getD, List.getElem?_zipWith]
    by_cases hi : i < s * c
    · rw [List.getElem?_eq_getElem (by rw [toBytes_length, hd]; exact hi), List.getElem?_eq_getElem (by rw [toBytes_length, he]; exact hi)]
      by_cases hx : (toBytes s d)[i]'(by rw [toBytes_length, hd]; exact hi) = (toBytes s e)[i]'(by rw [toBytes_length, he]; exact hi) <;> simp [hi, hx]
    · rw [List.getElem?_eq_none (by rw [toBytes_length, hd]; omega)]
      simp [hi]
  have key : ∀ i, i < c → (∀ r < s, (toBytes s d)[s * i + r]? = (toBytes s e)[s * i + r]?) → d[i]? = e[i]? := by
    intro i hi hr
    have hdi : i < d.length := by omega
    have hei : i < e.length := by omega
    rw [List.getElem?_eq_getElem hdi, List.getElem?_eq_getElem hei]
    congr 1
    apply bytes_inj s _ _ (hdb _ (List.getElem_mem hdi)) (heb _ (List.getElem_mem hei))
    apply List.ext_getElem?
    intro r
    by_cases hrs : r < s
    · have := hr r hrs
      rw [toBytes_get _ _ _ hrs, toBytes_get _ _ _ hrs, List.getElem?_eq_getElem hdi, List.getElem?_eq_getElem hei] at this
      simpa using this
    · rw [List.getElem?_eq_none (by rw [bytes_length]; omega), List.getElem?_eq_none (by rw [bytes_length]; omega)]
  have hlt : ∀ i r, i < c → r < s → s * i + r < s * c := by
    intro i r hi hr
    have : s * (i + 1) ≤ s * c := Nat.mul_le_mul_left _ hi
    rw [Nat.mul_add] at this; omega
  constructor
  · intro h0
    have hF := (h1.zero (le_refl 1)).1 h0
    apply List.ext_getElem?
    intro i
    by_cases hi : i < c
    · apply key i hi
      intro r hr
      have := hF (s * i + r)
      simpa [hlt i r hi hr] using this
    · rw [List.getElem?_eq_none (by omega), List.getElem?_eq_none (by omega)]
  · intro h0
    have hm64 : m < 2 ^ 64 := by
      have := h1.lt (le_refl 1) (c := s * c) (fun i hi => by simp; omega)
      rw [Nat.one_mul] at this
      exact lt_of_lt_of_le this (Nat.pow_le_pow_right (by omega) h64)
    obtain ⟨j, g1, g2, g3⟩ := h1.tz (le_refl 1) h0 hm64
    rw [Nat.one_mul] at g1
    simp only [Bool.and_eq_true, decide_eq_true_eq] at g2
    have hjc : j / s < c := (Nat.div_lt_iff_lt_mul hs).2 (by rw [Nat.mul_comm]; exact g2.1)
    have hdm := Nat.div_add_mod j s
    have hml := Nat.mod_lt j hs
    refine ⟨j / s, by rw [g1], hjc, ?_, ?_⟩
    · intro heq
      apply g2.2
      rw [← hdm, toBytes_get _ _ _ hml, toBytes_get _ _ _ hml, heq]
    · intro i hi
      apply key i (by omega)
      intro r hr
      have hij : s * (i + 1) ≤ s * (j / s) := Nat.mul_le_mul_left _ hi
      rw [Nat.mul_add] at hij
      have := g3 (s * i + r) (by omega)
      simpa [hlt i r (by omega) hr] using this

/-- Index `i` is in both ranges and the elements are different. -/
def Qm (a b : List Nat) (n i : Nat) : Bool := decide (i < n) && decide (a[i]? ≠ b[i]?)

theorem chunk_get {a : List Nat} {k c i : Nat} (hi : i < c) : ((a.drop k).take c)[i]? = a[k + i]? := by
  rw [List.getElem?_take, if_pos hi, List.getElem?_drop]

theorem mem_chunk {a : List Nat} {k c B : Nat} (h : ∀ x ∈ a, x < B) : ∀ x ∈ (a.drop k).take c, x < B := fun x hx => h x (List.mem_of_mem_drop (List.mem_of_mem_take hx))

theorem mmLoop_spec {s c n : Nat} (hs : 1 ≤ s) (hc : 1 ≤ c) (h64 : s * c ≤ 64) {a b : List Nat} (ha : n ≤ a.length) (hb : n ≤ b.length) (hab : ∀ x ∈ a, x < 2 ^ (8 * s)) (hbb : ∀ x ∈ b, x < 2 ^ (8 * s)) {k' : Nat} (hk' : k' ≤ n) :
    ∀ (f q k : Nat), q < f → k' = k + q * c → (∀ i < k, Qm a b n i = false) →
      (∃ j, mmLoop s (s * c) a b (s * k') f (s * k) = some (.inl j) ∧ FirstAt (Qm a b n) j) ∨
      (mmLoop s (s * c) a b (s * k') f (s * k) = some (.inr (s * k')) ∧ ∀ i < k', Qm a b n i = false)
  | 0, q, k, h, _, _ => by omega
  | f + 1, 0, k, h, hk, hQ => by
    have : k' = k := by rw [hk]; ring
    subst this
    unfold mmLoop
    rw [if_neg (by simp)]
    exact Or.inr ⟨rfl, hQ⟩
  | f + 1, q + 1, k, h, hk, hQ => by
    have hkk : k' = (k + c) + q * c := by rw [hk]; ring
    have hne : s * k ≠ s * k' := by
      intro h
      have := Nat.eq_of_mul_eq_mul_left hs h
      omega
    unfold mmLoop
    rw [if_pos hne, ld_some hs (by omega : k + c ≤ a.length), ld_some hs (by omega : k + c ≤ b.length)]
    simp only [Option.bind_eq_bind, Option.bind_some]
    obtain ⟨p1, p2⟩ := mm_mask hs h64 (d := (a.drop k).take c) (e := (b.drop k).take c) (by simp; omega) (by simp; omega) (mem_chunk hab) (mem_chunk hbb) rfl
    generalize movemask 1 _ ^^^ _ = m at *
    by_cases hm0 : m = 0
    · rw [if_neg (by simp [hm0]), ← Nat.mul_add]
      refine mmLoop_spec hs hc h64 ha hb hab hbb hk' f q (k + c) (by omega) hkk ?_
      intro i hi
      by_cases hik : i < k
      · exact hQ i hik
      · have := congrArg (fun l : List Nat => l[i - k]?) (p1 hm0)
        rw [chunk_get (by omega), chunk_get (by omega), show k + (i - k) = i by omega] at this
        simp [Qm, this]
    · rw [if_pos hm0]
      obtain ⟨j, g1, g2, g3, g4⟩ := p2 hm0
      refine Or.inl ⟨k + j, by rw [Nat.mul_add_div hs, g1], ?_, ?_⟩
      · rw [chunk_get g2, chunk_get g2] at g3
        simp only [Qm, Bool.and_eq_true, decide_eq_true_eq]
        exact ⟨by omega, g3⟩
      · intro i hi
        by_cases hik : i < k
        · exact hQ i hik
        · have := g4 (i - k) (by omega)
          rw [chunk_get (by omega), chunk_get (by omega), show k + (i - k) = i by omega] at this
          simp [Qm, this]

theorem mmTail_spec {s n : Nat} (hs : Sz s) {a b : List Nat} (ha : n ≤ a.length) (hb : n ≤ b.length) (hab : ∀ x ∈ a, x < 2 ^ (8 * s)) (hbb : ∀ x ∈ b, x < 2 ^ (8 * s)) {k : Nat} (hk : k = n / (32 / s) * (32 / s)) (hQ : ∀ i < k, Qm a b n i = false) :
    (∃ j, mmTail s a b (s * n) (s * k) = some (.inl j) ∧ FirstAt (Qm a b n) j) ∨
    (mmTail s a b (s * n) (s * k) = some (.inr (s * (k + tailN s n))) ∧ ∀ i < k + tailN s n, Qm a b n i = false) := by
  obtain ⟨t1, t2, _⟩ := tailN_le (n := n) hs
  have h1 := hs.pos
  unfold mmTail
  rw [tail_eq hs]
  simp only []
  by_cases h0 : s * tailN s n = 0
  · have : tailN s n = 0 := by
      rcases Nat.mul_eq_zero.1 h0 with h | h <;> omega
    rw [if_neg (by simp [h0]), this]
    exact Or.inr ⟨rfl, hQ⟩
  · have hc' : tailN s n ≤ 32 / s := (Nat.le_div_iff_mul_le h1).2 (by rw [Nat.mul_comm]; exact t2)
    rw [if_pos h0, mld_some hs (by omega : k + tailN s n ≤ a.length) t2, mld_some hs (by omega : k + tailN s n ≤ b.length) t2]
    simp only [Option.bind_eq_bind, Option.bind_some]
    generalize tailN s n = t at *
    have hpos : 0 < 2 ^ (8 * s) := Nat.two_pow_pos _
    have hpad : ∀ l : List Nat, (∀ x ∈ l, x < 2 ^ (8 * s)) → ∀ x ∈ (l.drop k).take t ++ List.replicate (32 / s - t) 0, x < 2 ^ (8 * s) := by
      intro l hl x hx
      rcases List.mem_append.1 hx with hx | hx
      · exact mem_chunk hl x hx
      · rw [(List.mem_replicate.1 hx).2]; exact hpos
    obtain ⟨p1, p2⟩ := mm_mask (c := 32 / s) h1 (by rw [hs.v32]; omega) (d := (a.drop k).take t ++ List.replicate (32 / s - t) 0) (e := (b.drop k).take t ++ List.replicate (32 / s - t) 0)
      (by simp; omega) (by simp; omega) (hpad a hab) (hpad b hbb) rfl
    rw [hs.v32] at p1 p2
    have hget : ∀ (l : List Nat), n ≤ l.length → ∀ i < t, ((l.drop k).take t ++ List.replicate (32 / s - t) 0)[i]? = l[k + i]? := by
      intro l hl i hi
      rw [List.getElem?_append_left (by simp; omega), chunk_get hi]
    generalize movemask 1 _ ^^^ _ = m at *
    by_cases hm0 : m = 0
    · rw [if_neg (by simp [hm0]), ← Nat.mul_add]
      refine Or.inr ⟨rfl, ?_⟩
      intro i hi
      by_cases hik : i < k
      · exact hQ i hik
      · have := congrArg (fun l : List Nat => l[i - k]?) (p1 hm0)
        rw [hget a ha _ (by omega), hget b hb _ (by omega), show k + (i - k) = i by omega] at this
        simp [Qm, this]
    · rw [if_pos hm0]
      obtain ⟨j, g1, g2, g3, g4⟩ := p2 hm0
      have hjt : j < t := by
        by_contra hc
        apply g3
        rw [List.getElem?_append_right (by simp; omega), List.getElem?_append_right (by simp; omega)]
        simp [List.getElem?_replicate, show min t (a.length - k) = t by omega, show min t (b.length - k) = t by omega]
      refine Or.inl ⟨k + j, by rw [Nat.mul_add_div h1, g1], ?_, ?_⟩
      · rw [hget a ha j hjt, hget b hb j hjt] at g3
        simp only [Qm, Bool.and_eq_true, decide_eq_true_eq]
        exact ⟨by omega, g3⟩
      · intro i hi
        by_cases hik : i < k
        · exact hQ i hik
        · have := g4 (i - k) (by omega)
          rw [hget a ha _ (by omega), hget b hb _ (by omega), show k + (i - k) = i by omega] at this
          simp [Qm, this]

theorem mmScalar_spec {n : Nat} {a b : List Nat} (ha : n ≤ a.length) (hb : n ≤ b.length) : ∀ (f k : Nat), n - k < f → k ≤ n → (∀ i < k, Qm a b n i = false) →
    ∃ j, mmScalar a b n f k = some j ∧ (FirstAt (Qm a b n) j ∨ (j = n ∧ ∀ i < n, Qm a b n i = false))
  | 0, k, h, _, _ => by omega
  | f + 1, k, h, hk, hQ => by
    unfold mmScalar
    by_cases he : k = n
    · rw [if_neg (by simp [he])]
      exact ⟨k, rfl, Or.inr ⟨he, he ▸ hQ⟩⟩
    · have ha' : k < a.length := by omega
      have hb' : k < b.length := by omega
      have hq : Qm a b n k = decide (a[k] ≠ b[k]) := by simp [Qm, ha', hb', show k < n by omega]
      rw [if_pos he, List.getElem?_eq_getElem ha', List.getElem?_eq_getElem hb']
      simp only
      by_cases hx : a[k] = b[k]
      · rw [if_neg (by simp [hx])]
        refine mmScalar_spec ha hb f (k + 1) (by omega) (by omega) ?_
        intro i hi
        rcases Nat.lt_succ_iff_lt_or_eq.1 hi with h | rfl
        · exact hQ i h
        · rw [hq]; simp [hx]
      · rw [if_pos hx]
        exact ⟨k, rfl, Or.inl ⟨by rw [hq]; simp [hx], hQ⟩⟩

theorem mismatch_spec {s n : Nat} (c : Cpu) (hs : Sz s) {a b : List Nat} (ha : n ≤ a.length) (hb : n ≤ b.length) (hab : ∀ x ∈ a, x < 2 ^ (8 * s)) (hbb : ∀ x ∈ b, x < 2 ^ (8 * s)) :
    ∃ j, mismatch c s a b n = some j ∧ (FirstAt (Qm a b n) j ∨ (j = n ∧ ∀ i < n, Qm a b n i = false)) := by
  have h1 := hs.pos
  have hle : n ≤ s * n := Nat.le_mul_of_pos_left _ h1
  have sc : ∀ k, k ≤ n → (∀ i < k, Qm a b n i = false) → ∃ j, mmScalar a b n (n + 1) k = some j ∧ (FirstAt (Qm a b n) j ∨ (j = n ∧ ∀ i < n, Qm a b n i = false)) :=
    fun k hk hQ => mmScalar_spec ha hb _ k (by omega) hk hQ
  have lp : ∀ V cc, 1 ≤ cc → V = s * cc → V ≤ 64 → 
      (∃ j, mmLoop s V a b (full (s * n) V) (s * n + 1) 0 = some (.inl j) ∧ FirstAt (Qm a b n) j) ∨
      (mmLoop s V a b (full (s * n) V) (s * n + 1) 0 = some (.inr (s * (n / cc * cc))) ∧ ∀ i < n / cc * cc, Qm a b n i = false) := by
    rintro V cc hcc rfl hV
    rw [full_eq h1 rfl]
    have hq : n / cc ≤ n := Nat.div_le_self _ _
    have := mmLoop_spec h1 hcc hV ha hb hab hbb (Nat.div_mul_le_self n cc) (s * n + 1) (n / cc) 0 (by omega) (by rw [Nat.zero_add]) (by intro i hi; omega)
    rwa [Nat.mul_zero] at this
  unfold mismatch
  rw [Nat.mul_comm n s]
  split
  · simp only
    rcases lp 32 (32 / s) (by rcases hs with rfl | rfl | rfl | rfl <;> decide) hs.v32.symm (by omega) with ⟨j, e, hj⟩ | ⟨e, hQ⟩
    · rw [e]; exact ⟨j, rfl, Or.inl hj⟩
    · rw [e]
      simp only [Option.bind_eq_bind, Option.bind_some]
      obtain ⟨t1, t2, t3⟩ := tailN_le (n := n) hs
      rcases mmTail_spec hs ha hb hab hbb rfl hQ with ⟨j, e, hj⟩ | ⟨e, hQ⟩
      · rw [e]; exact ⟨j, rfl, Or.inl hj⟩
      · rw [e]
        simp only [Option.bind_some]
        rw [Nat.mul_div_cancel_left _ h1]
        split
        · rename_i h4
          exact ⟨_, rfl, Or.inr ⟨t3 h4, fun i hi => hQ i (by rw [t3 h4]; exact hi)⟩⟩
        · exact sc _ (by omega) hQ
  · split
    · rcases lp 16 (16 / s) (by rcases hs with rfl | rfl | rfl | rfl <;> decide) hs.v16.symm (by omega) with ⟨j, e, hj⟩ | ⟨e, hQ⟩
      · rw [e]; exact ⟨j, rfl, Or.inl hj⟩
      · rw [e]
        simp only [Option.bind_eq_bind, Option.bind_some]
        rw [Nat.mul_div_cancel_left _ h1]
        exact sc _ (Nat.div_mul_le_self _ _) hQ
    · exact sc 0 (by omega) (by intro i hi; omega)

end STL.VAlg
