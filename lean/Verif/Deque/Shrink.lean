import Verif.Deque.Grow

/-! # `deque`: `clear`, the destructor and `shrink_to_fit`. Proofs only. -/

namespace STL.Deque
open STL
variable {T : Type _}

theorem popBackN_spec {B maxsz : Nat} (n : Nat) : ∀ {d : Dq T} {l : List T}, Rep B maxsz d l → n ≤ l.length →
    ∃ d', popBackN B n d = .ok d' ∧ Rep B maxsz d' (l.take (l.length - n)) ∧ (∀ i < l.length - n, addrs B d' i = addrs B d i) := by
  induction n with
  | zero => intro d l h _; exact ⟨d, rfl, by simpa using h, fun _ _ => rfl⟩
  | succ n ih =>
    intro d l h hn
    obtain ⟨l', x, rfl⟩ : ∃ l' x, l = l' ++ [x] := by
      rcases List.eq_nil_or_concat l with e | ⟨l', x, e⟩
      · subst e; simp at hn
      · exact ⟨l', x, by simpa using e⟩
    simp only [List.length_append, List.length_cons, List.length_nil] at hn
    obtain ⟨d1, e1, r1, a1⟩ := popBack_spec h
    obtain ⟨d2, e2, r2, a2⟩ := ih r1 (by omega)
    refine ⟨d2, by rw [popBackN, e1, R.ok_bind, e2], ?_, fun i hi => ?_⟩
    · have : (l' ++ [x]).length - (n + 1) = l'.length - n := by simp
      rw [this, List.take_append_of_le_length (by omega)]; exact r2
    · simp only [List.length_append, List.length_cons, List.length_nil] at hi
      rw [a2 i (by omega), a1 i (by omega)]

theorem popFrontN_spec {B maxsz : Nat} (hB0 : 0 < B) (n : Nat) : ∀ {d : Dq T} {l : List T}, Rep B maxsz d l → n ≤ l.length →
    ∃ d', popFrontN B n d = .ok d' ∧ Rep B maxsz d' (l.drop n) ∧ (∀ i < l.length - n, addrs B d' i = addrs B d (i + n)) := by
  induction n with
  | zero => intro d l h _; exact ⟨d, rfl, by simpa using h, fun _ _ => rfl⟩
  | succ n ih =>
    intro d l h hn
    cases l with
    | nil => simp at hn
    | cons x l =>
      simp only [List.length_cons] at hn
      obtain ⟨d1, e1, r1, a1⟩ := popFront_spec hB0 h
      obtain ⟨d2, e2, r2, a2⟩ := ih r1 (by omega)
      refine ⟨d2, by rw [popFrontN, e1, R.ok_bind, e2], by simpa using r2, fun i hi => ?_⟩
      simp only [List.length_cons] at hi
      rw [a2 i (by omega), a1 (i + n) (by omega), Nat.add_assoc]

/-- Effect of freeing the block at map index `j`. -/
theorem freeBlk_spec {B maxsz : Nat} {d : Dq T} (h : Core B maxsz d) {j : Nat} (hj : j < d.map.length)
    (hnone : ∀ k < B, cellAt d j k = none) :
    ∃ d', freeBlk B d j = .ok d' ∧ Core B maxsz d' ∧ d'.map = d.map.set j none ∧ d'.off = d.off ∧ d'.size = d.size ∧
      (∀ i, ∀ k < B, cellAt d' i k = cellAt d i k) := by
  unfold freeBlk
  have hjg := List.getElem?_eq_getElem hj
  rw [hjg]
  cases hm : d.map[j] with
  | none =>
    simp only
    refine ⟨d, rfl, h, ?_, rfl, rfl, fun _ _ _ => rfl⟩
    rw [← hm]; simp
  | some b =>
    rw [hm] at hjg
    obtain ⟨c, hc⟩ := Option.isSome_iff_exists.1 ((h.alloc b).2 (List.mem_of_getElem? hjg))
    have hnone' : ∀ k < B, c k = none := by
      intro k hk; have := hnone k hk; unfold cellAt at this; rw [hjg] at this; simpa [hc] using this
    simp only [hc]
    rw [if_pos (fun k hk => by rw [hnone' k hk]; rfl)]
    have hget : ∀ i b' : Nat, (d.map.set j none)[i]? = some (some b') ↔ i ≠ j ∧ d.map[i]? = some (some b') := by
      intro i b'
      rw [List.getElem?_set]
      by_cases e : j = i
      · subst e; simp [hj]
      · simp [e, Ne.symm e]
    refine ⟨_, rfl, ⟨by simpa using h.pow, by simpa using h.maxM, ?_, ?_, ?_⟩, rfl, rfl, rfl, ?_⟩
    · intro i i' b' h1 h2
      exact h.inj _ _ _ ((hget _ _).1 h1).2 ((hget _ _).1 h2).2
    · intro b'
      simp only
      constructor
      · intro hb
        split at hb
        · cases hb
        · rename_i hne
          obtain ⟨i, hi⟩ := List.mem_iff_getElem?.1 ((h.alloc b').1 hb)
          refine List.mem_of_getElem? ((hget i _).2 ⟨?_, hi⟩)
          rintro rfl
          rw [hjg] at hi; simp only [Option.some.injEq] at hi; exact hne hi.symm
      · intro hb
        obtain ⟨i, hi⟩ := List.mem_iff_getElem?.1 hb
        obtain ⟨hne, hi'⟩ := (hget i _).1 hi
        rw [if_neg]
        · exact (h.alloc b').2 (List.mem_of_getElem? hi')
        · rintro rfl; exact hne (h.inj _ _ _ hi' hjg)
    · intro b' hb
      simp only at hb
      split at hb
      · cases hb
      · exact h.fresh b' hb
    · intro i k hk
      unfold cellAt
      simp only
      by_cases e : i = j
      · subst e
        rw [List.getElem?_set, if_pos rfl, if_pos hj, hjg]
        simp [hc, hnone' k hk]
      · rw [List.getElem?_set, if_neg (Ne.symm e)]
        cases hi : d.map[i]? with
        | none => rfl
        | some o =>
          cases o with
          | none => rfl
          | some b' =>
            simp only
            rw [if_neg]
            rintro rfl
            exact e (h.inj _ _ _ hi hjg)

theorem freeAll_spec {B maxsz : Nat} (n : Nat) : ∀ {d : Dq T}, Core B maxsz d → n ≤ d.map.length → (∀ j, ∀ k < B, cellAt d j k = none) →
    ∃ d', freeAll B n d = .ok d' ∧ Core B maxsz d' ∧ d'.map.length = d.map.length ∧ d'.off = d.off ∧ d'.size = d.size ∧
      (∀ j, ∀ k < B, cellAt d' j k = none) ∧ (∀ j < n, d'.map[j]? = some none) ∧ (∀ j, n ≤ j → d'.map[j]? = d.map[j]?) := by
  induction n with
  | zero => intro d h _ hn; exact ⟨d, rfl, h, rfl, rfl, rfl, hn, by simp, fun _ _ => rfl⟩
  | succ n ih =>
    intro d h hn hnone
    obtain ⟨d1, e1, c1, m1, o1, s1, k1⟩ := freeBlk_spec h (j := n) (by omega) (hnone n)
    have hl1 : d1.map.length = d.map.length := by rw [m1]; simp
    obtain ⟨d2, e2, c2, l2, o2, s2, k2, z2, y2⟩ := ih c1 (by omega) (fun j k hk => by rw [k1 j k hk]; exact hnone j k hk)
    refine ⟨d2, by rw [freeAll, e1, R.ok_bind, e2], c2, by omega, by rw [o2, o1], by rw [s2, s1], k2, fun j hj => ?_, fun j hj => ?_⟩
    · by_cases e : j = n
      · subst e; rw [y2 j (le_refl _), m1, List.getElem?_set, if_pos rfl, if_pos (by omega)]
      · exact z2 j (by omega)
    · rw [y2 j (by omega), m1, List.getElem?_set, if_neg (by omega)]

theorem all_none {B maxsz : Nat} (hB0 : 0 < B) {d : Dq T} (h : Rep B maxsz d []) (j k : Nat) (hk : k < B) : cellAt d j k = none := by
  by_cases hj : j < d.map.length
  · have hN : 0 < d.map.length * B := Nat.mul_pos (by omega) hB0
    obtain ⟨i, hi, he⟩ := window_surj (o := d.off) (p := j * B + k) hN
    have hc := h.cells i hi
    rw [atp_congr he] at hc
    unfold atp at hc
    rw [Nat.mul_comm j B, Nat.mul_add_div hB0, Nat.div_eq_of_lt hk, Nat.add_zero, Nat.mod_eq_of_lt hj, Nat.mul_add_mod, Nat.mod_eq_of_lt hk] at hc
    simpa using hc
  · unfold cellAt; rw [List.getElem?_eq_none (by omega)]

/-- A deque without storage. -/
theorem rep_nomap {B maxsz : Nat} {d : Dq T} (hm : d.map = []) (ho : d.off = 0) (hs : d.size = 0) (hb : ∀ b, d.blk b = none) :
    Rep B maxsz d [] := by
  refine ⟨⟨Or.inl (by rw [hm]; rfl), by rw [hm]; simp, by rw [hm]; simp, fun b => by rw [hb, hm]; simp, fun b h => by rw [hb] at h; cases h⟩,
    hs, fun _ => ho, by rw [ho, hs, hm]; simp, by rw [ho, hs]; simp, fun i hi => by rw [hm] at hi; simp at hi⟩

theorem resetMap_spec {B maxsz : Nat} (hB0 : 0 < B) {d : Dq T} (h : Rep B maxsz d []) :
    ∃ d', resetMap B d = .ok d' ∧ d'.map = [] ∧ d'.off = 0 ∧ d'.size = 0 ∧ (∀ b, d'.blk b = none) := by
  obtain ⟨d1, e1, c1, l1, o1, s1, k1, z1, _⟩ := freeAll_spec d.map.length h.core (le_refl _) (all_none hB0 h)
  refine ⟨_, by rw [resetMap, e1, R.ok_bind], rfl, ?_, ?_, fun b => ?_⟩
  · show d1.off = 0
    rw [o1]; exact h.off0 rfl
  · show d1.size = 0
    rw [s1, h.size]; rfl
  · show d1.blk b = none
    by_contra hc
    have := (c1.alloc b).1 (Option.isSome_iff_ne_none.2 hc)
    obtain ⟨i, hi⟩ := List.mem_iff_getElem?.1 this
    have hil : i < d1.map.length := by
      by_contra hge
      rw [List.getElem?_eq_none (by omega)] at hi; cases hi
    rw [z1 i (by omega)] at hi
    cases hi

/-- **`clear()` / the destructor**: every element is destroyed, every block and the map are freed. -/
theorem tidy_spec {B maxsz : Nat} (hB0 : 0 < B) {d : Dq T} {l : List T} (h : Rep B maxsz d l) :
    ∃ d', tidy B d = .ok d' ∧ Rep B maxsz d' [] ∧ d'.map = [] ∧ (∀ b, d'.blk b = none) := by
  obtain ⟨d1, e1, r1, _⟩ := popBackN_spec (B := B) (maxsz := maxsz) l.length h (le_refl _)
  simp only [Nat.sub_self, List.take_zero] at r1
  unfold tidy
  rw [h.size, e1, R.ok_bind]
  by_cases hm : d1.map = []
  · rw [if_neg (by simpa using hm)]
    refine ⟨d1, rfl, r1, hm, fun b => ?_⟩
    by_contra hc
    have := (r1.core.alloc b).1 (Option.isSome_iff_ne_none.2 hc)
    rw [hm] at this; cases this
  · rw [if_pos hm]
    obtain ⟨d2, e2, m2, o2, s2, b2⟩ := resetMap_spec hB0 r1
    exact ⟨d2, e2, rep_nomap m2 o2 s2 b2, m2, b2⟩

/-! ## `shrink_to_fit` -/

theorem newCount_spec {used : Nat} (f : Nat) : ∀ n, used < n * 2 ^ f → (∃ k, n = 2 ^ (k + 3)) →
    ∃ m, newCount used (f + 1) n = .ok m ∧ used ≤ m ∧ (∃ k, m = 2 ^ (k + 3)) := by
  induction f with
  | zero =>
    intro n hn hp
    simp only [pow_zero, Nat.mul_one] at hn
    exact ⟨n, by rw [newCount, if_neg (by omega)], by omega, hp⟩
  | succ f ih =>
    intro n hn hp
    by_cases c : n < used
    · rw [newCount, if_pos c]
      obtain ⟨k, hk⟩ := hp
      refine ih (n * 2) ?_ ⟨k + 1, by rw [hk]; ring⟩
      rw [pow_succ] at hn
      calc used < n * (2 ^ f * 2) := hn
        _ = n * 2 * 2 ^ f := by ring
    · exact ⟨n, by rw [newCount, if_neg c], by omega, hp⟩

theorem freeUnused_spec {B maxsz : Nat} {uf M : Nat} (n : Nat) : ∀ {d : Dq T} {u : Nat} {fuel : Nat}, Core B maxsz d → d.map.length = M → 0 < M →
    u + n = uf + M → uf < u → n < fuel → (∀ v, u ≤ v → v < uf + M → ∀ k < B, cellAt d (v % M) k = none) →
    ∃ d', freeUnused B (M - 1) (uf % M) fuel (u % M) d = .ok d' ∧ Core B maxsz d' ∧ d'.map.length = M ∧ d'.off = d.off ∧ d'.size = d.size ∧
      (∀ j, ∀ k < B, cellAt d' j k = cellAt d j k) ∧ (∀ v, u ≤ v → v < uf + M → d'.map[v % M]? = some none) ∧
      (∀ v, uf ≤ v → v < u → d'.map[v % M]? = d.map[v % M]?) := by
  induction n with
  | zero =>
    intro d u fuel h hl hM hu hlt hf hnone
    obtain ⟨fuel, rfl⟩ : ∃ g, fuel = g + 1 := ⟨fuel - 1, by omega⟩
    have : u % M = uf % M := by rw [show u = uf + M by omega, Nat.add_mod_right]
    rw [freeUnused, if_neg (by simpa using this)]
    exact ⟨d, rfl, h, hl, rfl, rfl, fun _ _ _ => rfl, fun v h1 h2 => by omega, fun _ _ _ => rfl⟩
  | succ n ih =>
    intro d u fuel h hl hM hu hlt hf hnone
    obtain ⟨fuel, rfl⟩ : ∃ g, fuel = g + 1 := ⟨fuel - 1, by omega⟩
    have hne : u % M ≠ uf % M := by
      intro e
      have h1 : uf + (u - uf) = u := by omega
      have := window_inj (N := M) (o := uf) (i := u - uf) (j := 0) (by omega) hM (by rw [h1]; simpa using e)
      omega
    rw [freeUnused, if_pos hne]
    obtain ⟨d1, e1, c1, m1, o1, s1, k1⟩ := freeBlk_spec h (j := u % M) (by rw [hl]; exact Nat.mod_lt _ hM) (hnone u (le_refl _) (by omega))
    have hl1 : d1.map.length = M := by rw [m1]; simpa using hl
    obtain ⟨k, hk⟩ := core_pos h (by omega)
    have hmask : (u % M + 1) &&& (M - 1) = (u + 1) % M := by
      rw [hl] at hk
      rw [hk, Nat.and_two_pow_sub_one_eq_mod, Nat.mod_add_mod]
    obtain ⟨d2, e2, c2, l2, o2, s2, k2, z2, y2⟩ := ih (d := d1) (u := u + 1) (fuel := fuel) c1 hl1 hM (by omega) (by omega) (by omega)
      (fun v h1 h2 k hk => by rw [k1 _ k hk]; exact hnone v (by omega) h2 k hk)
    have hinj : ∀ v, uf ≤ v → v < uf + M → v % M = u % M → v = u := by
      intro v h1 h2 e
      have a1 : uf + (v - uf) = v := by omega
      have a2 : uf + (u - uf) = u := by omega
      have := window_inj (N := M) (o := uf) (i := v - uf) (j := u - uf) (by omega) (by omega) (by rw [a1, a2]; exact e)
      omega
    refine ⟨d2, by rw [e1, R.ok_bind, hmask, e2], c2, l2, by rw [o2, o1], by rw [s2, s1], fun j k hk => by rw [k2 j k hk, k1 j k hk],
      fun v h1 h2 => ?_, fun v h1 h2 => ?_⟩
    · by_cases e : v = u
      · subst e
        rw [y2 v (by omega) (by omega), m1, List.getElem?_set, if_pos rfl, if_pos (by rw [hl]; exact Nat.mod_lt _ hM)]
      · exact z2 v (by omega) h2
    · rw [y2 v h1 (by omega), m1, List.getElem?_set, if_neg (fun e => by have := hinj v h1 (by omega) e.symm; omega)]

theorem shrunk_get {map : List (Option Nat)} {uf M used n : Nat} (q : Nat) {k : Nat} (hM : M = 2 ^ k) (hu : used ≤ n) :
    (shrunkMap map (uf % M) (M - 1) used n)[q]?.join = if q < used then map[(uf + q) % M]?.join else none := by
  unfold shrunkMap
  rw [List.getElem?_append]
  simp only [List.length_map, List.length_range]
  by_cases c : q < used
  · rw [if_pos c, if_pos c]
    rw [List.getElem?_map, List.getElem?_range c]
    simp only [Option.map_some, Option.join_some]
    rw [hM, Nat.and_two_pow_sub_one_eq_mod, Nat.mod_add_mod]
  · rw [if_neg c, if_neg c, List.getElem?_replicate]; split <;> rfl

/-- **`shrink_to_fit`** keeps the sequence and the addresses of all elements. -/
theorem shrink_spec {B maxsz : Nat} (hB0 : 0 < B) {d : Dq T} {l : List T} (h : Rep B maxsz d l) (f : Fail) :
    ∃ d' e, shrink B d f = .ok (d', e) ∧ Rep B maxsz d' l ∧ (∀ i < l.length, addrs B d' i = addrs B d i) ∧ (e ≠ none → f ≠ .no) := by
  unfold shrink
  by_cases hs0 : d.size = 0
  · rw [if_pos hs0]
    have hl : l = [] := by have := h.size; rw [hs0] at this; exact List.length_eq_zero_iff.1 this.symm
    subst hl
    by_cases hm : d.map = []
    · rw [if_neg (by simpa using hm)]
      exact ⟨d, none, rfl, h, by simp, by simp⟩
    · rw [if_pos hm]
      obtain ⟨d2, e2, m2, o2, s2, b2⟩ := resetMap_spec hB0 h
      rw [e2, R.ok_bind]
      exact ⟨d2, none, rfl, rep_nomap m2 o2 s2 b2, by simp, by simp⟩
  · rw [if_neg hs0]
    have hspan := h.span
    have hN0 : 0 < d.map.length * B := by omega
    have hM : 0 < d.map.length := by
      rcases Nat.eq_zero_or_pos d.map.length with h0 | h0
      · rw [h0] at hN0; simp at hN0
      · exact h0
    obtain ⟨k, hk⟩ := core_pos h.core hM
    obtain ⟨M, hMd⟩ : ∃ M, M = d.map.length := ⟨_, rfl⟩
    obtain ⟨uf, huf⟩ : ∃ uf, uf = d.off / B := ⟨_, rfl⟩
    obtain ⟨uu, huu⟩ : ∃ uu, uu = (d.off + d.size - 1) / B + 1 := ⟨_, rfl⟩
    obtain ⟨o2, ho2⟩ : ∃ o2, o2 = d.off % B := ⟨_, rfl⟩
    have hdm : B * uf + o2 = d.off := by rw [huf, ho2]; exact Nat.div_add_mod _ _
    have ho2' : o2 < B := by rw [ho2]; exact Nat.mod_lt _ hB0
    rw [← ho2, ← hMd] at hspan
    have huu1 : d.off + d.size ≤ B * uu := by
      have h1 := Nat.div_add_mod (d.off + d.size - 1) B
      have h2 := Nat.mod_lt (d.off + d.size - 1) hB0
      rw [huu, Nat.mul_add, Nat.mul_one]; omega
    have huu2 : uu ≤ uf + M := by
      rw [huu, Nat.succ_le_iff, Nat.div_lt_iff_lt_mul hB0, Nat.add_mul, Nat.mul_comm uf]; omega
    have huu3 : uf < uu := by
      rw [huf, huu, Nat.lt_succ_iff]; exact Nat.div_le_div_right (by omega)
    have m1 : ∀ x, x &&& (d.map.length - 1) = x % d.map.length := by intro x; rw [hk, Nat.and_two_pow_sub_one_eq_mod]
    have hfree : ∀ v, uu ≤ v → v < uf + M → ∀ k < B, cellAt d (v % M) k = none := by
      intro v h1 h2 k hk
      have a1 : B * uu ≤ B * v := Nat.mul_le_mul_left _ h1
      have a2 : B * v + B ≤ B * uf + B * M := by rw [← Nat.mul_succ, ← Nat.mul_add]; exact Nat.mul_le_mul_left _ h2
      rw [Nat.mul_comm B M] at a2
      have := h.cells (B * v + k - d.off) (by rw [← hMd]; omega)
      rw [show d.off + (B * v + k - d.off) = B * v + k by omega] at this
      unfold atp at this
      rw [Nat.mul_add_div hB0, Nat.div_eq_of_lt hk, Nat.add_zero, Nat.mul_add_mod, Nat.mod_eq_of_lt hk, ← hMd] at this
      rw [this, List.getElem?_eq_none_iff, ← h.size]; omega
    obtain ⟨d1, e1, c1, l1, of1, s1, k1, z1, y1⟩ := freeUnused_spec (uf := uf) (M := M) (uf + M - uu) (d := d) (u := uu) (fuel := M + 1) h.core hMd.symm (by omega) (by omega) huu3 (by omega) hfree
    simp only
    rw [m1, m1, ← huf, ← huu, ← hMd, e1, R.ok_bind]
    have hr1 : Rep B maxsz d1 l := by
      refine ⟨c1, by rw [s1, h.size], fun hl => by rw [of1]; exact h.off0 hl, by rw [of1, s1, l1, hMd]; exact h.span, by rw [of1, s1, l1, hMd]; exact h.sum, fun i hi => ?_⟩
      rw [← h.cells i (by rw [← hMd, ← l1]; exact hi)]
      unfold atp
      rw [of1, l1, ← hMd, k1 _ _ (Nat.mod_lt _ hB0)]
    have hposblk : ∀ i < l.length, uf ≤ (d.off + i) / B ∧ (d.off + i) / B < uu := by
      intro i hi
      rw [← h.size] at hi
      refine ⟨by rw [huf]; exact Nat.div_le_div_right (by omega), ?_⟩
      rw [Nat.div_lt_iff_lt_mul hB0, Nat.mul_comm]; omega
    have ha1 : ∀ i < l.length, addrs B d1 i = addrs B d i := by
      intro i hi
      unfold addrs
      obtain ⟨b1, b2⟩ := hposblk i hi
      rw [of1, l1, ← hMd, y1 _ b1 b2]
    obtain ⟨used, hus⟩ : ∃ used, used = uu - uf := ⟨_, rfl⟩
    obtain ⟨n, hn, hn1, hn2⟩ := newCount_spec (used := used) used 8 (by have := Nat.lt_two_pow_self (n := used); omega) ⟨0, rfl⟩
    rw [← hus, hn, R.ok_bind, l1]
    by_cases hge : n ≥ M
    · rw [if_pos hge]
      exact ⟨d1, none, rfl, hr1, ha1, by simp⟩
    · rw [if_neg hge]
      by_cases hf : f = .mapAlloc
      · rw [if_pos hf]
        exact ⟨d1, some .badAlloc, rfl, hr1, ha1, fun _ => by rw [hf]; simp⟩
      · rw [if_neg hf]
        have hM2 : M = 2 ^ (k + 3) := by rw [hMd, hk]
        have hget := fun q => shrunk_get (map := d1.map) (uf := uf) (M := M) (used := used) (n := n) q hM2 hn1
        have hlen : (shrunkMap d1.map (uf % M) (M - 1) used n).length = n := by simp [shrunkMap]; omega
        have husM : used ≤ M := by omega
        have hsz : o2 + d.size ≤ used * B := by
          have : used * B + B * uf = B * uu := by rw [Nat.mul_comm used, ← Nat.mul_add]; congr 1; omega
          omega
        have hn0 : 0 < n := by obtain ⟨k', e⟩ := hn2; rw [e]; exact Nat.two_pow_pos _
        have hB2 : used * B ≤ n * B := Nat.mul_le_mul_right _ hn1
        have hB3 : used * B ≤ M * B := Nat.mul_le_mul_right _ husM
        refine ⟨_, none, rfl, ?_, ?_, by simp⟩
        · refine ⟨⟨Or.inr (by simpa only [hlen] using hn2), by simp only [hlen]; have := h.core.maxM; omega, ?_, ?_, c1.fresh⟩, by simp only [s1, h.size],
            fun hl => by simp only [of1]; rw [h.off0 hl]; simp, ?_, ?_, ?_⟩
          · intro i j b hi hj
            rw [join_some] at hi hj
            simp only at hi hj
            rw [hget] at hi hj
            split at hi <;> [skip; cases hi]
            split at hj <;> [skip; cases hj]
            have := c1.inj _ _ _ (join_some.2 hi) (join_some.2 hj)
            exact window_inj (by omega) (by omega) this
          · intro b
            rw [c1.alloc b]
            simp only
            constructor
            · intro hb
              obtain ⟨j, hj⟩ := List.mem_iff_getElem?.1 hb
              have hjl : j < M := by
                by_contra hc; rw [List.getElem?_eq_none (by omega)] at hj; cases hj
              obtain ⟨i, hi, he⟩ := window_surj (N := M) (o := uf) (p := j) (by omega)
              rw [Nat.mod_eq_of_lt hjl] at he
              by_cases c : i < used
              · refine List.mem_of_getElem? (i := i) (join_some.2 ?_)
                rw [hget, if_pos c, he]; exact join_some.1 hj
              · have := z1 (uf + i) (by omega) (by omega)
                rw [he, hj] at this; cases this
            · intro hb
              obtain ⟨j, hj⟩ := List.mem_iff_getElem?.1 hb
              rw [join_some, hget] at hj
              split at hj <;> [skip; cases hj]
              exact List.mem_of_getElem? (join_some.2 hj)
          · simp only [hlen, of1, s1, ← ho2, Nat.mod_eq_of_lt ho2']; omega
          · simp only [hlen, of1, s1, ← ho2]
            have : n * B ≤ (2 * n - 1) * B := Nat.mul_le_mul_right _ (by omega)
            omega
          · intro i hi
            simp only [hlen] at hi
            unfold atp
            simp only [hlen, of1, ← ho2]
            rw [cellAt_join]
            simp only
            rw [hget]
            have hq := Nat.div_add_mod (o2 + i) B
            have hk2 : (o2 + i) % B < B := Nat.mod_lt _ hB0
            obtain ⟨q, hq'⟩ : ∃ q, q = (o2 + i) / B := ⟨_, rfl⟩
            obtain ⟨r, hr'⟩ : ∃ r, r = (o2 + i) % B := ⟨_, rfl⟩
            rw [← hq', ← hr'] at hq
            rw [← hr'] at hk2
            rw [← hq', ← hr']
            have hqn : q ≤ n := by
              by_contra hcon
              have : B * (n + 1) ≤ B * q := Nat.mul_le_mul_left _ (by omega)
              rw [Nat.mul_add, Nat.mul_comm B n] at this
              omega
            by_cases c1' : q < used
            · rw [Nat.mod_eq_of_lt (by omega), if_pos c1']
              have hi' : i < M * B := by
                have : B * q + B ≤ B * used := by rw [← Nat.mul_succ]; exact Nat.mul_le_mul_left _ c1'
                rw [Nat.mul_comm B used] at this
                omega
              have hh := hr1.cells i (by rw [l1]; exact hi')
              unfold atp at hh
              have hpos : d.off + i = B * uf + (B * q + r) := by omega
              rw [cellAt_join, of1, l1, hpos, Nat.mul_add_div hB0, Nat.mul_add_mod, Nat.mul_add_div hB0, Nat.mul_add_mod, Nat.div_eq_of_lt hk2,
                Nat.mod_eq_of_lt hk2, Nat.add_zero] at hh
              exact hh
            · have hli : l[i]? = none := by
                rw [List.getElem?_eq_none_iff, ← h.size]
                have : B * used ≤ B * q := Nat.mul_le_mul_left _ (by omega)
                rw [Nat.mul_comm B used] at this
                omega
              rw [hli]
              by_cases c2 : q < n
              · rw [Nat.mod_eq_of_lt c2, if_neg c1']; rfl
              · have hqe : q = n := by omega
                rw [hqe, Nat.mod_self]
                rw [hqe, Nat.mul_comm B n] at hq
                have hr2 : r < o2 := by omega
                rw [if_pos (by omega), Nat.add_zero]
                have hle : B ≤ M * B := Nat.le_mul_of_pos_left B (by omega)
                have hh := hr1.cells (M * B - o2 + r) (by rw [l1]; omega)
                have hpos : d.off + (M * B - o2 + r) = B * (uf + M) + r := by
                  rw [Nat.mul_add, Nat.mul_comm B M]; omega
                unfold atp at hh
                rw [cellAt_join, of1, l1, hpos, Nat.mul_add_div hB0, Nat.mul_add_mod, Nat.div_eq_of_lt hk2,
                  Nat.mod_eq_of_lt hk2, Nat.add_zero, Nat.add_mod_right] at hh
                rw [hh, List.getElem?_eq_none_iff, ← h.size]
                omega
        · intro i hi
          rw [← ha1 i hi]
          unfold addrs
          simp only [hlen, of1, l1, ← ho2]
          obtain ⟨b1, b2⟩ := hposblk i hi
          have hpos : d.off + i = B * uf + (o2 + i) := by omega
          rw [hpos, Nat.mul_add_div hB0] at b1 b2 ⊢
          rw [Nat.mul_add_mod, Nat.mod_eq_of_lt (show (o2 + i) / B < n by omega), hget, if_pos (by omega)]

end STL.Deque
