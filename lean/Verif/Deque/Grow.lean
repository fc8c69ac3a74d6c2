import Verif.Deque.Rep

/-! # `deque`: growing the map, pushes and pops. Proofs only. -/

namespace STL.Deque
open STL
variable {T : Type _}

theorem growSize_zero {maxB : Nat} (h : 8 ≤ maxB) : growSize maxB 0 64 1 = .ok (some 8) := by
  have w : ∀ n, n ≤ 4 → ¬ (wsub maxB n < n) := by intro n hn; unfold wsub; rw [if_pos (by omega)]; omega
  show growSize maxB 0 (60 + 1 + 1 + 1 + 1) 1 = _
  rw [growSize, if_pos (by omega), if_neg (w 1 (by omega)), growSize, if_pos (by omega), if_neg (w _ (by omega)),
    growSize, if_pos (by omega), if_neg (w _ (by omega)), growSize, if_neg (by omega)]

theorem growSize_pos {maxB M : Nat} (h : M ≤ maxB) (hM : 8 ≤ M) :
    growSize maxB M 64 M = .ok (if maxB < 2 * M then none else some (2 * M)) := by
  show growSize maxB M (62 + 1 + 1) M = _
  have w : (wsub maxB M < M) ↔ maxB < 2 * M := by unfold wsub; rw [if_pos h]; omega
  rw [growSize, if_pos (by omega)]
  by_cases hc : maxB < 2 * M
  · rw [if_pos (w.2 hc), if_pos hc]
  · rw [if_neg (fun h => hc (w.1 h)), if_neg hc, growSize, if_neg (by omega), Nat.mul_comm]

/-- The new map built by `_Growmap`. -/
def grown (map : List (Option Nat)) (b c : Nat) : List (Option Nat) :=
  List.replicate b none ++ map.drop b ++ map.take b ++ List.replicate (c - b) none

theorem grown_length {map : List (Option Nat)} {b c : Nat} (h1 : b ≤ map.length) (h2 : b ≤ c) : (grown map b c).length = map.length + c := by
  simp [grown, Nat.min_eq_left h1]; omega

theorem grown_get {map : List (Option Nat)} {b c : Nat} (h1 : b ≤ map.length) (h2 : b ≤ c) (j : Nat) :
    (grown map b c)[j]?.join = if j < b then none else if j < map.length then map[j]?.join else
      if j < map.length + b then map[j - map.length]?.join else none := by
  unfold grown
  simp only [List.getElem?_append, List.length_append, List.length_replicate, List.length_drop, List.length_take, Nat.min_eq_left h1]
  by_cases a1 : j < b
  · rw [if_pos (by omega), if_pos (by omega), if_pos a1, if_pos a1]; simp [List.getElem?_replicate, a1]
  · by_cases a2 : j < map.length
    · rw [if_pos (by omega), if_pos (by omega), if_neg a1, if_neg a1, if_pos a2, List.getElem?_drop, show b + (j - b) = j by omega]
    · by_cases a3 : j < map.length + b
      · rw [if_pos (by omega), if_neg (by omega), if_neg a1, if_neg a2, if_pos a3, show j - (b + (map.length - b)) = j - map.length by omega,
          List.getElem?_take, if_pos (by omega)]
      · rw [if_neg (by omega), if_neg a1, if_neg a2, if_neg a3]
        simp only [List.getElem?_replicate]
        split <;> rfl

theorem join_some {l : List (Option Nat)} {j b : Nat} : l[j]? = some (some b) ↔ l[j]?.join = some b := by
  cases h : l[j]? with
  | none => simp
  | some o => simp

theorem cellAt_join (d : Dq T) (j k : Nat) : cellAt d j k = (d.map[j]?.join).bind (fun b => (d.blk b).bind (fun c => c k)) := by
  unfold cellAt
  cases h : d.map[j]? with
  | none => rfl
  | some o => cases o <;> rfl

theorem core_grown {B maxsz : Nat} {d : Dq T} (h : Core B maxsz d) {b c : Nat} (h1 : b ≤ d.map.length) (h2 : b ≤ c)
    (hp : ∃ k, d.map.length + c = 2 ^ (k + 3)) (hm : d.map.length + c ≤ maxsz / B) :
    Core B maxsz ⟨grown d.map b c, d.off, d.size, d.blk, d.next⟩ := by
  refine ⟨Or.inr (by simpa [grown_length h1 h2] using hp), by simpa [grown_length h1 h2] using hm, ?_, ?_, h.fresh⟩
  · intro i j x hi hj
    rw [join_some] at hi hj
    simp only at hi hj
    rw [grown_get h1 h2] at hi hj
    have key : ∀ i, (if i < b then none else if i < d.map.length then d.map[i]?.join else
        if i < d.map.length + b then d.map[i - d.map.length]?.join else none) = some x →
        (b ≤ i ∧ i < d.map.length ∧ d.map[i]?.join = some x) ∨ (d.map.length ≤ i ∧ i < d.map.length + b ∧ d.map[i - d.map.length]?.join = some x) := by
      intro i hi
      split at hi
      · cases hi
      · split at hi
        · exact Or.inl ⟨by omega, by assumption, hi⟩
        · split at hi
          · exact Or.inr ⟨by omega, by assumption, hi⟩
          · cases hi
    rcases key i hi with ⟨a1, a2, a3⟩ | ⟨a1, a2, a3⟩ <;> rcases key j hj with ⟨b1, b2, b3⟩ | ⟨b1, b2, b3⟩ <;>
      (have := h.inj _ _ _ (join_some.2 a3) (join_some.2 b3); omega)
  · intro x
    rw [h.alloc x]
    simp only [grown, List.mem_append, List.mem_replicate, reduceCtorEq, and_false, or_false, false_or]
    conv_lhs => rw [← List.take_append_drop b d.map, List.mem_append]
    exact Or.comm

/-- Which block pointers stay reachable: position `p` of the old window before the wrap-around. -/
theorem grown_ptr {map : List (Option Nat)} {b c q : Nat} (h1 : b ≤ map.length) (hc : c = map.length) (hq1 : b ≤ q) (hq2 : q < b + map.length) :
    (grown map b c)[q % (map.length + c)]?.join = map[q % map.length]?.join := by
  rw [grown_get h1 (by omega), hc, Nat.mod_eq_of_lt (show q < map.length + map.length by omega), if_neg (by omega)]
  by_cases a : q < map.length
  · rw [if_pos a, Nat.mod_eq_of_lt a]
  · rw [if_neg a, if_pos (by omega), Nat.mod_eq_sub_mod (by omega), Nat.mod_eq_of_lt (by omega)]

theorem grown_null {map : List (Option Nat)} {b c q : Nat} (h1 : b ≤ map.length) (hc : c = map.length) (hq1 : b + map.length ≤ q)
    (hq2 : q < b + (map.length + map.length)) : (grown map b c)[q % (map.length + c)]?.join = none := by
  rw [grown_get h1 (by omega), hc]
  by_cases a : q < map.length + map.length
  · rw [Nat.mod_eq_of_lt a, if_neg (by omega), if_neg (by omega), if_neg (by omega)]
  · rw [Nat.mod_eq_sub_mod (by omega), Nat.mod_eq_of_lt (by omega), if_pos (by omega)]

/-- **`_Growmap`** keeps the sequence and every block pointer of an element. -/
theorem growmap_spec {B maxsz : Nat} (hB : 0 < B) (hmax : 8 ≤ maxsz / B) {d : Dq T} {l : List T} (h : Rep B maxsz d l)
    (hsz : d.map.length ≤ (d.size + B) / B) (f : Fail) :
    ∃ d' e, growmap B maxsz d f = .ok (d', e) ∧ Rep B maxsz d' l ∧ (e ≠ none → d' = d) ∧
      (e = none → (d.size + B) / B < d'.map.length) ∧ (e = some .lengthError → maxsz / B < 2 * d.map.length) ∧
      (e ≠ none → e ≠ some .lengthError → f ≠ .no) ∧
      (∀ i < l.length, d'.map[(d'.off + i) / B % d'.map.length]?.join = d.map[(d.off + i) / B % d.map.length]?.join) ∧ d'.off = d.off := by
  have hsz' : d.map.length * B ≤ d.size + B := by
    have := Nat.mul_le_mul_right B hsz
    have := Nat.div_mul_le_self (d.size + B) B
    omega
  unfold growmap
  by_cases hM0 : d.map.length = 0
  · -- first allocation
    have hs0 : d.size = 0 := by have := h.span; rw [hM0] at this; simp at this; omega
    have ho0 : d.off = 0 := h.off0 (by have := h.size; rw [hs0] at this; exact List.length_eq_zero_iff.1 this.symm)
    have hl : l = [] := by have := h.size; rw [hs0] at this; exact List.length_eq_zero_iff.1 this.symm
    have hmn : d.map = [] := List.length_eq_zero_iff.1 hM0
    simp only [hM0, lt_self_iff_false, if_false, Nat.lt_irrefl, gt_iff_lt, growSize_zero hmax, R.ok_bind]
    by_cases hf : f = .mapAlloc
    · rw [if_pos hf]
      exact ⟨d, some .badAlloc, rfl, h, fun _ => rfl, by simp, by simp, fun _ _ => by rw [hf]; simp, fun _ _ => by rw [hM0], rfl⟩
    · rw [if_neg hf]
      simp only [ho0, Nat.zero_div, Nat.lt_irrefl, if_false, Nat.zero_le, if_true]
      have hc := core_grown (B := B) (maxsz := maxsz) (d := d) h.core (b := 0) (c := 8) (by omega) (by omega) ⟨0, by rw [hM0]; rfl⟩ (by omega)
      have hg : grown d.map 0 8 = List.replicate 8 none := by simp [grown, hmn]
      refine ⟨_, none, rfl, ?_, by simp, ?_, by simp, by simp, ?_, rfl⟩
      · rw [hmn]
        have hcells : ∀ i, atp B (⟨List.replicate 8 none, 0, d.size, d.blk, d.next⟩ : Dq T) i = none := by
          intro i; unfold atp; rw [cellAt_join]; simp only [List.getElem?_replicate]; split <;> rfl
        refine ⟨?_, h.size, fun _ => rfl, ?_, ?_, ?_⟩
        · rw [hg, ho0] at hc; exact hc
        · simp [hs0]
        · simp [hs0]
        · intro i _; rw [hl]; simpa using hcells _
      · simp [hmn, hs0, hB]
      · rw [hl]; simp
  · have hM : 0 < d.map.length := by omega
    obtain ⟨k, hk⟩ := core_pos h.core hM
    have hM8 : 8 ≤ d.map.length := by rw [hk, pow_add]; have := Nat.one_le_two_pow (n := k); omega
    have hoff : d.off / B ≤ d.map.length := by
      have := h.sum
      rw [Nat.sub_mul] at this
      have h2 : d.map.length * B ≥ B := Nat.le_mul_of_pos_left B hM
      rw [Nat.mul_assoc] at this
      have : d.off ≤ d.map.length * B := by omega
      calc d.off / B ≤ d.map.length * B / B := Nat.div_le_div_right this
        _ = d.map.length := Nat.mul_div_cancel _ hB
    simp only [gt_iff_lt, hM, if_true, growSize_pos h.core.maxM hM8, R.ok_bind]
    by_cases hmx : maxsz / B < 2 * d.map.length
    · rw [if_pos hmx]
      exact ⟨d, some .lengthError, rfl, h, fun _ => rfl, by simp, fun _ => hmx, by simp, fun _ _ => rfl, rfl⟩
    · rw [if_neg hmx]
      simp only
      by_cases hf : f = .mapAlloc
      · rw [if_pos hf]
        exact ⟨d, some .badAlloc, rfl, h, fun _ => rfl, by simp, by simp, fun _ _ => by rw [hf]; simp, fun _ _ => rfl, rfl⟩
      · rw [if_neg hf, if_neg (by omega), show 2 * d.map.length - d.map.length = d.map.length by omega, if_pos hoff]
        have hc := core_grown (B := B) (maxsz := maxsz) (d := d) h.core (b := d.off / B) (c := d.map.length) hoff hoff
          ⟨k + 1, by rw [hk]; ring⟩ (by omega)
        have hlen := grown_length (c := d.map.length) hoff hoff
        refine ⟨_, none, rfl, ?_, by simp, ?_, by simp, by simp, ?_, rfl⟩
        · change Rep B maxsz ⟨grown d.map (d.off / B) d.map.length, d.off, d.size, d.blk, d.next⟩ l
          refine ⟨hc, h.size, h.off0, ?_, ?_, ?_⟩
          · simp only [hlen, Nat.add_mul]; have := h.span; omega
          · simp only [hlen]
            refine h.sum.trans (Nat.mul_le_mul_right _ (by omega))
          · intro i hi
            simp only [hlen] at hi ⊢
            unfold atp
            rw [cellAt_join]
            simp only [hlen]
            have hdm := Nat.div_add_mod d.off B
            obtain ⟨o1, ho1⟩ : ∃ o1, o1 = d.off / B := ⟨_, rfl⟩
            obtain ⟨o2, ho2⟩ : ∃ o2, o2 = d.off % B := ⟨_, rfl⟩
            have ho2' : o2 < B := by rw [ho2]; exact Nat.mod_lt _ hB
            rw [← ho1, ← ho2] at hdm
            have hq := Nat.div_add_mod (d.off + i) B
            have hk2 : (d.off + i) % B < B := Nat.mod_lt _ hB
            obtain ⟨q, hq'⟩ : ∃ q, q = (d.off + i) / B := ⟨_, rfl⟩
            obtain ⟨r, hr'⟩ : ∃ r, r = (d.off + i) % B := ⟨_, rfl⟩
            rw [← hq', ← hr'] at hq
            rw [← hr'] at hk2
            rw [← hq', ← hr', ← ho1]
            have hq1 : o1 ≤ q := by
              rw [ho1, hq']; exact Nat.div_le_div_right (by omega)
            have hspan := h.span
            rw [← ho2] at hspan
            have hq3 : q ≤ o1 + 2 * d.map.length := by
              by_contra hcon
              have : B * (o1 + 2 * d.map.length + 1) ≤ B * q := Nat.mul_le_mul_left _ (by omega)
              rw [Nat.mul_add, Nat.mul_add] at this
              rw [Nat.add_mul] at hi
              have e1 : B * (2 * d.map.length) = 2 * (d.map.length * B) := by ring
              omega
            by_cases c1 : q < o1 + d.map.length
            · rw [grown_ptr (by rw [ho1]; exact hoff) rfl hq1 c1]
              have hi' : i < d.map.length * B := by
                by_contra hcon
                have : B * q + B ≤ B * (o1 + d.map.length) := by rw [← Nat.mul_succ]; exact Nat.mul_le_mul_left _ c1
                rw [Nat.mul_add, Nat.mul_comm B d.map.length] at this
                omega
              have := h.cells i hi'
              unfold atp at this
              rw [cellAt_join, ← hq', ← hr'] at this
              exact this
            · have hli : l[i]? = none := by
                rw [List.getElem?_eq_none_iff, ← h.size]
                have : B * (o1 + d.map.length) ≤ B * q := Nat.mul_le_mul_left _ (by omega)
                rw [Nat.mul_add, Nat.mul_comm B d.map.length] at this
                omega
              rw [hli]
              by_cases c2 : q < o1 + (d.map.length + d.map.length)
              · rw [grown_null (by rw [ho1]; exact hoff) rfl (by omega) c2]; rfl
              · have hqe : q = o1 + 2 * d.map.length := by omega
                -- back in the first block, before the first element
                have hptr : (grown d.map o1 d.map.length)[q % (d.map.length + d.map.length)]?.join = d.map[o1 % d.map.length]?.join := by
                  have h0 := grown_ptr (map := d.map) (b := o1) (c := d.map.length) (q := o1) (by rw [ho1]; exact hoff) rfl (le_refl _) (by omega)
                  rw [← h0, hqe, show o1 + 2 * d.map.length = o1 + (d.map.length + d.map.length) by omega, Nat.add_mod_right]
                rw [hptr]
                rw [hqe, Nat.mul_add] at hq
                have e1 : B * (2 * d.map.length) = 2 * (d.map.length * B) := by ring
                rw [Nat.add_mul] at hi
                have hr2 : r < o2 := by omega
                have hi0 : d.map.length * B - o2 + r < d.map.length * B := by
                  have : B ≤ d.map.length * B := Nat.le_mul_of_pos_left B hM
                  omega
                have := h.cells _ hi0
                have hle : B ≤ d.map.length * B := Nat.le_mul_of_pos_left B hM
                have hpos : d.off + (d.map.length * B - o2 + r) = r + B * (o1 + d.map.length) := by
                  rw [Nat.mul_add, Nat.mul_comm B d.map.length]; omega
                unfold atp at this
                rw [cellAt_join, hpos, Nat.add_mul_div_left _ _ hB, Nat.add_mul_mod_self_left, Nat.div_eq_of_lt hk2, Nat.mod_eq_of_lt hk2,
                  Nat.zero_add, Nat.add_mod_right] at this
                rw [this, List.getElem?_eq_none_iff, ← h.size]
                omega
        · intro _
          change _ < (grown d.map (d.off / B) d.map.length).length
          rw [hlen]
          have hs2 : d.size ≤ d.map.length * B := by have := h.span; omega
          calc (d.size + B) / B ≤ (d.map.length * B + B) / B := Nat.div_le_div_right (by omega)
            _ = d.map.length + 1 := by rw [Nat.add_div_right _ hB, Nat.mul_div_cancel _ hB]
            _ < _ := by omega
        · intro i hi
          change (grown d.map (d.off / B) d.map.length)[(d.off + i) / B % (grown d.map (d.off / B) d.map.length).length]?.join = _
          rw [hlen]
          refine grown_ptr hoff rfl (Nat.div_le_div_right (by omega)) ?_
          rw [Nat.div_lt_iff_lt_mul hB, Nat.add_mul]
          have := h.span
          have := h.size
          have := Nat.div_add_mod d.off B
          rw [Nat.mul_comm] at this
          omega

theorem mask_eq {B b k M x : Nat} (hB : B = 2 ^ b) (hM : M = 2 ^ k) : x &&& (M * B - 1) = x % (M * B) := by
  rw [hB, hM, ← pow_add, Nat.and_two_pow_sub_one_eq_mod]

theorem rep_mask {B b maxsz : Nat} (hB : B = 2 ^ b) {d : Dq T} {l : List T} (h : Rep B maxsz d l) (hM : 0 < d.map.length) :
    Rep B maxsz (maskOff B d) l ∧ (maskOff B d).off < d.map.length * B ∧ (maskOff B d).off % B = d.off % B ∧
      (maskOff B d).off % (d.map.length * B) = d.off % (d.map.length * B) := by
  obtain ⟨k, hk⟩ := core_pos h.core hM
  have hB0 : 0 < B := by rw [hB]; exact Nat.two_pow_pos b
  have hN : 0 < d.map.length * B := Nat.mul_pos hM hB0
  have e : (maskOff B d).off = d.off % (d.map.length * B) := mask_eq hB hk
  have e2 : (maskOff B d).off % B = d.off % B := by rw [e, Nat.mod_mul_left_mod]
  have hlt : (maskOff B d).off < d.map.length * B := by rw [e]; exact Nat.mod_lt _ hN
  refine ⟨⟨⟨h.core.pow, h.core.maxM, h.core.inj, h.core.alloc, h.core.fresh⟩, h.size, fun hl => by rw [e, h.off0 hl]; simp, by rw [e2]; exact h.span, ?_, ?_⟩, hlt, e2, by rw [e, Nat.mod_mod]⟩
  · show (maskOff B d).off + d.size ≤ (2 * d.map.length - 1) * B
    have h1 := Nat.div_add_mod (maskOff B d).off B
    have h2 : (maskOff B d).off / B < d.map.length := by rw [Nat.div_lt_iff_lt_mul hB0]; exact hlt
    have h3 : B * ((maskOff B d).off / B) ≤ B * (d.map.length - 1) := Nat.mul_le_mul_left _ (by omega)
    have h4 := h.span
    rw [← e2] at h4
    have h5 : (2 * d.map.length - 1) * B = B * (d.map.length - 1) + d.map.length * B := by
      rw [Nat.mul_comm B, ← Nat.add_mul]; congr 1; omega
    omega
  · intro i hi
    rw [← h.cells i hi]
    refine atp_congr (d := d) ?_
    rw [e, Nat.mod_add_mod]

/-- Addresses of the elements (block identity and offset). -/
def addrs (B : Nat) (d : Dq T) (i : Nat) : Option (Nat × Nat) :=
  (d.map[(d.off + i) / B % d.map.length]?.join).map (fun b => (b, (d.off + i) % B))

/-- Outcome of a push: with an exception the sequence is unchanged; no element changes its address. -/
structure Pushed (B maxsz : Nat) (d : Dq T) (l l' : List T) (sh : Nat) (f : Fail) (d' : Dq T) (e : Option Exc) : Prop where
  done : e = none → Rep B maxsz d' l'
  thrown : e ≠ none → Rep B maxsz d' l
  why : e ≠ none → e ≠ some .lengthError → f ≠ .no
  len : e = some .lengthError → maxsz / B < 2 * (l.length / B + 1)
  addr : ∀ i < l.length, addrs B d' (if e = none then i + sh else i) = addrs B d i

theorem addrs_congr {B : Nat} {d d' : Dq T} {i j : Nat} {l : List T} {maxsz : Nat} (h : Rep B maxsz d l) (hi : i < l.length) (hl : d'.map.length = d.map.length)
    (hmap : ∀ j b : Nat, d.map[j]? = some (some b) → d'.map[j]? = some (some b))
    (hp : (d'.off + j) % (d.map.length * B) = (d.off + i) % (d.map.length * B)) : addrs B d' j = addrs B d i := by
  have hN : i < d.map.length * B := by have := h.span; have := h.size; omega
  have hc := h.cells i hN
  rw [List.getElem?_eq_getElem hi] at hc
  obtain ⟨b, c, _, h2, _, _⟩ := addr_of_atp h.core hc
  obtain ⟨e1, e2⟩ := idx_iff.2 hp
  unfold addrs
  rw [hl, e1, e2, hmap _ _ h2, h2]

theorem emplaceBack_spec {B b maxsz : Nat} (hB : B = 2 ^ b) (hmax : 8 ≤ maxsz / B) {d : Dq T} {l : List T} (h : Rep B maxsz d l) (x : T) (f : Fail) :
    ∃ d' e, emplaceBack B maxsz d x f = .ok (d', e) ∧ Pushed B maxsz d l (l ++ [x]) 0 f d' e := by
  have hB0 : 0 < B := by rw [hB]; exact Nat.two_pow_pos b
  -- after the growth step
  have key : ∀ d1 : Dq T, Rep B maxsz d1 l → d1.off = d.off → 0 < d1.map.length → d1.off % B + d1.size + 1 ≤ d1.map.length * B →
      (∀ i < l.length, d1.map[(d1.off + i) / B % d1.map.length]?.join = d.map[(d.off + i) / B % d.map.length]?.join) →
      ∃ d' e, (do
        let d := maskOff B d1
        let r ← place B d (d.off + d.size) x f
        match r.2 with
        | some e => .ok (r.1, some e)
        | none => .ok (⟨r.1.map, r.1.off, r.1.size + 1, r.1.blk, r.1.next⟩, none) : R (Dq T × Option Exc)) = .ok (d', e) ∧
        Pushed B maxsz d l (l ++ [x]) 0 f d' e := by
    intro d1 h1 hoff hM hsp hptr
    obtain ⟨hr, hlt, hmod, hmod2⟩ := rep_mask hB h1 hM
    have hml : (maskOff B d1).map.length = d1.map.length := rfl
    have hsN : d1.size < d1.map.length * B := by omega
    have hfree : atp B (maskOff B d1) ((maskOff B d1).off + (maskOff B d1).size) = none := by
      rw [hr.cells _ (by rw [hr.size, ← h1.size]; exact hsN), hr.size]; simp
    obtain ⟨d', e, he, hcore, hlen, ho, hs, hmap, hcells, hwhy, hnl⟩ := place_spec hr.core hM hfree x f
    have haddr1 : ∀ i < l.length, addrs B d1 i = addrs B d i := by
      intro i hi; unfold addrs; rw [hptr i hi, hoff]
    simp only
    rw [he]
    simp only [R.ok_bind]
    cases e with
    | some e =>
      refine ⟨d', some e, rfl, by simp, fun _ => ?_, fun h1 _ => hwhy h1, fun h => absurd h hnl, fun i hi => ?_⟩
      · refine ⟨hcore, hs.trans hr.size, fun hl => by rw [ho]; exact hr.off0 hl, ?_, ?_, ?_⟩
        · rw [ho, hs, hlen]; exact hr.span
        · rw [ho, hs, hlen]; exact hr.sum
        · intro i hi
          rw [hlen] at hi
          rw [ho, hcells, if_neg (by simp)]
          exact hr.cells i hi
      · rw [if_neg (by simp), ← haddr1 i hi]
        refine addrs_congr h1 hi (by rw [hlen]; rfl) hmap ?_
        rw [ho, Nat.add_mod, hmod2, ← Nat.add_mod]
    | none =>
      refine ⟨_, none, rfl, fun _ => ?_, by simp, by simp, by simp, fun i hi => ?_⟩
      · have hsz : (maskOff B d1).size = d1.size := rfl
        refine ⟨⟨hcore.pow, hcore.maxM, hcore.inj, hcore.alloc, hcore.fresh⟩, ?_, by simp, ?_, ?_, ?_⟩
        · show d'.size + 1 = _
          rw [hs, hr.size]; simp
        · show d'.off % B + (d'.size + 1) ≤ d'.map.length * B
          rw [ho, hs, hlen, hmod, hsz, hml]; omega
        · show d'.off + (d'.size + 1) ≤ (2 * d'.map.length - 1) * B
          rw [ho, hs, hlen, hsz, hml]
          have q1 := Nat.div_add_mod (maskOff B d1).off B
          have q2 : (maskOff B d1).off / B < d1.map.length := by rw [Nat.div_lt_iff_lt_mul hB0]; exact hlt
          have q3 : B * ((maskOff B d1).off / B) ≤ B * (d1.map.length - 1) := Nat.mul_le_mul_left _ (by omega)
          have q5 : (2 * d1.map.length - 1) * B = B * (d1.map.length - 1) + d1.map.length * B := by
            rw [Nat.mul_comm B, ← Nat.add_mul]; congr 1; omega
          omega
        · intro i hi
          have hi' : i < d1.map.length * B := by rw [← hml, ← hlen]; exact hi
          show atp B d' (d'.off + i) = _
          rw [ho, hcells]
          by_cases c : i = d1.size
          · subst c
            rw [if_pos ⟨by rw [hsz], rfl⟩, ← hsz, hr.size]; simp
          · rw [if_neg, hr.cells i hi', List.getElem?_append]
            · split
              · rfl
              · rename_i hge
                have : l.length ≤ i := by omega
                rw [List.getElem?_eq_none this]
                have h3 := h1.size
                rw [List.getElem?_eq_none (by simp; omega)]
            · rintro ⟨hh, _⟩
              exact c (window_inj hi' hsN hh)
      · rw [if_pos rfl, ← haddr1 i hi]
        refine addrs_congr (d' := ⟨d'.map, d'.off, d'.size + 1, d'.blk, d'.next⟩) h1 hi (by simp [hlen]; rfl) hmap ?_
        simp only
        rw [ho, Nat.add_zero, Nat.add_mod, hmod2, ← Nat.add_mod]
  unfold emplaceBack
  by_cases hc : (d.off + d.size) % B = 0 ∧ d.map.length ≤ (d.size + B) / B
  · rw [if_pos hc]
    obtain ⟨d1, e, he, hr, hsame, hbig, hlen, hwhy, hptr, hoff⟩ := growmap_spec hB0 hmax h hc.2 f
    rw [he]
    simp only [R.ok_bind]
    cases e with
    | some e =>
      obtain rfl := hsame (by simp)
      refine ⟨_, some e, rfl, by simp, fun _ => h, hwhy, fun hl => ?_, fun i _ => by simp⟩
      have := hlen hl
      have h2 := hc.2
      rw [Nat.add_div_right _ hB0, h.size] at h2
      omega
    | none =>
      have hb := hbig rfl
      have hb2 : d.size + B < d1.map.length * B := by rwa [Nat.div_lt_iff_lt_mul hB0] at hb
      have hs1 : d1.size = d.size := by rw [hr.size, h.size]
      refine key d1 hr hoff (by omega) ?_ hptr
      rw [hs1]; have := Nat.mod_lt d1.off hB0; omega
  · rw [if_neg hc]
    simp only [R.ok_bind]
    have hM : 0 < d.map.length := by
      rcases Nat.eq_zero_or_pos d.map.length with h0 | h0
      · exfalso; apply hc
        have := h.sum; rw [h0] at this
        have hs : d.off + d.size = 0 := by simpa using this
        exact ⟨by rw [hs]; simp, by rw [h0]; exact Nat.zero_le _⟩
      · exact h0
    refine key d h rfl hM ?_ (fun _ _ => rfl)
    have hsp := h.span
    by_cases hm : (d.off + d.size) % B = 0
    · have : ¬ d.map.length ≤ (d.size + B) / B := fun hh => hc ⟨hm, hh⟩
      have hb2 : d.size + B < d.map.length * B := by rwa [Nat.not_le, Nat.div_lt_iff_lt_mul hB0] at this
      have := Nat.mod_lt d.off hB0; omega
    · have hne : d.off % B + d.size ≠ d.map.length * B := by
        intro e; apply hm
        rw [← Nat.mod_add_mod, e]; simp
      omega

theorem emplaceFront_spec {B b maxsz : Nat} (hB : B = 2 ^ b) (hmax : 8 ≤ maxsz / B) {d : Dq T} {l : List T} (h : Rep B maxsz d l) (x : T) (f : Fail) :
    ∃ d' e, emplaceFront B maxsz d x f = .ok (d', e) ∧ Pushed B maxsz d l (x :: l) 1 f d' e := by
  have hB0 : 0 < B := by rw [hB]; exact Nat.two_pow_pos b
  have key : ∀ d1 : Dq T, Rep B maxsz d1 l → d1.off = d.off → 0 < d1.map.length →
      (d1.off % B ≠ 0 ∨ d1.size + B ≤ d1.map.length * B) →
      (∀ i < l.length, d1.map[(d1.off + i) / B % d1.map.length]?.join = d.map[(d.off + i) / B % d.map.length]?.join) →
      ∃ d' e, (do
        let d := maskOff B d1
        let newoff := (if d.off ≠ 0 then d.off else d.map.length * B) - 1
        let r ← place B d newoff x f
        match r.2 with
        | some e => .ok (r.1, some e)
        | none => .ok (⟨r.1.map, newoff, r.1.size + 1, r.1.blk, r.1.next⟩, none) : R (Dq T × Option Exc)) = .ok (d', e) ∧
        Pushed B maxsz d l (x :: l) 1 f d' e := by
    intro d1 h1 hoff hM hsp hptr
    obtain ⟨hr, hlt, hmod, hmod2⟩ := rep_mask hB h1 hM
    have hml : (maskOff B d1).map.length = d1.map.length := rfl
    have hsz : (maskOff B d1).size = d1.size := rfl
    have hN : 0 < d1.map.length * B := Nat.mul_pos hM hB0
    have hspan := h1.span
    have hsN : d1.size < d1.map.length * B := by
      rcases hsp with hh | hh <;> omega
    simp only
    obtain ⟨p, hp⟩ : ∃ p, p = (if (maskOff B d1).off ≠ 0 then (maskOff B d1).off else (maskOff B d1).map.length * B) - 1 := ⟨_, rfl⟩
    rw [← hp]
    have hp1 : (p + 1) % (d1.map.length * B) = (maskOff B d1).off := by
      by_cases c : (maskOff B d1).off = 0
      · rw [if_neg (by simpa using c), hml] at hp
        rw [hp, Nat.sub_add_cancel hN, Nat.mod_self, c]
      · rw [if_pos c] at hp
        rw [hp, Nat.sub_add_cancel (by omega), Nat.mod_eq_of_lt hlt]
    have hplt : p < d1.map.length * B := by
      by_cases c : (maskOff B d1).off = 0
      · rw [if_neg (by simpa using c), hml] at hp; omega
      · rw [if_pos c] at hp; omega
    have hwin : ∀ i, (p + (i + 1)) % (d1.map.length * B) = ((maskOff B d1).off + i) % (d1.map.length * B) := by
      intro i
      rw [show p + (i + 1) = p + 1 + i by omega, Nat.add_mod, hp1]
      simp
    have hlast : ((maskOff B d1).off + (d1.map.length * B - 1)) % (d1.map.length * B) = p % (d1.map.length * B) := by
      rw [← hwin, show p + (d1.map.length * B - 1 + 1) = p + d1.map.length * B by omega, Nat.add_mod_right]
    have hfree : atp B (maskOff B d1) p = none := by
      rw [← atp_congr (d := maskOff B d1) hlast, hr.cells _ (by rw [hml]; omega), List.getElem?_eq_none_iff, ← h1.size]
      omega
    obtain ⟨d', e, he, hcore, hlen, ho, hs, hmap, hcells, hwhy, hnl⟩ := place_spec hr.core hM hfree x f
    have haddr1 : ∀ i < l.length, addrs B d1 i = addrs B d i := by
      intro i hi; unfold addrs; rw [hptr i hi, hoff]
    rw [he]
    simp only [R.ok_bind]
    cases e with
    | some e =>
      refine ⟨d', some e, rfl, by simp, fun _ => ?_, fun h1 _ => hwhy h1, fun h => absurd h hnl, fun i hi => ?_⟩
      · refine ⟨hcore, hs.trans hr.size, fun hl => by rw [ho]; exact hr.off0 hl, ?_, ?_, ?_⟩
        · rw [ho, hs, hlen]; exact hr.span
        · rw [ho, hs, hlen]; exact hr.sum
        · intro i hi
          rw [hlen] at hi
          rw [ho, hcells, if_neg (by simp)]
          exact hr.cells i hi
      · rw [if_neg (by simp), ← haddr1 i hi]
        refine addrs_congr h1 hi (by rw [hlen]; rfl) hmap ?_
        rw [ho, Nat.add_mod, hmod2, ← Nat.add_mod]
    | none =>
      have hnewspan : p % B + (d1.size + 1) ≤ d1.map.length * B := by
        have hpB : (p + 1) % B = d1.off % B := by
          rw [← hmod, ← hp1, Nat.mod_mul_left_mod]
        have := Nat.mod_lt p hB0
        rcases hsp with hh | hh
        · have : p % B + 1 = d1.off % B := by
            rw [← hpB, Nat.add_mod]
            rw [← hpB, Nat.add_mod] at hh
            rcases Nat.lt_or_ge (p % B + 1) B with c | c
            · rcases Nat.eq_or_lt_of_le (show 1 ≤ B from hB0) with c2 | c2
              · omega
              · rw [Nat.mod_eq_of_lt c2, Nat.mod_eq_of_lt c]
            · exfalso; apply hh
              have e1 : p % B + 1 = B := by omega
              rcases Nat.eq_or_lt_of_le (show 1 ≤ B from hB0) with c2 | c2
              · rw [← c2]; exact Nat.mod_one _
              · rw [Nat.mod_eq_of_lt c2, e1, Nat.mod_self]
          omega
        · omega
      refine ⟨_, none, rfl, fun _ => ?_, by simp, by simp, by simp, fun i hi => ?_⟩
      · refine ⟨⟨hcore.pow, hcore.maxM, hcore.inj, hcore.alloc, hcore.fresh⟩, ?_, by simp, ?_, ?_, ?_⟩
        · show d'.size + 1 = _
          rw [hs, hr.size]; simp
        · show p % B + (d'.size + 1) ≤ d'.map.length * B
          rw [hs, hlen]; exact hnewspan
        · show p + (d'.size + 1) ≤ (2 * d'.map.length - 1) * B
          rw [hs, hlen, hsz, hml]
          have q1 := Nat.div_add_mod p B
          have q2 : p / B < d1.map.length := by rw [Nat.div_lt_iff_lt_mul hB0]; exact hplt
          have q3 : B * (p / B) ≤ B * (d1.map.length - 1) := Nat.mul_le_mul_left _ (by omega)
          have q5 : (2 * d1.map.length - 1) * B = B * (d1.map.length - 1) + d1.map.length * B := by
            rw [Nat.mul_comm B, ← Nat.add_mul]; congr 1; omega
          omega
        · intro i hi
          have hi' : i < d1.map.length * B := by rw [← hml, ← hlen]; exact hi
          show atp B d' (p + i) = _
          rw [hcells]
          cases i with
          | zero => rw [if_pos ⟨rfl, rfl⟩]; rfl
          | succ i =>
            rw [if_neg, List.getElem?_cons_succ, atp_congr (d := maskOff B d1) (hwin i), hr.cells i (by rw [hml]; omega)]
            rintro ⟨hh, _⟩
            have := window_inj (o := p) (i := i + 1) (j := 0) hi' hN hh
            omega
      · rw [if_pos rfl, ← haddr1 i hi]
        refine addrs_congr (d' := ⟨d'.map, p, d'.size + 1, d'.blk, d'.next⟩) h1 hi (by simp [hlen]; rfl) hmap ?_
        simp only
        rw [hwin, Nat.add_mod, hmod2, ← Nat.add_mod]
  unfold emplaceFront
  by_cases hc : d.off % B = 0 ∧ d.map.length ≤ (d.size + B) / B
  · rw [if_pos hc]
    obtain ⟨d1, e, he, hr, hsame, hbig, hlen, hwhy, hptr, hoff⟩ := growmap_spec hB0 hmax h hc.2 f
    rw [he]
    simp only [R.ok_bind]
    cases e with
    | some e =>
      obtain rfl := hsame (by simp)
      refine ⟨_, some e, rfl, by simp, fun _ => h, hwhy, fun hl => ?_, fun i _ => by simp⟩
      have := hlen hl
      have h2 := hc.2
      rw [Nat.add_div_right _ hB0, h.size] at h2
      omega
    | none =>
      have hb := hbig rfl
      have hb2 : d.size + B < d1.map.length * B := by rwa [Nat.div_lt_iff_lt_mul hB0] at hb
      have hs1 : d1.size = d.size := by rw [hr.size, h.size]
      refine key d1 hr hoff (by omega) (Or.inr ?_) hptr
      omega
  · rw [if_neg hc]
    simp only [R.ok_bind]
    have hM : 0 < d.map.length := by
      rcases Nat.eq_zero_or_pos d.map.length with h0 | h0
      · exfalso; apply hc
        have := h.sum; rw [h0] at this
        have hs : d.off + d.size = 0 := by simpa using this
        exact ⟨by rw [show d.off = 0 by omega]; simp, by rw [h0]; exact Nat.zero_le _⟩
      · exact h0
    refine key d h rfl hM ?_ (fun _ _ => rfl)
    by_cases hm : d.off % B = 0
    · have : ¬ d.map.length ≤ (d.size + B) / B := fun hh => hc ⟨hm, hh⟩
      have hb2 : d.size + B < d.map.length * B := by rwa [Nat.not_le, Nat.div_lt_iff_lt_mul hB0] at this
      exact Or.inr (by omega)
    · exact Or.inl hm

/-! ## Pops -/

theorem popBack_spec {B maxsz : Nat} {d : Dq T} {l : List T} {x : T} (h : Rep B maxsz d (l ++ [x])) :
    ∃ d', popBack B d = .ok d' ∧ Rep B maxsz d' l ∧ (∀ i < l.length, addrs B d' i = addrs B d i) := by
  have hs : d.size = l.length + 1 := by rw [h.size]; simp
  have hN : l.length < d.map.length * B := by have := h.span; omega
  have hc := h.cells l.length hN
  rw [List.getElem?_append_right (le_refl _)] at hc
  simp only [Nat.sub_self, List.getElem?_cons_zero] at hc
  obtain ⟨d', he, hw⟩ := destroy_spec h.core hc
  have e1 : d.off + d.size - 1 = d.off + l.length := by omega
  unfold popBack
  rw [e1, he]
  simp only [R.ok_bind]
  have hcells : ∀ i, i < d.map.length * B → atp B d' (d.off + i) = l[i]? := by
    intro i hi
    rw [hw.cells]
    by_cases c : i = l.length
    · subst c; rw [if_pos rfl]; simp
    · rw [if_neg (fun hh => c (window_inj hi hN hh)), h.cells i hi, List.getElem?_append]
      split
      · rfl
      · rw [List.getElem?_eq_none (l := l) (by omega), List.getElem?_eq_none (by simp; omega)]
  have hcore : ∀ o s, Core B maxsz ⟨d'.map, o, s, d'.blk, d'.next⟩ := fun o s => ⟨hw.core.pow, hw.core.maxM, hw.core.inj, hw.core.alloc, hw.core.fresh⟩
  refine ⟨_, rfl, ?_, ?_⟩
  · by_cases hl : l = []
    · subst hl
      rw [if_pos (by rw [hw.size, hs]; rfl)]
      refine ⟨hcore _ _, by simp [hw.size, hs], fun _ => rfl, ?_, ?_, ?_⟩
      · simp [hw.size, hs]
      · simp [hw.size, hs]
      · intro i hi
        simp only [hw.map] at hi
        have hNp : 0 < d.map.length * B := by omega
        obtain ⟨j, hj, hj2⟩ := window_surj (o := d.off) (p := i) hNp
        show atp B d' (0 + i) = _
        rw [Nat.zero_add, atp_congr (d := d') (p := i) (q := d.off + j) (by rw [hw.map]; exact hj2.symm), hcells j hj]
        simp
    · have hl' : l.length ≠ 0 := fun e => hl (List.length_eq_zero_iff.1 e)
      rw [if_neg (by rw [hw.size]; omega)]
      refine ⟨hcore _ _, by simp [hw.size, hs], fun e => absurd e hl, ?_, ?_, ?_⟩
      · simp only [hw.map, hw.size, hw.off]; have := h.span; omega
      · simp only [hw.map, hw.size, hw.off]; have := h.sum; omega
      · intro i hi
        simp only [hw.map] at hi
        show atp B d' (d'.off + i) = _
        rw [hw.off]; exact hcells i hi
  · intro i hi
    have hl : l.length ≠ 0 := by omega
    rw [if_neg (by rw [hw.size]; omega)]
    unfold addrs
    simp only [hw.map, hw.off]

theorem popFront_spec {B maxsz : Nat} (hB0 : 0 < B) {d : Dq T} {l : List T} {x : T} (h : Rep B maxsz d (x :: l)) :
    ∃ d', popFront B d = .ok d' ∧ Rep B maxsz d' l ∧ (∀ i < l.length, addrs B d' i = addrs B d (i + 1)) := by
  have hs : d.size = l.length + 1 := by rw [h.size]; simp
  have hN : l.length < d.map.length * B := by have := h.span; omega
  have hN0 : 0 < d.map.length * B := by omega
  have hc := h.cells 0 hN0
  simp only [Nat.add_zero, List.getElem?_cons_zero] at hc
  obtain ⟨d', he, hw⟩ := destroy_spec h.core hc
  unfold popFront
  rw [he]
  simp only [R.ok_bind]
  have hcells : ∀ i, i < d.map.length * B → atp B d' (d.off + (i + 1)) = l[i]? := by
    intro i hi
    rw [hw.cells]
    by_cases c : i + 1 = d.map.length * B
    · rw [c, Nat.add_mod_right, if_pos rfl, List.getElem?_eq_none (by omega)]
    · rw [if_neg (fun hh => by have := window_inj (o := d.off) (i := i + 1) (j := 0) (by omega) hN0 hh; omega), h.cells _ (by omega), List.getElem?_cons_succ]
  have hcore : ∀ o s, Core B maxsz ⟨d'.map, o, s, d'.blk, d'.next⟩ := fun o s => ⟨hw.core.pow, hw.core.maxM, hw.core.inj, hw.core.alloc, hw.core.fresh⟩
  refine ⟨_, rfl, ?_, ?_⟩
  · by_cases hl : l = []
    · subst hl
      rw [if_pos (by rw [hw.size, hs]; rfl)]
      refine ⟨hcore _ _, by simp [hw.size, hs], fun _ => rfl, ?_, ?_, ?_⟩
      · simp [hw.size, hs]
      · simp [hw.size, hs]
      · intro i hi
        simp only [hw.map] at hi
        obtain ⟨j, hj, hj2⟩ := window_surj (o := d.off + 1) (p := i) hN0
        show atp B d' (0 + i) = _
        rw [Nat.zero_add, atp_congr (d := d') (p := i) (q := d.off + (j + 1)) (by rw [hw.map, ← hj2]; congr 1; omega), hcells j hj]
        simp
    · have hl' : l.length ≠ 0 := fun e => hl (List.length_eq_zero_iff.1 e)
      rw [if_neg (by rw [hw.size]; omega)]
      refine ⟨hcore _ _, by simp [hw.size, hs], fun e => absurd e hl, ?_, ?_, ?_⟩
      · simp only [hw.map, hw.size, hw.off]
        have := h.span
        have h3 : (d.off + 1) % B ≤ d.off % B + 1 := by
          rw [Nat.add_mod]
          exact (Nat.mod_le _ _).trans (Nat.add_le_add_left (Nat.mod_le _ _) _)
        omega
      · simp only [hw.map, hw.size, hw.off]; have := h.sum; omega
      · intro i hi
        simp only [hw.map] at hi
        show atp B d' (d'.off + 1 + i) = _
        rw [hw.off, show d.off + 1 + i = d.off + (i + 1) by omega]; exact hcells i hi
  · intro i hi
    have hl : l.length ≠ 0 := by omega
    rw [if_neg (by rw [hw.size]; omega)]
    unfold addrs
    simp only [hw.map, hw.off, show d.off + 1 + i = d.off + (i + 1) by omega]

end STL.Deque
