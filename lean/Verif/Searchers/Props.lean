import Verif.Searchers.Bm

/-! # Property C35: searchers find the first (last) occurrence -/

namespace STL

namespace Spec
/-- `r` is the least position `≥ start` satisfying `Q`, `none` (npos) when there is none. -/
def FirstFrom (Q : Nat → Prop) (start : Nat) : Option Nat → Prop
  | some i => start ≤ i ∧ Q i ∧ ∀ k, start ≤ k → k < i → ¬ Q k
  | none => ∀ k, start ≤ k → ¬ Q k

/-- `r` is the greatest position `≤ start` satisfying `Q`, `none` (npos) when there is none. -/
def LastUpTo (Q : Nat → Prop) (start : Nat) : Option Nat → Prop
  | some i => i ≤ start ∧ Q i ∧ ∀ k, i < k → k ≤ start → ¬ Q k
  | none => ∀ k, k ≤ start → ¬ Q k

/-- The character at `k` exists and satisfies `P`. -/
def CharAt {α : Type} (h : List α) (P : α → Prop) (k : Nat) : Prop := ∃ hk : k < h.length, P h[k]
end Spec

open Spec
variable {α : Type}

section str
variable [DecidableEq α]

theorem traitsFindCh_spec (h : List α) (ch : α) : ∀ n i, i + n ≤ h.length →
    (traitsFindCh h ch i n = .ok none ∧ ∀ k (_ : k < h.length), i ≤ k → k < i + n → h[k] ≠ ch) ∨
    (∃ k, ∃ hk : k < h.length, traitsFindCh h ch i n = .ok (some k) ∧ i ≤ k ∧ k < i + n ∧ h[k] = ch ∧
      ∀ k' (_ : k' < h.length), i ≤ k' → k' < k → h[k'] ≠ ch) := by
  intro n
  induction n with
  | zero => intro i _; exact Or.inl ⟨rfl, fun k _ _ _ => by omega⟩
  | succ n ih =>
    intro i hle
    unfold traitsFindCh
    rw [rdc_eq _ _ (by omega), R.ok_bind]
    by_cases he : h[i]'(by omega) = ch
    · rw [if_pos he]
      exact Or.inr ⟨i, by omega, rfl, by omega, by omega, he, fun k' _ _ _ => by omega⟩
    · rw [if_neg he]
      rcases ih (i + 1) (by omega) with ⟨h1, h2⟩ | ⟨k, hk, h1, h2, h3, h4, h5⟩
      · refine Or.inl ⟨h1, fun k hk a b => ?_⟩
        rcases Nat.lt_or_ge i k with hl | hl
        · exact h2 k hk hl (by omega)
        · have : k = i := by omega
          subst this; exact he
      · refine Or.inr ⟨k, hk, h1, by omega, by omega, h4, fun k' hk' a b => ?_⟩
        rcases Nat.lt_or_ge i k' with hl | hl
        · exact h5 k' hk' hl b
        · have : k' = i := by omega
          subst this; exact he

theorem traitsCmpEq_spec (h p : List α) (k : Nat) (hk : k + p.length ≤ h.length) : ∀ n j, n + j = p.length →
    ∃ b, traitsCmpEq h p (k + j) j n = .ok b ∧ (b = true ↔ ∀ j' (_ : j' < p.length), j ≤ j' → h[k + j']'(by omega) = p[j']) := by
  intro n
  induction n with
  | zero => intro j hj; exact ⟨true, rfl, by simp; intros; omega⟩
  | succ n ih =>
    intro j hj
    unfold traitsCmpEq
    rw [rdc_eq _ _ (by omega), R.ok_bind, rdc_eq _ _ (by omega), R.ok_bind]
    by_cases he : h[k + j]'(by omega) = p[j]'(by omega)
    · rw [if_pos he]
      obtain ⟨b, h1, h2⟩ := ih (j + 1) (by omega)
      refine ⟨b, h1, h2.trans ⟨fun H j' hj' hle => ?_, fun H j' hj' hle => H j' hj' (by omega)⟩⟩
      rcases Nat.lt_or_ge j j' with hl | hl
      · exact H j' hj' (by omega)
      · have : j' = j := by omega
        subst this; exact he
    · rw [if_neg he]
      exact ⟨false, rfl, by simp only [Bool.false_eq_true, false_iff]; intro H; exact he (H j (by omega) (by omega))⟩

theorem traitsCmpEq_match (h p : List α) (k : Nat) (hk : k + p.length ≤ h.length) :
    ∃ b, traitsCmpEq h p k 0 p.length = .ok b ∧ (b = true ↔ MatchAt (fun a b : α => decide (a = b)) h p k) := by
  obtain ⟨b, h1, h2⟩ := traitsCmpEq_spec h p k hk p.length 0 (by omega)
  exact ⟨b, h1, h2.trans ⟨fun H => ⟨hk, fun j hj => by simpa using H j hj (by omega)⟩, fun ⟨_, H⟩ j hj _ => by simpa using H j hj⟩⟩

theorem traitsFindLoop_spec (h p : List α) (hp : 0 < p.length) (hle : p.length ≤ h.length) (start fuel : Nat) : ∀ mt,
    h.length + 1 - mt < fuel → start ≤ mt → mt ≤ h.length - p.length + 1 →
    (∀ k, start ≤ k → k < mt → ¬ MatchAt (fun a b : α => decide (a = b)) h p k) →
    ∃ r, traitsFindLoop h p (h.length - p.length + 1) fuel mt = .ok r ∧ FirstFrom (MatchAt (fun a b : α => decide (a = b)) h p) start r := by
  induction fuel with
  | zero => intro mt h0; omega
  | succ fuel ih =>
    intro mt hf hs hm hno
    unfold traitsFindLoop
    rw [if_neg (by omega), rdc_eq _ _ hp, R.ok_bind]
    rcases traitsFindCh_spec h p[0] (h.length - p.length + 1 - mt) mt (by omega) with ⟨h1, h2⟩ | ⟨k, hk, h1, h2, h3, h4, h5⟩
    · simp only [h1, R.ok_bind]
      refine ⟨none, rfl, fun k hk hmat => ?_⟩
      rcases Nat.lt_or_ge k mt with hl | hl
      · exact hno k hk hl hmat
      · have hkl := hmat.1
        have := hmat.2 0 hp
        simp only [Nat.add_zero, decide_eq_true_eq] at this
        exact h2 k (by omega) hl (by omega) this
    · simp only [h1, R.ok_bind]
      obtain ⟨b, hb1, hb2⟩ := traitsCmpEq_match h p k (by omega)
      rw [hb1, R.ok_bind]
      have hno' : ∀ k', start ≤ k' → k' < k → ¬ MatchAt (fun a b : α => decide (a = b)) h p k' := by
        intro k' a b hmat
        rcases Nat.lt_or_ge k' mt with hl | hl
        · exact hno k' a hl hmat
        · have := hmat.2 0 hp
          simp only [Nat.add_zero, decide_eq_true_eq] at this
          exact h5 k' (by omega) hl b this
      by_cases hb : b = true
      · rw [if_pos hb]
        exact ⟨some k, rfl, by omega, hb2.1 hb, hno'⟩
      · rw [if_neg hb]
        refine ih (k + 1) (by omega) (by omega) (by omega) fun k' a b' => ?_
        rcases Nat.lt_or_ge k' k with hl | hl
        · exact hno' k' a hl
        · have : k' = k := by omega
          subst this; exact fun H => hb (hb2.2 H)

theorem traitsRfindLoop_spec (h p : List α) (hp : 0 < p.length) (hle : p.length ≤ h.length) (start : Nat) : ∀ mt,
    mt + p.length ≤ h.length → mt ≤ start → (∀ k, mt < k → k ≤ start → ¬ MatchAt (fun a b : α => decide (a = b)) h p k) →
    ∃ r, traitsRfindLoop h p mt = .ok r ∧ LastUpTo (MatchAt (fun a b : α => decide (a = b)) h p) start r := by
  intro mt
  induction mt with
  | zero =>
    intro hm hs hno
    unfold traitsRfindLoop
    rw [rdc_eq _ _ (by omega), R.ok_bind, rdc_eq _ _ hp, R.ok_bind]
    obtain ⟨b, hb1, hb2⟩ := traitsCmpEq_match h p 0 hm
    have key : ∃ b', (if h[0]'(by omega) = p[0] then traitsCmpEq h p 0 0 p.length else .ok false : R Bool) = .ok b' ∧
        (b' = true ↔ MatchAt (fun a b : α => decide (a = b)) h p 0) := by
      split
      · exact ⟨b, hb1, hb2⟩
      · rename_i hne
        refine ⟨false, rfl, by
          simp only [Bool.false_eq_true, false_iff]
          intro H
          have := H.2 0 hp
          simp only [Nat.add_zero, decide_eq_true_eq] at this
          exact hne this⟩
    obtain ⟨b', k1, k2⟩ := key
    rw [k1, R.ok_bind]
    by_cases hb : b' = true
    · rw [if_pos hb]; exact ⟨some 0, rfl, hs, k2.1 hb, hno⟩
    · rw [if_neg hb]
      refine ⟨none, rfl, fun k hk => ?_⟩
      rcases Nat.eq_zero_or_pos k with rfl | h0
      · exact fun H => hb (k2.2 H)
      · exact hno k h0 hk
  | succ mt ih =>
    intro hm hs hno
    unfold traitsRfindLoop
    rw [rdc_eq _ _ (by omega), R.ok_bind, rdc_eq _ _ hp, R.ok_bind]
    obtain ⟨b, hb1, hb2⟩ := traitsCmpEq_match h p (mt + 1) hm
    have key : ∃ b', (if h[mt + 1]'(by omega) = p[0] then traitsCmpEq h p (mt + 1) 0 p.length else .ok false : R Bool) = .ok b' ∧
        (b' = true ↔ MatchAt (fun a b : α => decide (a = b)) h p (mt + 1)) := by
      split
      · exact ⟨b, hb1, hb2⟩
      · rename_i hne
        refine ⟨false, rfl, by
          simp only [Bool.false_eq_true, false_iff]
          intro H
          have := H.2 0 hp
          simp only [Nat.add_zero, decide_eq_true_eq] at this
          exact hne this⟩
    obtain ⟨b', k1, k2⟩ := key
    rw [k1, R.ok_bind]
    by_cases hb : b' = true
    · rw [if_pos hb]; exact ⟨some (mt + 1), rfl, hs, k2.1 hb, hno⟩
    · rw [if_neg hb]
      refine ih (by omega) (by omega) fun k hk hk2 => ?_
      rcases Nat.lt_or_ge (mt + 1) k with hl | hl
      · exact hno k hl hk2
      · have : k = mt + 1 := by omega
        subst this; exact fun H => hb (k2.2 H)

theorem traitsFwd_spec (q : α → R Bool) (P : α → Prop) (hq : ∀ x, ∃ b, q x = .ok b ∧ (b = true ↔ P x)) (h : List α) (start n : Nat) :
    ∀ mt, n = h.length - mt → start ≤ mt → (∀ k, start ≤ k → k < mt → ¬ CharAt h P k) →
      ∃ r, traitsFwd q h mt = .ok r ∧ FirstFrom (CharAt h P) start r := by
  induction n with
  | zero =>
    intro mt hn hs hno
    unfold traitsFwd
    rw [dif_neg (by omega)]
    refine ⟨none, rfl, fun k hk hc => ?_⟩
    rcases Nat.lt_or_ge k mt with hl | hl
    · exact hno k hk hl hc
    · obtain ⟨hc, _⟩ := hc; omega
  | succ n ih =>
    intro mt hn hs hno
    unfold traitsFwd
    obtain ⟨b, h1, h2⟩ := hq (h[mt]'(by omega))
    rw [dif_pos (by omega), rdc_eq _ _ (by omega), R.ok_bind, h1, R.ok_bind]
    by_cases hb : b = true
    · rw [if_pos hb]; exact ⟨some mt, rfl, hs, ⟨by omega, h2.1 hb⟩, hno⟩
    · rw [if_neg hb]
      refine ih (mt + 1) (by omega) (by omega) fun k a c => ?_
      rcases Nat.lt_or_ge k mt with hl | hl
      · exact hno k a hl
      · have : k = mt := by omega
        subst this; exact fun ⟨_, H⟩ => hb (h2.2 H)

theorem traitsBack_spec (q : α → R Bool) (P : α → Prop) (hq : ∀ x, ∃ b, q x = .ok b ∧ (b = true ↔ P x)) (h : List α) (start : Nat) :
    ∀ mt, mt < h.length → mt ≤ start → (∀ k, mt < k → k ≤ start → ¬ CharAt h P k) →
      ∃ r, traitsBack q h mt = .ok r ∧ LastUpTo (CharAt h P) start r := by
  intro mt
  induction mt with
  | zero =>
    intro hm hs hno
    unfold traitsBack
    obtain ⟨b, h1, h2⟩ := hq (h[0]'(by omega))
    rw [rdc_eq _ _ (by omega), R.ok_bind, h1, R.ok_bind]
    by_cases hb : b = true
    · rw [if_pos hb]; exact ⟨some 0, rfl, hs, ⟨by omega, h2.1 hb⟩, hno⟩
    · rw [if_neg hb]
      refine ⟨none, rfl, fun k hk => ?_⟩
      rcases Nat.eq_zero_or_pos k with rfl | h0
      · exact fun ⟨_, H⟩ => hb (h2.2 H)
      · exact hno k h0 hk
  | succ mt ih =>
    intro hm hs hno
    unfold traitsBack
    obtain ⟨b, h1, h2⟩ := hq (h[mt + 1]'(by omega))
    rw [rdc_eq _ _ (by omega), R.ok_bind, h1, R.ok_bind]
    by_cases hb : b = true
    · rw [if_pos hb]; exact ⟨some (mt + 1), rfl, hs, ⟨by omega, h2.1 hb⟩, hno⟩
    · rw [if_neg hb]
      refine ih (by omega) (by omega) fun k hk hk2 => ?_
      rcases Nat.lt_or_ge (mt + 1) k with hl | hl
      · exact hno k hl hk2
      · have : k = mt + 1 := by omega
        subst this; exact fun ⟨_, H⟩ => hb (h2.2 H)

omit [DecidableEq α] in
theorem bitmapMark_spec (wide : Bool) (val : α → Nat) (hval : ∀ a b, val a = val b → a = b) (hnarrow : wide = false → ∀ a, val a < 256) :
    ∀ (p pre : List α) (T : List Bool), T.length = 256 → (∀ c (hc : val c < T.length), T[val c] = true ↔ c ∈ pre) →
      (wide = true → ∀ c ∈ pre, val c < 256) →
      (∃ T', bitmapMark wide val p (full T) = .ok (some (full T')) ∧ T'.length = 256 ∧
        (∀ c (hc : val c < T'.length), T'[val c] = true ↔ c ∈ pre ++ p) ∧ (wide = true → ∀ c ∈ pre ++ p, val c < 256)) ∨
      bitmapMark wide val p (full T) = .ok none := by
  intro p
  induction p with
  | nil => intro pre T hT hinv hw; exact Or.inl ⟨T, rfl, hT, by simpa using hinv, by simpa using hw⟩
  | cons c p ih =>
    intro pre T hT hinv hw
    unfold bitmapMark
    by_cases hb : (wide && decide (val c ≥ 256)) = true
    · rw [if_pos hb]; exact Or.inr rfl
    · rw [if_neg hb]
      have hc : val c < 256 := by
        cases wide with
        | false => exact hnarrow rfl c
        | true => simpa using hb
      rw [wr_full _ _ _ (by omega), R.ok_bind]
      have := ih (pre ++ [c]) (T.set (val c) true) (by simpa using hT) ?_ ?_
      · simpa using this
      · intro c' hc'
        rw [List.getElem_set]
        by_cases he : val c = val c'
        · have := hval _ _ he; subst this; simp
        · rw [if_neg he, hinv c' (by simpa using hc')]
          have : c' ≠ c := fun h => he (by rw [h])
          simp [this]
      · intro hw' c' hc'
        simp only [List.mem_append, List.mem_singleton] at hc'
        rcases hc' with h | rfl
        · exact hw hw' c' h
        · exact hc

theorem charTest_spec (std wide : Bool) (val : α → Nat) (hval : ∀ a b, val a = val b → a = b) (hnarrow : wide = false → ∀ a, val a < 256)
    (p : List α) : ∃ q, charTest std wide val p = .ok q ∧ ∀ x, ∃ b, q x = .ok b ∧ (b = true ↔ x ∈ p) := by
  have hslow : ∀ x, ∃ b, (do let r ← traitsFindCh p x 0 p.length; pure r.isSome : R Bool) = .ok b ∧ (b = true ↔ x ∈ p) := by
    intro x
    rcases traitsFindCh_spec p x p.length 0 (by omega) with ⟨h1, h2⟩ | ⟨k, hk, h1, h2, h3, h4, h5⟩
    · rw [h1]
      refine ⟨false, rfl, by
        simp only [Bool.false_eq_true, false_iff]
        intro hm
        obtain ⟨i, hi, rfl⟩ := List.mem_iff_getElem.1 hm
        exact h2 i hi (by omega) (by omega) rfl⟩
    · rw [h1]
      exact ⟨true, rfl, by simp only [true_iff]; rw [← h4]; exact List.getElem_mem _⟩
  unfold charTest
  simp only []
  cases std with
  | false => exact ⟨_, rfl, hslow⟩
  | true =>
    simp only [if_true]
    have e : List.replicate 256 (some false) = full (List.replicate 256 false) := by rw [full, List.map_replicate]
    rw [e]
    rcases bitmapMark_spec wide val hval hnarrow p [] (List.replicate 256 false) List.length_replicate (by intro c hc; rw [List.getElem_replicate]; simp only [Bool.false_eq_true, List.not_mem_nil]) (by simp) with
      ⟨T, h1, h2, h3, h4⟩ | h1
    · simp only [h1, R.ok_bind]
      refine ⟨_, rfl, fun x => ?_⟩
      unfold bitmapMatch
      by_cases hb : (wide && decide (val x ≥ 256)) = true
      · rw [if_pos hb]
        refine ⟨false, rfl, by
          simp only [Bool.false_eq_true, false_iff]
          intro hm
          simp only [Bool.and_eq_true, decide_eq_true_eq] at hb
          have := h4 hb.1 x (by simpa using hm)
          omega⟩
      · rw [if_neg hb]
        have hc : val x < 256 := by
          cases wide with
          | false => exact hnarrow rfl x
          | true => simpa using hb
        rw [rd_full _ _ (by omega)]
        exact ⟨_, rfl, by simpa using h3 x (by omega)⟩
    · simp only [h1, R.ok_bind]
      exact ⟨_, rfl, hslow⟩

omit [DecidableEq α] in
theorem notTest_spec {q : α → R Bool} {P : α → Prop} (hq : ∀ x, ∃ b, q x = .ok b ∧ (b = true ↔ P x)) :
    ∀ x, ∃ b, notTest q x = .ok b ∧ (b = true ↔ ¬ P x) := by
  intro x
  obtain ⟨b, h1, h2⟩ := hq x
  unfold notTest
  rw [h1, R.ok_bind]
  exact ⟨!b, rfl, by rw [← h2]; cases b <;> simp⟩

end str

/-! ## The theorems -/

/-- **C35 search**: random-access and forward implementations, any predicate. -/
theorem C35_search {β : Type} (eq : α → β → Bool) (h : List α) (p : List β) :
    (∃ r, searchRA eq h p = .ok r ∧ FirstMatch eq h p r) ∧ (∃ r, searchFwd eq h p = .ok r ∧ FirstMatch eq h p r) :=
  ⟨searchRA_spec eq h p, searchFwdLoop_spec eq h p _ 0 rfl (by omega) (by omega)⟩

/-- **C35 find_end**: random-access, bidirectional and forward implementations, any predicate. -/
theorem C35_find_end {β : Type} (eq : α → β → Bool) (h : List α) (p : List β) :
    (∃ r, findEndRA eq h p = .ok r ∧ LastMatch eq h p r) ∧ (∃ r, findEndBidi eq h p = .ok r ∧ LastMatch eq h p r) ∧
      (∃ r, findEndFwd eq h p = .ok r ∧ LastMatch eq h p r) :=
  ⟨findEndRA_spec eq h p, findEndBidiLoop_spec eq h p _ (Nat.le_refl _) (fun k hk ⟨hm, _⟩ => by omega),
    findEndFwdLoop_spec eq h p _ 0 _ rfl (by omega) (Or.inr ⟨rfl, by omega⟩)⟩

/-- **C35 search_n**: `std` random-access and forward implementations and the sized bidirectional `ranges` one. -/
theorem C35_search_n (pr : α → Bool) (h : List α) (n : Nat) :
    (∃ r, searchNRA pr h n = .ok r ∧ FirstRun pr h n r) ∧ (∃ r, searchNFwd pr h n = .ok r ∧ FirstRun pr h n r) ∧
      (∃ r, rangesSearchN pr h n = .ok r ∧ FirstRun pr h n r) := by
  have h0 : n = 0 → FirstRun pr h n 0 := fun e => Or.inl ⟨⟨by omega, fun j hj => by omega⟩, by omega⟩
  unfold searchNRA searchNFwd rangesSearchN
  by_cases hn : n = 0
  · simp only [if_pos hn]
    exact ⟨⟨0, rfl, h0 hn⟩, ⟨0, rfl, h0 hn⟩, ⟨0, rfl, h0 hn⟩⟩
  · simp only [if_neg hn]
    refine ⟨searchNLoop_spec pr h n (by omega) _ 0 0 (by omega) (by omega) (by omega),
      searchNFwdLoop_spec pr h n (by omega) _ 0 (by omega) (by omega) (by omega), ?_⟩
    by_cases hl : n ≤ h.length
    · rw [if_pos hl]
      have := searchNSized_spec pr h n (by omega) ((h.length + 2) * (h.length + 2)) 0 h.length 0 n n
        (by have : (h.length + 2) * (h.length + 2) = h.length * (h.length + 2) + 2 * (h.length + 2) := by rw [Nat.add_mul]
            omega) (by omega) (by omega) hl
        (by omega) (by omega) (by omega) (fun k _ _ _ => by omega) (fun k _ _ _ => by omega) (by omega)
      rcases this with ⟨r, h1, h2, h3⟩ | ⟨h1, h2⟩
      · simp only [h1, R.ok_bind]; exact ⟨r, rfl, Or.inl ⟨h2, h3⟩⟩
      · simp only [h1, R.ok_bind]; exact ⟨_, rfl, Or.inr ⟨rfl, h2⟩⟩
    · rw [if_neg hl]
      exact ⟨_, rfl, Or.inr ⟨rfl, fun k ⟨hk, _⟩ => by omega⟩⟩

/-- The pair returned by a searcher: the first occurrence `[r, r + |p|)`, or the empty range at the end. -/
def SearcherResult (eq : α → α → Bool) (h p : List α) (r : Nat × Nat) : Prop :=
  (MatchAt eq h p r.1 ∧ (∀ k < r.1, ¬ MatchAt eq h p k) ∧ r.2 = r.1 + p.length) ∨
    (r = (h.length, h.length) ∧ ∀ k, ¬ MatchAt eq h p k)

theorem searcher_empty (eq : α → α → Bool) (h p : List α) (hp : p.length = 0) : SearcherResult eq h p (0, 0) :=
  Or.inl ⟨⟨by omega, fun j hj => by omega⟩, by simp, by simp; omega⟩

theorem bm_general {κ : Type} (eq : α → α → Bool) (cl : α → κ) (hcl : ∀ a b, eq a b = true ↔ cl a = cl b) (maxDiff : Nat) (h p : List α)
    (hmax : 2 * p.length ≤ maxDiff) (look : α → R Nat) (hlook : D1 cl p look) :
    ∃ d2, buildDelta2 eq maxDiff p = .ok d2 ∧ (∃ r, bmSearch eq look d2 p h = .ok r ∧ SearcherResult eq h p r) ∧
      ∃ r, bmhSearch eq look p h = .ok r ∧ SearcherResult eq h p r := by
  unfold bmSearch bmhSearch
  by_cases h0 : p.length = 0
  · simp only [if_pos h0]
    exact ⟨[], by simp [buildDelta2, h0]; rfl, ⟨_, rfl, searcher_empty eq h p h0⟩, ⟨_, rfl, searcher_empty eq h p h0⟩⟩
  · simp only [if_neg h0]
    obtain ⟨S, hS, hlen, hlow, hd2⟩ := buildDelta2_spec eq cl hcl p maxDiff (by omega) hmax
    refine ⟨_, hS, ?_, ?_⟩
    · obtain ⟨r, ⟨h1, h2, h3⟩ | ⟨h1, h2⟩⟩ := bmLoop_spec eq cl hcl p h (by omega) look hlook S hlen hlow hd2 (h.length + 1) 0 (p.length - 1)
        (by omega) (by omega) (fun k hk => by omega)
      · exact ⟨_, h1, Or.inl ⟨h2, h3, rfl⟩⟩
      · exact ⟨_, h1, Or.inr ⟨rfl, h2⟩⟩
    · obtain ⟨r, ⟨h1, h2, h3⟩ | ⟨h1, h2⟩⟩ := bmhLoop_spec eq cl hcl p h (by omega) look hlook (h.length + 1) 0 (p.length - 1)
        (by omega) (by omega) (fun k hk => by omega)
      · exact ⟨_, h1, Or.inl ⟨h2, h3, rfl⟩⟩
      · exact ⟨_, h1, Or.inr ⟨rfl, h2⟩⟩

/-- **C35 Boyer-Moore searchers, general mode**: with any equivalence relation as the equality, both searchers return the
first occurrence for every pattern and haystack (patterns short enough for the constructor not to throw). -/
theorem C35_boyer_moore (eq : α → α → Bool) (hrefl : ∀ a, eq a a = true) (hsymm : ∀ a b, eq a b = true → eq b a = true)
    (htrans : ∀ a b c, eq a b = true → eq b c = true → eq a c = true) (maxDiff : Nat) (p h : List α) (hmax : 2 * p.length ≤ maxDiff) :
    (∃ r, boyerMoore eq maxDiff p h = .ok r ∧ SearcherResult eq h p r) ∧
      (∃ r, boyerMooreHorspool eq p h = .ok r ∧ SearcherResult eq h p r) := by
  classical
  let s : Setoid α := ⟨fun a b => eq a b = true, hrefl, fun {a b} h => hsymm a b h, fun {a b c} h h' => htrans a b c h h'⟩
  have hcl : ∀ a b, eq a b = true ↔ (Quotient.mk s a) = Quotient.mk s b := fun a b => ⟨fun h => Quotient.sound h, fun h => Quotient.exact h⟩
  have hl : D1 (Quotient.mk s) p (hashDelta1Lookup eq p.length (hashDelta1Build eq p.length 1 p [])) :=
    hashDelta1_spec eq (Quotient.mk s) hcl p p [] [] rfl (fun c => by simp [assocFind])
  obtain ⟨d2, h1, h2, h3⟩ := bm_general eq (Quotient.mk s) hcl maxDiff h p hmax _ hl
  unfold boyerMoore boyerMooreHorspool
  simp only [h1, R.ok_bind]
  exact ⟨h2, h3⟩

/-- The constructor throws `length_error` exactly for patterns whose doubled length does not fit the difference type. -/
theorem C35_boyer_moore_too_long (eq : α → α → Bool) (maxDiff : Nat) (p h : List α) (hp : p.length ≤ maxDiff) (hmax : maxDiff < 2 * p.length) :
    boyerMoore eq maxDiff p h = .error (.exc .lengthError) := by
  unfold boyerMoore buildDelta2
  simp only []
  rw [if_neg (by omega), if_pos (by omega)]
  rfl

/-- **C35 Boyer-Moore searchers, character modes**: `char` (256-entry table) and `wchar_t` (256 or 65536 entries chosen
from the pattern). -/
theorem C35_boyer_moore_flat [DecidableEq α] (val : α → Nat) (hval : ∀ a b, val a = val b → a = b) (hv : ∀ a, val a < 65536)
    (limit : Nat) (hlimit : limit = wcharLimit val p ∨ (limit = 256 ∧ ∀ a, val a < 256)) (maxDiff : Nat) (h : List α)
    (hmax : 2 * p.length ≤ maxDiff) :
    (∃ r, boyerMooreFlat val limit maxDiff p h = .ok r ∧ SearcherResult (fun a b => decide (a = b)) h p r) ∧
      (∃ r, boyerMooreHorspoolFlat val limit p h = .ok r ∧ SearcherResult (fun a b => decide (a = b)) h p r) := by
  have hlim : ∀ c ∈ p, val c < limit := by
    intro c hc
    rcases hlimit with rfl | ⟨rfl, h2⟩
    · unfold wcharLimit
      by_cases ha : p.any (fun c => decide (val c > 255)) = true
      · rw [if_pos ha]; exact hv c
      · rw [if_neg ha]
        by_contra hlt
        exact ha (List.any_eq_true.2 ⟨c, hc, by simp; omega⟩)
    · exact h2 c
  obtain ⟨T, hT, hl⟩ := flatDelta1_spec p val hval limit hlim p [] (List.replicate limit p.length) rfl (by simp)
    (fun c hc => Or.inl ⟨by simp, fun i _ a => by simp at a⟩)
  obtain ⟨d2, h1, h2, h3⟩ := bm_general (fun a b => decide (a = b)) (fun a => a) (fun a b => by simp) maxDiff h p hmax _ hl
  have e : List.replicate limit (some p.length) = full (List.replicate limit p.length) := by simp [full]
  unfold boyerMooreFlat boyerMooreHorspoolFlat
  simp only [List.length_nil, Nat.zero_add] at hT
  simp only [e, hT, h1, R.ok_bind]
  exact ⟨h2, h3⟩

section strthm
variable [DecidableEq α]

/-- **C35 string find / rfind** of a substring, every start position. -/
theorem C35_string_find (h p : List α) (start : Nat) :
    (∃ r, traitsFind h p start = .ok r ∧ FirstFrom (MatchAt (fun a b : α => decide (a = b)) h p) start r) ∧
      (∃ r, traitsRfind h p start = .ok r ∧ LastUpTo (MatchAt (fun a b : α => decide (a = b)) h p) start r) := by
  constructor
  · unfold traitsFind
    by_cases h1 : p.length > h.length ∨ start > h.length - p.length
    · rw [if_pos h1]
      exact ⟨none, rfl, fun k hk ⟨hm, _⟩ => by omega⟩
    · rw [if_neg h1]
      by_cases h2 : p.length = 0
      · rw [if_pos h2]
        exact ⟨some start, rfl, Nat.le_refl _, ⟨by omega, fun j hj => by omega⟩, fun k a b => by omega⟩
      · rw [if_neg h2]
        exact traitsFindLoop_spec h p (by omega) (by omega) start _ start (by omega) (by omega) (by omega) (fun k a b => by omega)
  · unfold traitsRfind
    by_cases h2 : p.length = 0
    · rw [if_pos h2]
      refine ⟨some _, rfl, by omega, ⟨by omega, fun j hj => by omega⟩, fun k a b ⟨hm, _⟩ => by omega⟩
    · rw [if_neg h2]
      by_cases h1 : p.length > h.length
      · rw [if_pos h1]
        exact ⟨none, rfl, fun k hk ⟨hm, _⟩ => by omega⟩
      · rw [if_neg h1]
        exact traitsRfindLoop_spec h p (by omega) (by omega) start _ (by omega) (by omega) (fun k a b ⟨hm, _⟩ => by omega)

/-- **C35 single-character find, rfind, find_first_not_of, find_last_not_of**. -/
theorem C35_string_find_ch (h : List α) (ch : α) (start : Nat) :
    (∃ r, traitsFindChar h start ch = .ok r ∧ FirstFrom (CharAt h (· = ch)) start r) ∧
      (∃ r, traitsRfindChar h start ch = .ok r ∧ LastUpTo (CharAt h (· = ch)) start r) ∧
      (∃ r, traitsFindNotChar h start ch = .ok r ∧ FirstFrom (CharAt h (¬ · = ch)) start r) ∧
      (∃ r, traitsRfindNotChar h start ch = .ok r ∧ LastUpTo (CharAt h (¬ · = ch)) start r) := by
  refine ⟨?_, ?_, ?_, ?_⟩
  · unfold traitsFindChar
    by_cases h1 : start ≥ h.length
    · rw [if_pos h1]; exact ⟨none, rfl, fun k hk ⟨hm, _⟩ => by omega⟩
    · rw [if_neg h1]
      rcases traitsFindCh_spec h ch (h.length - start) start (by omega) with ⟨h1, h2⟩ | ⟨k, hk, h1, h2, h3, h4, h5⟩
      · exact ⟨none, h1, fun k hk ⟨hm, he⟩ => h2 k hm hk (by omega) he⟩
      · exact ⟨some k, h1, h2, ⟨hk, h4⟩, fun k' a b ⟨hm, he⟩ => h5 k' hm a b he⟩
  · unfold traitsRfindChar
    by_cases h1 : h.length = 0
    · rw [if_pos h1]; exact ⟨none, rfl, fun k hk ⟨hm, _⟩ => by omega⟩
    · rw [if_neg h1]
      exact traitsBack_spec _ (· = ch) (fun x => ⟨_, rfl, by simp⟩) h start _ (by omega) (by omega) (fun k a b ⟨hm, _⟩ => by omega)
  · unfold traitsFindNotChar
    by_cases h1 : start ≥ h.length
    · rw [if_pos h1]; exact ⟨none, rfl, fun k hk ⟨hm, _⟩ => by omega⟩
    · rw [if_neg h1]
      exact traitsFwd_spec _ (¬ · = ch) (fun x => ⟨_, rfl, by simp⟩) h start _ start rfl (by omega) (fun k a b => by omega)
  · unfold traitsRfindNotChar
    by_cases h1 : h.length = 0
    · rw [if_pos h1]; exact ⟨none, rfl, fun k hk ⟨hm, _⟩ => by omega⟩
    · rw [if_neg h1]
      exact traitsBack_spec _ (¬ · = ch) (fun x => ⟨_, rfl, by simp⟩) h start _ (by omega) (by omega) (fun k a b ⟨hm, _⟩ => by omega)

/-- **C35 find_first_of / find_last_of / find_first_not_of / find_last_not_of**, for every character type: narrow
(`wide = false`, all values below 256), wide with the bitmap fallback, and non-standard traits (`std = false`). -/
theorem C35_string_find_of (std wide : Bool) (val : α → Nat) (hval : ∀ a b, val a = val b → a = b)
    (hnarrow : wide = false → ∀ a, val a < 256) (h p : List α) (start : Nat) :
    (∃ r, traitsFindFirstOf std wide val h p start = .ok r ∧ FirstFrom (CharAt h (· ∈ p)) start r) ∧
      (∃ r, traitsFindLastOf std wide val h p start = .ok r ∧ LastUpTo (CharAt h (· ∈ p)) start r) ∧
      (∃ r, traitsFindFirstNotOf std wide val h p start = .ok r ∧ FirstFrom (CharAt h (· ∉ p)) start r) ∧
      (∃ r, traitsFindLastNotOf std wide val h p start = .ok r ∧ LastUpTo (CharAt h (· ∉ p)) start r) := by
  obtain ⟨q, hq, hq2⟩ := charTest_spec std wide val hval hnarrow p
  have hno0 : p.length = 0 → ∀ k, ¬ CharAt h (· ∈ p) k := by
    intro h0 k ⟨_, hm⟩
    have : p = [] := List.length_eq_zero_iff.1 h0
    subst this; simp at hm
  refine ⟨?_, ?_, ?_, ?_⟩
  · unfold traitsFindFirstOf
    by_cases h1 : p.length = 0 ∨ start ≥ h.length
    · rw [if_pos h1]
      refine ⟨none, rfl, fun k hk hc => ?_⟩
      rcases h1 with h1 | h1
      · exact hno0 h1 k hc
      · obtain ⟨hm, _⟩ := hc; omega
    · rw [if_neg h1, hq, R.ok_bind]
      exact traitsFwd_spec _ _ hq2 h start _ start rfl (by omega) (fun k a b => by omega)
  · unfold traitsFindLastOf
    by_cases h1 : p.length = 0 ∨ h.length = 0
    · rw [if_pos h1]
      refine ⟨none, rfl, fun k hk hc => ?_⟩
      rcases h1 with h1 | h1
      · exact hno0 h1 k hc
      · obtain ⟨hm, _⟩ := hc; omega
    · rw [if_neg h1, hq, R.ok_bind]
      exact traitsBack_spec _ _ hq2 h start _ (by omega) (by omega) (fun k a b ⟨hm, _⟩ => by omega)
  · unfold traitsFindFirstNotOf
    by_cases h1 : start ≥ h.length
    · rw [if_pos h1]; exact ⟨none, rfl, fun k hk ⟨hm, _⟩ => by omega⟩
    · rw [if_neg h1, hq, R.ok_bind]
      exact traitsFwd_spec _ _ (notTest_spec hq2) h start _ start rfl (by omega) (fun k a b => by omega)
  · unfold traitsFindLastNotOf
    by_cases h1 : h.length = 0
    · rw [if_pos h1]; exact ⟨none, rfl, fun k hk ⟨hm, _⟩ => by omega⟩
    · rw [if_neg h1, hq, R.ok_bind]
      exact traitsBack_spec _ _ (notTest_spec hq2) h start _ (by omega) (by omega) (fun k a b ⟨hm, _⟩ => by omega)

end strthm

/-- non-vacuity: case-insensitive matching is a non-trivial equivalence, and there are occurrences. -/
example : MatchAt (fun a b : Char => decide (a.toLower = b.toLower)) "xxAbAb".toList "aba".toList 2 := by
  refine ⟨by decide, ?_⟩
  decide

end STL
