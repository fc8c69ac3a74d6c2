import Verif.Searchers.Model
import Verif.Tac
import Verif.At

/-! # Specification of matches, and `search`, `find_end`, `search_n` -/

namespace STL

namespace Spec
variable {α β : Type}

/-- The needle `p` occurs in `h` at offset `k`. -/
def MatchAt (eq : α → β → Bool) (h : List α) (p : List β) (k : Nat) : Prop :=
  ∃ _hk : k + p.length ≤ h.length, ∀ j (_hj : j < p.length), eq (h[k + j]'(by omega)) p[j] = true

/-- `r` is the offset of the first occurrence, or the end when there is none. -/
def FirstMatch (eq : α → β → Bool) (h : List α) (p : List β) (r : Nat) : Prop :=
  (MatchAt eq h p r ∧ ∀ k < r, ¬ MatchAt eq h p k) ∨ (r = h.length ∧ ∀ k, ¬ MatchAt eq h p k)

/-- `r` is the offset of the last occurrence, or the end when there is none. -/
def LastMatch (eq : α → β → Bool) (h : List α) (p : List β) (r : Nat) : Prop :=
  (MatchAt eq h p r ∧ ∀ k > r, ¬ MatchAt eq h p k) ∨ (r = h.length ∧ ∀ k, ¬ MatchAt eq h p k)

/-- A run of `n` elements satisfying `pr` starts at `k`. -/
def RunAt (pr : α → Bool) (h : List α) (n k : Nat) : Prop :=
  ∃ _hk : k + n ≤ h.length, ∀ j (_hj : j < n), pr (h[k + j]'(by omega)) = true

/-- `r` is the start of the first run of `n`, or the end when there is none. -/
def FirstRun (pr : α → Bool) (h : List α) (n r : Nat) : Prop :=
  (RunAt pr h n r ∧ ∀ k < r, ¬ RunAt pr h n k) ∨ (r = h.length ∧ ∀ k, ¬ RunAt pr h n k)

end Spec

open Spec
variable {α β : Type}

@[simp] theorem rdc_eq (xs : List α) (i : Nat) (h : i < xs.length) : rdc xs i = .ok xs[i] := by
  simp [rdc, h]

theorem equalRev_spec (eq : α → β → Bool) (h : List α) (p : List β) (k : Nat) (hk : k + p.length ≤ h.length) (n : Nat) :
    ∀ j, n = p.length - j → ∃ b, equalRev eq h p (k + j) j = .ok b ∧
      (b = true ↔ ∀ j' (_ : j' < p.length), j ≤ j' → eq (h[k + j']'(by omega)) p[j'] = true) := by
  induction n with
  | zero =>
    intro j hj
    unfold equalRev
    rw [dif_neg (by omega)]
    exact ⟨true, rfl, by simp; intros; omega⟩
  | succ n ih =>
    intro j hj
    unfold equalRev
    rw [dif_pos (by omega), rdc_eq _ _ (by omega), R.ok_bind, rdc_eq _ _ (by omega), R.ok_bind]
    by_cases he : eq (h[k + j]'(by omega)) (p[j]'(by omega)) = true
    · rw [if_neg (by simp [he])]
      obtain ⟨b, h1, h2⟩ := ih (j + 1) (by omega)
      refine ⟨b, h1, h2.trans ⟨fun H j' hj' hle => ?_, fun H j' hj' hle => H j' hj' (by omega)⟩⟩
      rcases Nat.lt_or_ge j j' with hl | hl
      · exact H j' hj' (by omega)
      · have : j' = j := by omega
        subst this; exact he
    · rw [if_pos (by simp [he])]
      exact ⟨false, rfl, by simp only [Bool.false_eq_true, false_iff]; intro H; exact he (H j (by omega) (by omega))⟩

theorem equalRev_match (eq : α → β → Bool) (h : List α) (p : List β) (k : Nat) (hk : k + p.length ≤ h.length) :
    ∃ b, equalRev eq h p k 0 = .ok b ∧ (b = true ↔ MatchAt eq h p k) := by
  obtain ⟨b, h1, h2⟩ := equalRev_spec eq h p k hk _ 0 rfl
  exact ⟨b, h1, h2.trans ⟨fun H => ⟨hk, fun j hj => H j hj (by omega)⟩, fun ⟨_, H⟩ j hj _ => H j hj⟩⟩

theorem searchLoop_spec (eq : α → β → Bool) (h : List α) (p : List β) (lp : Nat) (hlp : lp + p.length = h.length) (n : Nat) :
    ∀ first, n = lp - first → first ≤ lp → (∀ k < first, ¬ MatchAt eq h p k) →
      ∃ r, searchLoop eq h p lp first = .ok r ∧ FirstMatch eq h p r := by
  induction n with
  | zero =>
    intro first hn hle hno
    unfold searchLoop
    obtain ⟨b, h1, h2⟩ := equalRev_match eq h p first (by omega)
    rw [dif_pos hle, h1, R.ok_bind]
    by_cases hb : b = true
    · rw [if_pos hb]; exact ⟨_, rfl, Or.inl ⟨h2.1 hb, hno⟩⟩
    · rw [if_neg hb, if_pos (by omega)]
      refine ⟨_, rfl, Or.inr ⟨rfl, fun k hk => ?_⟩⟩
      rcases Nat.lt_trichotomy k first with hl | hl | hl
      · exact hno k hl hk
      · subst hl; exact hb (h2.2 hk)
      · obtain ⟨hk, _⟩ := hk; omega
  | succ n ih =>
    intro first hn hle hno
    unfold searchLoop
    obtain ⟨b, h1, h2⟩ := equalRev_match eq h p first (by omega)
    rw [dif_pos hle, h1, R.ok_bind]
    by_cases hb : b = true
    · rw [if_pos hb]; exact ⟨_, rfl, Or.inl ⟨h2.1 hb, hno⟩⟩
    · rw [if_neg hb, if_neg (by omega)]
      refine ih (first + 1) (by omega) (by omega) fun k hk hm => ?_
      rcases Nat.lt_or_ge k first with hl | hl
      · exact hno k hl hm
      · have : k = first := by omega
        subst this; exact hb (h2.2 hm)

theorem searchRA_spec (eq : α → β → Bool) (h : List α) (p : List β) : ∃ r, searchRA eq h p = .ok r ∧ FirstMatch eq h p r := by
  unfold searchRA
  by_cases hl : p.length ≤ h.length
  · rw [if_pos hl]
    exact searchLoop_spec eq h p _ (by omega) _ 0 rfl (by omega) (by omega)
  · rw [if_neg hl]
    exact ⟨_, rfl, Or.inr ⟨rfl, fun k ⟨hk, _⟩ => by omega⟩⟩

theorem searchFwdInner_spec (eq : α → β → Bool) (h : List α) (p : List β) (first : Nat) (n : Nat) :
    ∀ mid2, n = p.length - mid2 → (_hl : mid2 ≤ p.length) → (hm : first + mid2 ≤ h.length) →
      (∀ j (_ : j < mid2), eq (h[first + j]'(by omega)) (p[j]'(by omega)) = true) →
      (searchFwdInner eq h p first (first + mid2) mid2 = .ok (some first) ∧ MatchAt eq h p first) ∨
      (searchFwdInner eq h p first (first + mid2) mid2 = .ok (some h.length) ∧ h.length < first + p.length) ∨
      (searchFwdInner eq h p first (first + mid2) mid2 = .ok none ∧ ¬ MatchAt eq h p first ∧ first < h.length) := by
  induction n with
  | zero =>
    intro mid2 hn hle hm hall
    unfold searchFwdInner
    rw [dif_pos (by omega)]
    exact Or.inl ⟨rfl, by omega, fun j hj => hall j (by omega)⟩
  | succ n ih =>
    intro mid2 hn hle hm hall
    unfold searchFwdInner
    rw [dif_neg (by omega)]
    by_cases h1 : first + mid2 = h.length
    · rw [dif_pos h1]; exact Or.inr (Or.inl ⟨rfl, by omega⟩)
    · rw [dif_neg h1, dif_neg (by omega), rdc_eq _ _ (by omega), R.ok_bind, rdc_eq _ _ (by omega), R.ok_bind]
      by_cases he : eq (h[first + mid2]'(by omega)) (p[mid2]'(by omega)) = true
      · rw [if_neg (by simp [he])]
        refine ih (mid2 + 1) (by omega) (by omega) (by omega) fun j hj => ?_
        rcases Nat.lt_or_ge j mid2 with hl | hl
        · exact hall j hl
        · have : j = mid2 := by omega
          subst this; exact he
      · rw [if_pos (by simp [he])]
        exact Or.inr (Or.inr ⟨rfl, fun ⟨_, H⟩ => he (H mid2 (by omega)), by omega⟩)

theorem searchFwdLoop_spec (eq : α → β → Bool) (h : List α) (p : List β) (n : Nat) :
    ∀ first, n = h.length - first → first ≤ h.length → (∀ k < first, ¬ MatchAt eq h p k) →
      ∃ r, searchFwdLoop eq h p first = .ok r ∧ FirstMatch eq h p r := by
  induction n using Nat.strongRecOn with
  | ind n ih =>
    intro first hn hle hno
    unfold searchFwdLoop
    rw [dif_pos hle]
    rcases searchFwdInner_spec eq h p first _ 0 rfl (by omega) (by omega) (by omega) with ⟨h1, h2⟩ | ⟨h1, h2⟩ | ⟨h1, h2, h3⟩
    · simp only [Nat.add_zero] at h1
      simp only [h1, R.ok_bind]
      exact ⟨_, rfl, Or.inl ⟨h2, hno⟩⟩
    · simp only [Nat.add_zero] at h1
      simp only [h1, R.ok_bind]
      refine ⟨_, rfl, Or.inr ⟨rfl, fun k hk => ?_⟩⟩
      rcases Nat.lt_or_ge k first with hl | hl
      · exact hno k hl hk
      · obtain ⟨hk, _⟩ := hk; omega
    · simp only [Nat.add_zero] at h1
      simp only [h1, R.ok_bind]
      refine ih (h.length - (first + 1)) (by omega) (first + 1) rfl (by omega) fun k hk hm => ?_
      rcases Nat.lt_or_ge k first with hl | hl
      · exact hno k hl hm
      · have : k = first := by omega
        subst this; exact h2 hm

/-! ### find_end -/

theorem findEndLoop_spec (eq : α → β → Bool) (h : List α) (p : List β) :
    ∀ c, c + p.length ≤ h.length → (∀ k > c, ¬ MatchAt eq h p k) →
      ∃ r, findEndLoop eq h p c = .ok r ∧ LastMatch eq h p r := by
  intro c
  induction c with
  | zero =>
    intro hle hno
    obtain ⟨b, h1, h2⟩ := equalRev_match eq h p 0 hle
    unfold findEndLoop
    rw [h1, R.ok_bind]
    by_cases hb : b = true
    · rw [if_pos hb]; exact ⟨_, rfl, Or.inl ⟨h2.1 hb, hno⟩⟩
    · rw [if_neg hb]
      refine ⟨_, rfl, Or.inr ⟨rfl, fun k hm => ?_⟩⟩
      rcases Nat.eq_zero_or_pos k with rfl | hk
      · exact hb (h2.2 hm)
      · exact hno k hk hm
  | succ c ih =>
    intro hle hno
    obtain ⟨b, h1, h2⟩ := equalRev_match eq h p (c + 1) hle
    unfold findEndLoop
    rw [h1, R.ok_bind]
    by_cases hb : b = true
    · rw [if_pos hb]; exact ⟨_, rfl, Or.inl ⟨h2.1 hb, hno⟩⟩
    · rw [if_neg hb]
      refine ih (by omega) fun k hk hm => ?_
      rcases Nat.lt_or_ge (c + 1) k with hl | hl
      · exact hno k hl hm
      · have : k = c + 1 := by omega
        subst this; exact hb (h2.2 hm)

theorem findEndRA_spec (eq : α → β → Bool) (h : List α) (p : List β) : ∃ r, findEndRA eq h p = .ok r ∧ LastMatch eq h p r := by
  unfold findEndRA
  by_cases hl : 0 < p.length ∧ p.length ≤ h.length
  · rw [if_pos hl]
    exact findEndLoop_spec eq h p _ (by omega) fun k hk ⟨hm, _⟩ => by omega
  · rw [if_neg hl]
    refine ⟨_, rfl, ?_⟩
    by_cases h0 : p.length = 0
    · exact Or.inl ⟨⟨by omega, fun j hj => by omega⟩, fun k hk ⟨hm, _⟩ => by omega⟩
    · exact Or.inr ⟨rfl, fun k ⟨hk, _⟩ => by omega⟩

theorem findEndBidiInner_spec (eq : α → β → Bool) (h : List α) (p : List β) (cand : Nat) (hc : cand ≤ h.length) :
    ∀ next2, next2 ≤ p.length → ∀ next1, (_hn : next1 + p.length = cand + next2) →
      (∀ j (hj : j < p.length), (_hx : next2 ≤ j) → eq (h[next1 + (j - next2)]'(by omega)) p[j] = true) →
      (∃ k, findEndBidiInner eq h p next1 next2 = .ok (some k) ∧ k + p.length = cand ∧ MatchAt eq h p k) ∨
      (findEndBidiInner eq h p next1 next2 = .ok (some h.length) ∧ cand < p.length) ∨
      (findEndBidiInner eq h p next1 next2 = .ok none ∧ 0 < cand ∧ ∀ k, k + p.length = cand → ¬ MatchAt eq h p k) := by
  intro next2
  induction next2 with
  | zero =>
    intro hle next1 hn hall
    refine Or.inl ⟨next1, by simp [findEndBidiInner]; rfl, by omega, by omega, fun j hj => ?_⟩
    have := hall j hj (by omega)
    simpa using this
  | succ n2 ih =>
    intro hle next1 hn hall
    cases next1 with
    | zero => exact Or.inr (Or.inl ⟨by simp [findEndBidiInner]; rfl, by omega⟩)
    | succ n1 =>
      unfold findEndBidiInner
      simp only []
      rw [rdc_eq _ _ (by omega), R.ok_bind, rdc_eq _ _ (by omega), R.ok_bind]
      by_cases he : eq (h[n1]'(by omega)) (p[n2]'(by omega)) = true
      · rw [if_neg (by simp [he])]
        refine ih (by omega) n1 (by omega) fun j hj hle => ?_
        rcases Nat.lt_or_ge n2 j with hl | hl
        · have := hall j hj (by omega)
          have e : n1 + 1 + (j - (n2 + 1)) = n1 + (j - n2) := by omega
          simpa [e] using this
        · have : j = n2 := by omega
          subst this; simpa using he
      · rw [if_pos (by simp [he])]
        refine Or.inr (Or.inr ⟨rfl, by omega, fun k hk ⟨_, H⟩ => he ?_⟩)
        have := H n2 (by omega)
        have e : k + n2 = n1 := by omega
        simpa [e] using this

theorem findEndBidiLoop_spec (eq : α → β → Bool) (h : List α) (p : List β) :
    ∀ cand, cand ≤ h.length → (∀ k, cand < k + p.length → ¬ MatchAt eq h p k) →
      ∃ r, findEndBidiLoop eq h p cand = .ok r ∧ LastMatch eq h p r := by
  intro cand
  induction cand with
  | zero =>
    intro hc hno
    unfold findEndBidiLoop
    rcases findEndBidiInner_spec eq h p 0 hc p.length (Nat.le_refl _) 0 rfl (fun j hj hl => by omega) with
      ⟨k, h1, h2, h3⟩ | ⟨h1, h2⟩ | ⟨h1, h2, h3⟩
    · simp only [h1, R.ok_bind]
      exact ⟨_, rfl, Or.inl ⟨h3, fun k' hk' => hno k' (by omega)⟩⟩
    · simp only [h1, R.ok_bind]
      exact ⟨_, rfl, Or.inr ⟨rfl, fun k => hno k (by omega)⟩⟩
    · omega
  | succ cand ih =>
    intro hc hno
    unfold findEndBidiLoop
    rcases findEndBidiInner_spec eq h p (cand + 1) hc p.length (Nat.le_refl _) (cand + 1) (by omega) (fun j hj hl => by omega) with
      ⟨k, h1, h2, h3⟩ | ⟨h1, h2⟩ | ⟨h1, h2, h3⟩
    · simp only [h1, R.ok_bind]
      exact ⟨_, rfl, Or.inl ⟨h3, fun k' hk' => hno k' (by omega)⟩⟩
    · simp only [h1, R.ok_bind]
      exact ⟨_, rfl, Or.inr ⟨rfl, fun k => hno k (by omega)⟩⟩
    · simp only [h1, R.ok_bind]
      refine ih (by omega) fun k hk hm => ?_
      rcases Nat.lt_or_ge (cand + 1) (k + p.length) with hl | hl
      · exact hno k hl hm
      · exact h3 k (by omega) hm

theorem findEndFwdInner_spec (eq : α → β → Bool) (h : List α) (p : List β) (first : Nat) (n : Nat) :
    ∀ next2 res, n = p.length - next2 → (_hl : next2 ≤ p.length) → (hm : first + next2 ≤ h.length) →
      (∀ j (_ : j < next2), eq (h[first + j]'(by omega)) (p[j]'(by omega)) = true) →
      ∃ res' fin, findEndFwdInner eq h p first (first + next2) next2 res = .ok (res', fin) ∧
        (MatchAt eq h p first ∧ res' = first ∨ ¬ MatchAt eq h p first ∧ res' = res) ∧
        (fin = true → h.length ≤ first + p.length) ∧ (fin = false → first < h.length) := by
  induction n with
  | zero =>
    intro next2 res hn hle hm hall
    have e : next2 = p.length := by omega
    subst e
    unfold findEndFwdInner
    rw [dif_neg (by omega)]
    simp only [if_true, dite_true]
    have hM : MatchAt eq h p first := ⟨hm, hall⟩
    by_cases h1 : first + p.length = h.length
    · rw [if_pos h1]; exact ⟨_, _, rfl, Or.inl ⟨hM, rfl⟩, by simp; omega, by simp⟩
    · rw [if_neg h1]; exact ⟨_, _, rfl, Or.inl ⟨hM, rfl⟩, by simp, by simp; omega⟩
  | succ n ih =>
    intro next2 res hn hle hm hall
    unfold findEndFwdInner
    rw [dif_neg (by omega)]
    have e : ¬ next2 = p.length := by omega
    simp only [e, if_false, dite_false]
    by_cases h1 : first + next2 = h.length
    · rw [if_pos h1]
      exact ⟨_, _, rfl, Or.inr ⟨fun ⟨hk, _⟩ => by omega, rfl⟩, by simp; omega, by simp⟩
    · rw [if_neg h1, rdc_eq _ _ (by omega), R.ok_bind, rdc_eq _ _ (by omega), R.ok_bind]
      by_cases he : eq (h[first + next2]'(by omega)) (p[next2]'(by omega)) = true
      · rw [if_neg (by simp [he])]
        refine ih (next2 + 1) res (by omega) (by omega) (by omega) fun j hj => ?_
        rcases Nat.lt_or_ge j next2 with hl | hl
        · exact hall j hl
        · have : j = next2 := by omega
          subst this; exact he
      · rw [if_pos (by simp [he])]
        exact ⟨_, _, rfl, Or.inr ⟨fun ⟨_, H⟩ => he (H next2 (by omega)), rfl⟩, by simp, by simp; omega⟩

theorem findEndFwdLoop_spec (eq : α → β → Bool) (h : List α) (p : List β) (n : Nat) :
    ∀ first res, n = h.length - first → first ≤ h.length →
      ((MatchAt eq h p res ∧ res < first ∧ ∀ k < first, res < k → ¬ MatchAt eq h p k) ∨
        (res = h.length ∧ ∀ k < first, ¬ MatchAt eq h p k)) →
      ∃ r, findEndFwdLoop eq h p first res = .ok r ∧ LastMatch eq h p r := by
  induction n using Nat.strongRecOn with
  | ind n ih =>
    intro first res hn hle hinv
    unfold findEndFwdLoop
    rw [dif_pos hle]
    obtain ⟨res', fin, h1, h2, h3, h4⟩ := findEndFwdInner_spec eq h p first _ 0 res rfl (by omega) (by omega) (by omega)
    simp only [Nat.add_zero] at h1
    simp only [h1, R.ok_bind]
    have hinv' : ((MatchAt eq h p res' ∧ res' < first + 1 ∧ ∀ k < first + 1, res' < k → ¬ MatchAt eq h p k) ∨
        (res' = h.length ∧ ∀ k < first + 1, ¬ MatchAt eq h p k)) := by
      rcases h2 with ⟨hm, rfl⟩ | ⟨hm, rfl⟩
      · exact Or.inl ⟨hm, by omega, fun k hk hk2 => by omega⟩
      · rcases hinv with ⟨a, b, c⟩ | ⟨a, b⟩
        · refine Or.inl ⟨a, by omega, fun k hk hk2 => ?_⟩
          rcases Nat.lt_or_ge k first with hl | hl
          · exact c k hl hk2
          · have : k = first := by omega
            subst this; exact hm
        · refine Or.inr ⟨a, fun k hk => ?_⟩
          rcases Nat.lt_or_ge k first with hl | hl
          · exact b k hl
          · have : k = first := by omega
            subst this; exact hm
    cases fin with
    | true =>
      have hend := h3 rfl
      refine ⟨_, rfl, ?_⟩
      rcases hinv' with ⟨a, b, c⟩ | ⟨a, b⟩
      · refine Or.inl ⟨a, fun k hk hm => ?_⟩
        rcases Nat.lt_or_ge k (first + 1) with hl | hl
        · exact c k hl hk hm
        · obtain ⟨hk, _⟩ := hm; omega
      · refine Or.inr ⟨a, fun k hm => ?_⟩
        rcases Nat.lt_or_ge k (first + 1) with hl | hl
        · exact b k hl hm
        · obtain ⟨hk, _⟩ := hm; omega
    | false =>
      have := h4 rfl
      exact ih (h.length - (first + 1)) (by omega) (first + 1) res' rfl (by omega) hinv'

/-! ### search_n -/

theorem searchNBack_spec (pr : α → Bool) (h : List α) (old : Nat) :
    ∀ first count1, old ≤ first → first < h.length → first - old < count1 →
      ∃ f c, searchNBack pr h old first count1 = .ok (f, c) ∧ old ≤ f ∧ f ≤ first ∧ c + (first - f) = count1 ∧ 0 < c ∧
        (∀ k (_ : k < h.length), f ≤ k → k < first → pr h[k] = true) ∧
        (f = old ∨ ∃ hf : f - 1 < h.length, old ≤ f - 1 ∧ 0 < f ∧ pr (h[f - 1]) = false) := by
  intro first
  induction first with
  | zero =>
    intro count1 h1 h2 h3
    exact ⟨0, count1, rfl, by omega, by omega, by omega, by omega, fun k _ _ _ => by omega, Or.inl (by omega)⟩
  | succ f ih =>
    intro count1 h1 h2 h3
    unfold searchNBack
    by_cases he : old = f + 1
    · rw [if_neg (by simpa using he)]
      exact ⟨f + 1, count1, rfl, by omega, by omega, by omega, by omega, fun k _ _ _ => by omega, Or.inl (by omega)⟩
    · rw [if_pos he, rdc_eq _ _ (by omega), R.ok_bind]
      by_cases hp : pr (h[f]'(by omega)) = true
      · rw [if_pos hp]
        obtain ⟨f', c, a1, a2, a3, a4, a5, a6, a7⟩ := ih (count1 - 1) (by omega) (by omega) (by omega)
        refine ⟨f', c, a1, a2, by omega, by omega, a5, fun k hk hk1 hk2 => ?_, a7⟩
        rcases Nat.lt_or_ge k f with hl | hl
        · exact a6 k hk hk1 hl
        · have : k = f := by omega
          subst this; exact hp
      · rw [if_neg hp]
        exact ⟨f + 1, count1, rfl, by omega, by omega, by omega, by omega, fun k _ _ _ => by omega,
          Or.inr ⟨by omega, by omega, by omega, by simpa using hp⟩⟩

theorem searchNSuffix_spec (pr : α → Bool) (h : List α) :
    ∀ count1 mid, 0 < count1 → mid + count1 ≤ h.length →
      (searchNSuffix pr h count1 mid = .ok none ∧ ∀ k (_ : k < h.length), mid < k → k < mid + count1 → pr h[k] = true) ∨
      (∃ k, searchNSuffix pr h count1 mid = .ok (some k) ∧ mid < k ∧ k < mid + count1 ∧ ∃ hk : k < h.length, pr h[k] = false) := by
  intro count1
  induction count1 with
  | zero => intro mid h0; omega
  | succ c ih =>
    intro mid _ hle
    cases c with
    | zero => exact Or.inl ⟨rfl, fun k _ _ _ => by omega⟩
    | succ c =>
      unfold searchNSuffix
      rw [rdc_eq _ _ (by omega), R.ok_bind]
      by_cases hp : pr (h[mid + 1]'(by omega)) = true
      · rw [if_neg (by simp [hp])]
        rcases ih (mid + 1) (by omega) (by omega) with ⟨h1, h2⟩ | ⟨k, h1, h2, h3, h4⟩
        · refine Or.inl ⟨h1, fun k hk hk1 hk2 => ?_⟩
          rcases Nat.lt_or_ge (mid + 1) k with hl | hl
          · exact h2 k hk hl (by omega)
          · have : k = mid + 1 := by omega
            subst this; exact hp
        · exact Or.inr ⟨k, h1, by omega, by omega, h4⟩
      · rw [if_pos (by simp [hp])]
        exact Or.inr ⟨mid + 1, rfl, by omega, by omega, by omega, by simpa using hp⟩

theorem not_run {pr : α → Bool} {h : List α} {n k i : Nat} (hi : i < h.length) (hp : pr h[i] = false) (h1 : k ≤ i) (h2 : i < k + n) :
    ¬ RunAt pr h n k := by
  rintro ⟨hk, H⟩
  have := H (i - k) (by omega)
  have e : k + (i - k) = i := by omega
  simp only [e] at this
  simp [hp] at this

theorem searchNLoop_spec (pr : α → Bool) (h : List α) (count : Nat) (hc : 0 < count) (fuel : Nat) :
    ∀ old inc, h.length - old < fuel → inc < count → (∀ k < old, ¬ RunAt pr h count k) →
      ∃ r, searchNLoop pr h count fuel old inc = .ok r ∧ FirstRun pr h count r := by
  induction fuel with
  | zero => intro old inc h0; omega
  | succ fuel ih =>
    intro old inc hf hi hno
    unfold searchNLoop
    by_cases hl : count ≤ h.length - old
    · rw [if_pos hl]
      simp only []
      rw [rdc_eq _ _ (by omega), R.ok_bind]
      by_cases hp : pr (h[old + inc]'(by omega)) = true
      · rw [if_pos hp]
        obtain ⟨f, c, a1, a2, a3, a4, a5, a6, a7⟩ := searchNBack_spec pr h old (old + inc) count (by omega) (by omega) (by omega)
        simp only [a1, R.ok_bind]
        have hnof : ∀ k < f, ¬ RunAt pr h count k := by
          intro k hk
          rcases Nat.lt_or_ge k old with hl2 | hl2
          · exact hno k hl2
          · rcases a7 with rfl | ⟨hf1, hf2, hf3, hf4⟩
            · omega
            · exact not_run hf1 hf4 (by omega) (by omega)
        by_cases hs : c ≤ h.length - (old + inc)
        · rw [if_pos hs]
          rcases searchNSuffix_spec pr h c (old + inc) a5 (by omega) with ⟨h1, h2⟩ | ⟨k, h1, h2, h3, h4, h5⟩
          · simp only [h1, R.ok_bind]
            refine ⟨f, rfl, Or.inl ⟨⟨by omega, fun j hj => ?_⟩, hnof⟩⟩
            rcases Nat.lt_trichotomy (f + j) (old + inc) with hl2 | hl2 | hl2
            · exact a6 _ (by omega) (by omega) hl2
            · simpa [hl2] using hp
            · exact h2 _ (by omega) hl2 (by omega)
          · simp only [h1, R.ok_bind]
            refine ih (k + 1) 0 (by omega) hc fun k' hk' => ?_
            rcases Nat.lt_or_ge k' f with hl2 | hl2
            · exact hnof k' hl2
            · exact not_run h4 h5 (by omega) (by omega)
        · rw [if_neg hs, R.ok_bind]
          refine ih (old + inc + 1) 0 (by omega) hc fun k' hk' => ?_
          rcases Nat.lt_or_ge k' f with hl2 | hl2
          · exact hnof k' hl2
          · rintro ⟨hk, _⟩; omega
      · rw [if_neg hp]
        refine ih (old + inc + 1) (count - 1) (by omega) (by omega) fun k hk => ?_
        rcases Nat.lt_or_ge k old with hl2 | hl2
        · exact hno k hl2
        · exact not_run (i := old + inc) (by omega) (by simpa using hp) (by omega) (by omega)
    · rw [if_neg hl]
      refine ⟨_, rfl, Or.inr ⟨rfl, fun k hk => ?_⟩⟩
      rcases Nat.lt_or_ge k old with hl2 | hl2
      · exact hno k hl2 hk
      · obtain ⟨hk, _⟩ := hk; omega

theorem searchNFwdInner_spec (pr : α → Bool) (h : List α) (first : Nat) :
    ∀ count1 mid, 0 < count1 → mid < h.length →
      (searchNFwdInner pr h first count1 mid = .ok (.inl first) ∧ mid + count1 ≤ h.length ∧
        ∀ k (_ : k < h.length), mid < k → k < mid + count1 → pr h[k] = true) ∨
      (searchNFwdInner pr h first count1 mid = .ok (.inl h.length) ∧ h.length < mid + count1) ∨
      (∃ k, searchNFwdInner pr h first count1 mid = .ok (.inr k) ∧ mid < k ∧ k < mid + count1 ∧ ∃ hk : k < h.length, pr h[k] = false) := by
  intro count1
  induction count1 with
  | zero => intro mid h0; omega
  | succ c ih =>
    intro mid _ hle
    cases c with
    | zero => exact Or.inl ⟨rfl, by omega, fun k _ _ _ => by omega⟩
    | succ c =>
      unfold searchNFwdInner
      by_cases he : mid + 1 = h.length
      · rw [if_pos he]; exact Or.inr (Or.inl ⟨rfl, by omega⟩)
      · rw [if_neg he, rdc_eq _ _ (by omega), R.ok_bind]
        by_cases hp : pr (h[mid + 1]'(by omega)) = true
        · rw [if_neg (by simp [hp])]
          rcases ih (mid + 1) (by omega) (by omega) with ⟨h1, h0, h2⟩ | ⟨h1, h2⟩ | ⟨k, h1, h2, h3, h4⟩
          · refine Or.inl ⟨h1, by omega, fun k hk hk1 hk2 => ?_⟩
            rcases Nat.lt_or_ge (mid + 1) k with hl | hl
            · exact h2 k hk hl (by omega)
            · have : k = mid + 1 := by omega
              subst this; exact hp
          · exact Or.inr (Or.inl ⟨h1, by omega⟩)
          · exact Or.inr (Or.inr ⟨k, h1, by omega, by omega, h4⟩)
        · rw [if_pos (by simp [hp])]
          exact Or.inr (Or.inr ⟨mid + 1, rfl, by omega, by omega, by omega, by simpa using hp⟩)

theorem searchNFwdLoop_spec (pr : α → Bool) (h : List α) (count : Nat) (hc : 0 < count) (fuel : Nat) :
    ∀ first, first ≤ h.length → h.length - first < fuel → (∀ k < first, ¬ RunAt pr h count k) →
      ∃ r, searchNFwdLoop pr h count fuel first = .ok r ∧ FirstRun pr h count r := by
  induction fuel with
  | zero => intro first _ h0; omega
  | succ fuel ih =>
    intro first hle hf hno
    unfold searchNFwdLoop
    by_cases he : first = h.length
    · rw [if_neg (by simpa using he)]
      refine ⟨_, rfl, Or.inr ⟨rfl, fun k hk => ?_⟩⟩
      rcases Nat.lt_or_ge k first with hl2 | hl2
      · exact hno k hl2 hk
      · obtain ⟨hk, _⟩ := hk; omega
    · rw [if_pos he, rdc_eq _ _ (by omega), R.ok_bind]
      by_cases hp : pr (h[first]'(by omega)) = true
      · rw [if_pos hp]
        rcases searchNFwdInner_spec pr h first count first hc (by omega) with ⟨h1, h0, h2⟩ | ⟨h1, h2⟩ | ⟨k, h1, h2, h3, h4, h5⟩
        · simp only [h1, R.ok_bind]
          refine ⟨_, rfl, Or.inl ⟨⟨h0, fun j hj => ?_⟩, hno⟩⟩
          rcases Nat.eq_zero_or_pos j with rfl | hj0
          · exact hp
          · exact h2 _ (by omega) (by omega) (by omega)
        · simp only [h1, R.ok_bind]
          refine ⟨_, rfl, Or.inr ⟨rfl, fun k hk => ?_⟩⟩
          rcases Nat.lt_or_ge k first with hl2 | hl2
          · exact hno k hl2 hk
          · obtain ⟨hk, _⟩ := hk; omega
        · simp only [h1, R.ok_bind]
          refine ih (k + 1) (by omega) (by omega) fun k' hk' => ?_
          rcases Nat.lt_or_ge k' first with hl2 | hl2
          · exact hno k' hl2
          · exact not_run h4 h5 (by omega) (by omega)
      · rw [if_neg hp]
        refine ih (first + 1) (by omega) (by omega) fun k hk => ?_
        rcases Nat.lt_or_ge k first with hl2 | hl2
        · exact hno k hl2
        · exact not_run (i := first) (by omega) (by simpa using hp) (by omega) (by omega)

theorem searchNSized_spec (pr : α → Bool) (h : List α) (count : Nat) (hc : 0 < count) (fuel : Nat) :
    ∀ first dist mid1 mid2 last, dist * (h.length + 2) + (mid2 - mid1) < fuel → last = first + count → first + dist = h.length →
      last ≤ h.length → first ≤ mid1 → mid1 < mid2 → mid2 ≤ last →
      (∀ k (_ : k < h.length), first ≤ k → k < mid1 → pr h[k] = true) →
      (∀ k (_ : k < h.length), mid2 ≤ k → k < last → pr h[k] = true) →
      (∀ k < first, ¬ RunAt pr h count k) →
      (∃ r, searchNSized pr h count fuel first dist mid1 mid2 last = .ok (some r) ∧ RunAt pr h count r ∧ ∀ k < r, ¬ RunAt pr h count k) ∨
      (searchNSized pr h count fuel first dist mid1 mid2 last = .ok none ∧ ∀ k, ¬ RunAt pr h count k) := by
  induction fuel with
  | zero => intros; omega
  | succ fuel ih =>
    intro first dist mid1 mid2 last hf hl hd hle h1 h2 h3 hA hB hno
    unfold searchNSized
    rw [decIt, if_neg (by omega), R.ok_bind, rdc_eq _ _ (by omega), R.ok_bind]
    by_cases hp : pr (h[mid2 - 1]'(by omega)) = true
    · rw [if_pos hp]
      by_cases he : mid2 - 1 = mid1
      · rw [if_pos he]
        refine Or.inl ⟨_, rfl, ⟨by omega, fun j hj => ?_⟩, hno⟩
        rcases Nat.lt_trichotomy (first + j) mid1 with hl2 | hl2 | hl2
        · exact hA _ (by omega) (by omega) hl2
        · have e : first + j = mid2 - 1 := by omega
          simpa [e] using hp
        · exact hB _ (by omega) (by omega) (by omega)
      · rw [if_neg he]
        refine ih first dist mid1 (mid2 - 1) last (by omega) hl hd hle h1 (by omega) (by omega) hA (fun k hk hk1 hk2 => ?_) hno
        rcases Nat.lt_or_ge (mid2 - 1) k with hl2 | hl2
        · exact hB k hk (by omega) hk2
        · have : k = mid2 - 1 := by omega
          subst this; exact hp
    · rw [if_neg hp]
      simp only []
      have hno' : ∀ k < mid2, ¬ RunAt pr h count k := by
        intro k hk
        rcases Nat.lt_or_ge k first with hl2 | hl2
        · exact hno k hl2
        · exact not_run (i := mid2 - 1) (by omega) (by simpa using hp) (by omega) (by omega)
      have e : mid2 - 1 + 1 = mid2 := by omega
      rw [e]
      by_cases hs : dist - (mid2 - first) < count
      · rw [if_pos hs]
        refine Or.inr ⟨rfl, fun k hk => ?_⟩
        rcases Nat.lt_or_ge k mid2 with hl2 | hl2
        · exact hno' k hl2 hk
        · obtain ⟨hk, _⟩ := hk; omega
      · rw [if_neg hs]
        refine ih mid2 (dist - (mid2 - first)) last (last + (mid2 - first)) (last + (mid2 - first)) ?_ (by omega) (by omega) (by omega)
          (by omega) (by omega) (by omega) (fun k hk hk1 hk2 => hB k hk hk1 hk2) (fun k _ _ _ => by omega) hno'
        have hx : (dist - (mid2 - first)) * (h.length + 2) + (mid2 - first) * (h.length + 2) = dist * (h.length + 2) := by
          rw [← Nat.add_mul]; congr 1; omega
        have hy : h.length + 2 ≤ (mid2 - first) * (h.length + 2) := Nat.le_mul_of_pos_left _ (by omega)
        omega

end STL
