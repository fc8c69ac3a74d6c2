import Verif.Searchers.Delta2

/-! # Boyer-Moore and Boyer-Moore-Horspool search loops, `delta_1` tables -/

namespace STL
open Spec

section search
variable {α κ : Type} (eq : α → α → Bool) (cl : α → κ) (hcl : ∀ a b, eq a b = true ↔ cl a = cl b) (p h : List α)

/-- What the search loops rely on for `delta_1`. -/
def D1 (look : α → R Nat) : Prop := ∀ c, ∃ s, look c = .ok s ∧ s ≤ p.length ∧
  (∀ i (_ : i < p.length), p.length - s ≤ i → cl p[i] ≠ cl c) ∧
  (s < p.length → ∃ hi : p.length - 1 - s < p.length, cl p[p.length - 1 - s] = cl c)

include hcl in
theorem match_cl {k : Nat} (hm : MatchAt eq h p k) (i : Nat) (hi : i < p.length) (hk : k + i < h.length) : cl h[k + i] = cl p[i] :=
  (hcl _ _).1 (hm.2 i hi)

/-- No occurrence ends before offset `e` (the last element of the window). -/
def NoneBefore (e : Nat) : Prop := ∀ k, k + p.length ≤ e → ¬ MatchAt eq h p k

include hcl in
theorem bmBack_spec (a0 : Nat) (ha : a0 + p.length ≤ h.length) : ∀ idx, idx < p.length →
    (∀ i (_ : i < p.length), idx ≤ i → cl (h[a0 + i]'(by omega)) = cl p[i]) →
    (bmBack eq h p idx (a0 + idx) = .ok (.found a0) ∧ MatchAt eq h p a0) ∨
    (∃ i0, ∃ hi0 : i0 < p.length, bmBack eq h p idx (a0 + idx) = .ok (.mismatch i0 (a0 + i0)) ∧ cl (h[a0 + i0]'(by omega)) ≠ cl p[i0] ∧
      ∀ i (_ : i < p.length), i0 < i → cl (h[a0 + i]'(by omega)) = cl p[i]) := by
  intro idx
  induction idx with
  | zero =>
    intro _ hall
    exact Or.inl ⟨rfl, ha, fun j hj => (hcl _ _).2 (hall j hj (by omega))⟩
  | succ idx ih =>
    intro hlt hall
    unfold bmBack
    rw [decIt, if_neg (by omega), R.ok_bind]
    have e : a0 + (idx + 1) - 1 = a0 + idx := by omega
    rw [e, rdc_eq _ _ (by omega), R.ok_bind, rdc_eq _ _ (by omega), R.ok_bind]
    by_cases he : eq (h[a0 + idx]'(by omega)) (p[idx]'(by omega)) = true
    · rw [if_pos he]
      refine ih (by omega) fun i hi hle => ?_
      rcases Nat.lt_or_ge idx i with hl | hl
      · exact hall i hi (by omega)
      · have : i = idx := by omega
        subst this; exact (hcl _ _).1 he
    · rw [if_neg he]
      exact Or.inr ⟨idx, by omega, rfl, fun H => he ((hcl _ _).2 H), fun i hi hl => hall i hi (by omega)⟩

include hcl in
theorem noneBefore_look {e c s : Nat} (hm : 1 ≤ p.length) (he : p.length ≤ e + 1) (hb : NoneBefore eq p h e) (hc : c < h.length)
    (hs : s ≤ p.length) (hd : ∀ i (_ : i < p.length), p.length - s ≤ i → cl p[i] ≠ cl h[c]) (hce : c ≤ e) : NoneBefore eq p h (c + s) := by
  intro k hk hmat
  rcases Nat.lt_or_ge e (k + p.length) with hl | hl
  · -- the window contains `c`
    have h1 : c < k + p.length := by omega
    rcases Nat.lt_or_ge c k with h2 | h2
    · omega
    · refine hd (c - k) (by omega) (by omega) ?_
      have := match_cl eq cl hcl p h hmat (c - k) (by omega) (by omega)
      have e2 : k + (c - k) = c := by omega
      simp only [e2] at this
      exact this.symm
  · exact hb k hl hmat

include hcl in
theorem bmLoop_spec (hm : 1 ≤ p.length) (look : α → R Nat) (hlook : D1 cl p look) (S : List Nat) (hS : S.length = p.length) (hlow : Low p S)
    (hd2 : ∀ k s, 1 ≤ k → k ≤ p.length → 1 ≤ s → (s < k → pc cl p k ≠ pc cl p (k - s)) →
        (∀ i, k < i → i ≤ p.length → s < i → pc cl p i = pc cl p (i - s)) → sv S k ≤ s + p.length - k) (fuel : Nat) :
    ∀ first shift, h.length - (first + shift) < fuel → p.length ≤ first + shift + 1 → NoneBefore eq p h (first + shift) →
      ∃ r, (bmLoop eq look (full S) h p fuel first shift = .ok (r, r + p.length) ∧ MatchAt eq h p r ∧ ∀ k < r, ¬ MatchAt eq h p k) ∨
        (bmLoop eq look (full S) h p fuel first shift = .ok (h.length, h.length) ∧ ∀ k, ¬ MatchAt eq h p k) := by
  induction fuel with
  | zero => intro first shift h0; omega
  | succ fuel ih =>
    intro first shift hf hml hnone
    unfold bmLoop
    by_cases hlt : shift < h.length - first
    · rw [if_pos hlt]
      simp only []
      rw [rdc_eq _ _ (by omega), R.ok_bind]
      obtain ⟨s, hs1, hs2, hs3, hs4⟩ := hlook (h[first + shift]'(by omega))
      rw [hs1, R.ok_bind]
      set e := first + shift with he
      have hnone1 : s ≠ 0 → NoneBefore eq p h (e + s) := fun _ =>
        noneBefore_look eq cl hcl p h hm hml hnone (by omega) hs2 hs3 (Nat.le_refl e)
      by_cases h0 : s = 0
      · subst h0
        rw [if_pos rfl]
        obtain ⟨hx, hlast⟩ := hs4 (by omega)
        have ea : e - (p.length - 1) + (p.length - 1) = e := by omega
        have HB := bmBack_spec eq cl hcl p h (e - (p.length - 1)) (by omega) (p.length - 1) (by omega) (fun i hi hle => by
          have e1 : i = p.length - 1 := by omega
          subst e1
          simp only [ea]
          simpa using hlast.symm)
        rw [ea] at HB
        set a0 := e - (p.length - 1) with ha0
        rcases HB with ⟨h1, h2⟩ | ⟨i0, hi0, h1, h2, h3⟩
        · simp only [h1, R.ok_bind]
          exact ⟨a0, Or.inl ⟨rfl, h2, fun k hk => hnone k (by omega)⟩⟩
        · simp only [h1, R.ok_bind]
          rw [rdc_eq _ _ (by omega), R.ok_bind]
          obtain ⟨l1, hl1, hl2, hl3, _⟩ := hlook (h[a0 + i0]'(by omega))
          rw [hl1, R.ok_bind, rd_full _ _ (by omega), R.ok_bind]
          have hsv : S[i0]'(by omega) = sv S (i0 + 1) := by
            unfold sv
            rw [List.getD_eq_getElem?_getD]
            simp [List.getElem?_eq_getElem (show i0 < S.length by omega)]
          rw [hsv]
          have hlow' := hlow (i0 + 1) (by omega) (by omega)
          refine ih (a0 + i0) _ (by omega) (by omega) ?_
          have hA : NoneBefore eq p h (a0 + i0 + l1) :=
            noneBefore_look eq cl hcl p h hm hml hnone (by omega) hl2 hl3 (by omega)
          have hB : NoneBefore eq p h (a0 + i0 + sv S (i0 + 1)) := by
            intro k hk hmat
            rcases Nat.lt_trichotomy k a0 with hl | hl | hl
            · exact hnone k (by omega) hmat
            · subst hl
              exact h2 (match_cl eq cl hcl p h hmat i0 hi0 (by omega))
            · have hkn := hmat.1
              have pcm : ∀ i (_ : 1 ≤ i) (_ : i ≤ p.length), pc cl p i = some (cl (p[i - 1]'(by omega))) := by
                intro i h1 h2; simp [pc, List.getElem?_eq_getElem (show i - 1 < p.length by omega)]
              have := hd2 (i0 + 1) (k - a0) (by omega) (by omega) (by omega) ?_ ?_
              · omega
              · intro hlt2
                rw [pcm _ (by omega) (by omega), pcm _ (by omega) (by omega)]
                intro H
                apply h2
                have hm1 := match_cl eq cl hcl p h hmat (i0 - (k - a0)) (by omega) (by omega)
                have e2 : k + (i0 - (k - a0)) = a0 + i0 := by omega
                simp only [e2] at hm1
                rw [hm1]
                have e3 : i0 + 1 - 1 = i0 := by omega
                have e4 : i0 + 1 - (k - a0) - 1 = i0 - (k - a0) := by omega
                simp only [e3, e4] at H
                exact (Option.some.inj H).symm
              · intro i hi1 hi2 hi3
                rw [pcm _ (by omega) hi2, pcm _ (by omega) (by omega)]
                have hm1 := match_cl eq cl hcl p h hmat (i - (k - a0) - 1) (by omega) (by omega)
                have e2 : k + (i - (k - a0) - 1) = a0 + (i - 1) := by omega
                simp only [e2] at hm1
                rw [← hm1, h3 (i - 1) (by omega) (by omega)]
          rcases Nat.le_total l1 (sv S (i0 + 1)) with hc | hc
          · rw [Nat.max_eq_right hc]; exact hB
          · rw [Nat.max_eq_left hc]; exact hA
      · rw [if_neg h0]
        exact ih e s (by omega) (by omega) (hnone1 h0)
    · rw [if_neg hlt]
      refine ⟨0, Or.inr ⟨rfl, fun k hk => ?_⟩⟩
      exact hnone k (by have := hk.1; omega) hk

include hcl in
theorem equalN_spec (a0 : Nat) (ha : a0 + p.length ≤ h.length) (n : Nat) : ∀ j, n = p.length - 1 - j →
    ∃ b, equalN eq h p a0 (p.length - 1) j = .ok b ∧
      (b = true ↔ ∀ i (_ : i < p.length), j ≤ i → i < p.length - 1 → cl (h[a0 + i]'(by omega)) = cl p[i]) := by
  induction n with
  | zero =>
    intro j hj
    unfold equalN
    rw [dif_neg (by omega)]
    exact ⟨true, rfl, by simp; intros; omega⟩
  | succ n ih =>
    intro j hj
    unfold equalN
    rw [dif_pos (by omega), rdc_eq _ _ (by omega), R.ok_bind, rdc_eq _ _ (by omega), R.ok_bind]
    by_cases he : eq (p[j]'(by omega)) (h[a0 + j]'(by omega)) = true
    · rw [if_neg (by simp [he])]
      obtain ⟨b, h1, h2⟩ := ih (j + 1) (by omega)
      refine ⟨b, h1, h2.trans ⟨fun H i hi hle hlt => ?_, fun H i hi hle hlt => H i hi (by omega) hlt⟩⟩
      rcases Nat.lt_or_ge j i with hl | hl
      · exact H i hi (by omega) hlt
      · have : i = j := by omega
        subst this; exact ((hcl _ _).1 he).symm
    · rw [if_pos (by simp [he])]
      exact ⟨false, rfl, by
        simp only [Bool.false_eq_true, false_iff]
        intro H
        exact he ((hcl _ _).2 (H j (by omega) (by omega) (by omega)).symm)⟩

include hcl in
theorem bmhLoop_spec (hm : 1 ≤ p.length) (look : α → R Nat) (hlook : D1 cl p look) (fuel : Nat) :
    ∀ first shift, h.length - (first + shift) < fuel → p.length ≤ first + shift + 1 → NoneBefore eq p h (first + shift) →
      ∃ r, (bmhLoop eq look h p fuel first shift = .ok (r, r + p.length) ∧ MatchAt eq h p r ∧ ∀ k < r, ¬ MatchAt eq h p k) ∨
        (bmhLoop eq look h p fuel first shift = .ok (h.length, h.length) ∧ ∀ k, ¬ MatchAt eq h p k) := by
  induction fuel with
  | zero => intro first shift h0; omega
  | succ fuel ih =>
    intro first shift hf hml hnone
    unfold bmhLoop
    by_cases hlt : shift < h.length - first
    · rw [if_pos hlt]
      simp only []
      rw [rdc_eq _ _ (by omega), R.ok_bind]
      obtain ⟨s, hs1, hs2, hs3, hs4⟩ := hlook (h[first + shift]'(by omega))
      rw [hs1, R.ok_bind]
      set e := first + shift with he
      by_cases h0 : s = 0
      · subst h0
        rw [if_pos rfl, if_neg (by omega)]
        obtain ⟨hx, hlast⟩ := hs4 (by omega)
        have ea : e - (p.length - 1) + (p.length - 1) = e := by omega
        obtain ⟨b, hb1, hb2⟩ := equalN_spec eq cl hcl p h (e - (p.length - 1)) (by omega) _ 0 rfl
        rw [hb1, R.ok_bind]
        set a0 := e - (p.length - 1) with ha0
        by_cases hb : b = true
        · rw [if_pos hb]
          refine ⟨a0, Or.inl ⟨rfl, ⟨by omega, fun j hj => (hcl _ _).2 ?_⟩, fun k hk => hnone k (by omega)⟩⟩
          rcases Nat.lt_or_ge j (p.length - 1) with hl | hl
          · exact hb2.1 hb j hj (by omega) hl
          · have e1 : j = p.length - 1 := by omega
            subst e1
            simp only [ea]
            simpa using hlast.symm
        · rw [if_neg hb]
          refine ih e 1 (by omega) (by omega) fun k hk hmat => ?_
          rcases Nat.lt_or_ge e (k + p.length) with hl | hl
          · have : k = a0 := by omega
            subst this
            exact hb (hb2.2 fun i hi _ _ => match_cl eq cl hcl p h hmat i hi (by omega))
          · exact hnone k hl hmat
      · rw [if_neg h0]
        exact ih e s (by omega) (by omega) (noneBefore_look eq cl hcl p h hm hml hnone (by omega) hs2 hs3 (Nat.le_refl e))
    · rw [if_neg hlt]
      refine ⟨0, Or.inr ⟨rfl, fun k hk => ?_⟩⟩
      exact hnone k (by have := hk.1; omega) hk

/-! ### delta_1, hash table -/

include hcl in
theorem assocFind_insert (k c : α) (v : Nat) (t : List (α × Nat)) (hd : DecidableEq κ) :
    assocFind eq c (assocInsert eq k v t) = if cl k = cl c then some v else assocFind eq c t := by
  have hf : ∀ a b, eq a b = decide (cl a = cl b) := fun a b => by
    rw [Bool.eq_iff_iff, hcl]; simp
  induction t with
  | nil => simp [assocInsert, assocFind, hf]
  | cons kv t ih =>
    obtain ⟨k', v'⟩ := kv
    simp only [assocInsert, hf]
    by_cases h1 : cl k' = cl k
    · simp only [h1, decide_true, if_true, assocFind, hf]
      by_cases h2 : cl k = cl c <;> simp [h2]
    · simp only [h1, decide_false, assocFind, hf, Bool.false_eq_true, if_false]
      rw [ih]
      by_cases h2 : cl k' = cl c
      · have : ¬ cl k = cl c := fun h => h1 (h2.trans h.symm)
        simp [h2, this]
      · simp [h2]

include hcl in
theorem hashDelta1_spec [hd : DecidableEq κ] : ∀ (rest pre : List α) (t : List (α × Nat)), p = pre ++ rest →
    (∀ c, match assocFind eq c t with
      | none => ∀ i (_ : i < p.length), i < pre.length → cl p[i] ≠ cl c
      | some s => ∃ i0, ∃ hi : i0 < p.length, i0 < pre.length ∧ s = p.length - (i0 + 1) ∧ cl p[i0] = cl c ∧
          ∀ i (_ : i < p.length), i0 < i → i < pre.length → cl p[i] ≠ cl c) →
    D1 cl p (hashDelta1Lookup eq p.length (hashDelta1Build eq p.length (pre.length + 1) rest t)) := by
  intro rest
  induction rest with
  | nil =>
    intro pre t hp hinv c
    have hlen : p.length = pre.length := by rw [hp]; simp
    unfold hashDelta1Build hashDelta1Lookup
    have := hinv c
    split at this
    · rename_i hn
      simp only [hn]
      exact ⟨_, rfl, Nat.le_refl _, fun i hi _ => this i hi (by omega), fun h => by omega⟩
    · rename_i s hn
      simp only [hn]
      obtain ⟨i0, hi, h1, h2, h3, h4⟩ := this
      refine ⟨_, rfl, by omega, fun i hi' hle => h4 i hi' (by omega) (by omega), fun _ => ⟨by omega, ?_⟩⟩
      have e : p.length - 1 - s = i0 := by omega
      simp only [e]; exact h3
  | cons x rest ih =>
    intro pre t hp hinv
    unfold hashDelta1Build
    have e1 : (pre ++ [x]).length = pre.length + 1 := by simp
    have := ih (pre ++ [x]) (assocInsert eq x (p.length - (pre.length + 1)) t) (by simp [hp]) ?_
    · rw [e1] at this; exact this
    · intro c
      rw [assocFind_insert eq cl hcl x c _ t hd]
      have hx : ∃ hl : pre.length < p.length, p[pre.length] = x := by
        subst hp; exact ⟨by simp, by simp⟩
      obtain ⟨hl, hx⟩ := hx
      by_cases h : cl x = cl c
      · rw [if_pos h]
        exact ⟨pre.length, hl, by omega, rfl, by rw [hx]; exact h, fun i _ a b => by omega⟩
      · rw [if_neg h]
        have := hinv c
        split at this
        · intro i hi hlt
          rcases Nat.lt_or_ge i pre.length with h2 | h2
          · exact this i hi h2
          · have : i = pre.length := by omega
            subst this; rw [hx]; exact h
        · obtain ⟨i0, hi, a, b, c', d⟩ := this
          refine ⟨i0, hi, by omega, b, c', fun i hi' h3 h4 => ?_⟩
          rcases Nat.lt_or_ge i pre.length with h2 | h2
          · exact d i hi' h3 h2
          · have : i = pre.length := by omega
            subst this; rw [hx]; exact h

end search

/-! ### delta_1, flat table -/

theorem flatDelta1_spec {α : Type} (p : List α) (val : α → Nat) (hval : ∀ a b, val a = val b → a = b) (limit : Nat) (hlim : ∀ c ∈ p, val c < limit) :
    ∀ (rest pre : List α) (T : List Nat), p = pre ++ rest → T.length = limit →
    (∀ c (hc : val c < T.length), (T[val c] = p.length ∧ ∀ i (_ : i < p.length), i < pre.length → p[i] ≠ c) ∨
      ∃ i0, ∃ hi : i0 < p.length, i0 < pre.length ∧ T[val c] = p.length - (i0 + 1) ∧ p[i0] = c ∧
          ∀ i (_ : i < p.length), i0 < i → i < pre.length → p[i] ≠ c) →
    ∃ T', flatDelta1Build val p.length (pre.length + 1) rest (full T) = .ok (full T') ∧
      D1 (fun a : α => a) p (flatDelta1Lookup val p.length limit (full T')) := by
  intro rest
  induction rest with
  | nil =>
    intro pre T hp hT hinv
    refine ⟨T, rfl, fun c => ?_⟩
    have hlen : p.length = pre.length := by rw [hp]; simp
    unfold flatDelta1Lookup
    by_cases hc : val c < limit
    · rw [if_pos hc, rd_full _ _ (by omega)]
      rcases hinv c (by omega) with ⟨h1, h2⟩ | ⟨i0, hi, h1, h2, h3, h4⟩
      · exact ⟨_, rfl, by omega, fun i hi _ => h2 i hi (by omega), fun h => by omega⟩
      · refine ⟨_, rfl, by omega, fun i hi' hle => h4 i hi' (by omega) (by omega), fun _ => ⟨by omega, ?_⟩⟩
        have e : p.length - 1 - T[val c] = i0 := by omega
        simp only [e]; exact h3
    · rw [if_neg hc]
      refine ⟨_, rfl, Nat.le_refl _, fun i hi _ he => ?_, fun h => by omega⟩
      have := hlim p[i] (List.getElem_mem _)
      simp only [] at he
      rw [he] at this; exact hc this
  | cons x rest ih =>
    intro pre T hp hT hinv
    unfold flatDelta1Build
    have hxl := hlim x (by rw [hp]; simp)
    rw [wr_full _ _ _ (by omega), R.ok_bind]
    have e1 : (pre ++ [x]).length = pre.length + 1 := by simp
    have := ih (pre ++ [x]) (T.set (val x) (p.length - (pre.length + 1))) (by simp [hp]) (by simpa using hT) ?_
    · rw [e1] at this; exact this
    · intro c hc
      simp only [List.length_set] at hc
      have hx : ∃ hl : pre.length < p.length, p[pre.length] = x := by
        subst hp; exact ⟨by simp, by simp⟩
      obtain ⟨hl, hx⟩ := hx
      rw [List.getElem_set, e1]
      by_cases h : x = c
      · subst h
        rw [if_pos rfl]
        exact Or.inr ⟨pre.length, hl, by omega, rfl, hx, fun i _ a b => by omega⟩
      · rw [if_neg (fun H => h (hval _ _ H))]
        rcases hinv c hc with ⟨a, b⟩ | ⟨i0, hi, a, b, c', d⟩
        · refine Or.inl ⟨a, fun i hi hlt => ?_⟩
          rcases Nat.lt_or_ge i pre.length with h2 | h2
          · exact b i hi h2
          · have : i = pre.length := by omega
            subst this; rw [hx]; exact h
        · refine Or.inr ⟨i0, hi, by omega, b, c', fun i hi' h3 h4 => ?_⟩
          rcases Nat.lt_or_ge i pre.length with h2 | h2
          · exact d i hi' h3 h2
          · have : i = pre.length := by omega
            subst this; rw [hx]; exact h

end STL
