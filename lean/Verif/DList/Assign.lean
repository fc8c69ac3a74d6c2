import Verif.DList.Build

/-! # `resize`, `assign`. Proofs only. -/

namespace STL.DL
open STL
variable {α : Type}

/-- A value is replaced, the links stay. -/
theorem setV_ok {h : Hp α} {c : Con} {A B : List (Nat × α)} {a : Nat × α} (W : WF h c (A ++ a :: B)) (v : α) :
    ∃ h', setV h a.1 v = .ok h' ∧ One h c (A ++ a :: B) h' c (A ++ (a.1, v) :: B) := by
  have hl := W.live (q := a.1) (Or.inr (by simp [ids]))
  have hv := W.val a (by simp)
  have hnd := W.nd
  have hm : ∀ q, q ∈ ids (A ++ (a.1, v) :: B) ↔ q ∈ ids (A ++ a :: B) := by intro q; simp [ids]
  have hids : ids (A ++ (a.1, v) :: B) = ids (A ++ a :: B) := by simp [ids]
  refine ⟨put h a.1 ⟨nx h a.1, pv h a.1, some v⟩, ?_, ⟨?_, ?_, ?_, ?_⟩, rfl, ?_, ?_, ?_⟩
  · unfold setV; rw [nd_live hl, R.ok_bind]; simp only; rw [hv]
  · rw [hids]
    refine ch_frame W.ch fun x y l _ _ => ⟨live_put.2 (Or.inr l.la), live_put.2 (Or.inr l.lb), ?_, ?_⟩
    · rw [nx_put]; split
      · subst_vars; exact l.n
      · exact l.n
    · rw [pv_put]; split
      · subst_vars; simp only; exact l.p
      · exact l.p
  · rw [hids]; exact hnd
  · intro b hb
    rw [vl_put]
    by_cases hba : b.1 = a.1
    · rw [if_pos hba]
      simp only [List.mem_append, List.mem_cons] at hb
      have : b ∉ A ∧ b ∉ B := by
        constructor
        · intro hh; have := List.mem_map_of_mem (f := Prod.fst) hh; rw [hba] at this; nds at hnd; grind
        · intro hh; have := List.mem_map_of_mem (f := Prod.fst) hh; rw [hba] at this; nds at hnd; grind
      rcases hb with hb | rfl | hb
      · exact absurd hb this.1
      · rfl
      · exact absurd hb this.2
    · rw [if_neg hba]
      simp only [List.mem_append, List.mem_cons] at hb
      rcases hb with hb | rfl | hb
      · exact W.val b (by simp [hb])
      · exact absurd rfl hba
      · exact W.val b (by simp [hb])
  · have := W.size; simpa using this
  · intro q q1 q2 _; simp only [put]; rw [if_neg]; rintro rfl; exact q2 (by simp [ids])
  · intro q q1 q2; rw [hm] at q2; exact absurd q1 q2
  · intro q q1; rw [hm] at q1; exact Or.inl q1

theorem popLoop_ok {n : Nat} : ∀ {f : Nat} {X : List (Nat × α)} {h : Hp α} {c : Con}, WF h c X → X.length < f →
    ∃ h' c', popLoop f h c n = .ok (h', c') ∧ One h c X h' c' (X.take n)
  | 0, _, _, _, _, hf => by omega
  | f + 1, X, h, c, W, hf => by
    unfold popLoop
    by_cases hn : n < c.size
    · rw [if_pos hn]
      have hs := W.size
      rcases List.eq_nil_or_concat X with rfl | ⟨A, a, rfl⟩
      · simp at hs; omega
      rw [List.concat_eq_append] at W hs hf ⊢
      obtain ⟨h1, e1, O1⟩ := popBack_ok W
      obtain ⟨h2, c2, e2, O2⟩ := popLoop_ok (f := f) (n := n) O1.wf (by simp at hf; omega)
      rw [e1, R.ok_bind]
      refine ⟨h2, c2, e2, ?_⟩
      have : (A ++ [a]).take n = A.take n := by rw [List.take_append_of_le_length]; simp at hs; omega
      rw [this]; exact O1.trans O2
    · rw [if_neg hn]
      rw [List.take_of_length_le (by rw [← W.size]; omega)]
      exact ⟨h, c, rfl, One.refl W⟩

/-- The outcome of `resize`. -/
def ResRes (X : List (Nat × α)) (n : Nat) (v : α) (xs : List Nat) (X' : List (Nat × α)) (e : Option Exc) : Prop :=
  if xs.length < n - X.length then X' = X ∧ e = some .badAlloc
  else X' = X.take n ++ xs.zip (List.replicate (n - X.length) v) ∧ e = none

theorem resize_ok {h : Hp α} {c : Con} {X : List (Nat × α)} (W : WF h c X) (n : Nat) (v : α) {xs : List Nat} (hnd : xs.Nodup) (hx : ∀ x ∈ xs, h x = none ∧ x ≠ 0) :
    ∃ h' c' e X', resize h c n v xs = .ok (h', c', e) ∧ One h c X h' c' X' ∧ ResRes X n v xs X' e := by
  unfold resize ResRes
  have hs := W.size
  by_cases hn : c.size < n
  · rw [if_pos hn, insertN_eq]
    obtain ⟨h', c', i, e, X', e1, O, r⟩ := insertRange_ok (A := X) (B := []) (by simpa using W) (List.replicate (n - c.size) v) hnd hx
    rw [show atFirst c.hd ([] : List (Nat × α)) = c.hd from rfl] at e1
    rw [e1, R.ok_bind]
    refine ⟨h', c', e, X', rfl, by simpa using O, ?_⟩
    unfold InsRes at r
    rw [List.length_replicate, hs] at r
    rw [List.take_of_length_le (by omega)]
    split
    · rw [if_pos (by assumption)] at r; simpa using r
    · rw [if_neg (by assumption)] at r; simp at r; exact ⟨r.1, r.2.1⟩
  · rw [if_neg hn]
    obtain ⟨h', c', e1, O⟩ := popLoop_ok (n := n) (f := c.size + 1) W (by omega)
    rw [e1, R.ok_bind]
    refine ⟨h', c', none, _, rfl, O, ?_⟩
    rw [if_neg (by omega), show n - X.length = 0 by omega]; simp

/-- The outcome of `assign` from position `B` on. -/
def AsgRes (A B : List (Nat × α)) (vs : List α) (xs : List Nat) (X' : List (Nat × α)) (e : Option Exc) : Prop :=
  if xs.length < vs.length - B.length then X' = A ++ (ids B).zip vs ∧ e = some .badAlloc
  else X' = A ++ (ids B ++ xs).zip vs ∧ e = none

theorem asg_hd {h : Hp α} {c : Con} {A B : List (Nat × α)} (W : WF h c (A ++ B)) : atFirst c.hd B = c.hd ↔ B = [] := by
  constructor
  · intro hh
    cases B with
    | nil => rfl
    | cons b B => have := W.nd; rw [atFirst_cons] at hh; nds at this; grind
  · rintro rfl; rfl

theorem asg_end {h : Hp α} {c : Con} {A : List (Nat × α)} (W : WF h c A) (vs : List α) {xs : List Nat} (hnd : xs.Nodup) (hx : ∀ x ∈ xs, h x = none ∧ x ≠ 0) :
    ∃ h' c' i e X', insertRange h c c.hd vs xs = .ok (h', c', i, e) ∧ One h c A h' c' X' ∧ AsgRes A [] vs xs X' e := by
  obtain ⟨h', c', i, e, X', e1, O, r⟩ := insertRange_ok (A := A) (B := []) (by simpa using W) vs hnd hx
  refine ⟨h', c', i, e, X', e1, by simpa using O, ?_⟩
  unfold InsRes at r; unfold AsgRes
  simp only [List.length_nil, Nat.sub_zero, ids, List.map_nil, List.zip_nil_left, List.append_nil, List.nil_append] at r ⊢
  split
  · rw [if_pos (by assumption)] at r; exact r
  · rw [if_neg (by assumption)] at r; exact ⟨r.1, r.2.1⟩

/-- The allocator's answers stay fresh when a list changes without growing. -/
theorem fresh_step {h h' : Hp α} {c c' : Con} {X X' : List (Nat × α)} (W : WF h c X) (O : One h c X h' c' X') (hm : ∀ q ∈ ids X', q ∈ ids X) {xs : List Nat} (hx : ∀ x ∈ xs, h x = none ∧ x ≠ 0) :
    ∀ x ∈ xs, h' x = none ∧ x ≠ 0 := by
  intro x hxx
  obtain ⟨h1, h2⟩ := hx x hxx
  have q2 : x ∉ ids X := fun hh => W.live (Or.inr hh) h1
  rw [O.frame x (fun hh => W.live (Or.inl hh) h1) q2 (fun hh => q2 (hm x hh))]
  exact ⟨h1, h2⟩

theorem assignLoop_ok {c : Con} {xs : List Nat} (hnd : xs.Nodup) : ∀ {vs : List α} {A B : List (Nat × α)} {h : Hp α}, WF h c (A ++ B) → (∀ x ∈ xs, h x = none ∧ x ≠ 0) →
    ∃ h' c' e X', assignLoop h c xs vs (atFirst c.hd B) = .ok (h', c', e) ∧ One h c (A ++ B) h' c' X' ∧ AsgRes A B vs xs X' e
  | [], A, B, h, W, hx => by
    obtain ⟨h1, e1, O⟩ := uncheckedEraseRange_ok (A := A) (M := B) (B := []) (by simpa using W)
    rw [List.append_nil, show atFirst c.hd ([] : List (Nat × α)) = c.hd from rfl] at e1
    refine ⟨h1, _, none, A, by simp only [assignLoop]; rw [e1, R.ok_bind], by simpa using O, ?_⟩
    unfold AsgRes; simp
  | v :: vs, A, [], h, W, hx => by
    simp only [assignLoop]
    rw [if_pos (show atFirst c.hd ([] : List (Nat × α)) = c.hd from rfl)]
    obtain ⟨h', c', i, e, X', e1, O, r⟩ := asg_end (by simpa using W) (v :: vs) hnd hx
    rw [e1, R.ok_bind]
    exact ⟨h', c', e, X', rfl, by simpa using O, r⟩
  | v :: vs, A, b :: B, h, W, hx => by
    simp only [assignLoop]
    rw [if_neg (by rw [asg_hd W]; simp), atFirst_cons]
    obtain ⟨h1, e1, O1⟩ := setV_ok W v
    have W1 := O1.wf
    obtain ⟨h', c', e, X', e2, O2, r⟩ := assignLoop_ok hnd (vs := vs) (A := A ++ [(b.1, v)]) (B := B) (h := h1) (by simpa using W1)
      (fresh_step W O1 (by intro q hq; simpa [ids] using hq) hx)
    rw [e1, R.ok_bind, nd_live (W1.live (q := b.1) (Or.inr (by simp [ids]))), R.ok_bind, WF.next (a := (b.1, v)) W1]
    refine ⟨h', c', e, X', e2, O1.trans (by simpa using O2), ?_⟩
    unfold AsgRes at r ⊢
    simpa [Nat.add_sub_add_right, ids] using r

theorem assignNLoop_ok {c : Con} {xs : List Nat} {v : α} (hnd : xs.Nodup) : ∀ {f n : Nat} {A B : List (Nat × α)} {h : Hp α}, WF h c (A ++ B) → (∀ x ∈ xs, h x = none ∧ x ≠ 0) → B.length < f →
    ∃ h' c' e X', assignNLoop c v xs f h n (atFirst c.hd B) = .ok (h', c', e) ∧ One h c (A ++ B) h' c' X' ∧ AsgRes A B (List.replicate n v) xs X' e
  | 0, _, _, _, _, _, _, hf => by omega
  | f + 1, n, A, [], h, W, hx, _ => by
    simp only [assignNLoop]
    rw [if_pos (show atFirst c.hd ([] : List (Nat × α)) = c.hd from rfl), insertN_eq]
    obtain ⟨h', c', i, e, X', e1, O, r⟩ := asg_end (by simpa using W) (List.replicate n v) hnd hx
    rw [e1, R.ok_bind]
    exact ⟨h', c', e, X', rfl, by simpa using O, r⟩
  | f + 1, 0, A, b :: B, h, W, hx, _ => by
    simp only [assignNLoop]
    rw [if_neg (by rw [asg_hd W]; simp), if_pos trivial]
    obtain ⟨h1, e1, O⟩ := uncheckedEraseRange_ok (A := A) (M := b :: B) (B := []) (by simpa using W)
    rw [List.append_nil, show atFirst c.hd ([] : List (Nat × α)) = c.hd from rfl] at e1
    refine ⟨h1, _, none, A, by rw [e1, R.ok_bind], by simpa using O, ?_⟩
    unfold AsgRes; simp
  | f + 1, n + 1, A, b :: B, h, W, hx, hf => by
    simp only [assignNLoop]
    rw [if_neg (by rw [asg_hd W]; simp), if_neg (by omega), atFirst_cons]
    obtain ⟨h1, e1, O1⟩ := setV_ok W v
    have W1 := O1.wf
    obtain ⟨h', c', e, X', e2, O2, r⟩ := assignNLoop_ok hnd (v := v) (f := f) (n := n) (A := A ++ [(b.1, v)]) (B := B) (h := h1) (by simpa using W1)
      (fresh_step W O1 (by intro q hq; simpa [ids] using hq) hx) (by simp at hf; omega)
    rw [e1, R.ok_bind, nd_live (W1.live (q := b.1) (Or.inr (by simp [ids]))), R.ok_bind, WF.next (a := (b.1, v)) W1]
    refine ⟨h', c', e, X', by rw [Nat.add_sub_cancel]; exact e2, O1.trans (by simpa using O2), ?_⟩
    unfold AsgRes at r ⊢
    simpa [Nat.add_sub_add_right, ids, List.replicate_succ] using r

theorem assignRange_ok {h : Hp α} {c : Con} {X : List (Nat × α)} (W : WF h c X) (vs : List α) {xs : List Nat} (hnd : xs.Nodup) (hx : ∀ x ∈ xs, h x = none ∧ x ≠ 0) :
    ∃ h' c' e X', assignRange h c vs xs = .ok (h', c', e) ∧ One h c X h' c' X' ∧ AsgRes [] X vs xs X' e := by
  unfold assignRange
  rw [nd_live (W.live (Or.inl rfl)), R.ok_bind, W.first]
  exact assignLoop_ok hnd (A := []) W hx

theorem assignN_ok {h : Hp α} {c : Con} {X : List (Nat × α)} (W : WF h c X) (n : Nat) (v : α) {xs : List Nat} (hnd : xs.Nodup) (hx : ∀ x ∈ xs, h x = none ∧ x ≠ 0) :
    ∃ h' c' e X', assignN h c n v xs = .ok (h', c', e) ∧ One h c X h' c' X' ∧ AsgRes [] X (List.replicate n v) xs X' e := by
  unfold assignN
  rw [nd_live (W.live (Or.inl rfl)), R.ok_bind, W.first]
  exact assignNLoop_ok hnd (A := []) W hx (by rw [W.size]; omega)

end STL.DL
