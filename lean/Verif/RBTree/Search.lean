import Verif.RBTree.EraseFix

/-! # Searches, hints, and places for new nodes. Proofs only. -/

namespace STL.RBT
open STL
variable {α κ : Type}

theorem keyAt_ok {key : α → κ} {h : Hp α} {p : Nat} {n : Node α} {v : α} (e : h p = some n) (hv : n.val = some v) : keyAt key h p = .ok (key v) := by
  unfold keyAt; rw [nd_some e, R.ok_bind, hv]

theorem WF.next {hd f : Nat} {h : Hp α} {A B : List (Nat × α)} {e : Nat} {v : α} (W : WF hd h (A ++ (e, v) :: B)) (hf : hb (A.length + B.length + 1) ≤ f) :
    next h f e = .ok (firstId hd B) := by
  obtain ⟨C, c, l, r, F, hA, hB⟩ := W.split
  have hlen := F.len
  rw [show inord C (.node e v c l r) = A ++ (e, v) :: B by rw [← hA, ← hB]; simp [inord, items]] at hlen
  rw [show (A ++ (e, v) :: B).length = A.length + B.length + 1 by simp; omega] at hlen
  rw [next_foc F.at_ (by omega), hB]

theorem WF.prev {hd f : Nat} {h : Hp α} {A B : List (Nat × α)} {e : Nat} {v : α} (W : WF hd h (A ++ (e, v) :: B)) (hf : hb (A.length + B.length + 1) ≤ f) :
    prev h f e = .ok (lastId hd A) := by
  obtain ⟨C, c, l, r, F, hA, hB⟩ := W.split
  have hlen := F.len
  rw [show inord C (.node e v c l r) = A ++ (e, v) :: B by rw [← hA, ← hB]; simp [inord, items]] at hlen
  rw [show (A ++ (e, v) :: B).length = A.length + B.length + 1 by simp; omega] at hlen
  rw [prev_foc F.at_ (by omega), hA]

theorem WF.head {hd : Nat} {h : Hp α} {X : List (Nat × α)} (W : WF hd h X) : ∃ r, h hd = some ⟨firstId hd X, r, lastId hd X, false, true, none⟩ := by
  obtain ⟨t, n, hA, -⟩ := W; exact ⟨_, hA.head⟩

theorem WF.prev_end {hd f : Nat} {h : Hp α} {X : List (Nat × α)} (W : WF hd h X) : RBT.prev h f hd = .ok (lastId hd X) := by
  obtain ⟨r, e⟩ := W.head; unfold RBT.prev; rw [nd_some e]; rfl

theorem WF.mem {hd : Nat} {h : Hp α} {X : List (Nat × α)} (W : WF hd h X) {q : Nat} {v : α} (hq : (q, v) ∈ X) : ∃ n, h q = some n ∧ n.nil = false ∧ n.val = some v := by
  obtain ⟨t, n, hA, e, -⟩ := W
  exact hA.mem (by simpa [inord, itL, itR, e] using hq)

theorem WF.nodup {hd : Nat} {h : Hp α} {X : List (Nat × α)} (W : WF hd h X) : (hd :: X.map Prod.fst).Nodup := by
  obtain ⟨t, n, hA, e, -⟩ := W
  have := hA.ids; simpa [inord, itL, itR, e] using this

theorem WF.frame {hd : Nat} {h h' : Hp α} {X : List (Nat × α)} (W : WF hd h X) (hs : ∀ q, q = hd ∨ q ∈ X.map Prod.fst → h' q = h q) : WF hd h' X := by
  obtain ⟨t, n, hA, e, hb, hr⟩ := W
  refine ⟨t, n, ⟨hA.ctx.congr (by simp [idl_nil]) (by simp [idr_nil]) (hs hd (Or.inl rfl)), hA.sub.congr ?_, hA.nodup⟩, e, hb, hr⟩
  intro q hq; exact hs q (Or.inr (by rw [← e]; exact hq))

/-- the result of a search -/
structure Place (hd : Nat) (h : Hp α) (parent : Nat) (right : Bool) (A B : List (Nat × α)) : Prop where
  ex : ∃ C, Foc hd h C .nil ∧ itL C = A ∧ itR C = B ∧ parent = parP hd C ∧ right = isR C

theorem lowerLoop_spec (key : α → κ) (lt : κ → κ → Bool) {hd : Nat} {h : Hp α} (k : κ) : ∀ (t : T α) (C : Cx α) (r : Found) (f : Nat), Foc hd h C t → ht t < f →
    (∀ a ∈ itL C, lt (key a.2) k = true) → (∀ b ∈ itR C, lt (key b.2) k = false) → (inord C t).Pairwise (fun a b => lt (key b.2) k = true → lt (key a.2) k = true) →
    r.bound = firstId hd (itR C) → (t = .nil → r.parent = parP hd C ∧ r.right = isR C) →
    ∃ C' r', lowerLoop key lt h k f (ptr hd t) r = .ok r' ∧ Foc hd h C' .nil ∧ inord C' .nil = inord C t ∧ (∀ a ∈ itL C', lt (key a.2) k = true) ∧
      (∀ b ∈ itR C', lt (key b.2) k = false) ∧ r'.parent = parP hd C' ∧ r'.right = isR C' ∧ r'.bound = firstId hd (itR C')
  | .nil, C, r, f, F, hf, hl, hr, _, hb, hp => by
    obtain ⟨f, rfl⟩ : ∃ g, f = g + 1 := ⟨f - 1, by omega⟩
    obtain ⟨h1, h2⟩ := hp rfl
    refine ⟨C, r, ?_, F, rfl, hl, hr, h1, h2, hb⟩
    unfold lowerLoop; rw [ptr_nil, nd_some F.at_.head, R.ok_bind]; rfl
  | .node i v c l rt, C, r, f, F, hf, hl, hr, hm, hb, hp => by
    obtain ⟨f, rfl⟩ : ∃ g, f = g + 1 := ⟨f - 1, by omega⟩
    simp only [ht] at hf
    have hn := F.at_.node
    have hm' := hm
    simp only [inord, items, List.append_assoc, List.cons_append, List.pairwise_append, List.pairwise_cons, List.mem_append, List.mem_cons] at hm'
    unfold lowerLoop; rw [ptr_node, nd_some hn, R.ok_bind]; simp only [Bool.false_eq_true, if_false]
    rw [keyAt_ok hn rfl, R.ok_bind]
    cases hc : lt (key v) k with
    | true =>
      rw [if_pos rfl]
      have HH := lowerLoop_spec key lt k rt (⟨false, i, v, c, l⟩ :: C) ⟨i, true, r.bound⟩ f (Foc.upR.2 F) (by omega) ?_ hr (by rw [inord_upR]; exact hm) hb (fun _ => ⟨rfl, rfl⟩)
      · rw [inord_upR] at HH; exact HH
      · intro a ha
        simp only [itL, List.mem_append, List.mem_singleton] at ha
        rcases ha with ha | ha | rfl
        · exact hl a ha
        · exact hm'.2.1.2.2 a ha (i, v) (Or.inl rfl) hc
        · exact hc
    | false =>
      rw [if_neg (by simp)]
      have HH := lowerLoop_spec key lt k l (⟨true, i, v, c, rt⟩ :: C) ⟨i, false, i⟩ f (Foc.upL.2 F) (by omega) hl ?_ (by rw [inord_upL]; exact hm) rfl (fun _ => ⟨rfl, rfl⟩)
      · rw [inord_upL] at HH; exact HH
      · intro a ha
        simp only [itR, List.cons_append, List.mem_append, List.mem_cons] at ha
        rcases ha with rfl | ha | ha
        · exact hc
        · cases hc' : lt (key a.2) k with
          | false => rfl
          | true => rw [hm'.2.1.2.1.1 a (Or.inl ha) hc'] at hc; cases hc
        · exact hr a ha

theorem part_unique {P : Nat × α → Bool} : ∀ {A B A' B' : List (Nat × α)}, A ++ B = A' ++ B' → (∀ a ∈ A, P a = true) → (∀ b ∈ B, P b = false) →
    (∀ a ∈ A', P a = true) → (∀ b ∈ B', P b = false) → A = A' ∧ B = B'
  | [], B, [], B', h, _, _, _, _ => ⟨rfl, by simpa using h⟩
  | a :: A, B, a' :: A', B', h, h1, h2, h3, h4 => by
    simp only [List.cons_append, List.cons.injEq] at h
    obtain ⟨rfl, h⟩ := h
    obtain ⟨rfl, rfl⟩ := part_unique h (fun a ha => h1 a (List.mem_cons_of_mem _ ha)) h2 (fun a ha => h3 a (List.mem_cons_of_mem _ ha)) h4
    exact ⟨rfl, rfl⟩
  | [], B, a' :: A', B', h, h1, h2, h3, h4 => by
    simp only [List.nil_append] at h; rw [h] at h2
    have := h2 a' (by simp); rw [h3 a' (by simp)] at this; cases this
  | a :: A, B, [], B', h, h1, h2, h3, h4 => by
    simp only [List.nil_append] at h; rw [← h] at h4
    have := h4 a (by simp); rw [h1 a (by simp)] at this; cases this

/-- `_Find_lower_bound` finds the partition point. -/
theorem findLower_spec (key : α → κ) (lt : κ → κ → Bool) {hd f : Nat} {h : Hp α} (k : κ) {A B : List (Nat × α)} (W : WF hd h (A ++ B)) (hf : hb (A.length + B.length) < f)
    (hA : ∀ a ∈ A, lt (key a.2) k = true) (hB : ∀ b ∈ B, lt (key b.2) k = false) :
    ∃ r, findLower key lt hd f h k = .ok r ∧ Place hd h r.parent r.right A B ∧ r.bound = firstId hd B := by
  obtain ⟨t, F, e⟩ := W.foc
  have hlen := F.len
  rw [e, List.length_append] at hlen
  have hm : (inord [] t).Pairwise (fun a b => lt (key b.2) k = true → lt (key a.2) k = true) := by
    rw [e, List.pairwise_append]
    refine ⟨?_, ?_, ?_⟩
    · exact List.pairwise_of_forall_mem_list fun a ha b hb _ => hA a ha
    · exact List.pairwise_of_forall_mem_list fun a ha b hb h => absurd (hB b hb) (by simp [h])
    · intro a ha b hb _; exact hA a ha
  obtain ⟨C', r', e1, F', e2, h1, h2, h3, h4, h5⟩ := lowerLoop_spec key lt k t [] ⟨ptr hd t, true, hd⟩ f F (by simp at hlen; omega) (by simp [itL]) (by simp [itR]) hm rfl (by rintro rfl; exact ⟨rfl, rfl⟩)
  have hh : h hd = some ⟨_, ptr hd t, _, _, _, _⟩ := F.at_.head
  rw [e] at e2
  simp only [inord, items, List.nil_append] at e2
  obtain ⟨rfl, rfl⟩ := part_unique (P := fun a => lt (key a.2) k) e2 h1 h2 hA hB
  refine ⟨r', ?_, ⟨C', F', rfl, rfl, h3, h4⟩, h5⟩
  unfold findLower; rw [nd_some hh, R.ok_bind, e1]

theorem upperLoop_eq (key : α → κ) (lt : κ → κ → Bool) (h : Hp α) (k : κ) : ∀ (f t : Nat) (r : Found),
    upperLoop key lt h k f t r = lowerLoop key (fun a b => !(lt b a)) h k f t r
  | 0, _, _ => rfl
  | f + 1, t, r => by
    unfold upperLoop lowerLoop
    congr 1; funext n
    congr 1
    congr 1; funext nk
    rw [upperLoop_eq, upperLoop_eq]
    cases lt k nk <;> simp

theorem findUpper_spec (key : α → κ) (lt : κ → κ → Bool) {hd f : Nat} {h : Hp α} (k : κ) {A B : List (Nat × α)} (W : WF hd h (A ++ B)) (hf : hb (A.length + B.length) < f)
    (hA : ∀ a ∈ A, lt k (key a.2) = false) (hB : ∀ b ∈ B, lt k (key b.2) = true) :
    ∃ r, findUpper key lt hd f h k = .ok r ∧ Place hd h r.parent r.right A B ∧ r.bound = firstId hd B := by
  have : findUpper key lt hd f h k = findLower key (fun a b => !(lt b a)) hd f h k := by
    unfold findUpper findLower; congr 1; funext n; exact upperLoop_eq ..
  rw [this]
  exact findLower_spec key _ k W hf (by simpa using hA) (by simpa using hB)

theorem isDup_spec (key : α → κ) (lt : κ → κ → Bool) {hd : Nat} {h : Hp α} (k : κ) {A B : List (Nat × α)} (W : WF hd h (A ++ B)) :
    isDup key lt h (firstId hd B) k = .ok (match B with | [] => false | b :: _ => !(lt k (key b.2))) := by
  unfold isDup
  cases B with
  | nil => obtain ⟨r, e⟩ := W.head; rw [show firstId hd ([] : List (Nat × α)) = hd from rfl, nd_some e]; rfl
  | cons b B =>
    obtain ⟨n, e1, e2, e3⟩ := W.mem (q := b.1) (v := b.2) (by simp)
    rw [show firstId hd (b :: B) = b.1 from rfl, nd_some e1, R.ok_bind, if_neg (by simp [e2]), keyAt_ok e1 e3, R.ok_bind]

/-! ## `equal_range` -/

theorem eqLoop2_spec (key : α → κ) (lt : κ → κ → Bool) {hd : Nat} {h : Hp α} (k : κ) : ∀ (t : T α) (C : Cx α) (f : Nat), Foc hd h C t → ht t < f →
    (∀ a ∈ itL C, lt k (key a.2) = false) → (∀ b ∈ itR C, lt k (key b.2) = true) → (inord C t).Pairwise (fun a b => lt k (key a.2) = true → lt k (key b.2) = true) →
    ∃ A B, inord C t = A ++ B ∧ (∀ a ∈ A, lt k (key a.2) = false) ∧ (∀ b ∈ B, lt k (key b.2) = true) ∧
      eqLoop2 key lt h k f (ptr hd t) (firstId hd (itR C)) = .ok (firstId hd B)
  | .nil, C, f, F, hf, hl, hr, _ => by
    obtain ⟨f, rfl⟩ : ∃ g, f = g + 1 := ⟨f - 1, by omega⟩
    refine ⟨itL C, itR C, by simp [inord, items], hl, hr, ?_⟩
    unfold eqLoop2; rw [ptr_nil, nd_some F.at_.head, R.ok_bind]; rfl
  | .node i v c l rt, C, f, F, hf, hl, hr, hm => by
    obtain ⟨f, rfl⟩ : ∃ g, f = g + 1 := ⟨f - 1, by omega⟩
    simp only [ht] at hf
    have hn := F.at_.node
    have hm' := hm
    simp only [inord, items, List.append_assoc, List.cons_append, List.pairwise_append, List.pairwise_cons, List.mem_append, List.mem_cons] at hm'
    unfold eqLoop2; rw [ptr_node, nd_some hn, R.ok_bind]; simp only [Bool.false_eq_true, if_false]
    rw [keyAt_ok hn rfl, R.ok_bind]
    cases hc : lt k (key v) with
    | false =>
      rw [if_neg (by simp)]
      have HH := eqLoop2_spec key lt k rt (⟨false, i, v, c, l⟩ :: C) f (Foc.upR.2 F) (by omega) ?_ hr (by rw [inord_upR]; exact hm)
      · rw [inord_upR] at HH; exact HH
      · intro a ha
        simp only [itL, List.mem_append, List.mem_singleton] at ha
        rcases ha with ha | ha | rfl
        · exact hl a ha
        · cases hc' : lt k (key a.2) with
          | false => rfl
          | true => rw [hm'.2.1.2.2 a ha (i, v) (Or.inl rfl) hc'] at hc; cases hc
        · exact hc
    | true =>
      rw [if_pos rfl]
      have HH := eqLoop2_spec key lt k l (⟨true, i, v, c, rt⟩ :: C) f (Foc.upL.2 F) (by omega) hl ?_ (by rw [inord_upL]; exact hm)
      · rw [inord_upL] at HH; exact HH
      · intro a ha
        simp only [itR, List.cons_append, List.mem_append, List.mem_cons] at ha
        rcases ha with rfl | ha | ha
        · exact hc
        · exact hm'.2.1.2.1.1 a (Or.inl ha) hc
        · exact hr a ha

/-- the first loop: the lower bound, and a node above `k` whose left subtree holds the upper bound (or none met) -/
theorem eqLoop1_spec (key : α → κ) (lt : κ → κ → Bool) {hd : Nat} {h : Hp α} (k : κ) (hlt : ∀ a, lt a k = true → lt k a = false) : ∀ (t : T α) (C : Cx α) (f : Nat) (hi : Nat), Foc hd h C t → ht t < f →
    (∀ a ∈ itL C, lt (key a.2) k = true) → (∀ b ∈ itR C, lt (key b.2) k = false) → (inord C t).Pairwise (fun a b => lt (key b.2) k = true → lt (key a.2) k = true) →
    (hi = hd ∨ ∃ C' i v c l r, Foc hd h C' (.node i v c l r) ∧ inord C' (.node i v c l r) = inord C t ∧ hi = i ∧ lt k (key v) = true ∧ ∀ a ∈ itL C', lt k (key a.2) = false) →
    ∃ A B hi', inord C t = A ++ B ∧ (∀ a ∈ A, lt (key a.2) k = true) ∧ (∀ b ∈ B, lt (key b.2) k = false) ∧
      eqLoop1 key lt h k f (ptr hd t) (firstId hd (itR C)) hi = .ok (firstId hd B, hi') ∧
      (hi' = hd ∨ ∃ C' i v c l r, Foc hd h C' (.node i v c l r) ∧ inord C' (.node i v c l r) = inord C t ∧ hi' = i ∧ lt k (key v) = true ∧ ∀ a ∈ itL C', lt k (key a.2) = false)
  | .nil, C, f, hi, F, hf, hl, hr, _, hh => by
    obtain ⟨f, rfl⟩ : ∃ g, f = g + 1 := ⟨f - 1, by omega⟩
    refine ⟨itL C, itR C, hi, by simp [inord, items], hl, hr, ?_, hh⟩
    unfold eqLoop1; rw [ptr_nil, nd_some F.at_.head, R.ok_bind]; rfl
  | .node i v c l rt, C, f, hi, F, hf, hl, hr, hm, hh => by
    obtain ⟨f, rfl⟩ : ∃ g, f = g + 1 := ⟨f - 1, by omega⟩
    simp only [ht] at hf
    have hn := F.at_.node
    have hm' := hm
    simp only [inord, items, List.append_assoc, List.cons_append, List.pairwise_append, List.pairwise_cons, List.mem_append, List.mem_cons] at hm'
    unfold eqLoop1; rw [ptr_node, nd_some hn, R.ok_bind]; simp only [Bool.false_eq_true, if_false]
    rw [keyAt_ok hn rfl, R.ok_bind]
    cases hc : lt (key v) k with
    | true =>
      rw [if_pos rfl]
      have HH := eqLoop1_spec key lt k hlt rt (⟨false, i, v, c, l⟩ :: C) f hi (Foc.upR.2 F) (by omega) ?_ hr (by rw [inord_upR]; exact hm) (by rw [inord_upR]; exact hh)
      · rw [inord_upR] at HH; exact HH
      · intro a ha
        simp only [itL, List.mem_append, List.mem_singleton] at ha
        rcases ha with ha | ha | rfl
        · exact hl a ha
        · exact hm'.2.1.2.2 a ha (i, v) (Or.inl rfl) hc
        · exact hc
    | false =>
      rw [if_neg (by simp)]
      have hhn : ∃ n, h hi = some n ∧ (n.nil = true → hi = hd) := by
        rcases hh with rfl | ⟨C', i', v', c', l', r', F', -, rfl, -⟩
        · exact ⟨_, F.at_.head, fun _ => rfl⟩
        · exact ⟨_, F'.at_.node, by simp⟩
      obtain ⟨nn, hn1, hn2⟩ := hhn
      rw [nd_some hn1, R.ok_bind]
      have HH := eqLoop1_spec key lt k hlt l (⟨true, i, v, c, rt⟩ :: C) f (if nn.nil = true ∧ lt k (key v) = true then i else hi) (Foc.upL.2 F) (by omega) hl ?_ (by rw [inord_upL]; exact hm) ?_
      · rw [inord_upL] at HH; exact HH
      · intro a ha
        simp only [itR, List.cons_append, List.mem_append, List.mem_cons] at ha
        rcases ha with rfl | ha | ha
        · exact hc
        · cases hc' : lt (key a.2) k with
          | false => rfl
          | true => rw [hm'.2.1.2.1.1 a (Or.inl ha) hc'] at hc; cases hc
        · exact hr a ha
      · rw [inord_upL]
        by_cases hcond : nn.nil = true ∧ lt k (key v) = true
        · rw [if_pos hcond]
          exact Or.inr ⟨C, i, v, c, l, rt, F, rfl, rfl, hcond.2, fun a ha => hlt _ (hl a ha)⟩
        · rw [if_neg hcond]; exact hh

theorem eqrange_spec (key : α → κ) (lt : κ → κ → Bool) {hd f : Nat} {h : Hp α} (k : κ) {A E B : List (Nat × α)} (hlt : ∀ a, lt a k = true → lt k a = false)
    (W : WF hd h (A ++ (E ++ B))) (hf : hb (A.length + (E.length + B.length)) < f)
    (hA : ∀ a ∈ A, lt (key a.2) k = true) (hE : ∀ a ∈ E, lt (key a.2) k = false ∧ lt k (key a.2) = false) (hB : ∀ b ∈ B, lt k (key b.2) = true) :
    eqrange key lt hd f h k = .ok (firstId hd (E ++ B), firstId hd B) := by
  have hlt' : ∀ a, lt k a = true → lt a k = false := by
    intro a ha; cases hh : lt a k with | false => rfl | true => rw [hlt a hh] at ha; cases ha
  obtain ⟨t, F, e⟩ := W.foc
  have hlen := F.len
  rw [e] at hlen; simp only [List.length_append] at hlen
  have hm : (inord [] t).Pairwise (fun a b => lt (key b.2) k = true → lt (key a.2) k = true) := by
    rw [e, List.pairwise_append]
    refine ⟨?_, ?_, ?_⟩
    · exact List.pairwise_of_forall_mem_list fun a ha b hb _ => hA a ha
    · refine List.pairwise_of_forall_mem_list fun a ha b hb h => ?_
      simp only [List.mem_append] at hb
      rcases hb with hb | hb
      · rw [(hE b hb).1] at h; cases h
      · rw [hlt' _ (hB b hb)] at h; cases h
    · intro a ha b hb _; exact hA a ha
  have hm2 : (inord [] t).Pairwise (fun a b => lt k (key a.2) = true → lt k (key b.2) = true) := by
    rw [e, ← List.append_assoc, List.pairwise_append]
    refine ⟨?_, ?_, ?_⟩
    · refine List.pairwise_of_forall_mem_list fun a ha b hb h => ?_
      simp only [List.mem_append] at ha
      rcases ha with ha | ha
      · rw [hlt _ (hA a ha)] at h; cases h
      · rw [(hE a ha).2] at h; cases h
    · exact List.pairwise_of_forall_mem_list fun a ha b hb _ => hB b hb
    · intro a ha b hb _; exact hB b hb
  obtain ⟨A1, B1, hi, e1, h1, h2, r1, hhi⟩ := eqLoop1_spec key lt k hlt t [] f hd F (by simp at hlen; omega) (by simp [itL]) (by simp [itR]) hm (Or.inl rfl)
  have hEB : ∀ b ∈ E ++ B, lt (key b.2) k = false := by
    intro b hb; simp only [List.mem_append] at hb
    rcases hb with hb | hb
    · exact (hE b hb).1
    · exact hlt' _ (hB b hb)
  have hAE : ∀ a ∈ A ++ E, (!lt k (key a.2)) = true := by
    intro b hb; simp only [List.mem_append] at hb
    rcases hb with hb | hb
    · rw [hlt _ (hA b hb)]; rfl
    · rw [(hE b hb).2]; rfl
  rw [e] at e1
  obtain ⟨rfl, rfl⟩ := part_unique (P := fun a => lt (key a.2) k) e1 hA hEB h1 h2
  have hh : h hd = some ⟨_, ptr hd t, _, false, true, none⟩ := F.at_.head
  unfold eqrange
  rw [nd_some hh, R.ok_bind]; simp only
  rw [show firstId hd (itR ([] : Cx α)) = hd from rfl] at r1
  rw [r1, R.ok_bind]; simp only
  have hfin : ∀ A' B', inord [] t = A' ++ B' → (∀ a ∈ A', lt k (key a.2) = false) → (∀ b ∈ B', lt k (key b.2) = true) → firstId hd B' = firstId hd B := by
    intro A' B' e' p q
    rw [e, ← List.append_assoc] at e'
    obtain ⟨_, rfl⟩ := part_unique (P := fun a => !lt k (key a.2)) e' hAE (by simpa using hB) (by simpa using p) (by simpa using q)
    rfl
  rcases hhi with rfl | ⟨C', i, v, c, l, r, F', e2, rfl, hv, hl⟩
  · rw [nd_some hh, R.ok_bind, R.ok_bind]; simp only [if_true]
    obtain ⟨A', B', e', p, q, r2⟩ := eqLoop2_spec key lt k t [] f F (by simp at hlen; omega) (by simp [itL]) (by simp [itR]) hm2
    rw [show firstId hi (itR ([] : Cx α)) = hi from rfl] at r2
    rw [r2, R.ok_bind, hfin A' B' e' p q]
  · rw [nd_some F'.at_.node, R.ok_bind, R.ok_bind]; simp only [Bool.false_eq_true, if_false]
    have hlen2 := F'.len
    rw [e2, e] at hlen2; simp only [List.length_append, ht] at hlen2
    rw [← e2] at hm2
    have hm3 := hm2
    simp only [inord, items, List.append_assoc, List.cons_append, List.pairwise_append, List.pairwise_cons, List.mem_append, List.mem_cons] at hm3
    obtain ⟨A', B', e', p, q, r2⟩ := eqLoop2_spec key lt k l (⟨true, hi, v, c, r⟩ :: C') f (Foc.upL.2 F') (by omega) hl (by
      intro b hb
      simp only [itR, List.cons_append, List.mem_append, List.mem_cons] at hb
      rcases hb with rfl | hb | hb
      · exact hv
      · exact hm3.2.1.2.1.1 b (Or.inl hb) hv
      · exact hm3.2.1.2.1.1 b (Or.inr hb) hv) (by rw [inord_upL]; exact hm2)
    rw [show firstId hd (itR (⟨true, hi, v, c, r⟩ :: C')) = hi from rfl] at r2
    rw [inord_upL, e2] at e'
    rw [r2, R.ok_bind, hfin A' B' e' p q]

/-! ## Hints -/

/-- the place right after an element -/
theorem hole_after {hd : Nat} {h : Hp α} {A B : List (Nat × α)} {p : Nat} {pv : α} (W : WF hd h (A ++ (p, pv) :: B)) :
    ∃ pn rn, h p = some pn ∧ h pn.right = some rn ∧ pn.val = some pv ∧ (rn.nil = true → Place hd h p true (A ++ [(p, pv)]) B) ∧
      (rn.nil = false → ∃ q qv B', B = (q, qv) :: B' ∧ Place hd h q false (A ++ [(p, pv)]) B) := by
  obtain ⟨C, c, l, r, F, hA, hB⟩ := W.split
  obtain ⟨n, hn, -, hnil⟩ := (At.upR.2 F.at_).at
  refine ⟨_, n, F.at_.node, hn, rfl, fun h0 => ?_, fun h0 => ?_⟩
  · have := hnil.1 h0; subst this
    refine ⟨⟨false, p, pv, c, l⟩ :: C, Foc.upR.2 F, ?_, ?_, rfl, rfl⟩
    · rw [← hA]; simp [itL]
    · rw [← hB]; simp [itR, items]
  · have hr0 : r ≠ .nil := fun e => by rw [hnil.2 e] at h0; cases h0
    obtain ⟨D, m, v, c', r', e, hD, -⟩ := minF_spec r _ (At.upR.2 F.at_) hr0
    subst e
    have F2 : Foc hd h (D ++ ⟨false, p, pv, c, l⟩ :: C) (.node m v c' .nil r') := by
      have := Foc.plug.1 (Foc.upR.2 F); rw [← plug_append] at this; exact Foc.plug.2 this
    have hBm : B = (m, v) :: (items r' ++ (itR D ++ itR C)) := by rw [← hB, items_plug, inord, hD.itL]; simp [items]
    refine ⟨m, v, _, hBm, ⟨true, m, v, c', r'⟩ :: (D ++ ⟨false, p, pv, c, l⟩ :: C), Foc.upL.2 F2, ?_, ?_, rfl, rfl⟩
    · simp only [itL, itL_append, hD.itL]; rw [← hA]; simp
    · rw [hBm]; simp [itR, itR_append]

/-- the place before the first element -/
theorem hole_first {hd : Nat} {h : Hp α} {B : List (Nat × α)} {p : Nat} {pv : α} (W : WF hd h ((p, pv) :: B)) : Place hd h p false [] ((p, pv) :: B) := by
  obtain ⟨C, c, l, r, F, hA, hB⟩ := WF.split (A := []) W
  rw [List.append_eq_nil_iff] at hA
  have := items_eq_nil.1 hA.2; subst this
  exact ⟨⟨true, p, pv, c, r⟩ :: C, Foc.upL.2 F, hA.1, by rw [← hB]; simp [itR], rfl, rfl⟩

/-- the place after the last element -/
theorem hole_last {hd : Nat} {h : Hp α} {X : List (Nat × α)} (W : WF hd h X) : Place hd h (lastId hd X) true X [] := by
  rcases List.eq_nil_or_concat X with rfl | ⟨A, a, rfl⟩
  · obtain ⟨t, F, e⟩ := W.foc
    have : t = .nil := by rw [← items_eq_nil]; simpa [inord, itL, itR] using e
    subst this
    exact ⟨[], F, rfl, rfl, rfl, rfl⟩
  · obtain ⟨q, v⟩ := a
    rw [List.concat_eq_append] at W ⊢
    obtain ⟨pn, rn, h1, h2, h3, h4, h5⟩ := hole_after (B := []) W
    rw [show lastId hd (A ++ [(q, v)]) = q by simp [lastId]]
    cases hr : rn.nil with
    | true => exact h4 hr
    | false => obtain ⟨q', qv, B', e, -⟩ := h5 hr; cases e

/-- the keys around `k` in a container with unique keys -/
def Around (key : α → κ) (lt : κ → κ → Bool) (k : κ) (A B : List (Nat × α)) : Prop :=
  (∀ a ∈ A, lt (key a.2) k = true) ∧ (∀ b ∈ B, lt k (key b.2) = true)

def Srt (key : α → κ) (lt : κ → κ → Bool) (X : List (Nat × α)) : Prop := X.Pairwise (fun a b => lt (key b.2) (key a.2) = false)
def SrtU (key : α → κ) (lt : κ → κ → Bool) (X : List (Nat × α)) : Prop := X.Pairwise (fun a b => lt (key a.2) (key b.2) = true)

theorem SrtU.srt {key : α → κ} {lt : κ → κ → Bool} (o : SWO lt) {X : List (Nat × α)} (h : SrtU key lt X) : Srt key lt X :=
  h.imp fun h => o.asymm h

/-- a sorted sequence splits at every key -/
theorem srt_split {key : α → κ} {lt : κ → κ → Bool} (o : SWO lt) (k : κ) : ∀ {X : List (Nat × α)}, Srt key lt X →
    ∃ A E B, X = A ++ (E ++ B) ∧ (∀ a ∈ A, lt (key a.2) k = true) ∧ (∀ a ∈ E, lt (key a.2) k = false ∧ lt k (key a.2) = false) ∧ (∀ b ∈ B, lt k (key b.2) = true)
  | [], _ => ⟨[], [], [], rfl, by simp, by simp, by simp⟩
  | x :: X, h => by
    rw [Srt, List.pairwise_cons] at h
    obtain ⟨A, E, B, rfl, hA, hE, hB⟩ := srt_split o k h.2
    cases h1 : lt (key x.2) k with
    | true => exact ⟨x :: A, E, B, rfl, by simpa using ⟨h1, fun a b ab => hA (a, b) ab⟩, hE, hB⟩
    | false =>
      cases h2 : lt k (key x.2) with
      | true =>
        refine ⟨[], [], x :: (A ++ (E ++ B)), rfl, by simp, by simp, ?_⟩
        intro b hb
        rw [List.mem_cons] at hb
        rcases hb with rfl | hb
        · exact h2
        · exact o.lt_of_lt_of_le h2 (h.1 b hb)
      | false =>
        have hA0 : A = [] := by
          cases A with
          | nil => rfl
          | cons a A =>
            have := o.le_trans h1 (h.1 a (by simp))
            rw [hA a (by simp)] at this; cases this
        subst hA0
        exact ⟨[], x :: E, B, rfl, by simp, by simpa using ⟨⟨h1, h2⟩, fun a b ab => hE (a, b) ab⟩, hB⟩

/-- at most one element is equivalent to a key -/
theorem srtU_split {key : α → κ} {lt : κ → κ → Bool} (o : SWO lt) (k : κ) {X : List (Nat × α)} (h : SrtU key lt X) :
    (∃ A B, X = A ++ B ∧ Around key lt k A B) ∨
    (∃ A x B, X = A ++ x :: B ∧ (∀ a ∈ A, lt (key a.2) k = true) ∧ (lt (key x.2) k = false ∧ lt k (key x.2) = false) ∧ (∀ b ∈ B, lt k (key b.2) = true)) := by
  obtain ⟨A, E, B, e, hA, hE, hB⟩ := srt_split o k (h.srt o)
  cases E with
  | nil => exact Or.inl ⟨A, B, e, hA, hB⟩
  | cons x E =>
    right
    cases E with
    | nil => exact ⟨A, x, B, e, hA, hE x (by simp), hB⟩
    | cons y E =>
      rw [e, SrtU, List.pairwise_append] at h
      have := (List.pairwise_cons.1 h.2.1).1 y (by simp)
      have h1 := hE x (by simp); have h2 := hE y (by simp)
      rw [(o.equiv_trans _ k _ h1.1 h1.2 h2.2 h2.1).1] at this; cases this

/-- the result of a search for a place among unique keys -/
def UPlace (key : α → κ) (lt : κ → κ → Bool) (hd : Nat) (h : Hp α) (X : List (Nat × α)) (k : κ) (r : Hint) : Prop :=
  (r.dup = true ∧ ∃ v, (r.parent, v) ∈ X ∧ lt (key v) k = false ∧ lt k (key v) = false) ∨
  (r.dup = false ∧ ∃ A B, X = A ++ B ∧ Around key lt k A B ∧ Place hd h r.parent r.right A B)

theorem lower_unique {key : α → κ} {lt : κ → κ → Bool} (o : SWO lt) {hd f : Nat} {h : Hp α} {X : List (Nat × α)} (k : κ) (W : WF hd h X) (hS : SrtU key lt X)
    (hf : hb X.length < f) : ∃ r d, findLower key lt hd f h k = .ok r ∧ isDup key lt h r.bound k = .ok d ∧
      ((d = true ∧ ∃ v, (r.bound, v) ∈ X ∧ lt (key v) k = false ∧ lt k (key v) = false) ∨
       (d = false ∧ ∃ A B, X = A ++ B ∧ Around key lt k A B ∧ Place hd h r.parent r.right A B)) := by
  rcases srtU_split o k hS with ⟨A, B, rfl, hA, hB⟩ | ⟨A, x, B, rfl, hA, hx, hB⟩
  · obtain ⟨r, e1, P, e2⟩ := findLower_spec key lt k W (by simpa using hf) hA (fun b hb => o.asymm (hB b hb))
    refine ⟨r, false, e1, ?_, Or.inr ⟨rfl, A, B, rfl, ⟨hA, hB⟩, P⟩⟩
    rw [e2, isDup_spec key lt k W]
    cases B with
    | nil => rfl
    | cons b B => simp only; rw [hB b (by simp)]; rfl
  · obtain ⟨r, e1, P, e2⟩ := findLower_spec key lt k W (by simpa using hf) hA (fun b hb => by
      rcases List.mem_cons.1 hb with rfl | hb
      · exact hx.1
      · exact o.asymm (hB b hb))
    refine ⟨r, true, e1, ?_, Or.inl ⟨rfl, x.2, ?_, hx⟩⟩
    · rw [e2, isDup_spec key lt k W]; simp only; rw [hx.2]; rfl
    · rw [e2]; simp [firstId]

theorem findHintUnique_spec {key : α → κ} {lt : κ → κ → Bool} (o : SWO lt) {hd f : Nat} {h : Hp α} {H1 H2 : List (Nat × α)} (k : κ)
    (W : WF hd h (H1 ++ H2)) (hS : SrtU key lt (H1 ++ H2)) (hf : hb (H1 ++ H2).length < f) :
    ∃ r, findHintUnique key lt hd f h (firstId hd H2) k = .ok r ∧ UPlace key lt hd h (H1 ++ H2) k r := by
  have hfall : ∃ r, (do
      let r ← findLower key lt hd f h k
      let d ← isDup key lt h r.bound k
      .ok (if d then ⟨r.bound, false, true⟩ else ⟨r.parent, r.right, false⟩) : R Hint) = .ok r ∧ UPlace key lt hd h (H1 ++ H2) k r := by
    obtain ⟨r, d, e1, e2, hh⟩ := lower_unique o k W hS hf
    refine ⟨_, by rw [e1, R.ok_bind, e2, R.ok_bind], ?_⟩
    rcases hh with ⟨rfl, hh⟩ | ⟨rfl, hh⟩
    · exact Or.inl ⟨rfl, hh⟩
    · exact Or.inr ⟨rfl, hh⟩
  obtain ⟨fr, hfe, hfp⟩ := hfall
  obtain ⟨rt, hhd⟩ := W.head
  have hroot : ∃ n, h rt = some n ∧ (n.nil = true ↔ H1 ++ H2 = []) := by
    obtain ⟨t, F, e⟩ := W.foc
    obtain ⟨n, hn, -, hnil⟩ := F.at_.at
    have : rt = ptr hd t := by have := F.at_.head; rw [hhd] at this; injection this with this; injection this
    refine ⟨n, by rw [this]; exact hn, hnil.trans ?_⟩
    rw [← e, ← items_eq_nil]; simp [inord, itL, itR]
  obtain ⟨rn, hrn, hrnil⟩ := hroot
  have hf' : hb (H1.length + H2.length) < f := by simpa using hf
  unfold findHintUnique
  simp only
  cases H2 with
  | nil =>
    rw [show firstId hd ([] : List (Nat × α)) = hd from rfl, nd_some hhd, R.ok_bind, R.ok_bind]; simp only [if_true]
    rw [nd_some hrn, R.ok_bind]
    rw [List.append_nil] at *
    by_cases h0 : H1 = []
    · rw [if_pos (hrnil.2 h0)]
      exact ⟨_, rfl, Or.inr ⟨rfl, H1, [], by simp, ⟨by rw [h0]; simp, by simp⟩, hole_last W⟩⟩
    · rw [if_neg (by rw [hrnil]; exact h0)]
      obtain ⟨L, a, rfl⟩ := (List.eq_nil_or_concat H1).resolve_left h0
      rw [List.concat_eq_append] at *
      have hl : lastId hd (L ++ [a]) = a.1 := by simp [lastId]
      obtain ⟨n, e1, e2, e3⟩ := W.mem (q := a.1) (v := a.2) (by simp)
      rw [hl, keyAt_ok e1 e3, R.ok_bind]
      cases hc : lt (key a.2) k with
      | false => rw [if_neg (by simp)]; exact ⟨fr, hfe, hfp⟩
      | true =>
        rw [if_pos rfl]
        have hlast := hole_last W
        rw [hl] at hlast
        refine ⟨_, rfl, Or.inr ⟨rfl, _, [], by simp, ⟨?_, by simp⟩, hlast⟩⟩
        intro x hx
        rw [List.mem_append] at hx
        rcases hx with hx | hx
        · rw [SrtU, List.pairwise_append] at hS
          exact o.trans _ _ _ (hS.2.2 x hx a (by simp)) hc
        · simp at hx; rw [hx]; exact hc
  | cons x B =>
    obtain ⟨i, v⟩ := x
    rw [show firstId hd ((i, v) :: B) = i from rfl]
    obtain ⟨n, rn2, n1, n2, n3, n4, n5⟩ := hole_after W
    have hnn : n.nil = false := by obtain ⟨n', a, b, -⟩ := W.mem (q := i) (v := v) (by simp); rw [n1] at a; cases a; exact b
    rw [nd_some n1, R.ok_bind, nd_some hhd, R.ok_bind, if_neg (by simp [hnn]), keyAt_ok n1 n3, R.ok_bind]
    have hnd := (List.nodup_cons.1 W.nodup).2
    have hS' := hS
    rw [SrtU, List.pairwise_append, List.pairwise_cons] at hS'
    by_cases hfirst : i = firstId hd (H1 ++ (i, v) :: B)
    · rw [if_pos hfirst]
      have h10 : H1 = [] := (firstId_eq hnd).1 hfirst.symm
      subst h10
      cases hc : lt k (key v) with
      | false => rw [if_neg (by simp)]; exact ⟨fr, hfe, hfp⟩
      | true =>
        rw [if_pos rfl]
        refine ⟨_, rfl, Or.inr ⟨rfl, [], (i, v) :: B, rfl, ⟨by simp, ?_⟩, hole_first W⟩⟩
        intro b hb
        rcases List.mem_cons.1 hb with rfl | hb
        · exact hc
        · exact o.trans _ _ _ hc (hS'.2.1.1 b hb)
    · rw [if_neg hfirst]
      have h10 : H1 ≠ [] := fun e => hfirst ((firstId_eq hnd).2 e).symm
      cases hc : lt k (key v) with
      | true =>
        rw [if_pos rfl, W.prev (by simp only [List.length_cons, ← Nat.add_assoc] at hf'; omega), R.ok_bind]
        obtain ⟨L, a, rfl⟩ := (List.eq_nil_or_concat H1).resolve_left h10
        rw [List.concat_eq_append] at *
        have hl : lastId hd (L ++ [a]) = a.1 := by simp [lastId]
        have W' : WF hd h (L ++ (a.1, a.2) :: (i, v) :: B) := by simpa using W
        obtain ⟨pn, prn, p1, p2, p3, p4, p5⟩ := hole_after W'
        rw [hl, keyAt_ok p1 p3, R.ok_bind]
        cases hc2 : lt (key a.2) k with
        | false => rw [if_neg (by simp)]; exact ⟨fr, hfe, hfp⟩
        | true =>
          rw [if_pos rfl, nd_some p1, R.ok_bind, nd_some p2, R.ok_bind]
          have hAr : Around key lt k (L ++ [a]) ((i, v) :: B) := by
            constructor
            · intro y hy
              rw [List.mem_append] at hy
              rcases hy with hy | hy
              · have := (List.pairwise_append.1 hS'.1).2.2 y hy a (by simp)
                exact o.trans _ _ _ this hc2
              · simp at hy; rw [hy]; exact hc2
            · intro b hb
              rcases List.mem_cons.1 hb with rfl | hb
              · exact hc
              · exact o.trans _ _ _ hc (hS'.2.1.1 b hb)
          cases hn' : prn.nil with
          | true =>
            rw [if_pos rfl]
            exact ⟨_, rfl, Or.inr ⟨rfl, L ++ [a], _, rfl, hAr, p4 hn'⟩⟩
          | false =>
            rw [if_neg (by simp)]
            obtain ⟨q, qv, B', e', P⟩ := p5 hn'
            injection e' with e1 e2
            injection e1 with e1 e3
            subst e1
            exact ⟨_, rfl, Or.inr ⟨rfl, L ++ [a], _, rfl, hAr, P⟩⟩
      | false =>
        rw [if_neg (by simp)]
        cases hc2 : lt (key v) k with
        | false =>
          rw [if_neg (by simp)]
          exact ⟨_, rfl, Or.inl ⟨rfl, v, by simp, hc2, hc⟩⟩
        | true =>
          rw [if_pos rfl, W.next (by simp only [List.length_cons, ← Nat.add_assoc] at hf'; omega), R.ok_bind]
          have hAv : ∀ y ∈ H1 ++ [(i, v)], lt (key y.2) k = true := by
            intro y hy
            rw [List.mem_append] at hy
            rcases hy with hy | hy
            · exact o.trans _ _ _ (hS'.2.2 y hy (i, v) (by simp)) hc2
            · simp at hy; rw [hy]; exact hc2
          cases B with
          | nil =>
            rw [show firstId hd ([] : List (Nat × α)) = hd from rfl, nd_some hhd, R.ok_bind]; simp only [if_true]
            rw [R.ok_bind, if_pos rfl, nd_some n2, R.ok_bind]
            cases hn' : rn2.nil with
            | true =>
              rw [if_pos rfl]
              exact ⟨_, rfl, Or.inr ⟨rfl, H1 ++ [(i, v)], [], by simp, ⟨hAv, by simp⟩, n4 hn'⟩⟩
            | false => obtain ⟨_, _, _, e', -⟩ := n5 hn'; cases e'
          | cons y B =>
            obtain ⟨j, w⟩ := y
            obtain ⟨sn, s1, s2, s3⟩ := W.mem (q := j) (v := w) (by simp)
            rw [show firstId hd ((j, w) :: B) = j from rfl, nd_some s1, R.ok_bind, if_neg (by simp [s2]), keyAt_ok s1 s3, R.ok_bind, R.ok_bind]
            cases hc3 : lt k (key w) with
            | false => rw [if_neg (by simp)]; exact ⟨fr, hfe, hfp⟩
            | true =>
              rw [if_pos rfl, nd_some n2, R.ok_bind]
              have hB' : ∀ b ∈ (j, w) :: B, lt k (key b.2) = true := by
                intro b hb
                rcases List.mem_cons.1 hb with rfl | hb
                · exact hc3
                · exact o.trans _ _ _ hc3 ((List.pairwise_cons.1 hS'.2.1.2).1 b hb)
              cases hn' : rn2.nil with
              | true =>
                rw [if_pos rfl]
                exact ⟨_, rfl, Or.inr ⟨rfl, H1 ++ [(i, v)], _, by simp, ⟨hAv, hB'⟩, n4 hn'⟩⟩
              | false =>
                rw [if_neg (by simp)]
                obtain ⟨q, qv, B', e', P⟩ := n5 hn'
                injection e' with e1 e2
                injection e1 with e1 e3
                subst e1
                exact ⟨_, rfl, Or.inr ⟨rfl, H1 ++ [(i, v)], _, by simp, ⟨hAv, hB'⟩, P⟩⟩

/-- what a hinted search in a `multiset`/`multimap` finds: the valid place closest to the hint -/
def MPlace (key : α → κ) (lt : κ → κ → Bool) (k : κ) (H1 H2 A B : List (Nat × α)) : Prop :=
  H1 ++ H2 = A ++ B ∧
  ((A = H1 ∧ (∀ a ∈ A, lt k (key a.2) = false) ∧ (∀ b ∈ B, lt (key b.2) k = false)) ∨
   ((∃ a ∈ H1, lt k (key a.2) = true) ∧ (∀ a ∈ A, lt k (key a.2) = false) ∧ (∀ b ∈ B, lt k (key b.2) = true)) ∨
   ((∃ b ∈ H2, lt (key b.2) k = true) ∧ (∀ a ∈ A, lt (key a.2) k = true) ∧ (∀ b ∈ B, lt (key b.2) k = false)))

theorem findHintMulti_spec {key : α → κ} {lt : κ → κ → Bool} (o : SWO lt) {hd f : Nat} {h : Hp α} {H1 H2 : List (Nat × α)} (k : κ)
    (W : WF hd h (H1 ++ H2)) (hS : Srt key lt (H1 ++ H2)) (hf : hb (H1 ++ H2).length < f) :
    ∃ r A B, findHintMulti key lt hd f h (firstId hd H2) k = .ok r ∧ r.dup = false ∧ Place hd h r.parent r.right A B ∧ MPlace key lt k H1 H2 A B := by
  obtain ⟨A, E, B, eX, hA, hE, hB⟩ := srt_split o k hS
  have hf' : hb (H1.length + H2.length) < f := by simpa using hf
  have hlt : ∀ a, lt a k = true → lt k a = false := fun a => o.asymm
  have hup : ∃ r, findUpper key lt hd f h k = .ok r ∧ Place hd h r.parent r.right (A ++ E) B := by
    rw [eX, ← List.append_assoc] at W
    obtain ⟨r, e, P, -⟩ := findUpper_spec key lt k W (by rw [eX] at hf; simpa [Nat.add_assoc] using hf) (by
      intro a ha; rcases List.mem_append.1 ha with ha | ha
      · exact hlt _ (hA a ha)
      · exact (hE a ha).2) hB
    exact ⟨r, e, P⟩
  have hlo : ∃ r, findLower key lt hd f h k = .ok r ∧ Place hd h r.parent r.right A (E ++ B) := by
    rw [eX] at W
    obtain ⟨r, e, P, -⟩ := findLower_spec key lt k W (by rw [eX] at hf; simpa [Nat.add_assoc] using hf) hA (by
      intro a ha; rcases List.mem_append.1 ha with ha | ha
      · exact (hE a ha).1
      · exact o.asymm (hB a ha))
    exact ⟨r, e, P⟩
  obtain ⟨ru, eu, Pu⟩ := hup
  obtain ⟨rl, el, Pl⟩ := hlo
  have hup2 : (∃ a ∈ H1, lt k (key a.2) = true) → MPlace key lt k H1 H2 (A ++ E) B := fun hx => ⟨by rw [eX]; simp, Or.inr (Or.inl ⟨hx, by
      intro a ha; rcases List.mem_append.1 ha with ha | ha
      · exact hlt _ (hA a ha)
      · exact (hE a ha).2, hB⟩)⟩
  have hlo2 : (∃ b ∈ H2, lt (key b.2) k = true) → MPlace key lt k H1 H2 A (E ++ B) := fun hx => ⟨eX, Or.inr (Or.inr ⟨hx, hA, by
      intro a ha; rcases List.mem_append.1 ha with ha | ha
      · exact (hE a ha).1
      · exact o.asymm (hB a ha)⟩)⟩
  obtain ⟨rt, hhd⟩ := W.head
  have hroot : ∃ n, h rt = some n ∧ (n.nil = true ↔ H1 ++ H2 = []) := by
    obtain ⟨t, F, e⟩ := W.foc
    obtain ⟨n, hn, -, hnil⟩ := F.at_.at
    have : rt = ptr hd t := by have := F.at_.head; rw [hhd] at this; injection this with this; injection this
    refine ⟨n, by rw [this]; exact hn, hnil.trans ?_⟩
    rw [← e, ← items_eq_nil]; simp [inord, itL, itR]
  obtain ⟨rn, hrn, hrnil⟩ := hroot
  unfold findHintMulti
  simp only
  rw [eu, el, R.ok_bind, R.ok_bind]
  cases H2 with
  | nil =>
    rw [show firstId hd ([] : List (Nat × α)) = hd from rfl, nd_some hhd, R.ok_bind, R.ok_bind]; simp only [if_true]
    rw [nd_some hrn, R.ok_bind]
    have W0 : WF hd h H1 := by simpa using W
    have hS0 : Srt key lt H1 := by simpa using hS
    by_cases h0 : H1 = []
    · rw [if_pos (hrnil.2 (by simp [h0]))]
      refine ⟨_, H1, [], rfl, rfl, by rw [List.append_nil]; exact hole_last W0, rfl, Or.inl ⟨rfl, by simp [h0], by simp⟩⟩
    · rw [if_neg (by rw [hrnil]; simpa using h0)]
      obtain ⟨L, a, rfl⟩ := (List.eq_nil_or_concat H1).resolve_left h0
      have hl : lastId hd (L.concat a ++ []) = a.1 := by simp [lastId]
      obtain ⟨n, e1, e2, e3⟩ := W.mem (q := a.1) (v := a.2) (by simp)
      rw [hl, keyAt_ok e1 e3, R.ok_bind]
      cases hc : lt k (key a.2) with
      | true => rw [if_pos rfl]; exact ⟨_, _, _, rfl, rfl, Pu, hup2 ⟨a, by simp, hc⟩⟩
      | false =>
        rw [if_neg (by simp)]
        have hlast := hole_last W0
        rw [← hl, List.append_nil]
        refine ⟨_, _, [], rfl, rfl, hlast, rfl, Or.inl ⟨rfl, ?_, by simp⟩⟩
        intro x hx
        rw [List.concat_eq_append, List.mem_append] at hx
        rcases hx with hx | hx
        · rw [Srt, List.concat_eq_append, List.pairwise_append] at hS0
          exact o.le_trans (hS0.2.2 x hx a (by simp)) hc
        · simp at hx; rw [hx]; exact hc
  | cons x B' =>
    obtain ⟨i, v⟩ := x
    rw [show firstId hd ((i, v) :: B') = i from rfl]
    obtain ⟨n, n1, n2, n3⟩ := W.mem (q := i) (v := v) (by simp)
    rw [nd_some n1, R.ok_bind, nd_some hhd, R.ok_bind, if_neg (by simp [n2]), keyAt_ok n1 n3, R.ok_bind]
    have hnd := (List.nodup_cons.1 W.nodup).2
    have hS' := hS
    rw [Srt, List.pairwise_append, List.pairwise_cons] at hS'
    have hBv : lt (key v) k = false → ∀ b ∈ (i, v) :: B', lt (key b.2) k = false := by
      intro hc b hb
      rcases List.mem_cons.1 hb with rfl | hb
      · exact hc
      · exact o.le_trans hc (hS'.2.1.1 b hb)
    by_cases hfirst : i = firstId hd (H1 ++ (i, v) :: B')
    · rw [if_pos hfirst]
      have h10 : H1 = [] := (firstId_eq hnd).1 hfirst.symm
      subst h10
      cases hc : lt (key v) k with
      | true => rw [if_pos rfl]; exact ⟨_, _, _, rfl, rfl, Pl, hlo2 ⟨_, List.mem_cons_self, hc⟩⟩
      | false =>
        rw [if_neg (by simp)]
        exact ⟨_, [], _, rfl, rfl, hole_first W, rfl, Or.inl ⟨rfl, by simp, hBv hc⟩⟩
    · rw [if_neg hfirst]
      have h10 : H1 ≠ [] := fun e => hfirst ((firstId_eq hnd).2 e).symm
      cases hc : lt (key v) k with
      | true => rw [if_pos rfl]; exact ⟨_, _, _, rfl, rfl, Pl, hlo2 ⟨_, List.mem_cons_self, hc⟩⟩
      | false =>
        rw [if_neg (by simp), W.prev (by simp only [List.length_cons, ← Nat.add_assoc] at hf'; omega), R.ok_bind]
        obtain ⟨L, a, rfl⟩ := (List.eq_nil_or_concat H1).resolve_left h10
        rw [List.concat_eq_append] at *
        have hl : lastId hd (L ++ [a]) = a.1 := by simp [lastId]
        have W' : WF hd h (L ++ (a.1, a.2) :: (i, v) :: B') := by simpa using W
        obtain ⟨pn, prn, p1, p2, p3, p4, p5⟩ := hole_after W'
        rw [hl, keyAt_ok p1 p3, R.ok_bind]
        cases hc2 : lt k (key a.2) with
        | true => rw [if_pos rfl]; exact ⟨_, _, _, rfl, rfl, Pu, hup2 ⟨a, by simp, hc2⟩⟩
        | false =>
          rw [if_neg (by simp), nd_some p1, R.ok_bind, nd_some p2, R.ok_bind]
          have hAr : ∀ y ∈ L ++ [a], lt k (key y.2) = false := by
            intro y hy
            rw [List.mem_append] at hy
            rcases hy with hy | hy
            · have := (List.pairwise_append.1 hS'.1).2.2 y hy a (by simp)
              exact o.le_trans this hc2
            · simp at hy; rw [hy]; exact hc2
          cases hn' : prn.nil with
          | true =>
            rw [if_pos rfl]
            exact ⟨_, _, _, rfl, rfl, p4 hn', rfl, Or.inl ⟨rfl, hAr, hBv hc⟩⟩
          | false =>
            rw [if_neg (by simp)]
            obtain ⟨q, qv, B', e', P⟩ := p5 hn'
            injection e' with e1 e2
            injection e1 with e1 e3
            subst e1
            exact ⟨_, _, _, rfl, rfl, P, rfl, Or.inl ⟨rfl, hAr, hBv hc⟩⟩

end STL.RBT
