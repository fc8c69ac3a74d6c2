import Verif.Reorder.Lemmas

/-! More lemmas: remove_if, unique, shift, partition, stable_partition. -/

namespace STL
variable {α : Type _}

theorem filter_len (p : α → Bool) (X : List α) : (X.filter p).length + (X.filter (fun x => !p x)).length = X.length := by
  induction X with
  | nil => rfl
  | cons x X ih => by_cases h : p x = true <;> simp [h] at * <;> omega

/-- `findIf` and `partSkip` stop after the longest prefix satisfying the loop condition. -/
theorem findIf_spec (p : α → Bool) (X : List α) : ∀ (m : Mem α) (first last : Nat), At m first X → last = first + X.length →
    findIf p m first last = .ok (first + (X.takeWhile (fun x => !p x)).length) := by
  induction X with
  | nil => intro m first last _ hl; simp at hl; subst hl; unfold findIf; simp; rfl
  | cons x X ih =>
    intro m first last hX hl
    obtain ⟨hx, hX⟩ := At.cons_iff.1 hX
    simp only [List.length_cons] at hl
    unfold findIf
    rw [dif_pos (by omega), rd_of hx, R.ok_bind]
    by_cases h : p x = true
    · simp [h]; rfl
    · rw [if_neg h, ih m (first+1) last hX (by omega)]
      simp [h]; omega

theorem partSkip_spec (p : α → Bool) (X : List α) : ∀ (m : Mem α) (first last : Nat), At m first X → last = first + X.length →
    partSkip p m first last = .ok (first + (X.takeWhile p).length) := by
  induction X with
  | nil => intro m first last _ hl; simp at hl; subst hl; unfold partSkip; simp; rfl
  | cons x X ih =>
    intro m first last hX hl
    obtain ⟨hx, hX⟩ := At.cons_iff.1 hX
    simp only [List.length_cons] at hl
    unfold partSkip
    rw [dif_pos (by omega), rd_of hx, R.ok_bind]
    by_cases h : p x = true
    · rw [if_pos h, ih m (first+1) last hX (by omega)]
      simp [h]; omega
    · simp [h]; rfl

theorem removeIfLoop_spec (p : α → Bool) (X : List α) : ∀ (m : Mem α) (first next last : Nat), At m first X →
    last = first + X.length → next < first →
    ∃ m', removeIfLoop p m first next last = .ok (m', next + (X.filter (fun x => !p x)).length) ∧
      At m' next (X.filter (fun x => !p x)) ∧ Upd m m' (Seg next last) := by
  induction X with
  | nil => intro m first next last _ hl _; simp at hl; subst hl; unfold removeIfLoop; exact ⟨m, by simp; rfl, At.nil _ _, Upd.refl _ _⟩
  | cons x X ih =>
    intro m first next last hX hl hn
    have hlen := hX.le_length (by simp)
    obtain ⟨hx, hX⟩ := At.cons_iff.1 hX
    simp only [List.length_cons] at hl hlen
    unfold removeIfLoop
    rw [dif_pos (by omega), rd_of hx, R.ok_bind]
    by_cases h : p x = true
    · rw [if_pos h, List.filter_cons_of_neg (by simp [h])]
      exact ih m (first+1) next last hX (by omega) (by omega)
    · rw [if_neg h, List.filter_cons_of_pos (by simp [h])]
      obtain ⟨m1, h1, u1, g1⟩ := mvTo_upd hx (by omega : next < m.length)
      obtain ⟨m2, h2, g2, u2⟩ := ih m1 (first+1) (next+1) last (hX.upd u1 (fun j _ _ => by omega)) (by omega) (by omega)
      refine ⟨m2, ?_, ?_, (u1.trans u2).mono (fun j => by unfold Seg; omega)⟩
      · rw [h1, R.ok_bind, h2, List.length_cons]; congr 2; omega
      · rw [At.cons_iff]; refine ⟨?_, g2⟩
        rw [u2.out _ (by unfold Seg; omega)]; exact g1

theorem removeIf_spec (p : α → Bool) (X : List α) (m : Mem α) (first last : Nat) (hX : At m first X)
    (hl : last = first + X.length) :
    ∃ m', removeIf p m first last = .ok (m', first + (X.filter (fun x => !p x)).length) ∧
      At m' first (X.filter (fun x => !p x)) ∧ Upd m m' (Seg first last) := by
  unfold removeIf
  rw [findIf_spec p X m first last hX hl, R.ok_bind]
  obtain ⟨T, hT⟩ : ∃ T, T = X.takeWhile (fun x => !p x) := ⟨_, rfl⟩
  obtain ⟨D, hD⟩ : ∃ D, D = X.dropWhile (fun x => !p x) := ⟨_, rfl⟩
  have hXe : X = T ++ D := by rw [hT, hD, List.takeWhile_append_dropWhile]
  have hTf : T.filter (fun x => !p x) = T := by
    rw [List.filter_eq_self]; intro a ha; rw [hT] at ha
    exact List.all_eq_true.1 (List.all_takeWhile (p := fun x => !p x) (l := X)) a ha
  rw [← hT]
  rw [hXe] at hX hl ⊢
  rw [List.filter_append, hTf]
  obtain ⟨pT, pD⟩ := At.append_iff.1 hX
  simp only [List.length_append] at hl ⊢
  match D, hD with
  | [], _ =>
    simp at hl
    rw [if_neg (by omega)]
    exact ⟨m, by simp; rfl, by simpa using pT, Upd.refl _ _⟩
  | d :: D, hD =>
    simp only [List.length_cons] at hl
    rw [if_pos (by omega)]
    have hpd : p d = true := by
      have := List.head?_dropWhile_not (p := fun x => !p x) X
      rw [← hD] at this
      simpa using this
    obtain ⟨_, pD⟩ := At.cons_iff.1 pD
    obtain ⟨m1, h1, g1, u1⟩ := removeIfLoop_spec p D m (first + T.length + 1) (first + T.length) last pD (by omega) (by omega)
    refine ⟨m1, ?_, ?_, u1.mono (fun j => by unfold Seg; omega)⟩
    · rw [h1]; simp [hpd]; omega
    · rw [At.append_iff]
      refine ⟨pT.upd u1 (fun j _ _ => by unfold Seg; omega), ?_⟩
      rw [List.filter_cons_of_neg (by simp [hpd])]
      exact g1

/-- the list `unique` keeps, comparing with the last kept element -/
def uniqFrom (eq : α → α → Bool) : α → List α → List α
  | _, [] => []
  | b, y :: l => if eq b y then uniqFrom eq b l else y :: uniqFrom eq y l

theorem uniqueCopy_spec (eq : α → α → Bool) (X : List α) : ∀ (m : Mem α) (b first last : Nat) (x : α), m[b]? = some (some x) →
    At m first X → last = first + X.length → b + 1 < first →
    ∃ m', uniqueCopy eq m b first last = .ok (m', b + 1 + (uniqFrom eq x X).length) ∧
      At m' b (x :: uniqFrom eq x X) ∧ Upd m m' (Seg (b + 1) last) := by
  induction X with
  | nil =>
    intro m b first last x hb _ hl _
    simp at hl; subst hl; unfold uniqueCopy
    exact ⟨m, by simp [uniqFrom]; rfl, At.cons_iff.2 ⟨hb, At.nil _ _⟩, Upd.refl _ _⟩
  | cons y X ih =>
    intro m b first last x hb hX hl hlt
    have hlen := hX.le_length (by simp)
    obtain ⟨hy, hX⟩ := At.cons_iff.1 hX
    simp only [List.length_cons] at hl hlen
    unfold uniqueCopy
    rw [dif_pos (by omega), rd_of hb, R.ok_bind, rd_of hy, R.ok_bind]
    unfold uniqFrom
    by_cases h : eq x y = true
    · rw [if_pos h, if_pos h]
      exact ih m b (first+1) last x hb hX (by omega) (by omega)
    · rw [if_neg h, if_neg h]
      obtain ⟨m1, h1, u1, g1⟩ := mvTo_upd hy (by omega : b + 1 < m.length)
      obtain ⟨m2, h2, g2, u2⟩ := ih m1 (b+1) (first+1) last y g1 (hX.upd u1 (fun j _ _ => by omega)) (by omega) (by omega)
      refine ⟨m2, ?_, ?_, (u1.trans u2).mono (fun j => by unfold Seg; omega)⟩
      · rw [h1, R.ok_bind, h2, List.length_cons]; congr 2; omega
      · rw [At.cons_iff]; refine ⟨?_, g2⟩
        rw [u2.out _ (by unfold Seg; omega), u1.out _ (by omega)]; exact hb

theorem uniqueFind_spec (eq : α → α → Bool) (X : List α) : ∀ (m : Mem α) (b last : Nat) (x : α), m[b]? = some (some x) →
    At m (b+1) X → last = b + 1 + X.length →
    ∃ m', uniqueFind eq m b (b+1) last = .ok (m', b + 1 + (uniqFrom eq x X).length) ∧
      At m' b (x :: uniqFrom eq x X) ∧ Upd m m' (Seg (b + 1) last) := by
  induction X with
  | nil =>
    intro m b last x hb _ hl
    simp at hl; subst hl; unfold uniqueFind
    exact ⟨m, by simp [uniqFrom]; rfl, At.cons_iff.2 ⟨hb, At.nil _ _⟩, Upd.refl _ _⟩
  | cons y X ih =>
    intro m b last x hb hX hl
    obtain ⟨hy, hX⟩ := At.cons_iff.1 hX
    simp only [List.length_cons] at hl
    unfold uniqueFind
    rw [dif_pos (by omega), rd_of hb, R.ok_bind, rd_of hy, R.ok_bind]
    unfold uniqFrom
    by_cases h : eq x y = true
    · rw [if_pos h, if_pos h]
      exact uniqueCopy_spec eq X m b (b+1+1) last x hb hX (by omega) (by omega)
    · rw [if_neg h, if_neg h]
      obtain ⟨m2, h2, g2, u2⟩ := ih m (b+1) last y hy hX (by omega)
      refine ⟨m2, ?_, ?_, u2.mono (fun j => by unfold Seg; omega)⟩
      · rw [h2, List.length_cons]; congr 2; omega
      · rw [At.cons_iff]; refine ⟨?_, g2⟩
        rw [u2.out _ (by unfold Seg; omega)]; exact hb

theorem shiftRightProbe_spec (m : Mem α) (first result last trail lead : Nat) (X : List α) (hX : At m first X)
    (hl : last = first + X.length) (h1 : first ≤ trail) (h2 : trail ≤ result) (h3 : lead = trail + (result - first))
    (h4 : lead ≤ last) :
    ∃ r, shiftRightProbe m first result last trail lead = .ok r ∧
      ((r = none ∧ result + (result - first) ≤ last) ∨
       (last < result + (result - first) ∧ ∃ m', r = some m' ∧ At m' result (X.take (last - result)) ∧ Upd m m' (Seg first last))) := by
  fun_induction shiftRightProbe m first result last trail lead with
  | case1 trail h =>
    have hlast : first + X.length ≤ m.length ∨ X = [] := by
      by_cases hX0 : X = []
      · exact Or.inr hX0
      · exact Or.inl (hX.le_length hX0)
    rcases hlast with hlast | h0
    · have htk : (X.take (last - result)).length = last - result := by simp; omega
      have hX' : At m first (X.take (last - result)) := by
        have := hX
        rw [← List.take_append_drop (last - result) X] at this
        exact (At.append_iff.1 this).1
      obtain ⟨m1, e1, a1, u1⟩ := moveFwd_spec m first trail result (X.take (last - result)) hX' (by omega) (by omega) (by omega)
      refine ⟨some m1, by rw [e1]; rfl, Or.inr ⟨by omega, m1, rfl, a1, u1.mono (fun j => by unfold Seg; omega)⟩⟩
    · subst h0; simp at hl; omega
  | case2 trail lead h hne ih =>
    exact ih (by omega) (by omega) (by omega) (by omega)
  | case3 trail lead h =>
    exact ⟨none, rfl, Or.inl ⟨rfl, by omega⟩⟩

theorem shiftRightSwap_spec (m : Mem α) (first result last mid trail lead : Nat) (C D E : List α)
    (hC : At m mid C) (hD : At m first D) (hE : At m trail E)
    (hmid : mid = first + D.length) (hres : result = mid + C.length) (hCne : C ≠ [])
    (htr : result ≤ trail) (hlead : lead = trail + (result - first)) (hlast : last = trail + E.length) (hll : lead ≤ last) :
    ∃ m', shiftRightSwap m first result last mid trail lead = .ok m' ∧
      At m' trail ((C ++ D ++ E).take E.length) ∧ Upd m m' (fun j => Seg first result j ∨ Seg trail last j) := by
  induction E generalizing m mid trail lead C D with
  | nil =>
    simp at hlast
    have := List.length_pos_iff.2 hCne
    omega
  | cons e E ih =>
    simp only [List.length_cons] at hlast
    have hCl := List.length_pos_iff.2 hCne
    have hml := hE.le_length (by simp)
    simp only [List.length_cons] at hml
    unfold shiftRightSwap
    by_cases h : lead < last
    · rw [dif_pos h]
      obtain ⟨he, hE⟩ := At.cons_iff.1 hE
      match C, hCne with
      | c :: C, _ =>
        obtain ⟨hc, hC⟩ := At.cons_iff.1 hC
        simp only [List.length_cons] at hres hCl
        obtain ⟨m1, e1, u1, g1, g2⟩ := swp_upd hc he
        have hC' := hC.upd u1 (fun j _ _ => by omega)
        have hD' := hD.upd u1 (fun j _ _ => by omega)
        have hE' := hE.upd u1 (fun j _ _ => by omega)
        have hDe : At m1 first (D ++ [e]) := by rw [At.snoc_iff, ← hmid]; exact ⟨hD', g1⟩
        rw [e1, R.ok_bind]
        by_cases hw : mid + 1 = result
        · have : C = [] := List.length_eq_zero_iff.1 (by omega)
          subst this
          rw [if_pos hw]
          obtain ⟨m2, e2, a2, u2⟩ := ih m1 first (trail+1) (lead+1) (D ++ [e]) [] hDe (At.nil _ _) hE' (by simp) (by simp; omega) (by simp)
            (by omega) (by omega) (by omega) (by omega)
          refine ⟨m2, e2, ?_, (u1.trans u2).mono (fun j => by unfold Seg; omega)⟩
          have : (List.take (e :: E).length ([c] ++ D ++ e :: E)) = c :: (D ++ [e] ++ [] ++ E).take E.length := by simp
          rw [this, At.cons_iff]
          refine ⟨?_, a2⟩
          rw [u2.out _ (by unfold Seg; omega)]; exact g2
        · rw [if_neg hw]
          obtain ⟨m2, e2, a2, u2⟩ := ih m1 (mid+1) (trail+1) (lead+1) C (D ++ [e]) hC' hDe hE' (by simp; omega) (by omega)
            (by rintro rfl; simp at hres; omega) (by omega) (by omega) (by omega) (by omega)
          refine ⟨m2, e2, ?_, (u1.trans u2).mono (fun j => by unfold Seg; omega)⟩
          have : (List.take (e :: E).length (c :: C ++ D ++ e :: E)) = c :: (C ++ (D ++ [e]) ++ E).take E.length := by simp
          rw [this, At.cons_iff]
          refine ⟨?_, a2⟩
          rw [u2.out _ (by unfold Seg; omega)]; exact g2
    · rw [dif_neg h]
      have hEl : E.length + 1 = C.length + D.length := by omega
      obtain ⟨m1, e1, a1, u1⟩ := moveFwd_spec m mid result trail C hC (by omega) (by omega) (by omega)
      obtain ⟨m2, e2, a2, u2⟩ := moveFwd_spec m1 first mid (trail + C.length) D (hD.upd u1 (fun j _ _ => by unfold Seg; omega)) (by omega) (by omega)
        (by rw [u1.len]; omega)
      refine ⟨m2, by simp only [e1, R.ok_bind, e2]; rfl, ?_, (u1.trans u2).mono (fun j => by unfold Seg; omega)⟩
      have : List.take (e :: E).length (C ++ D ++ e :: E) = C ++ D := by
        rw [List.take_append_of_le_length (by simp; omega), List.take_of_length_le (by simp; omega)]
      rw [this, At.append_iff]
      exact ⟨a1.upd u2 (fun j _ _ => by unfold Seg; omega), a2⟩

/-! partition -/

theorem partSkipBack_spec (p : α → Bool) (n : Nat) : ∀ (m : Mem α) (first last : Nat) (x : α) (X : List α), X.length = n →
    At m first (x :: X) → last = first + 1 + X.length →
    ((∀ a ∈ X, p a = false) ∧ partSkipBack p m first last = .ok none) ∨
    (∃ Y b Z, X = Y ++ b :: Z ∧ p b = true ∧ (∀ a ∈ Z, p a = false) ∧
      partSkipBack p m first last = .ok (some (first + 1 + Y.length))) := by
  induction n with
  | zero =>
    intro m first last x X hn hX hl
    have := List.length_eq_zero_iff.1 hn
    subst this
    left
    unfold partSkipBack
    refine ⟨by simp, ?_⟩
    simp at hl
    rw [dif_neg (by omega)]; rfl
  | succ n ih =>
    intro m first last x X hn hX hl
    obtain h | ⟨Y, c, rfl⟩ := snoc_cases X
    · subst h; simp at hn
    · simp only [List.length_append, List.length_cons, List.length_nil] at hn hl
      rw [← List.cons_append] at hX
      obtain ⟨hY, hc⟩ := At.snoc_iff.1 hX
      have e : first + (x :: Y).length = last - 1 := by simp; omega
      rw [e] at hc
      unfold partSkipBack
      rw [dif_pos (by omega), rd_of hc, R.ok_bind]
      by_cases h : p c = true
      · right
        refine ⟨Y, c, [], rfl, h, by simp, ?_⟩
        rw [if_pos h]
        have : last - 1 = first + 1 + Y.length := by omega
        rw [this]; rfl
      · rw [if_neg h]
        rcases ih m first (last - 1) x Y (by omega) hY (by omega) with ⟨h1, h2⟩ | ⟨Y', b, Z, rfl, h1, h2, h3⟩
        · left
          refine ⟨?_, h2⟩
          intro a ha
          simp at ha
          rcases ha with ha | rfl
          · exact h1 a ha
          · simpa using h
        · right
          refine ⟨Y', b, Z ++ [c], by simp, h1, ?_, h3⟩
          intro a ha
          simp at ha
          rcases ha with ha | rfl
          · exact h2 a ha
          · simpa using h

/-- postcondition of `partition`: permuted, trues first, returned position is the split. -/
def PartPost (p : α → Bool) (m : Mem α) (first : Nat) (X : List α) (r : R (Mem α × Nat)) : Prop :=
  ∃ m' T F, r = .ok (m', first + T.length) ∧ At m' first (T ++ F) ∧ (T ++ F).Perm X ∧ (∀ a ∈ T, p a = true) ∧
    (∀ a ∈ F, p a = false) ∧ Upd m m' (Seg first (first + X.length))

theorem takeWhile_split (p : α → Bool) (X : List α) :
    (∀ a ∈ X, p a = true) ∧ X.takeWhile p = X ∨
    ∃ T d D, X = T ++ d :: D ∧ (∀ a ∈ T, p a = true) ∧ p d = false ∧ X.takeWhile p = T := by
  induction X with
  | nil => left; simp
  | cons x X ih =>
    by_cases h : p x = true
    · rcases ih with ⟨h1, h2⟩ | ⟨T, d, D, h1, h2, h3, h4⟩
      · left; refine ⟨by simpa [h] using h1, by simp [h, h2]⟩
      · right; exact ⟨x :: T, d, D, by simp [h1], by simpa [h] using h2, h3, by simp [h, h4]⟩
    · right; exact ⟨[], x, X, rfl, by simp, by simpa using h, by simp [h]⟩

theorem partitionBidi_spec (p : α → Bool) (fuel : Nat) : ∀ (m : Mem α) (first last : Nat) (X : List α), At m first X →
    last = first + X.length → X.length < fuel → PartPost p m first X (partitionBidi p fuel m first last) := by
  induction fuel with
  | zero => intro _ _ _ _ _ _ h; omega
  | succ fuel ih =>
    intro m first last X hX hl hf
    unfold partitionBidi
    rw [partSkip_spec p X m first last hX hl, R.ok_bind]
    rcases takeWhile_split p X with ⟨h1, h2⟩ | ⟨T, d, D, rfl, h2, h3, h4⟩
    · rw [h2]
      simp only [hl, if_true]
      exact ⟨m, X, [], by simp; rfl, by simpa using hX, by simp, h1, by simp, Upd.refl _ _⟩
    · rw [h4]
      simp only [List.length_append, List.length_cons] at hl hf
      rw [if_neg (by omega)]
      obtain ⟨hT, hD⟩ := At.append_iff.1 hX
      rcases partSkipBack_spec p _ m (first + T.length) last d D rfl hD (by omega) with ⟨k1, k2⟩ | ⟨Y, b, Z, rfl, k1, k2, k3⟩
      · rw [k2]
        exact ⟨m, T, d :: D, rfl, hX, .refl _, h2, by simpa [h3] using k1, Upd.refl _ _⟩
      · rw [k3]
        simp only [R.ok_bind]
        simp only [List.length_append, List.length_cons] at hl hf
        obtain ⟨hd, hD⟩ := At.cons_iff.1 hD
        obtain ⟨hY, hb⟩ := At.append_iff.1 hD
        obtain ⟨hb, hZ⟩ := At.cons_iff.1 hb
        obtain ⟨m1, e1, u1, g1, g2⟩ := swp_upd hd hb
        rw [e1, R.ok_bind]
        obtain ⟨m2, T2, F2, e2, a2, q1, q2, q3, u2⟩ := ih m1 (first + T.length + 1) (first + T.length + 1 + Y.length) Y
          (hY.upd u1 (fun j _ _ => by omega)) rfl (by omega)
        have hl2 : T2.length + F2.length = Y.length := by have := q1.length_eq; simpa using this
        refine ⟨m2, T ++ b :: T2, F2 ++ d :: Z, ?_, ?_, ?_, ?_, ?_, (u1.trans u2).mono (fun j => by simp; unfold Seg; omega)⟩
        · rw [e2]; congr 2; simp; omega
        · have : T ++ b :: T2 ++ (F2 ++ d :: Z) = T ++ b :: ((T2 ++ F2) ++ d :: Z) := by simp
          rw [this, At.append_iff, At.cons_iff, At.append_iff, At.cons_iff]
          refine ⟨(hT.upd u1 (fun j _ _ => by omega)).upd u2 (fun j _ _ => by unfold Seg; omega), ?_, a2, ?_, ?_⟩
          · rw [u2.out _ (by unfold Seg; omega)]; exact g1
          · rw [u2.out _ (by simp; omega)]
            convert g2 using 2; simp; omega
          · have := (hZ.upd u1 (fun j _ _ => by omega)).upd u2 (fun j _ _ => by unfold Seg; omega)
            convert this using 1; simp; omega
        · have h1 : (T ++ b :: T2 ++ (F2 ++ d :: Z)).Perm (T ++ b :: (Y ++ d :: Z)) := by
            rw [List.append_assoc, List.cons_append]
            refine List.Perm.append_left _ (List.Perm.cons _ ?_)
            rw [← List.append_assoc]; exact q1.append_right _
          refine h1.trans ?_
          refine List.Perm.append_left _ ?_
          have : (b :: (Y ++ d :: Z)).Perm (b :: d :: (Y ++ Z)) := List.Perm.cons _ List.perm_middle
          refine this.trans ((List.Perm.swap _ _ _).trans ?_)
          exact List.Perm.cons _ List.perm_middle.symm
        · intro a ha; simp at ha; rcases ha with ha | rfl | ha
          · exact h2 a ha
          · exact k1
          · exact q2 a ha
        · intro a ha; simp at ha; rcases ha with ha | rfl | ha
          · exact q3 a ha
          · exact h3
          · exact k2 a ha

theorem partitionFwdLoop_spec (p : α → Bool) (X : List α) : ∀ (m : Mem α) (first next last : Nat) (F : List α), F ≠ [] →
    (∀ a ∈ F, p a = false) → At m first (F ++ X) → next = first + F.length → last = next + X.length →
    PartPost p m first (F ++ X) (partitionFwdLoop p m first next last) := by
  induction X with
  | nil =>
    intro m first next last F hne hF hat hn hl
    simp at hl; subst hl
    unfold partitionFwdLoop
    refine ⟨m, [], F, by simp; rfl, by simpa using hat, by simp, by simp, hF, Upd.refl _ _⟩
  | cons x X ih =>
    intro m first next last F hne hF hat hn hl
    simp only [List.length_cons] at hl
    obtain ⟨h1, h2⟩ := At.append_iff.1 hat
    obtain ⟨hx, h2⟩ := At.cons_iff.1 h2
    rw [← hn] at hx
    unfold partitionFwdLoop
    rw [dif_pos (by omega), rd_of hx, R.ok_bind]
    by_cases h : p x = true
    · rw [if_pos h]
      match F, hne with
      | f :: F, _ =>
        simp only [List.length_cons] at hn
        obtain ⟨hf, h1⟩ := At.cons_iff.1 h1
        obtain ⟨m1, e1, u1, g1, g2⟩ := swp_upd hf hx
        rw [e1, R.ok_bind]
        obtain ⟨m2, T2, F2, e2, a2, q1, q2, q3, u2⟩ := ih m1 (first + 1) (next + 1) last (F ++ [f]) (by simp) (by
            intro a ha; apply hF; simp at ha ⊢; exact ha.symm)
          (by
            rw [At.append_iff, At.snoc_iff]
            refine ⟨⟨h1.upd u1 (fun j _ _ => by omega), ?_⟩, ?_⟩
            · convert g2 using 2; omega
            · have := h2.upd u1 (fun j _ _ => by simp at *; omega)
              convert this using 1; simp; omega) (by simp; omega) (by omega)
        refine ⟨m2, x :: T2, F2, by rw [e2, List.length_cons]; congr 2; omega, ?_, ?_, by simpa [h] using q2, q3,
          (u1.trans u2).mono (fun j => by simp at *; omega)⟩
        · rw [List.cons_append, At.cons_iff]
          refine ⟨?_, a2⟩
          rw [u2.out _ (by unfold Seg; omega)]; exact g1
        · rw [List.cons_append]
          refine (List.Perm.cons x q1).trans ?_
          have : (x :: (F ++ [f] ++ X)).Perm (x :: f :: (F ++ X)) := List.Perm.cons _ (by
            rw [List.append_assoc]; exact List.perm_middle)
          refine this.trans ((List.Perm.swap _ _ _).trans ?_)
          exact List.Perm.cons _ List.perm_middle.symm
    · rw [if_neg h]
      have e : F ++ x :: X = (F ++ [x]) ++ X := by simp
      rw [e] at hat ⊢
      exact ih m first (next+1) last (F ++ [x]) (by simp) (by
        intro a ha; simp at ha; rcases ha with ha | rfl
        · exact hF a ha
        · simpa using h) hat (by simp; omega) (by omega)

theorem partitionFwd_spec (p : α → Bool) (m : Mem α) (first last : Nat) (X : List α) (hX : At m first X)
    (hl : last = first + X.length) : PartPost p m first X (partitionFwd p m first last) := by
  unfold partitionFwd
  rw [partSkip_spec p X m first last hX hl, R.ok_bind]
  rcases takeWhile_split p X with ⟨h1, h2⟩ | ⟨T, d, D, rfl, h2, h3, h4⟩
  · rw [h2]
    simp only [hl, if_true]
    exact ⟨m, X, [], by simp; rfl, by simpa using hX, by simp, h1, by simp, Upd.refl _ _⟩
  · rw [h4]
    simp only [List.length_append, List.length_cons] at hl
    rw [if_neg (by omega)]
    obtain ⟨hT, hD⟩ := At.append_iff.1 hX
    obtain ⟨m2, T2, F2, e2, a2, q1, q2, q3, u2⟩ := partitionFwdLoop_spec p D m (first + T.length) (first + T.length + 1) last [d] (by simp) (by simpa using h3)
      (by simpa using hD) (by simp) (by omega)
    refine ⟨m2, T ++ T2, F2, by rw [e2, List.length_append]; congr 2; omega, ?_, ?_, ?_, q3, u2.mono (fun j => by simp; unfold Seg; omega)⟩
    · rw [List.append_assoc, At.append_iff]
      exact ⟨hT.upd u2 (fun j _ _ => by unfold Seg; omega), a2⟩
    · rw [List.append_assoc]; exact q1.append_left _
    · intro a ha; simp at ha; rcases ha with ha | ha
      · exact h2 a ha
      · exact q2 a ha

/-! stable_partition -/

theorem spBufLoop_spec (p : α → Bool) (Y : List α) : ∀ (m : Mem α) (first last next bl : Nat), At m first Y →
    last = first + Y.length → next < first → last ≤ bl → bl + Y.length ≤ m.length →
    ∃ m', spBufLoop p m first last next bl =
        .ok (m', next + (Y.filter p).length, bl + (Y.filter (fun x => !p x)).length) ∧
      At m' next (Y.filter p) ∧ At m' bl (Y.filter (fun x => !p x)) ∧
      Upd m m' (fun j => Seg next last j ∨ Seg bl (bl + (Y.filter (fun x => !p x)).length) j) := by
  induction Y with
  | nil =>
    intro m first last next bl _ hl _ _ _
    simp at hl; subst hl; unfold spBufLoop
    exact ⟨m, by simp; rfl, At.nil _ _, At.nil _ _, Upd.refl _ _⟩
  | cons y Y ih =>
    intro m first last next bl hY hl hn hb hlen
    obtain ⟨hy, hY⟩ := At.cons_iff.1 hY
    simp only [List.length_cons] at hl hlen
    have hfl := filter_len p Y
    unfold spBufLoop
    rw [dif_pos (by omega), rd_of hy, R.ok_bind]
    by_cases h : p y = true
    · rw [if_pos h, List.filter_cons_of_pos h, List.filter_cons_of_neg (by simp [h])]
      obtain ⟨m1, h1, u1, g1⟩ := mvTo_upd hy (by omega : next < m.length)
      obtain ⟨m2, h2, a2, b2, u2⟩ := ih m1 (first+1) last (next+1) bl (hY.upd u1 (fun j _ _ => by omega)) (by omega) (by omega) hb (by rw [u1.len]; omega)
      refine ⟨m2, ?_, ?_, b2, (u1.trans u2).mono (fun j => by unfold Seg; omega)⟩
      · rw [h1, R.ok_bind, h2, List.length_cons, show next + 1 + (Y.filter p).length = next + ((Y.filter p).length + 1) by omega]
      · rw [At.cons_iff]; refine ⟨?_, a2⟩
        rw [u2.out _ (by unfold Seg; omega)]; exact g1
    · rw [if_neg h, List.filter_cons_of_neg h, List.filter_cons_of_pos (by simp [h])]
      obtain ⟨m1, h1, u1, g1⟩ := mvTo_upd hy (by omega : bl < m.length)
      obtain ⟨m2, h2, a2, b2, u2⟩ := ih m1 (first+1) last next (bl+1) (hY.upd u1 (fun j _ _ => by omega)) (by omega) (by omega) (by omega) (by rw [u1.len]; omega)
      refine ⟨m2, ?_, a2, ?_, (u1.trans u2).mono (fun j => by simp only [List.length_cons]; unfold Seg; omega)⟩
      · rw [h1, R.ok_bind, h2, List.length_cons]; congr 3; omega
      · rw [At.cons_iff]; refine ⟨?_, b2⟩
        rw [u2.out _ (by unfold Seg; omega)]; exact g1

theorem spLeft_spec (p : α → Bool) (n : Nat) : ∀ (m : Mem α) (first left : Nat) (a : α) (L : List α), L.length = n → At m first (a :: L) →
    left = first + 1 + L.length →
    ((∀ x ∈ L, p x = false) ∧ spLeft p m first left (L.length + 1) = .ok (first, 0, false)) ∨
    (∃ Y b F, L = Y ++ b :: F ∧ p b = true ∧ (∀ x ∈ F, p x = false) ∧
      spLeft p m first left (L.length + 1) = .ok (first + 1 + Y.length, Y.length + 2, true)) := by
  induction n with
  | zero =>
    intro m first left a L hn hat hl
    have := List.length_eq_zero_iff.1 hn
    subst this
    left
    refine ⟨by simp, ?_⟩
    unfold spLeft
    simp at hl
    rw [dif_pos (by omega), if_pos (by omega)]
    subst hl; simp; rfl
  | succ n ih =>
    intro m first left a L hn hat hl
    obtain h | ⟨Y, c, rfl⟩ := snoc_cases L
    · subst h; simp at hn
    · simp only [List.length_append, List.length_cons, List.length_nil] at hn hl
      rw [← List.cons_append] at hat
      obtain ⟨hY, hc⟩ := At.snoc_iff.1 hat
      have e : first + (a :: Y).length = left - 1 := by simp; omega
      rw [e] at hc
      unfold spLeft
      rw [dif_pos (by omega), if_neg (by omega), rd_of hc, R.ok_bind]
      by_cases h : p c = true
      · right
        refine ⟨Y, c, [], rfl, h, by simp, ?_⟩
        rw [if_pos h]
        have : left - 1 = first + 1 + Y.length := by omega
        rw [this]; simp; rfl
      · rw [if_neg h]
        simp only [List.length_append, List.length_cons, List.length_nil, Nat.add_sub_cancel, Nat.zero_add]
        rcases ih m first (left - 1) a Y (by omega) hY (by omega) with ⟨h1, h2⟩ | ⟨Y', b, Z, rfl, h1, h2, h3⟩
        · left
          refine ⟨?_, h2⟩
          intro a ha
          simp at ha
          rcases ha with ha | rfl
          · exact h1 a ha
          · simpa using h
        · right
          refine ⟨Y', b, Z ++ [c], by simp, h1, ?_, h3⟩
          intro a ha
          simp at ha
          rcases ha with ha | rfl
          · exact h2 a ha
          · simpa using h

theorem spRight_spec (p : α → Bool) (Q : List α) : ∀ (m : Mem α) (right last cnt : Nat) (b : α), At m right (Q ++ [b]) →
    last = right + Q.length →
    ((∀ x ∈ Q, p x = true) ∧ spRight p m right last cnt = .ok (last + 1, cnt + Q.length + 1, false)) ∨
    (∃ T d D, Q = T ++ d :: D ∧ p d = false ∧ (∀ x ∈ T, p x = true) ∧
      spRight p m right last cnt = .ok (right + T.length, cnt + T.length, true)) := by
  induction Q with
  | nil =>
    intro m right last cnt b _ hl
    left
    refine ⟨by simp, ?_⟩
    unfold spRight
    simp at hl
    rw [dif_neg (by omega), hl]; rfl
  | cons x Q ih =>
    intro m right last cnt b hat hl
    rw [List.cons_append] at hat
    obtain ⟨hx, hat⟩ := At.cons_iff.1 hat
    simp only [List.length_cons] at hl
    unfold spRight
    rw [dif_pos (by omega), rd_of hx, R.ok_bind]
    by_cases h : p x = true
    · rw [if_neg (by simp [h])]
      rcases ih m (right+1) last (cnt+1) b hat (by omega) with ⟨h1, h2⟩ | ⟨T, d, D, rfl, h1, h2, h3⟩
      · left; refine ⟨by simpa [h] using h1, ?_⟩
        rw [h2, List.length_cons]; congr 3; omega
      · right; refine ⟨x :: T, d, D, rfl, h1, by simpa [h] using h2, ?_⟩
        rw [h3, List.length_cons]; congr 2
        · omega
        · congr 1; omega
    · right
      refine ⟨[], x, Q, rfl, by simpa using h, by simp, ?_⟩
      rw [if_pos (by simp [h])]; rfl

theorem filter_all {p : α → Bool} {X : List α} (h : ∀ a ∈ X, p a = true) : X.filter p = X ∧ X.filter (fun x => !p x) = [] := by
  constructor
  · simpa using h
  · simpa using h

theorem filter_none {p : α → Bool} {X : List α} (h : ∀ a ∈ X, p a = false) : X.filter p = [] ∧ X.filter (fun x => !p x) = X := by
  constructor
  · simpa using h
  · simpa using h

theorem stablePartition1_spec (p : α → Bool) (tmp cap : Nat) (fuel : Nat) : ∀ (m : Mem α) (first last : Nat) (a b : α) (M : List α),
    At m first (a :: M ++ [b]) → p a = false → p b = true → last = first + 1 + M.length → last < tmp → tmp + cap ≤ m.length →
    M.length + 2 ≤ fuel →
    ∃ m' T F, T = (a :: M ++ [b]).filter p ∧ F = (a :: M ++ [b]).filter (fun x => !p x) ∧
      stablePartition1 p fuel m first last (M.length + 2) tmp cap = .ok (m', first + T.length, T.length) ∧
      At m' first (T ++ F) ∧ Upd m m' (fun j => Seg first (last + 1) j ∨ Seg tmp (tmp + cap) j) := by
  induction fuel with
  | zero => intro _ _ _ _ _ _ _ _ _ _ _ _ h; omega
  | succ fuel ih =>
    intro m first last a b M hat ha hb hl ht hc hf
    unfold stablePartition1
    have hmlen := hat.le_length (by simp)
    by_cases hcap : M.length + 2 - 1 ≤ cap
    · rw [if_pos hcap]
      rw [List.cons_append] at hat ⊢
      obtain ⟨pa, hat⟩ := At.cons_iff.1 hat
      obtain ⟨pM, pb⟩ := At.snoc_iff.1 hat
      obtain ⟨m1, e1, u1, g1⟩ := mvTo_upd pa (by omega : tmp < m.length)
      have hfl := List.length_filter_le (fun x => !p x) M
      have hfl' := List.length_filter_le p M
      have htot : (M.filter p).length + (M.filter (fun x => !p x)).length = M.length := by
        exact filter_len p M
      obtain ⟨m2, e2, a2, b2, u2⟩ := spBufLoop_spec p M m1 (first+1) last first (tmp+1) (pM.upd u1 (fun j _ _ => by omega)) (by omega) (by omega) (by omega)
        (by rw [u1.len]; omega)
      have pb2 : m2[last]? = some (some b) := by
        rw [u2.out _ (by unfold Seg; omega), u1.out _ (by omega)]
        rw [hl]; exact pb
      obtain ⟨m3, e3, u3, g3⟩ := mvTo_upd pb2 (by rw [u2.len, u1.len]; omega : first + (M.filter p).length < m2.length)
      have hF : At m3 tmp (a :: M.filter (fun x => !p x)) := by
        rw [At.cons_iff]
        refine ⟨?_, b2.upd u3 (fun j _ _ => by omega)⟩
        rw [u3.out _ (by omega), u2.out _ (by unfold Seg; omega)]; exact g1
      obtain ⟨m4, e4, a4, u4⟩ := moveFwd_spec m3 tmp (tmp + 1 + (M.filter (fun x => !p x)).length) (first + (M.filter p).length + 1) _ hF (by simp; omega) (by simp; omega)
        (by rw [u3.len, u2.len, u1.len]; simp at *; omega)
      simp only [List.length_cons] at u4 e4
      refine ⟨m4, M.filter p ++ [b], a :: M.filter (fun x => !p x), by simp [ha, hb], by simp [ha, hb], ?_, ?_, ?_⟩
      · simp only [e1, R.ok_bind, e2, e3, e4, List.length_append, List.length_cons, List.length_nil]
        congr 3
        omega
      · rw [At.append_iff, At.snoc_iff]
        refine ⟨⟨?_, ?_⟩, ?_⟩
        · exact (a2.upd u3 (fun j _ _ => by omega)).upd u4 (fun j _ _ => by unfold Seg; omega)
        · rw [u4.out _ (by unfold Seg; omega)]; exact g3
        · convert a4 using 1; simp; omega
      · exact (((u1.trans u2).trans u3).trans u4).mono (fun j => by unfold Seg; omega)
    · rw [if_neg hcap]
      -- split X = (a :: L) ++ (Q ++ [b])
      obtain ⟨L, Q, hM, hLl⟩ : ∃ L Q, M = L ++ Q ∧ L.length + 1 = (M.length + 2) / 2 :=
        ⟨M.take ((M.length + 2)/2 - 1), M.drop ((M.length + 2)/2 - 1), (List.take_append_drop _ _).symm, by simp; omega⟩
      have hMl : M.length = L.length + Q.length := by rw [hM]; simp
      simp only [← hLl]
      have hX : a :: M ++ [b] = (a :: L) ++ (Q ++ [b]) := by rw [hM]; simp
      rw [hX] at hat ⊢
      obtain ⟨pL, pQ⟩ := At.append_iff.1 hat
      simp only [List.length_cons] at pQ
      -- left half
      obtain ⟨m1, left, ltc, recL, k, lt0, hsL, hrec, hltc, hleft, aL, u1⟩ :
          ∃ m1 left ltc recL k lt0, spLeft p m first (first + (L.length + 1)) (L.length + 1) = .ok (k, lt0, recL) ∧
            (if recL then stablePartition1 p fuel m first k lt0 tmp cap else .ok (m, k, lt0) : R _) = .ok (m1, left, ltc) ∧
            ltc = ((a :: L).filter p).length ∧ left = first + ((a :: L).filter p).length ∧
            At m1 first ((a :: L).filter p ++ (a :: L).filter (fun x => !p x)) ∧
            Upd m m1 (fun j => Seg first (first + (L.length + 1)) j ∨ Seg tmp (tmp + cap) j) := by
        rcases spLeft_spec p _ m first (first + (L.length + 1)) a L rfl pL (by omega) with ⟨q1, q2⟩ | ⟨Y, c, F, hL, q1, q2, q3⟩
        · obtain ⟨f1, f2⟩ := filter_none (p := p) (X := a :: L) (by simpa [ha] using q1)
          refine ⟨m, first, 0, false, first, 0, q2, by simp, by rw [f1]; rfl, by rw [f1]; rfl, by rw [f1, f2]; exact pL, Upd.refl _ _⟩
        · have hLl2 : L.length = Y.length + 1 + F.length := by rw [hL]; simp; omega
          have hXL : a :: L = (a :: Y ++ [c]) ++ F := by rw [hL]; simp
          rw [hXL] at pL
          obtain ⟨pY, pF⟩ := At.append_iff.1 pL
          obtain ⟨m1, T, F', hT, hF', e1, a1, u1⟩ := ih m first (first + 1 + Y.length) a c Y pY ha q1 rfl (by omega) hc (by omega)
          obtain ⟨f1, f2⟩ := filter_none q2
          have htot : T.length + F'.length = Y.length + 2 := by
            rw [hT, hF', filter_len]; simp
          refine ⟨m1, first + T.length, T.length, true, first + 1 + Y.length, Y.length + 2, q3, by simpa using e1, ?_, ?_, ?_,
            u1.mono (fun j => by unfold Seg; omega)⟩
          · rw [hXL, List.filter_append, f1, ← hT]; simp
          · rw [hXL, List.filter_append, f1, ← hT]; simp
          · rw [hXL, List.filter_append (_ ++ _), List.filter_append (_ ++ _), f1, f2, ← hT, ← hF', List.append_nil, ← List.append_assoc, At.append_iff]
            refine ⟨a1, ?_⟩
            have := pF.upd u1 (fun j _ _ => by simp at *; omega)
            convert this using 1; simp; omega
      rw [hsL, R.ok_bind]; simp only; rw [hrec, R.ok_bind]; simp only
      have totL : ((a :: L).filter p).length + ((a :: L).filter (fun x => !p x)).length = L.length + 1 := by
        rw [filter_len]; rfl
      have totQ : ((Q ++ [b]).filter p).length + ((Q ++ [b]).filter (fun x => !p x)).length = Q.length + 1 := by
        rw [filter_len]; simp
      have pQ1 := pQ.upd u1 (fun j _ _ => by simp at *; omega)
      -- right half
      obtain ⟨m2, right, recR, k, rt0, hi, hsR, hrecR, hrtc, hright, aR, u2⟩ :
          ∃ m2 right recR k rt0 hi, spRight p m1 (first + (L.length + 1)) last 0 = .ok (k, rt0, recR) ∧
            (if recR then stablePartition1 p fuel m1 k last (M.length + 2 - (L.length + 1) - rt0) tmp cap else .ok (m1, k, 0) : R _)
              = .ok (m2, right, hi) ∧
            rt0 + hi = ((Q ++ [b]).filter p).length ∧ right = first + (L.length + 1) + ((Q ++ [b]).filter p).length ∧
            At m2 (first + (L.length + 1)) ((Q ++ [b]).filter p ++ (Q ++ [b]).filter (fun x => !p x)) ∧
            Upd m1 m2 (fun j => Seg (first + (L.length + 1)) (last + 1) j ∨ Seg tmp (tmp + cap) j) := by
        rcases spRight_spec p Q m1 (first + (L.length + 1)) last 0 b pQ1 (by omega) with ⟨q1, q2⟩ | ⟨T0, d, D, hQ, q1, q2, q3⟩
        · obtain ⟨f1, f2⟩ := filter_all (p := p) (X := Q ++ [b]) (by
            intro x hx; simp at hx; rcases hx with hx | rfl
            · exact q1 x hx
            · exact hb)
          refine ⟨m1, last + 1, false, last + 1, _, 0, q2, by simp, by rw [f1]; simp, by rw [f1]; simp; omega, by rw [f1, f2]; simpa using pQ1, Upd.refl _ _⟩
        · have hQl2 : Q.length = T0.length + 1 + D.length := by rw [hQ]; simp; omega
          have hXQ : Q ++ [b] = T0 ++ (d :: D ++ [b]) := by rw [hQ]; simp
          rw [hXQ] at pQ1
          obtain ⟨pT, pD⟩ := At.append_iff.1 pQ1
          obtain ⟨m2, T, F', hT, hF', e2, a2, u2⟩ := ih m1 (first + (L.length + 1) + T0.length) last d b D pD q1 hb (by omega) ht (by rw [u1.len]; exact hc) (by omega)
          obtain ⟨f1, f2⟩ := filter_all q2
          refine ⟨m2, first + (L.length + 1) + T0.length + T.length, true, _, _, T.length, q3, ?_, ?_, ?_, ?_,
            u2.mono (fun j => by unfold Seg; omega)⟩
          · rw [if_pos rfl]
            have : M.length + 2 - (L.length + 1) - (0 + T0.length) = D.length + 2 := by omega
            rw [this]; exact e2
          · rw [hXQ, List.filter_append, f1, ← hT]; simp
          · rw [hXQ, List.filter_append, f1, ← hT]; simp; omega
          · rw [hXQ, List.filter_append T0 _, List.filter_append T0 _, f1, f2, ← hT, ← hF', List.nil_append, List.append_assoc, At.append_iff]
            exact ⟨pT.upd u2 (fun j _ _ => by unfold Seg; omega), a2⟩
      rw [hsR, R.ok_bind]; simp only; rw [hrecR, R.ok_bind]; simp only
      obtain ⟨aL1, aL2⟩ := At.append_iff.1 aL
      obtain ⟨aR1, aR2⟩ := At.append_iff.1 aR
      have hmidAt : At m2 left ((a :: L).filter (fun x => !p x) ++ (Q ++ [b]).filter p) := by
        rw [At.append_iff]
        refine ⟨?_, ?_⟩
        · rw [hleft]; exact aL2.upd u2 (fun j _ _ => by unfold Seg; omega)
        · convert aR1 using 1; omega
      obtain ⟨m3, e3, a3, u3⟩ := bufferedRotate_spec m2 left (first + (L.length + 1)) right tmp cap _ _ hmidAt (by omega) (by omega) (by omega)
        (by rw [u2.len, u1.len]; exact hc)
      have e3' : bufferedRotate m2 left (first + (L.length + 1)) right (L.length + 1 - ltc) (rt0 + hi) tmp cap = .ok (m3, left + ((Q ++ [b]).filter p).length) := by
        rw [← e3]; congr 1; omega
      refine ⟨m3, _, _, rfl, rfl, ?_, ?_, ((u1.trans u2).trans u3).mono (fun j => by unfold Seg; omega)⟩
      · rw [e3', R.ok_bind]
        have : ((a :: L ++ (Q ++ [b])).filter p).length = ((a :: L).filter p).length + ((Q ++ [b]).filter p).length := by
          rw [List.filter_append (a :: L), List.length_append]
        rw [this, ← hrtc, hleft, ← hltc, Nat.add_assoc]; rfl
      · rw [List.filter_append (a :: L), List.filter_append (a :: L)]
        have e : (a :: L).filter p ++ (Q ++ [b]).filter p ++ ((a :: L).filter (fun x => !p x) ++ (Q ++ [b]).filter (fun x => !p x)) =
          (a :: L).filter p ++ (((Q ++ [b]).filter p ++ (a :: L).filter (fun x => !p x)) ++ (Q ++ [b]).filter (fun x => !p x)) := by
          simp only [List.append_assoc]
        rw [e, At.append_iff, At.append_iff]
        refine ⟨?_, ?_, ?_⟩
        · exact (aL1.upd u2 (fun j _ _ => by unfold Seg; omega)).upd u3 (fun j _ _ => by unfold Seg; omega)
        · rw [hleft] at a3; exact a3
        · have := aR2.upd u3 (fun j _ _ => by unfold Seg; omega)
          convert this using 1; rw [List.length_append]; omega

theorem stablePartition_spec (p : α → Bool) (m : Mem α) (first last tmp cap : Nat) (X : List α) (hX : At m first X)
    (hl : last = first + X.length) (ht : last ≤ tmp) (hc : tmp + cap ≤ m.length) :
    ∃ m', stablePartition p m first last tmp cap = .ok (m', first + (X.filter p).length) ∧
      At m' first (X.filter p ++ X.filter (fun x => !p x)) ∧
      Upd m m' (fun j => Seg first last j ∨ Seg tmp (tmp + cap) j) := by
  unfold stablePartition
  rw [partSkip_spec p X m first last hX hl, R.ok_bind]
  rcases takeWhile_split p X with ⟨h1, h2⟩ | ⟨T, d, D, rfl, h2, h3, h4⟩
  · rw [h2]
    simp only [hl, if_true]
    obtain ⟨f1, f2⟩ := filter_all h1
    exact ⟨m, by rw [f1]; rfl, by rw [f1, f2]; simpa using hX, Upd.refl _ _⟩
  · rw [h4]
    simp only [List.length_append, List.length_cons] at hl
    rw [if_neg (by omega)]
    obtain ⟨f1, f2⟩ := filter_all h2
    obtain ⟨hT, hD⟩ := At.append_iff.1 hX
    unfold spBack
    rcases partSkipBack_spec p _ m (first + T.length) last d D rfl hD (by omega) with ⟨k1, k2⟩ | ⟨Y, b, Z, rfl, k1, k2, k3⟩
    · rw [k2]
      obtain ⟨g1, g2⟩ := filter_none (p := p) (X := d :: D) (by simpa [h3] using k1)
      refine ⟨m, ?_, ?_, Upd.refl _ _⟩
      · rw [List.filter_append, f1, g1]; simp; rfl
      · rw [List.filter_append, List.filter_append, f1, f2, g1, g2]; simpa using hX
    · rw [k3]
      simp only [R.ok_bind]
      simp only [List.length_append, List.length_cons] at hl
      have hZe : d :: (Y ++ b :: Z) = (d :: Y ++ [b]) ++ Z := by simp
      rw [hZe] at hD ⊢
      obtain ⟨hY, hZ⟩ := At.append_iff.1 hD
      obtain ⟨m1, T1, F1, hT1, hF1, e1, a1, u1⟩ := stablePartition1_spec p tmp cap (first + T.length + 1 + Y.length - (first + T.length) + 1) m (first + T.length) (first + T.length + 1 + Y.length) d b Y hY h3 k1 rfl (by omega) hc (by omega)
      obtain ⟨g1, g2⟩ := filter_none k2
      have ec : first + T.length + 1 + Y.length - (first + T.length) + 1 = Y.length + 2 := by omega
      rw [ec] at e1 ⊢
      have htot : T1.length + F1.length = Y.length + 2 := by
        rw [hT1, hF1, filter_len]; simp
      refine ⟨m1, ?_, ?_, u1.mono (fun j => by unfold Seg; omega)⟩
      · rw [e1, R.ok_bind]
        rw [List.filter_append T, f1, List.filter_append _ Z, g1, ← hT1]
        simp only [List.append_nil, List.length_append]
        congr 2; omega
      · rw [List.filter_append T, List.filter_append T, f1, f2, List.filter_append _ Z, g1, List.filter_append _ Z, g2, ← hT1, ← hF1]
        have : T ++ (T1 ++ []) ++ ([] ++ (F1 ++ Z)) = T ++ ((T1 ++ F1) ++ Z) := by simp
        rw [this, At.append_iff, At.append_iff]
        refine ⟨hT.upd u1 (fun j _ _ => by unfold Seg; omega), a1, ?_⟩
        have := hZ.upd u1 (fun j _ _ => by simp at *; omega)
        convert this using 1; simp; omega

end STL
