import Verif.RBTree.Erase

/-! # The rebalancing loop of `_Extract`. Proofs only. -/

namespace STL.RBT
open STL
variable {α κ : Type}

theorem root_black : ∀ {C : Cx α} {t : T α} {n : Nat}, BalC C n → C ≠ [] → isRed (plug C t) = false
  | [], _, _, _, h => absurd rfl h
  | [⟨b, i, v, c, s⟩], t, n, hc, _ => by
    cases c
    · cases b <;> rfl
    · rw [balC_red] at hc; exact absurd rfl hc.2.2.2.1
  | ⟨b, i, v, c, s⟩ :: g :: C, t, n, hc, _ => by
    have : BalC (g :: C) (if c then n else n + 1) := hc.2.2
    cases b <;> exact root_black (C := g :: C) this (by simp)

/-- one black too few, or a red node to blacken -/
def Def (t : T α) (n : Nat) : Prop := (isRed t = false ∧ Bal t n) ∨ (isRed t = true ∧ Bal (blacken t) (n + 1))

/-- what the loop achieves -/
def FixOK (hd f : Nat) (h : Hp α) (fix fp Lm Rm : Nat) (C : Cx α) (t : T α) : Prop :=
  ∃ h' fix' D t', eraseFix hd f h fix fp = .ok (h', fix') ∧ fix' = ptr hd t' ∧ At hd h' Lm Rm D t' ∧ inord D t' = inord C t ∧
    (∃ m, Bal (plug D (blacken t')) m) ∧ isRed (plug D (blacken t')) = false ∧ Same hd (inord C t) h h'

/-- the part of the loop body after the red-sibling case, the fixed node being the left child -/
def tailL (hd f : Nat) (h : Hp α) (fix fp p : Nat) : R (Hp α × Nat) := do
  let pn ← nd h p
  if pn.nil then do
    let fpn ← nd h fp
    eraseFix hd f h fp fpn.parent
  else do
    let pl ← nd h pn.left
    let pr ← nd h pn.right
    if pl.red = false ∧ pr.red = false then do
      let h ← setC h p true
      let fpn ← nd h fp
      eraseFix hd f h fp fpn.parent
    else do
      let r ← (if pr.red = false then do
          let h ← setC h pn.left false
          let h ← setC h p true
          let h ← rrotate hd h p
          let fpn ← nd h fp
          .ok (h, fpn.right)
        else .ok (h, p) : R (Hp α × Nat))
      let h := r.1
      let p := r.2
      let fpn ← nd h fp
      let h ← setC h p fpn.red
      let h ← setC h fp false
      let pn ← nd h p
      let h ← setC h pn.right false
      let h ← lrotate hd h fp
      .ok (h, fix)

/-- the final rotation -/
theorem fixEndL {hd : Nat} {h : Hp α} {Lm Rm : Nat} {C : Cx α} {fp p z : Nat} {fv pv zv : α} {c : Bool} {t a d e : T α} {n : Nat} {fix : Nat}
    (hA : At hd h Lm Rm C (.node fp fv c t (.node p pv false a (.node z zv true d e))))
    (ht0 : isRed t = false) (ht : Bal t n) (ha : Bal a n) (hd1 : Bal d n) (he : Bal e n)
    (hC : BalC C (if c then n + 1 else n + 2)) (hc1 : c = true → hRed C = false ∧ C ≠ []) :
    ∃ h' D, (do
      let fpn ← nd h fp
      let h ← setC h p fpn.red
      let h ← setC h fp false
      let pn ← nd h p
      let h ← setC h pn.right false
      let h ← lrotate hd h fp
      .ok (h, fix) : R (Hp α × Nat)) = .ok (h', fix) ∧ At hd h' Lm Rm D t ∧ inord D t = inord C (.node fp fv c t (.node p pv false a (.node z zv true d e))) ∧
      (∃ m, Bal (plug D (blacken t)) m) ∧ isRed (plug D (blacken t)) = false ∧
      Same hd (inord C (.node fp fv c t (.node p pv false a (.node z zv true d e)))) h h' := by
  obtain ⟨h1, s1, A1, S1⟩ := hA.setR c
  obtain ⟨h2, s2, A2, S2⟩ := A1.setC false
  have hp2 := (At.upR.2 A2).node
  obtain ⟨h3, s3, A3, S3⟩ := (At.upR.2 A2).setR false
  rw [inord_upR] at S3
  obtain ⟨h4, s4, A4, S4⟩ := lrotate_spec (At.upR.1 A3)
  have hbl : blacken t = t := by cases t with | nil => rfl | node i v c l r => simp only [isRed] at ht0; subst ht0; rfl
  refine ⟨h4, ⟨true, fp, fv, false, a⟩ :: ⟨true, p, pv, c, .node z zv false d e⟩ :: C, ?_, At.upL.2 (At.upL.2 A4), ?_, ?_, ?_, ?_⟩
  · rw [nd_some hA.node, R.ok_bind]; simp only
    rw [s1, R.ok_bind, s2, R.ok_bind, nd_some hp2, R.ok_bind]; simp only [ptr_node]
    rw [s3, R.ok_bind, s4, R.ok_bind]
  · simp [inord, itL, itR, items]
  · rw [hbl]
    refine bal_plug ht (balC_black.2 ⟨ha, ?_⟩) (by simp [hRed])
    cases c
    · exact balC_black.2 ⟨bal_black.2 ⟨hd1, he⟩, hC⟩
    · exact balC_red.2 ⟨bal_black.2 ⟨hd1, he⟩, rfl, (hc1 rfl).1, (hc1 rfl).2, hC⟩
  · refine root_black (n := n) (balC_black.2 ⟨ha, ?_⟩) (by simp)
    cases c
    · exact balC_black.2 ⟨bal_black.2 ⟨hd1, he⟩, hC⟩
    · exact balC_red.2 ⟨bal_black.2 ⟨hd1, he⟩, rfl, (hc1 rfl).1, (hc1 rfl).2, hC⟩
  · exact (S1.trans (S2.cast (by simp [inord, items]))).trans ((S3.cast (by simp [inord, items])).trans (S4.cast (by simp [inord, items])))

/-- the loop body with a black sibling -/
theorem tailL_spec {hd f : Nat} {h : Hp α} {Lm Rm : Nat} {C : Cx α} {fp p : Nat} {fv pv : α} {c : Bool} {t a g : T α} {n : Nat}
    (hA : At hd h Lm Rm C (.node fp fv c t (.node p pv false a g)))
    (ht0 : isRed t = false) (ht : Bal t n) (ha : Bal a n) (hg : Bal g n)
    (hC : BalC C (if c then n + 1 else n + 2)) (hc1 : c = true → hRed C = false ∧ C ≠ [])
    (ih : ∀ h (t' : T α), At hd h Lm Rm C t' → Def t' (if c then n else n + 1) → (c = true → isRed t' = true) → FixOK hd f h (ptr hd t') (parP hd C) Lm Rm C t') :
    ∃ h' fix' D t', tailL hd f h (ptr hd t) fp p = .ok (h', fix') ∧ fix' = ptr hd t' ∧ At hd h' Lm Rm D t' ∧
      inord D t' = inord C (.node fp fv c t (.node p pv false a g)) ∧ (∃ m, Bal (plug D (blacken t')) m) ∧ isRed (plug D (blacken t')) = false ∧
      Same hd (inord C (.node fp fv c t (.node p pv false a g))) h h' := by
  have hp := (At.upR.2 hA).node
  obtain ⟨an, han, har, -⟩ := (At.upL.2 (At.upR.2 hA)).at
  obtain ⟨gn, hgn, hgr, -⟩ := (At.upR.2 (At.upR.2 hA)).at
  unfold tailL
  rw [nd_some hp, R.ok_bind]; simp only [Bool.false_eq_true, if_false]
  rw [nd_some han, R.ok_bind, nd_some hgn, R.ok_bind, har, hgr]
  by_cases hb : isRed a = false ∧ isRed g = false
  · rw [if_pos hb]
    obtain ⟨h1, s1, A1, S1⟩ := hA.setR true
    rw [s1, R.ok_bind, nd_some A1.node, R.ok_bind]
    obtain ⟨h', fix', D, t', e1, e2, A2, i2, b2, r2, S2⟩ := ih h1 _ A1 (by
      cases c
      · exact Or.inl ⟨rfl, bal_black.2 ⟨ht, bal_red.2 ⟨hb.1, hb.2, ha, hg⟩⟩⟩
      · exact Or.inr ⟨rfl, bal_black.2 ⟨ht, bal_red.2 ⟨hb.1, hb.2, ha, hg⟩⟩⟩) (fun h => h)
    exact ⟨h', fix', D, t', e1, e2, A2, by rw [i2]; simp [inord, items], b2, r2, S1.trans (S2.cast (by simp [inord, items]))⟩
  · rw [if_neg hb]
    by_cases hg0 : isRed g = false
    · rw [if_pos hg0]
      cases a with
      | nil => exact absurd ⟨rfl, hg0⟩ hb
      | node z zv zc d e =>
        obtain rfl : zc = true := by
          cases zc
          · exact absurd ⟨rfl, hg0⟩ hb
          · rfl
        obtain ⟨ha1, ha2, ha3, ha4⟩ := bal_red.1 ha
        obtain ⟨h1, s1, A1, S1⟩ := (At.upR.2 hA).setL false
        rw [inord_upR] at S1
        obtain ⟨h2, s2, A2, S2⟩ := A1.setC true
        rw [inord_upR] at S2
        obtain ⟨h3, s3, A3, S3⟩ := rrotate_spec A2
        rw [inord_upR] at S3
        have hfp := (At.upR.1 A3).node
        obtain ⟨h4, D, e4, A4, i4, b4, r4, S4⟩ := fixEndL (fix := ptr hd t) (At.upR.1 A3) ht0 ht ha3 ha4 hg hC hc1
        refine ⟨h4, ptr hd t, D, t, ?_, rfl, A4, by rw [i4]; simp [inord, items], b4, r4,
          (S1.trans (S2.cast (by simp [inord, items]))).trans ((S3.cast (by simp [inord, items])).trans (S4.cast (by simp [inord, items])))⟩
        rw [ptr_node, s1, R.ok_bind, s2, R.ok_bind, s3, R.ok_bind, nd_some hfp, R.ok_bind]
        exact e4
    · rw [if_neg hg0, R.ok_bind]
      cases g with
      | nil => exact absurd rfl hg0
      | node z zv zc d e =>
        obtain rfl : zc = true := by
          cases zc
          · exact absurd rfl hg0
          · rfl
        obtain ⟨hg1, hg2, hg3, hg4⟩ := bal_red.1 hg
        obtain ⟨h4, D, e4, A4, i4, b4, r4, S4⟩ := fixEndL (fix := ptr hd t) hA ht0 ht ha hg3 hg4 hC hc1
        exact ⟨h4, ptr hd t, D, t, e4, rfl, A4, i4, b4, r4, S4⟩

/-- the part of the loop body after the red-sibling case, the fixed node being the right child -/
def tailR (hd f : Nat) (h : Hp α) (fix fp p : Nat) : R (Hp α × Nat) := do
  let pn ← nd h p
  if pn.nil then do
    let fpn ← nd h fp
    eraseFix hd f h fp fpn.parent
  else do
    let pl ← nd h pn.right
    let pr ← nd h pn.left
    if pl.red = false ∧ pr.red = false then do
      let h ← setC h p true
      let fpn ← nd h fp
      eraseFix hd f h fp fpn.parent
    else do
      let r ← (if pr.red = false then do
          let h ← setC h pn.right false
          let h ← setC h p true
          let h ← lrotate hd h p
          let fpn ← nd h fp
          .ok (h, fpn.left)
        else .ok (h, p) : R (Hp α × Nat))
      let h := r.1
      let p := r.2
      let fpn ← nd h fp
      let h ← setC h p fpn.red
      let h ← setC h fp false
      let pn ← nd h p
      let h ← setC h pn.left false
      let h ← rrotate hd h fp
      .ok (h, fix)

/-- the final rotation -/
theorem fixEndR {hd : Nat} {h : Hp α} {Lm Rm : Nat} {C : Cx α} {fp p z : Nat} {fv pv zv : α} {c : Bool} {t a d e : T α} {n : Nat} {fix : Nat}
    (hA : At hd h Lm Rm C (.node fp fv c (.node p pv false (.node z zv true d e) a) t))
    (ht0 : isRed t = false) (ht : Bal t n) (ha : Bal a n) (hd1 : Bal d n) (he : Bal e n)
    (hC : BalC C (if c then n + 1 else n + 2)) (hc1 : c = true → hRed C = false ∧ C ≠ []) :
    ∃ h' D, (do
      let fpn ← nd h fp
      let h ← setC h p fpn.red
      let h ← setC h fp false
      let pn ← nd h p
      let h ← setC h pn.left false
      let h ← rrotate hd h fp
      .ok (h, fix) : R (Hp α × Nat)) = .ok (h', fix) ∧ At hd h' Lm Rm D t ∧ inord D t = inord C (.node fp fv c (.node p pv false (.node z zv true d e) a) t) ∧
      (∃ m, Bal (plug D (blacken t)) m) ∧ isRed (plug D (blacken t)) = false ∧
      Same hd (inord C (.node fp fv c (.node p pv false (.node z zv true d e) a) t)) h h' := by
  obtain ⟨h1, s1, A1, S1⟩ := hA.setL c
  obtain ⟨h2, s2, A2, S2⟩ := A1.setC false
  have hp2 := (At.upL.2 A2).node
  obtain ⟨h3, s3, A3, S3⟩ := (At.upL.2 A2).setL false
  rw [inord_upL] at S3
  obtain ⟨h4, s4, A4, S4⟩ := rrotate_spec (At.upL.1 A3)
  have hbl : blacken t = t := by cases t with | nil => rfl | node i v c l r => simp only [isRed] at ht0; subst ht0; rfl
  refine ⟨h4, ⟨false, fp, fv, false, a⟩ :: ⟨false, p, pv, c, .node z zv false d e⟩ :: C, ?_, At.upR.2 (At.upR.2 A4), ?_, ?_, ?_, ?_⟩
  · rw [nd_some hA.node, R.ok_bind]; simp only
    rw [s1, R.ok_bind, s2, R.ok_bind, nd_some hp2, R.ok_bind]; simp only [ptr_node]
    rw [s3, R.ok_bind, s4, R.ok_bind]
  · simp [inord, itL, itR, items]
  · rw [hbl]
    refine bal_plug ht (balC_black.2 ⟨ha, ?_⟩) (by simp [hRed])
    cases c
    · exact balC_black.2 ⟨bal_black.2 ⟨hd1, he⟩, hC⟩
    · exact balC_red.2 ⟨bal_black.2 ⟨hd1, he⟩, rfl, (hc1 rfl).1, (hc1 rfl).2, hC⟩
  · refine root_black (n := n) (balC_black.2 ⟨ha, ?_⟩) (by simp)
    cases c
    · exact balC_black.2 ⟨bal_black.2 ⟨hd1, he⟩, hC⟩
    · exact balC_red.2 ⟨bal_black.2 ⟨hd1, he⟩, rfl, (hc1 rfl).1, (hc1 rfl).2, hC⟩
  · exact (S1.trans (S2.cast (by simp [inord, items]))).trans ((S3.cast (by simp [inord, items])).trans (S4.cast (by simp [inord, items])))

/-- the loop body with a black sibling -/
theorem tailR_spec {hd f : Nat} {h : Hp α} {Lm Rm : Nat} {C : Cx α} {fp p : Nat} {fv pv : α} {c : Bool} {t a g : T α} {n : Nat}
    (hA : At hd h Lm Rm C (.node fp fv c (.node p pv false g a) t))
    (ht0 : isRed t = false) (ht : Bal t n) (ha : Bal a n) (hg : Bal g n)
    (hC : BalC C (if c then n + 1 else n + 2)) (hc1 : c = true → hRed C = false ∧ C ≠ [])
    (ih : ∀ h (t' : T α), At hd h Lm Rm C t' → Def t' (if c then n else n + 1) → (c = true → isRed t' = true) → FixOK hd f h (ptr hd t') (parP hd C) Lm Rm C t') :
    ∃ h' fix' D t', tailR hd f h (ptr hd t) fp p = .ok (h', fix') ∧ fix' = ptr hd t' ∧ At hd h' Lm Rm D t' ∧
      inord D t' = inord C (.node fp fv c (.node p pv false g a) t) ∧ (∃ m, Bal (plug D (blacken t')) m) ∧ isRed (plug D (blacken t')) = false ∧
      Same hd (inord C (.node fp fv c (.node p pv false g a) t)) h h' := by
  have hp := (At.upL.2 hA).node
  obtain ⟨an, han, har, -⟩ := (At.upR.2 (At.upL.2 hA)).at
  obtain ⟨gn, hgn, hgr, -⟩ := (At.upL.2 (At.upL.2 hA)).at
  unfold tailR
  rw [nd_some hp, R.ok_bind]; simp only [Bool.false_eq_true, if_false]
  rw [nd_some han, R.ok_bind, nd_some hgn, R.ok_bind, har, hgr]
  by_cases hb : isRed a = false ∧ isRed g = false
  · rw [if_pos hb]
    obtain ⟨h1, s1, A1, S1⟩ := hA.setL true
    rw [s1, R.ok_bind, nd_some A1.node, R.ok_bind]
    obtain ⟨h', fix', D, t', e1, e2, A2, i2, b2, r2, S2⟩ := ih h1 _ A1 (by
      cases c
      · exact Or.inl ⟨rfl, bal_black.2 ⟨bal_red.2 ⟨hb.2, hb.1, hg, ha⟩, ht⟩⟩
      · exact Or.inr ⟨rfl, bal_black.2 ⟨bal_red.2 ⟨hb.2, hb.1, hg, ha⟩, ht⟩⟩) (fun h => h)
    exact ⟨h', fix', D, t', e1, e2, A2, by rw [i2]; simp [inord, items], b2, r2, S1.trans (S2.cast (by simp [inord, items]))⟩
  · rw [if_neg hb]
    by_cases hg0 : isRed g = false
    · rw [if_pos hg0]
      cases a with
      | nil => exact absurd ⟨rfl, hg0⟩ hb
      | node z zv zc d e =>
        obtain rfl : zc = true := by
          cases zc
          · exact absurd ⟨rfl, hg0⟩ hb
          · rfl
        obtain ⟨ha1, ha2, ha3, ha4⟩ := bal_red.1 ha
        obtain ⟨h1, s1, A1, S1⟩ := (At.upL.2 hA).setR false
        rw [inord_upL] at S1
        obtain ⟨h2, s2, A2, S2⟩ := A1.setC true
        rw [inord_upL] at S2
        obtain ⟨h3, s3, A3, S3⟩ := lrotate_spec A2
        rw [inord_upL] at S3
        have hfp := (At.upL.1 A3).node
        obtain ⟨h4, D, e4, A4, i4, b4, r4, S4⟩ := fixEndR (fix := ptr hd t) (At.upL.1 A3) ht0 ht ha4 hg ha3 hC hc1
        refine ⟨h4, ptr hd t, D, t, ?_, rfl, A4, by rw [i4]; simp [inord, items], b4, r4,
          (S1.trans (S2.cast (by simp [inord, items]))).trans ((S3.cast (by simp [inord, items])).trans (S4.cast (by simp [inord, items])))⟩
        rw [ptr_node, s1, R.ok_bind, s2, R.ok_bind, s3, R.ok_bind, nd_some hfp, R.ok_bind]
        exact e4
    · rw [if_neg hg0, R.ok_bind]
      cases g with
      | nil => exact absurd rfl hg0
      | node z zv zc d e =>
        obtain rfl : zc = true := by
          cases zc
          · exact absurd rfl hg0
          · rfl
        obtain ⟨hg1, hg2, hg3, hg4⟩ := bal_red.1 hg
        obtain ⟨h4, D, e4, A4, i4, b4, r4, S4⟩ := fixEndR (fix := ptr hd t) hA ht0 ht ha hg3 hg4 hC hc1
        exact ⟨h4, ptr hd t, D, t, e4, rfl, A4, i4, b4, r4, S4⟩

theorem eraseFix_red {hd f : Nat} {h : Hp α} {Lm Rm : Nat} {C : Cx α} {t : T α} {n : Nat} (hA : At hd h Lm Rm C t) (hb : Bal (blacken t) (n + 1)) (hr : isRed t = true)
    (hC : BalC C (n + 1)) : FixOK hd (f + 1) h (ptr hd t) (parP hd C) Lm Rm C t := by
  obtain ⟨tn, htn, htr, -⟩ := hA.at
  have hbl : isRed (blacken t) = false := by cases t <;> rfl
  refine ⟨h, ptr hd t, C, t, ?_, rfl, hA, rfl, bal_plug hb hC (fun _ => hbl), ?_, Same.refl⟩
  · unfold eraseFix
    rw [nd_some hA.head, R.ok_bind, nd_some htn, R.ok_bind, if_neg (by rw [htr, hr]; simp)]
  · by_cases h0 : C = []
    · subst h0; exact hbl
    · exact root_black hC h0

theorem eraseFix_spec {hd : Nat} {Lm Rm : Nat} : ∀ (k : Nat) (C : Cx α) (f : Nat) (h : Hp α) (t : T α) (n : Nat), C.length ≤ k → C.length + 1 < f →
    At hd h Lm Rm C t → Def t n → BalC C (n + 1) → FixOK hd f h (ptr hd t) (parP hd C) Lm Rm C t := by
  intro k
  induction k with
  | zero =>
    intro C f h t n hk hf hA hb hC
    obtain rfl : C = [] := List.length_eq_zero_iff.1 (by omega)
    obtain ⟨f, rfl⟩ : ∃ g, f = g + 1 := ⟨f - 1, by omega⟩
    rcases hb with ⟨hr, hb⟩ | ⟨hr, hb⟩
    · obtain ⟨tn, htn, htr, -⟩ := hA.at
      refine ⟨h, ptr hd t, [], t, ?_, rfl, hA, rfl, ?_, ?_, Same.refl⟩
      · unfold eraseFix
        rw [nd_some hA.head, R.ok_bind, nd_some htn, R.ok_bind, if_neg (by simp [rootP])]
      · obtain ⟨m, h1, -⟩ := bal_blacken hb; exact ⟨m, h1⟩
      · cases t <;> rfl
    · exact eraseFix_red hA hb hr hC
  | succ k ih =>
    intro C f h t n hk hf hA hb hC
    cases C with
    | nil => exact ih [] f h t n (by simp) hf hA hb hC
    | cons fr C =>
      obtain ⟨f, rfl⟩ : ∃ g, f = g + 1 := ⟨f - 1, by omega⟩
      rcases hb with ⟨hr0, hb⟩ | ⟨hr, hb⟩
      · obtain ⟨tn, htn, htr, -⟩ := hA.at
        have hroot : ptr hd t ≠ rootP (fr :: C) (ptr hd t) := by
          have hn := hA.nodup
          have := rootP_mem (C := C) (x := fr.i)
          obtain ⟨b, i, v, c, s⟩ := fr
          simp only [rootP]
          cases t with
          | nil => rw [ptr_nil]; cases b <;> (nds at hn; grind)
          | node i v c l r => rw [ptr_node]; cases b <;> (nds at hn; grind)
        have hunf : ∀ fp, eraseFix hd (f + 1) h (ptr hd t) fp = (do
            let fpn ← nd h fp
            if ptr hd t = fpn.left then do
              let pn ← nd h fpn.right
              let r ← (if pn.red then do
                  let h ← setC h fpn.right false
                  let h ← setC h fp true
                  let h ← lrotate hd h fp
                  let fpn ← nd h fp
                  .ok (h, fpn.right)
                else .ok (h, fpn.right) : R (Hp α × Nat))
              tailL hd f r.1 (ptr hd t) fp r.2
            else do
              let pn ← nd h fpn.left
              let r ← (if pn.red then do
                  let h ← setC h fpn.left false
                  let h ← setC h fp true
                  let h ← rrotate hd h fp
                  let fpn ← nd h fp
                  .ok (h, fpn.left)
                else .ok (h, fpn.left) : R (Hp α × Nat))
              tailR hd f r.1 (ptr hd t) fp r.2) := by
          intro fp
          rw [eraseFix, nd_some hA.head, R.ok_bind, nd_some htn, R.ok_bind, if_pos ⟨hroot, by rw [htr, hr0]⟩]
          rfl
        unfold FixOK
        obtain ⟨b, fp, fv, c, s⟩ := fr
        cases b with
        | true =>
          have hN := At.upL.1 hA
          have hfp := hN.node
          have hs := (At.upR.2 hN).at
          cases s with
          | nil => simp [BalC, Bal] at hC
          | node p pv pc a g =>
            obtain ⟨-, hpp, -, -⟩ := hs
            have hp := (At.upR.2 hN).node
            have hI : inord (⟨true, fp, fv, c, .node p pv pc a g⟩ :: C) t = inord C (.node fp fv c t (.node p pv pc a g)) := inord_upL _ _ _ _ _ _
            have hsib : ptr hd t ≠ p := by
              have hn := hN.nodup
              nds at hn
              cases t with
              | nil => rw [ptr_nil]; grind
              | node i v c l r => rw [ptr_node]; nds at hn; grind
            cases pc with
            | false =>
              have hC' : Bal a n ∧ Bal g n ∧ BalC C (if c then n + 1 else n + 2) ∧ (c = true → hRed C = false ∧ C ≠ []) := by
                cases c
                · rw [balC_black, bal_black] at hC; exact ⟨hC.1.1, hC.1.2, hC.2, by simp⟩
                · rw [balC_red, bal_black] at hC; exact ⟨hC.1.1, hC.1.2, hC.2.2.2.2, fun _ => ⟨hC.2.2.1, hC.2.2.2.1⟩⟩
              obtain ⟨h1, h2, h3, h4⟩ := hC'
              obtain ⟨h', fix', D, t', e1, e2, A2, i2, b2, r2, S2⟩ := tailL_spec (f := f) hN hr0 hb h1 h2 h3 h4 (fun h t' hA' hD' _ => by
                cases c
                · exact ih C f h t' (n + 1) (by simpa using hk) (by simp at hf; omega) hA' hD' h3
                · exact ih C f h t' n (by simpa using hk) (by simp at hf; omega) hA' hD' h3)
              refine ⟨h', fix', D, t', ?_, e2, A2, by rw [i2, hI], b2, r2, by rw [hI]; exact S2⟩
              rw [← e1]; show eraseFix hd (f + 1) h (ptr hd t) fp = _; rw [hunf, nd_some hfp, R.ok_bind]
              simp only [ptr_node]
              rw [if_pos trivial, nd_some hp, R.ok_bind]; simp only [Bool.false_eq_true, if_false]
              rw [R.ok_bind]
            | true =>
              obtain rfl : c = false := by
                cases c
                · rfl
                · rw [balC_red] at hC; exact absurd hC.2.1 (by simp [isRed])
              rw [balC_black, bal_red] at hC
              obtain ⟨⟨q1, q2, q3, q4⟩, q5⟩ := hC
              obtain ⟨h1, s1, A1, S1⟩ := hN.setR false
              obtain ⟨h2, s2, A2, S2⟩ := A1.setC true
              obtain ⟨h3, s3, A3, S3⟩ := lrotate_spec A2
              have A4 := At.upL.2 A3
              have hfp4 := A4.node
              cases a with
              | nil => exact absurd q3 (by simp [Bal])
              | node w wv wc wl wr =>
                obtain rfl : wc = false := q1
                rw [bal_black] at q3
                obtain ⟨h', fix', D, t', e1, e2, A5, i2, b2, r2, S5⟩ := tailL_spec (f := f) A4 hr0 hb q3.1 q3.2 (n := n) (by rw [if_pos rfl]; exact balC_black.2 ⟨q4, q5⟩)
                  (fun _ => ⟨rfl, by simp⟩) (fun h t' hA' hD' hr' => by
                    obtain ⟨f, rfl⟩ : ∃ g, f = g + 1 := ⟨f - 1, by simp at hf; omega⟩
                    exact eraseFix_red hA' (by rcases hD' with ⟨x, _⟩ | ⟨_, x⟩ <;> [exact absurd (hr' rfl) (by simp [x]); exact x]) (hr' rfl) (by exact balC_black.2 ⟨q4, q5⟩))
                refine ⟨h', fix', D, t', ?_, e2, A5, by rw [i2, hI]; simp [inord, items, itL, itR], b2, r2, ?_⟩
                · rw [← e1]; show eraseFix hd (f + 1) h (ptr hd t) fp = _; rw [hunf, nd_some hfp, R.ok_bind]
                  simp only [ptr_node]
                  rw [if_pos trivial, nd_some hp, R.ok_bind]; simp only [if_true]
                  rw [s1, R.ok_bind, s2, R.ok_bind, s3, R.ok_bind, nd_some hfp4, R.ok_bind, R.ok_bind]; rfl
                · rw [hI]
                  exact (S1.trans (S2.cast (by simp [inord, items]))).trans ((S3.cast (by simp [inord, items])).trans (S5.cast (by simp [inord, items, itL, itR])))
        | false =>
          have hN := At.upR.1 hA
          have hfp := hN.node
          have hs := (At.upL.2 hN).at
          cases s with
          | nil => simp [BalC, Bal] at hC
          | node p pv pc a g =>
            obtain ⟨-, hpp, -, -⟩ := hs
            have hp := (At.upL.2 hN).node
            have hI : inord (⟨false, fp, fv, c, .node p pv pc a g⟩ :: C) t = inord C (.node fp fv c (.node p pv pc a g) t) := inord_upR _ _ _ _ _ _
            have hsib : ptr hd t ≠ p := by
              have hn := hN.nodup
              nds at hn
              cases t with
              | nil => rw [ptr_nil]; grind
              | node i v c l r => rw [ptr_node]; nds at hn; grind
            cases pc with
            | false =>
              have hC' : Bal a n ∧ Bal g n ∧ BalC C (if c then n + 1 else n + 2) ∧ (c = true → hRed C = false ∧ C ≠ []) := by
                cases c
                · rw [balC_black, bal_black] at hC; exact ⟨hC.1.1, hC.1.2, hC.2, by simp⟩
                · rw [balC_red, bal_black] at hC; exact ⟨hC.1.1, hC.1.2, hC.2.2.2.2, fun _ => ⟨hC.2.2.1, hC.2.2.2.1⟩⟩
              obtain ⟨h1, h2, h3, h4⟩ := hC'
              obtain ⟨h', fix', D, t', e1, e2, A2, i2, b2, r2, S2⟩ := tailR_spec (f := f) hN hr0 hb h2 h1 h3 h4 (fun h t' hA' hD' _ => by
                cases c
                · exact ih C f h t' (n + 1) (by simpa using hk) (by simp at hf; omega) hA' hD' h3
                · exact ih C f h t' n (by simpa using hk) (by simp at hf; omega) hA' hD' h3)
              refine ⟨h', fix', D, t', ?_, e2, A2, by rw [i2, hI], b2, r2, by rw [hI]; exact S2⟩
              rw [← e1]; show eraseFix hd (f + 1) h (ptr hd t) fp = _; rw [hunf, nd_some hfp, R.ok_bind]
              simp only [ptr_node]
              rw [if_neg hsib, nd_some hp, R.ok_bind]; simp only [Bool.false_eq_true, if_false]
              rw [R.ok_bind]
            | true =>
              obtain rfl : c = false := by
                cases c
                · rfl
                · rw [balC_red] at hC; exact absurd hC.2.1 (by simp [isRed])
              rw [balC_black, bal_red] at hC
              obtain ⟨⟨q1, q2, q3, q4⟩, q5⟩ := hC
              obtain ⟨h1, s1, A1, S1⟩ := hN.setL false
              obtain ⟨h2, s2, A2, S2⟩ := A1.setC true
              obtain ⟨h3, s3, A3, S3⟩ := rrotate_spec A2
              have A4 := At.upR.2 A3
              have hfp4 := A4.node
              cases g with
              | nil => exact absurd q4 (by simp [Bal])
              | node w wv wc wl wr =>
                obtain rfl : wc = false := q2
                rw [bal_black] at q4
                obtain ⟨h', fix', D, t', e1, e2, A5, i2, b2, r2, S5⟩ := tailR_spec (f := f) A4 hr0 hb q4.2 q4.1 (n := n) (by rw [if_pos rfl]; exact balC_black.2 ⟨q3, q5⟩)
                  (fun _ => ⟨rfl, by simp⟩) (fun h t' hA' hD' hr' => by
                    obtain ⟨f, rfl⟩ : ∃ g, f = g + 1 := ⟨f - 1, by simp at hf; omega⟩
                    exact eraseFix_red hA' (by rcases hD' with ⟨x, _⟩ | ⟨_, x⟩ <;> [exact absurd (hr' rfl) (by simp [x]); exact x]) (hr' rfl) (by exact balC_black.2 ⟨q3, q5⟩))
                refine ⟨h', fix', D, t', ?_, e2, A5, by rw [i2, hI]; simp [inord, items, itL, itR], b2, r2, ?_⟩
                · rw [← e1]; show eraseFix hd (f + 1) h (ptr hd t) fp = _; rw [hunf, nd_some hfp, R.ok_bind]
                  simp only [ptr_node]
                  rw [if_neg hsib, nd_some hp, R.ok_bind]; simp only [if_true]
                  rw [s1, R.ok_bind, s2, R.ok_bind, s3, R.ok_bind, nd_some hfp4, R.ok_bind, R.ok_bind]; rfl
                · rw [hI]
                  exact (S1.trans (S2.cast (by simp [inord, items]))).trans ((S3.cast (by simp [inord, items])).trans (S5.cast (by simp [inord, items, itL, itR])))
      · exact eraseFix_red hA hb hr hC

theorem balC_swap {e s : Nat} {v sv : α} {c : Bool} {l : T α} {b : Bool} {C : Cx α} : ∀ {D : Cx α} {m : Nat}, BalC (D ++ ⟨b, e, v, c, l⟩ :: C) m → BalC (D ++ ⟨b, s, sv, c, l⟩ :: C) m
  | [], _, h => h
  | g :: D, m, ⟨h1, h2, h3⟩ => by
    refine ⟨h1, fun hg => ⟨(h2 hg).1, ?_, by simp⟩, balC_swap h3⟩
    have := (h2 hg).2.1
    cases D <;> exact this

theorem setC_focus {hd : Nat} {h : Hp α} {Lm Rm : Nat} {C : Cx α} {t : T α} (hA : At hd h Lm Rm C t) :
    ∃ h', setC h (ptr hd t) false = .ok h' ∧ At hd h' Lm Rm C (blacken t) ∧ Same hd (inord C t) h h' := by
  cases t with
  | nil =>
    obtain ⟨h', e, y, f⟩ := setC_ok' (h := h) (p := hd) (c := false) hA.head
    have : h' = h := by
      funext q; by_cases hq : q = hd
      · rw [hq, y, hA.head]
      · exact f q hq
    subst this
    exact ⟨h', e, hA, Same.refl⟩
  | node i v c l r => exact hA.setC false

theorem extract_tail {hd f : Nat} {h h1 : Hp α} {C : Cx α} {e : Nat} {c : Bool} {s : T α} {n : Node α} {m : Nat}
    (hu : unlink hd f h e = .ok (h1, ptr hd s, parP hd C)) (hA : At hd h1 (firstId hd (inord C s)) (lastId hd (inord C s)) C s)
    (hn : h1 e = some n) (hnc : n.red = c) (hb : Bal s m) (hC : BalC C (if c then m else m + 1)) (hc : c = true → isRed s = false ∧ C ≠ [] ∧ hRed C = false)
    (hf : C.length + 1 < f) :
    ∃ h', extract hd f h e = .ok h' ∧ WF hd h' (inord C s) ∧ Same hd (inord C s) h1 h' := by
  unfold extract
  rw [hu, R.ok_bind]; simp only
  rw [nd_some hn, R.ok_bind, hnc]
  cases c with
  | true =>
    obtain ⟨a, b, d⟩ := hc rfl
    refine ⟨h1, rfl, Foc.wf ⟨hA, bal_plug hb hC (by rw [d]; simp), root_black hC b⟩, Same.refl⟩
  | false =>
    simp only [Bool.false_eq_true, if_false] at hC ⊢
    have hD : Def s m := by
      cases hr : isRed s with
      | false => exact Or.inl ⟨hr, hb⟩
      | true =>
        cases s with
        | nil => cases hr
        | node i v c l r =>
          simp only [isRed] at hr; subst hr
          obtain ⟨_, _, a, b⟩ := bal_red.1 hb
          exact Or.inr ⟨rfl, bal_black.2 ⟨a, b⟩⟩
    obtain ⟨h2, fix', D, t', e1, e2, A2, i2, b2, r2, S2⟩ := eraseFix_spec _ C f h1 s m (le_refl _) hf hA hD hC
    obtain ⟨h3, e3, A3, S3⟩ := setC_focus A2
    have hI : inord D (blacken t') = inord C s := by rw [← i2]; cases t' <;> rfl
    refine ⟨h3, ?_, ?_, ?_⟩
    · rw [e1, R.ok_bind]; simp only; rw [e2, e3]
    · rw [← hI]; refine Foc.wf ⟨?_, b2, r2⟩; rw [hI]; exact A3
    · rw [i2] at S3; exact S2.trans S3

set_option maxHeartbeats 1000000 in
theorem extract_spec {hd f : Nat} {h : Hp α} {A B : List (Nat × α)} {e : Nat} {v : α} (W : WF hd h (A ++ (e, v) :: B)) (hf : hb (A.length + B.length + 1) + 2 ≤ f) :
    ∃ h' n, extract hd f h e = .ok h' ∧ WF hd h' (A ++ B) ∧ h' e = some n ∧ n.val = some v ∧ n.nil = false ∧ Same hd (A ++ (e, v) :: B) h h' := by
  obtain ⟨C, c, l, r, F, hA, hB⟩ := W.split
  have hlen := F.len
  have hX : inord C (.node e v c l r) = A ++ (e, v) :: B := by rw [← hA, ← hB]; simp [inord, items]
  rw [hX] at hlen
  have hlen' : C.length + ht (.node e v c l r) ≤ hb (A.length + B.length + 1) := by
    rw [show A.length + B.length + 1 = (A ++ (e, v) :: B).length by simp; omega]; exact hlen
  have hat := F.at_
  have hnid := hat.ids
  rw [hX] at hnid
  obtain ⟨k, hk⟩ := F.bal
  obtain ⟨k, hk1, hk2, hk3, hk4⟩ := bal_unplug hk F.root
  have he : e ≠ hd ∧ e ∉ A.map Prod.fst ∧ e ∉ B.map Prod.fst := by
    simp only [List.map_append, List.map_cons] at hnid; nds at hnid; grind
  by_cases hlr : l = .nil ∨ r = .nil
  · obtain ⟨s, hs⟩ : ∃ s, (l = .nil ∧ s = r) ∨ (l ≠ .nil ∧ r = .nil ∧ s = l) := by
      by_cases h0 : l = .nil
      · exact ⟨r, Or.inl ⟨h0, rfl⟩⟩
      · exact ⟨l, Or.inr ⟨h0, by tauto, rfl⟩⟩
    obtain ⟨h1, n, hu, A1, n1, n2, n3, n4, S1⟩ := unlink_one hat hs (f := f) (by omega)
    have hX' : inord C s = A ++ B := by
      rw [← hA, ← hB]; rcases hs with ⟨rfl, rfl⟩ | ⟨-, rfl, rfl⟩ <;> simp [inord, items]
    obtain ⟨m, hb1, hb2, hb3⟩ : ∃ m, Bal s m ∧ k = (if c then m else m + 1) ∧ (c = true → isRed s = false) := by
      obtain ⟨a, m, b1, b2, b3⟩ := hk1
      rcases hs with ⟨rfl, rfl⟩ | ⟨-, rfl, rfl⟩
      · exact ⟨m, b2, b3, fun h => (a h).2⟩
      · exact ⟨m, b1, b3, fun h => (a h).1⟩
    obtain ⟨h2, e2, W2, S2⟩ := extract_tail hu A1 n1 n2 hb1 (by rw [← hb2]; exact hk2)
      (fun hc => ⟨hb3 hc, fun h0 => absurd (hk4 h0) (by simp [isRed, hc]), by
        cases hh : hRed C with | false => rfl | true => exact absurd (hk3 hh) (by simp [isRed, hc])⟩) (by simp only [ht] at hlen'; omega)
    rw [hX'] at W2 S2
    rw [hX] at S1
    refine ⟨h2, n, e2, W2, ?_, n3, n4, ?_⟩
    · rw [S2 e he.1 (by simp only [List.map_append, List.mem_append]; tauto), n1]
    · intro q h1 h2; rw [S2 q h1 (by simp at h2 ⊢; tauto), S1 q h1 h2]
  · obtain ⟨hl0, hr0⟩ := not_or.1 hlr
    obtain ⟨D, s, sv, sc, sr, e1, hD, -⟩ := minF_spec r _ (At.upR.2 hat) hr0
    subst e1
    obtain ⟨h1, n, hu, A1, n1, n2, n3, n4, S1⟩ := unlink_two hat hD hl0 (f := f) (by omega)
    have hX' : inord (D ++ ⟨false, s, sv, c, l⟩ :: C) sr = A ++ B := by
      rw [← hA, ← hB, inord_app, inord]; simp [itL, itR, items_plug, inord, hD.itL, items]
    have hB0 : B ≠ [] := by rw [← hB]; intro h0; exact items_ne hr0 (List.append_eq_nil_iff.1 h0).1
    have hA0 : A ≠ [] := by rw [← hA]; intro h0; exact items_ne hl0 (List.append_eq_nil_iff.1 h0).2
    have hFl : firstId hd (inord C (.node e v c l (plug D (.node s sv sc .nil sr)))) = firstId hd (inord (D ++ ⟨false, s, sv, c, l⟩ :: C) sr) := by
      rw [hX, hX', firstId_append hA0, firstId_append hA0]
    have hLl : lastId hd (inord C (.node e v c l (plug D (.node s sv sc .nil sr)))) = lastId hd (inord (D ++ ⟨false, s, sv, c, l⟩ :: C) sr) := by
      rw [hX, hX']; exact (lastId_drop hB0).symm
    rw [hFl, hLl] at A1
    have hpl : plug C (.node e v c l (plug D (.node s sv sc .nil sr))) = plug (D ++ ⟨false, e, v, c, l⟩ :: C) (.node s sv sc .nil sr) := by
      rw [plug_append]; rfl
    obtain ⟨k', hk'⟩ := F.bal
    have hroot := F.root
    rw [hpl] at hk' hroot
    obtain ⟨k', g1, g2, g3, g4⟩ := bal_unplug hk' hroot
    obtain ⟨a, m, b1, b2, b3⟩ := g1
    have hlD : (D ++ ⟨false, e, v, c, l⟩ :: C).length ≤ hb (A.length + B.length + 1) := by
      have := len_plug D (.node s sv sc .nil sr)
      simp only [ht, List.length_append, List.length_cons] at *; omega
    obtain ⟨h2, e2, W2, S2⟩ := extract_tail hu A1 n1 n2 b2 (by rw [← b3]; exact balC_swap g2)
      (fun hc => ⟨(a hc).2, by simp, by
        have hx : hRed (D ++ ⟨false, s, sv, c, l⟩ :: C) = hRed (D ++ ⟨false, e, v, c, l⟩ :: C) := by cases D <;> rfl
        rw [hx]
        cases hh : hRed (D ++ ⟨false, e, v, c, l⟩ :: C) with | false => rfl | true => exact absurd (g3 hh) (by simp [isRed, hc])⟩)
      (by simp only [List.length_append, List.length_cons] at *; omega)
    rw [hX'] at W2 S2
    rw [hX] at S1
    refine ⟨h2, n, e2, W2, ?_, n3, n4, ?_⟩
    · rw [S2 e he.1 (by simp only [List.map_append, List.mem_append]; tauto), n1]
    · intro q h1 h2; rw [S2 q h1 (by simp at h2 ⊢; tauto), S1 q h1 h2]

end STL.RBT
