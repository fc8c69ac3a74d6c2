import Verif.Sort.Isort

/-! Lemmas about median guess, three-way partition and introsort. -/

namespace STL
variable {α : Type _}

theorem swp_full' (xs : List α) (i j f l : Nat) (hi : f ≤ i ∧ i < l) (hj : f ≤ j ∧ j < l) (hl : l ≤ xs.length) :
    ∃ ys, swp (full xs) i j = .ok (full ys) ∧ SegPerm f l xs ys :=
  ⟨_, swp_full xs i j (by omega) (by omega), SegPerm.swap xs hi hj⟩

theorem med3_spec {lt : α → α → Bool} (f l a b c : Nat) (xs : List α) (hl : l ≤ xs.length)
    (ha : f ≤ a ∧ a < l) (hb : f ≤ b ∧ b < l) (hc : f ≤ c ∧ c < l) :
    ∃ ys, med3 lt (full xs) a b c = .ok (full ys) ∧ SegPerm f l xs ys := by
  unfold med3
  rw [rd_full xs b (by omega), R.ok_bind, rd_full xs a (by omega), R.ok_bind]
  have s1 : ∃ ys, swpIf (lt xs[b] xs[a] = true) (full xs) b a = .ok (full ys) ∧ SegPerm f l xs ys := by
    unfold swpIf
    split
    · exact swp_full' xs b a f l hb ha hl
    · exact ⟨xs, rfl, SegPerm.refl _ _ _⟩
  obtain ⟨ys, h1, h2⟩ := s1
  have hy := h2.len
  rw [h1, R.ok_bind, rd_full ys c (by omega), R.ok_bind, rd_full ys b (by omega), R.ok_bind]
  split
  · obtain ⟨zs, g1, g2⟩ := swp_full' ys c b f l hc hb (by omega)
    have hz := g2.len
    rw [g1, R.ok_bind, rd_full zs b (by omega), R.ok_bind, rd_full zs a (by omega), R.ok_bind]
    split
    · obtain ⟨ws, k1, k2⟩ := swp_full' zs b a f l hb ha (by omega)
      exact ⟨ws, k1, (h2.trans g2).trans k2⟩
    · exact ⟨zs, rfl, h2.trans g2⟩
  · exact ⟨ys, rfl, h2⟩

theorem guessMedian_spec {lt : α → α → Bool} (f l : Nat) (xs : List α) (hfl : f < l) (hl : l ≤ xs.length) :
    ∃ ys, guessMedian lt (full xs) f (f + (l - f) / 2) (l - 1) = .ok (full ys) ∧ SegPerm f l xs ys := by
  unfold guessMedian
  dsimp only
  split
  · obtain ⟨y1, a1, b1⟩ := med3_spec (lt := lt) f l f (f + (l - 1 - f + 1) / 8) (f + (l - 1 - f + 1) / 8 * 2) xs (by omega) (by omega) (by omega) (by omega)
    rw [a1, R.ok_bind]
    have := b1.len
    obtain ⟨y2, a2, b2⟩ := med3_spec (lt := lt) f l (f + (l - f) / 2 - (l - 1 - f + 1) / 8) (f + (l - f) / 2) (f + (l - f) / 2 + (l - 1 - f + 1) / 8) y1 (by omega) (by omega) (by omega) (by omega)
    rw [a2, R.ok_bind]
    have := b2.len
    obtain ⟨y3, a3, b3⟩ := med3_spec (lt := lt) f l (l - 1 - (l - 1 - f + 1) / 8 * 2) (l - 1 - (l - 1 - f + 1) / 8) (l - 1) y2 (by omega) (by omega) (by omega) (by omega)
    rw [a3, R.ok_bind]
    have := b3.len
    obtain ⟨y4, a4, b4⟩ := med3_spec (lt := lt) f l (f + (l - 1 - f + 1) / 8) (f + (l - f) / 2) (l - 1 - (l - 1 - f + 1) / 8) y3 (by omega) (by omega) (by omega) (by omega)
    exact ⟨y4, a4, ((b1.trans b2).trans b3).trans b4⟩
  · exact med3_spec f l f _ _ xs (by omega) (by omega) (by omega) (by omega)

/-- Loop invariant of the three-way partition around (the class of) `v`. -/
structure PInv (lt : α → α → Bool) (v : α) (first last pf pl gf gl : Nat) (xs : List α) : Prop where
  b1 : first ≤ gl
  b2 : gl ≤ pf
  b3 : pf < pl
  b4 : pl ≤ gf
  b5 : gf ≤ last
  b6 : last ≤ xs.length
  eq1 : ∀ i (h : i < xs.length), pf ≤ i → i < pl → lt xs[i] v = false
  eq2 : ∀ i (h : i < xs.length), pf ≤ i → i < pl → lt v xs[i] = false
  lo : ∀ i (h : i < xs.length), gl ≤ i → i < pf → lt xs[i] v = true
  hi : ∀ i (h : i < xs.length), pl ≤ i → i < gf → lt v xs[i] = true

theorem SWO.lt_congr_left {lt : α → α → Bool} (h : SWO lt) {p v x : α} (h1 : lt p v = false) (h2 : lt v p = false) :
    lt p x = lt v x := by
  cases hv : lt v x with
  | true => exact h.lt_of_le_of_lt h2 hv
  | false => exact h.le_trans hv h1

theorem SWO.lt_congr_right {lt : α → α → Bool} (h : SWO lt) {p v x : α} (h1 : lt p v = false) (h2 : lt v p = false) :
    lt x p = lt x v := by
  cases hv : lt x v with
  | true => exact h.lt_of_lt_of_le hv h1
  | false => exact h.le_trans h2 hv

theorem partUp_spec {lt : α → α → Bool} (hlt : SWO lt) (v : α) (first last pf gl : Nat) :
    ∀ (k pl gf : Nat) (xs : List α) (_ : last - gf ≤ k) (_ : PInv lt v first last pf pl gf gl xs),
    ∃ ys pl' gf', partUp lt (full xs) pf pl gf last = .ok (full ys, pl', gf') ∧ SegPerm first last xs ys ∧
      PInv lt v first last pf pl' gf' gl ys ∧ gf ≤ gf' ∧
      (gf' = last ∨ ∃ h : gf' < ys.length, gf' < last ∧ lt ys[gf'] v = true) := by
  intro k
  induction k with
  | zero =>
    intro pl gf xs hk hI
    have := hI.b5
    unfold partUp
    rw [dif_neg (by omega)]
    exact ⟨xs, pl, gf, rfl, SegPerm.refl _ _ _, hI, by omega, Or.inl (by omega)⟩
  | succ k ih =>
    intro pl gf xs hk hI
    unfold partUp
    obtain ⟨b1, b2, b3, b4, b5, b6, eq1, eq2, lo, hi⟩ := hI
    split
    · rename_i hlt'
      have hp : pf < xs.length := by omega
      have hg : gf < xs.length := by omega
      rw [rd_full xs pf hp, R.ok_bind, rd_full xs gf hg, R.ok_bind]
      have c1 := hlt.lt_congr_left (x := xs[gf]) (eq1 pf hp (by omega) b3) (eq2 pf hp (by omega) b3)
      have c2 := hlt.lt_congr_right (x := xs[gf]) (eq1 pf hp (by omega) b3) (eq2 pf hp (by omega) b3)
      rw [c1, c2]
      split
      · rename_i hc
        obtain ⟨ys, pl', gf', h1, h2, h3, h4, h5⟩ := ih pl (gf+1) xs (by omega)
          ⟨b1, b2, b3, by omega, by omega, b6, eq1, eq2, lo, by
            intro i h hi1 hi2
            by_cases he : i = gf
            · subst he; exact hc
            · exact hi i h hi1 (by omega)⟩
        exact ⟨ys, pl', gf', h1, h2, h3, by omega, h5⟩
      · rename_i hc
        split
        · rename_i hc2
          exact ⟨xs, pl, gf, rfl, SegPerm.refl _ _ _, ⟨b1, b2, b3, b4, b5, b6, eq1, eq2, lo, hi⟩, by omega,
            Or.inr ⟨hg, hlt', hc2⟩⟩
        · rename_i hc2
          simp only [Bool.not_eq_true] at hc hc2
          split
          · rename_i hne
            rw [swp_full xs pl gf (by omega) hg, R.ok_bind]
            have hsw := fun k (hk : k < (swapL xs pl gf).length) => getElem_swapL xs pl gf k (by omega) hg hk
            have HH := ih (pl+1) (gf+1) (swapL xs pl gf) (by omega)
              ⟨b1, b2, by omega, by omega, by omega, by simpa using b6, by
                intro i h h1 h2; rw [hsw]; grind, by
                intro i h h1 h2; rw [hsw]; grind, by
                intro i h h1 h2; rw [hsw]; grind, by
                intro i h h1 h2; rw [hsw]; grind⟩
            obtain ⟨ys, pl', gf', h1, h2, h3, h4, h5⟩ := HH
            exact ⟨ys, pl', gf', h1, (SegPerm.swap xs (by omega) (by omega)).trans h2, h3, by omega, h5⟩
          · rename_i hne
            have hne : pl = gf := by omega
            subst hne
            obtain ⟨ys, pl', gf', h1, h2, h3, h4, h5⟩ := ih (pl+1) (pl+1) xs (by omega)
              ⟨b1, b2, by omega, by omega, by omega, b6, by grind, by grind, by grind, by grind⟩
            exact ⟨ys, pl', gf', h1, h2, h3, by omega, h5⟩
    · rename_i hnl
      exact ⟨xs, pl, gf, rfl, SegPerm.refl _ _ _, ⟨b1, b2, b3, b4, b5, b6, eq1, eq2, lo, hi⟩, by omega, Or.inl (by omega)⟩

theorem partDown_spec {lt : α → α → Bool} (hlt : SWO lt) (v : α) (first last pl gf : Nat) :
    ∀ (gl pf : Nat) (xs : List α) (_ : PInv lt v first last pf pl gf gl xs),
    ∃ ys pf' gl', partDown lt (full xs) first pf gl = .ok (full ys, pf', gl') ∧ SegPerm first gf xs ys ∧
      PInv lt v first last pf' pl gf gl' ys ∧ gl' ≤ gl ∧
      (gl' = first ∨ ∃ h : gl' - 1 < ys.length, first < gl' ∧ lt v ys[gl' - 1] = true) := by
  intro gl
  induction gl with
  | zero =>
    intro pf xs hI
    have := hI.b1
    unfold partDown
    rw [dif_neg (by omega)]
    exact ⟨xs, pf, 0, rfl, SegPerm.refl _ _ _, hI, by omega, Or.inl (by omega)⟩
  | succ gl ih =>
    intro pf xs hI
    unfold partDown
    obtain ⟨b1, b2, b3, b4, b5, b6, eq1, eq2, lo, hi⟩ := hI
    split
    · rename_i hlt'
      simp only [Nat.add_sub_cancel]
      have hp : pf < xs.length := by omega
      have hg : gl < xs.length := by omega
      rw [rd_full xs gl hg, R.ok_bind, rd_full xs pf hp, R.ok_bind]
      have c1 := hlt.lt_congr_left (x := xs[gl]) (eq1 pf hp (by omega) b3) (eq2 pf hp (by omega) b3)
      have c2 := hlt.lt_congr_right (x := xs[gl]) (eq1 pf hp (by omega) b3) (eq2 pf hp (by omega) b3)
      rw [c1, c2]
      split
      · rename_i hc
        obtain ⟨ys, pf', gl', h1, h2, h3, h4, h5⟩ := ih pf xs
          ⟨by omega, by omega, b3, b4, b5, b6, eq1, eq2, by
            intro i h hi1 hi2
            by_cases he : i = gl
            · subst he; exact hc
            · exact lo i h (by omega) (by omega), hi⟩
        exact ⟨ys, pf', gl', h1, h2, h3, by omega, h5⟩
      · rename_i hc
        split
        · rename_i hc2
          exact ⟨xs, pf, gl+1, rfl, SegPerm.refl _ _ _, ⟨b1, b2, b3, b4, b5, b6, eq1, eq2, lo, hi⟩, by omega,
            Or.inr ⟨hg, hlt', hc2⟩⟩
        · rename_i hc2
          simp only [Bool.not_eq_true] at hc hc2
          unfold decIt
          rw [if_neg (by omega), R.ok_bind]
          split
          · rename_i hne
            rw [swp_full xs (pf-1) gl (by omega) hg, R.ok_bind]
            have hsw := fun k (hk : k < (swapL xs (pf-1) gl).length) => getElem_swapL xs (pf-1) gl k (by omega) hg hk
            have HH := ih (pf-1) (swapL xs (pf-1) gl)
              ⟨by omega, by omega, by omega, by omega, by omega, by simpa using b6, by
                intro i h h1 h2; rw [hsw]; grind, by
                intro i h h1 h2; rw [hsw]; grind, by
                intro i h h1 h2; rw [hsw]; grind, by
                intro i h h1 h2; rw [hsw]; grind⟩
            obtain ⟨ys, pl', gf', h1, h2, h3, h4, h5⟩ := HH
            exact ⟨ys, pl', gf', h1, (SegPerm.swap xs (by omega) (by omega)).trans h2, h3, by omega, h5⟩
          · rename_i hne
            have hne : pf - 1 = gl := by omega
            obtain ⟨ys, pl', gf', h1, h2, h3, h4, h5⟩ := ih (pf-1) xs
              ⟨by omega, by omega, by omega, by omega, by omega, b6, by grind, by grind, by grind, by grind⟩
            exact ⟨ys, pl', gf', h1, h2, h3, by omega, h5⟩
    · rename_i hnl
      exact ⟨xs, pf, gl+1, rfl, SegPerm.refl _ _ _, ⟨b1, b2, b3, b4, b5, b6, eq1, eq2, lo, hi⟩, by omega, Or.inl (by omega)⟩

theorem partLoop_spec {lt : α → α → Bool} (hlt : SWO lt) (v : α) (first last : Nat) :
    ∀ (fuel pf pl gf gl : Nat) (xs : List α) (_ : (last - gf) + (gl - first) < fuel)
      (_ : PInv lt v first last pf pl gf gl xs),
    ∃ ys pf' pl', partLoop lt fuel (full xs) first last pf pl gf gl = .ok (full ys, pf', pl') ∧ SegPerm first last xs ys ∧
      PInv lt v first last pf' pl' last first ys := by
  intro fuel
  induction fuel with
  | zero => intro pf pl gf gl xs h; omega
  | succ fuel ih =>
    intro pf pl gf gl xs hf hI
    unfold partLoop
    obtain ⟨y1, pl1, gf1, e1, s1, I1, m1, r1⟩ := partUp_spec hlt v first last pf gl _ pl gf xs (Nat.le_refl _) hI
    rw [e1, R.ok_bind]
    dsimp only
    obtain ⟨y2, pf2, gl2, e2, s2, I2, m2, r2⟩ := partDown_spec hlt v first last pl1 gf1 gl pf y1 I1
    rw [e2, R.ok_bind]
    dsimp only
    have hI2 := I2
    obtain ⟨b1, b2, b3, b4, b5, b6, eq1, eq2, lo, hi⟩ := I2
    have s12 : SegPerm first last xs y2 := s1.trans (s2.mono (by omega) b5)
    have hl2 := s2.len
    -- the element that stopped the upward scan is untouched by the downward scan
    have r1' : gf1 = last ∨ ∃ h : gf1 < y2.length, gf1 < last ∧ lt y2[gf1] v = true := by
      rcases r1 with r | ⟨h, h', h''⟩
      · exact Or.inl r
      · refine Or.inr ⟨by omega, h', ?_⟩
        rw [s2.getElem_out gf1 (by omega)]; exact h''
    split
    · rename_i hc
      obtain ⟨c1, c2⟩ := hc
      subst c1; subst c2
      exact ⟨y2, pf2, pl1, rfl, s12, hI2⟩
    · rename_i hnc
      split
      · rename_i hgl
        obtain ⟨hg, hgl', hlo⟩ : ∃ h : gf1 < y2.length, gf1 < last ∧ lt y2[gf1] v = true := by
          rcases r1' with r | r
          · exact absurd ⟨hgl, r⟩ hnc
          · exact r
        have stepA : ∃ y3, swpIf (pl1 ≠ gf1) (full y2) pf2 pl1 = .ok (full y3) ∧
            SegPerm first last y2 y3 ∧ ∀ k (hk : k < y3.length) (hk2 : k < y2.length), y3[k] = if pl1 ≠ gf1 then (if k = pl1 then y2[pf2]'(by omega) else if k = pf2 then y2[pl1]'(by omega) else y2[k]) else y2[k] := by
          unfold swpIf
          split
          · rename_i hne
            refine ⟨_, swp_full y2 pf2 pl1 (by omega) (by omega), SegPerm.swap y2 (by omega) (by omega), ?_⟩
            intro k hk hk2
            rw [getElem_swapL y2 pf2 pl1 k (by omega) (by omega)]
          · exact ⟨y2, rfl, SegPerm.refl _ _ _, fun _ _ _ => rfl⟩
        obtain ⟨y3, e3, s3, g3⟩ := stepA
        have hl3 := s3.len
        rw [e3, R.ok_bind, swp_full y3 pf2 gf1 (by omega) (by omega), R.ok_bind]
        have hsw := fun k (hk : k < (swapL y3 pf2 gf1).length) => getElem_swapL y3 pf2 gf1 k (by omega) (by omega) hk
        have HH := ih (pf2+1) (pl1+1) (gf1+1) gl2 (swapL y3 pf2 gf1) (by omega)
          ⟨by omega, by omega, by omega, by omega, by omega, by simp; omega, by
            intro i h h1 h2; rw [hsw]; simp only [swapL_length] at h; grind, by
            intro i h h1 h2; rw [hsw]; simp only [swapL_length] at h; grind, by
            intro i h h1 h2; rw [hsw]; simp only [swapL_length] at h; grind, by
            intro i h h1 h2; rw [hsw]; simp only [swapL_length] at h; grind⟩
        obtain ⟨ys, pf', pl', h1, h2, h3⟩ := HH
        exact ⟨ys, pf', pl', h1, (s12.trans (s3.trans (SegPerm.swap y3 (by omega) (by omega)))).trans h2, h3⟩
      · rename_i hgl
        obtain ⟨hg, hgl', hhi⟩ : ∃ h : gl2 - 1 < y2.length, first < gl2 ∧ lt v y2[gl2 - 1] = true := by
          rcases r2 with r | r
          · exact absurd r hgl
          · exact r
        split
        · rename_i hgf
          have d1 : decIt gl2 = .ok (gl2 - 1) := by unfold decIt; rw [if_neg (by omega)]
          have d2 : decIt pf2 = .ok (pf2 - 1) := by unfold decIt; rw [if_neg (by omega)]
          have d3 : decIt pl1 = .ok (pl1 - 1) := by unfold decIt; rw [if_neg (by omega)]
          rw [d1, R.ok_bind, d2, R.ok_bind]
          have stepA : ∃ y3, swpIf (gl2 - 1 ≠ pf2 - 1) (full y2) (gl2 - 1) (pf2 - 1) = .ok (full y3) ∧
              SegPerm first last y2 y3 ∧ ∀ k (hk : k < y3.length) (hk2 : k < y2.length), y3[k] = if gl2 - 1 ≠ pf2 - 1 then (if k = pf2 - 1 then y2[gl2-1]'(by omega) else if k = gl2 - 1 then y2[pf2-1]'(by omega) else y2[k]) else y2[k] := by
            unfold swpIf
            split
            · rename_i hne
              refine ⟨_, swp_full y2 _ _ (by omega) (by omega), SegPerm.swap y2 (by omega) (by omega), ?_⟩
              intro k hk hk2
              rw [getElem_swapL y2 _ _ k (by omega) (by omega)]
            · exact ⟨y2, rfl, SegPerm.refl _ _ _, fun _ _ _ => rfl⟩
          obtain ⟨y3, e3, s3, g3⟩ := stepA
          have hl3 := s3.len
          rw [e3, R.ok_bind, d3, R.ok_bind, swp_full y3 (pf2-1) (pl1-1) (by omega) (by omega), R.ok_bind]
          have hsw := fun k (hk : k < (swapL y3 (pf2-1) (pl1-1)).length) => getElem_swapL y3 (pf2-1) (pl1-1) k (by omega) (by omega) hk
          have HH := ih (pf2-1) (pl1-1) gf1 (gl2-1) (swapL y3 (pf2-1) (pl1-1)) (by omega)
            ⟨by omega, by omega, by omega, by omega, by omega, by simp; omega, by
              intro i h h1 h2; rw [hsw]; simp only [swapL_length] at h; grind, by
              intro i h h1 h2; rw [hsw]; simp only [swapL_length] at h; grind, by
              intro i h h1 h2; rw [hsw]; simp only [swapL_length] at h; grind, by
              intro i h h1 h2; rw [hsw]; simp only [swapL_length] at h; grind⟩
          obtain ⟨ys, pf', pl', h1, h2, h3⟩ := HH
          exact ⟨ys, pf', pl', h1, (s12.trans (s3.trans (SegPerm.swap y3 (by omega) (by omega)))).trans h2, h3⟩
        · rename_i hgf
          obtain ⟨hg1, hgl1, hlo⟩ : ∃ h : gf1 < y2.length, gf1 < last ∧ lt y2[gf1] v = true := by
            rcases r1' with r | r
            · exact absurd r hgf
            · exact r
          have d1 : decIt gl2 = .ok (gl2 - 1) := by unfold decIt; rw [if_neg (by omega)]
          rw [d1, R.ok_bind, swp_full y2 gf1 (gl2-1) (by omega) (by omega), R.ok_bind]
          have hsw := fun k (hk : k < (swapL y2 gf1 (gl2-1)).length) => getElem_swapL y2 gf1 (gl2-1) k (by omega) (by omega) hk
          have HH := ih pf2 pl1 (gf1+1) (gl2-1) (swapL y2 gf1 (gl2-1)) (by omega)
            ⟨by omega, by omega, by omega, by omega, by omega, by simp; omega, by
              intro i h h1 h2; rw [hsw]; simp only [swapL_length] at h; grind, by
              intro i h h1 h2; rw [hsw]; simp only [swapL_length] at h; grind, by
              intro i h h1 h2; rw [hsw]; simp only [swapL_length] at h; grind, by
              intro i h h1 h2; rw [hsw]; simp only [swapL_length] at h; grind⟩
          obtain ⟨ys, pf', pl', h1, h2, h3⟩ := HH
          exact ⟨ys, pf', pl', h1, (s12.trans (SegPerm.swap y2 (by omega) (by omega))).trans h2, h3⟩

theorem pivotDown_spec {lt : α → α → Bool} (hlt : SWO lt) (v : α) (first : Nat) (xs : List α) :
    ∀ (k pf pl : Nat) (_ : pf ≤ k) (_ : first ≤ pf) (_ : pf < pl) (_ : pl ≤ xs.length)
      (_ : ∀ i (h : i < xs.length), pf ≤ i → i < pl → lt xs[i] v = false ∧ lt v xs[i] = false),
    ∃ pf', pivotDown lt (full xs) first pf = .ok pf' ∧ first ≤ pf' ∧ pf' ≤ pf ∧
      (∀ i (h : i < xs.length), pf' ≤ i → i < pl → lt xs[i] v = false ∧ lt v xs[i] = false) := by
  intro k
  induction k with
  | zero =>
    intro pf pl hk hf hpl hl h
    unfold pivotDown
    rw [dif_neg (by omega)]
    exact ⟨pf, rfl, hf, by omega, h⟩
  | succ k ih =>
    intro pf pl hk hf hpl hl h
    unfold pivotDown
    split
    · rename_i hlt'
      have hp : pf < xs.length := by omega
      rw [rd_full xs (pf-1) (by omega), R.ok_bind, rd_full xs pf hp, R.ok_bind]
      obtain ⟨q1, q2⟩ := h pf hp (by omega) hpl
      rw [hlt.lt_congr_left q1 q2, hlt.lt_congr_right q1 q2]
      split
      · exact ⟨pf, rfl, hf, by omega, h⟩
      · split
        · exact ⟨pf, rfl, hf, by omega, h⟩
        · rename_i c1 c2
          obtain ⟨pf', h1, h2, h3, h4⟩ := ih (pf-1) pl (by omega) (by omega) (by omega) hl (by
            intro i hi hi1 hi2
            by_cases he : i = pf - 1
            · subst he; exact ⟨by simpa using c1, by simpa using c2⟩
            · exact h i hi (by omega) hi2)
          exact ⟨pf', h1, h2, by omega, h4⟩
    · exact ⟨pf, rfl, hf, by omega, h⟩

theorem pivotUp_spec {lt : α → α → Bool} (hlt : SWO lt) (v : α) (pf last : Nat) (xs : List α) (hl : last ≤ xs.length) :
    ∀ (k pl : Nat) (_ : last - pl ≤ k) (_ : pl ≤ last) (_ : pf < pl)
      (_ : ∀ i (h : i < xs.length), pf ≤ i → i < pl → lt xs[i] v = false ∧ lt v xs[i] = false),
    ∃ pl', pivotUp lt (full xs) pf pl last = .ok pl' ∧ pl ≤ pl' ∧ pl' ≤ last ∧
      (∀ i (h : i < xs.length), pf ≤ i → i < pl' → lt xs[i] v = false ∧ lt v xs[i] = false) := by
  intro k
  induction k with
  | zero =>
    intro pl hk hf hpl h
    unfold pivotUp
    rw [dif_neg (by omega)]
    exact ⟨pl, rfl, by omega, hf, h⟩
  | succ k ih =>
    intro pl hk hf hpl h
    unfold pivotUp
    split
    · rename_i hlt'
      have hp : pf < xs.length := by omega
      rw [rd_full xs pl (by omega), R.ok_bind, rd_full xs pf hp, R.ok_bind]
      obtain ⟨q1, q2⟩ := h pf hp (by omega) hpl
      rw [hlt.lt_congr_left q1 q2, hlt.lt_congr_right q1 q2]
      split
      · exact ⟨pl, rfl, by omega, hf, h⟩
      · split
        · exact ⟨pl, rfl, by omega, hf, h⟩
        · rename_i c1 c2
          obtain ⟨pl', h1, h2, h3, h4⟩ := ih (pl+1) (by omega) (by omega) (by omega) (by
            intro i hi hi1 hi2
            by_cases he : i = pl
            · subst he; exact ⟨by simpa using c1, by simpa using c2⟩
            · exact h i hi hi1 (by omega))
          exact ⟨pl', h1, by omega, h3, h4⟩
    · exact ⟨pl, rfl, by omega, hf, h⟩

theorem partitionByPivot_spec {lt : α → α → Bool} (hlt : SWO lt) (first last pivot : Nat) (xs : List α)
    (h1 : first ≤ pivot) (h2 : pivot < last) (hl : last ≤ xs.length) :
    ∃ ys pf pl, partitionByPivot lt (full xs) first pivot last = .ok (full ys, pf, pl) ∧ SegPerm first last xs ys ∧
      PInv lt (xs[pivot]'(by omega)) first last pf pl last first ys := by
  unfold partitionByPivot
  dsimp only
  have hp : pivot < xs.length := by omega
  obtain ⟨pf, e1, b1, b2, b3⟩ := pivotDown_spec hlt xs[pivot] first xs pivot pivot (pivot+1) (by omega) h1 (by omega) (by omega) (by
    intro i hi hi1 hi2
    have : i = pivot := by omega
    subst this
    exact ⟨hlt.irrefl _, hlt.irrefl _⟩)
  rw [e1, R.ok_bind]
  obtain ⟨pl, e2, c1, c2, c3⟩ := pivotUp_spec hlt xs[pivot] pf last xs hl _ (pivot+1) (Nat.le_refl _) (by omega) (by omega) b3
  rw [e2, R.ok_bind]
  exact partLoop_spec hlt xs[pivot] first last _ pf pl pl pf xs (by omega)
    ⟨b1, by omega, by omega, by omega, c2, hl, fun i h x y => (c3 i h x y).1, fun i h x y => (c3 i h x y).2, by
      intro i h x y; omega, by intro i h x y; omega⟩

theorem partitionByMedianGuess_spec {lt : α → α → Bool} (hlt : SWO lt) (first last : Nat) (xs : List α)
    (h1 : first < last) (hl : last ≤ xs.length) :
    ∃ ys pf pl v, partitionByMedianGuess lt (full xs) first last = .ok (full ys, pf, pl) ∧ SegPerm first last xs ys ∧
      PInv lt v first last pf pl last first ys := by
  unfold partitionByMedianGuess
  have d1 : decIt last = .ok (last - 1) := by unfold decIt; rw [if_neg (by omega)]
  dsimp only
  rw [d1, R.ok_bind]
  obtain ⟨ys, e1, s1⟩ := guessMedian_spec (lt := lt) first last xs h1 hl
  have := s1.len
  rw [e1, R.ok_bind]
  obtain ⟨zs, pf, pl, e2, s2, I⟩ := partitionByPivot_spec hlt first last (first + (last - first) / 2) ys (by omega) (by omega) (by omega)
  exact ⟨zs, pf, pl, _, e2, s1.trans s2, I⟩

/-- Gluing: sorted lower part, an equal block, sorted upper part. -/
theorem sorted_glue {lt : α → α → Bool} (hlt : SWO lt) {v : α} {first last pf pl : Nat} {ys zs : List α}
    (hI : PInv lt v first last pf pl last first ys) (hlen : zs.length = ys.length)
    (hlo : ∀ i (h : i < zs.length), first ≤ i → i < pf → lt zs[i] v = true)
    (hhi : ∀ i (h : i < zs.length), pl ≤ i → i < last → lt v zs[i] = true)
    (heq : ∀ i, pf ≤ i → i < pl → zs[i]? = ys[i]?)
    (s1 : SortedOn lt first pf zs) (s2 : SortedOn lt pl last zs) : SortedOn lt first last zs := by
  have hb := hI.b6
  have heq' : ∀ i (h : i < zs.length), pf ≤ i → i < pl → lt zs[i] v = false ∧ lt v zs[i] = false := by
    intro i h a b
    have := heq i a b
    rw [List.getElem?_eq_getElem h, List.getElem?_eq_getElem (by omega)] at this
    rw [Option.some.inj this]
    exact ⟨hI.eq1 i (by omega) a b, hI.eq2 i (by omega) a b⟩
  intro i j hj hi hij hjl
  have hil : i < zs.length := by omega
  by_cases c1 : j < pf
  · exact s1 i j hj hi hij c1
  · by_cases c2 : pl ≤ i
    · exact s2 i j hj c2 hij hjl
    · -- `zs[i] ≤ v ≤ zs[j]`
      have a1 : lt v zs[i] = false := by
        by_cases c3 : i < pf
        · exact hlt.asymm (hlo i hil hi c3)
        · exact (heq' i hil (by omega) (by omega)).2
      have a2 : lt zs[j] v = false := by
        by_cases c3 : j < pl
        · exact (heq' j hj (by omega) c3).1
        · exact hlt.asymm (hhi j hj (by omega) hjl)
      exact hlt.le_trans a1 a2

theorem sortUnchecked_spec {lt : α → α → Bool} (hlt : SWO lt) :
    ∀ (fuel first last ideal : Nat) (xs : List α) (_ : last - first < fuel) (_ : last ≤ xs.length),
    ∃ ys, sortUnchecked lt fuel (full xs) first last ideal = .ok (full ys) ∧ SegPerm first last xs ys ∧
      SortedOn lt first last ys := by
  intro fuel
  induction fuel with
  | zero => intro first last ideal xs h; omega
  | succ fuel ih =>
    intro first last ideal xs hf hl
    unfold sortUnchecked
    split
    · obtain ⟨ys, h1, h2, _, h3⟩ := insertionSort_spec hlt first last xs hl
      exact ⟨ys, h1, h2, h3⟩
    · rename_i hsz
      split
      · obtain ⟨ys, h1, h2, h3⟩ := makeHeap_spec hlt first last xs (by unfold isortMax at hsz; omega) hl
        rw [h1, R.ok_bind]
        obtain ⟨zs, g1, g2, g3⟩ := sortHeap_spec hlt first last ys (by have := h2.len; omega) h3
        exact ⟨zs, g1, h2.trans g2, g3⟩
      · obtain ⟨ys, pf, pl, v, h1, h2, hI⟩ := partitionByMedianGuess_spec hlt first last xs (by unfold isortMax at hsz; omega) hl
        rw [h1, R.ok_bind]
        dsimp only
        have ⟨b1, b2, b3, b4, b5, b6, eq1, eq2, lo, hi⟩ := hI
        split
        · obtain ⟨z1, e1, s1, t1⟩ := ih first pf (ideal/2 + ideal/4) ys (by omega) (by omega)
          rw [e1, R.ok_bind]
          have l1 := s1.len
          obtain ⟨z2, e2, s2, t2⟩ := ih pl last (ideal/2 + ideal/4) z1 (by omega) (by omega)
          have l2 := s2.len
          refine ⟨z2, e2, h2.trans ((s1.mono (by omega) (by omega)).trans (s2.mono (by omega) (by omega))), ?_⟩
          refine sorted_glue hlt hI (by omega) ?_ ?_ ?_ ?_ t2
          · intro i h x y
            rw [s2.getElem_out i (by omega)]
            exact s1.forall_seg (P := fun x => lt x v = true) (fun i h x y => lo i h x y) i (by omega) x y
          · refine s2.forall_seg (P := fun x => lt v x = true) ?_
            intro i h x y
            rw [s1.getElem_out i (by omega)]
            exact hi i (by omega) x y
          · intro i x y
            rw [s2.out i (by omega), s1.out i (by omega)]
          · intro i j hj x y z
            rw [s2.getElem_out i (by omega), s2.getElem_out j (by omega)]
            exact t1 i j (by omega) x y z
        · obtain ⟨z1, e1, s1, t1⟩ := ih pl last (ideal/2 + ideal/4) ys (by omega) (by omega)
          rw [e1, R.ok_bind]
          have l1 := s1.len
          obtain ⟨z2, e2, s2, t2⟩ := ih first pf (ideal/2 + ideal/4) z1 (by omega) (by omega)
          have l2 := s2.len
          refine ⟨z2, e2, h2.trans ((s1.mono (by omega) (by omega)).trans (s2.mono (by omega) (by omega))), ?_⟩
          refine sorted_glue hlt hI (by omega) ?_ ?_ ?_ t2 ?_
          · refine s2.forall_seg (P := fun x => lt x v = true) ?_
            intro i h x y
            rw [s1.getElem_out i (by omega)]
            exact lo i (by omega) x y
          · intro i h x y
            rw [s2.getElem_out i (by omega)]
            exact s1.forall_seg (P := fun x => lt v x = true) (fun i h x y => hi i h x y) i (by omega) x y
          · intro i x y
            rw [s2.out i (by omega), s1.out i (by omega)]
          · intro i j hj x y z
            rw [s2.getElem_out i (by omega), s2.getElem_out j (by omega)]
            exact t1 i j (by omega) x y z

end STL
