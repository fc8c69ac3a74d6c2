import Verif.Num.Model
import Verif.Bits.Count
import Verif.Tac

/-! # Mixed-type comparisons: proofs -/

namespace STL.Num
open STL
open STL.Mds (IT)

/-- `v` is a value of the type `t`. -/
def Fits (t : IT) (v : Int) : Prop := if t.sg then -(2 ^ (t.w - 1) : Int) ≤ v ∧ v < 2 ^ (t.w - 1) else 0 ≤ v ∧ v < 2 ^ t.w

/-- `signed char` … `unsigned long long`. -/
def Std (t : IT) : Prop := Bits.StdW t.w

theorem conv_fits {t : IT} (ht : Std t) {v : Int} (h : Fits t v) : t.conv v = v := by
  obtain ⟨sg, w⟩ := t
  unfold Fits at h
  unfold IT.conv toS toU
  rcases ht with e | e | e | e <;> simp only at e <;> subst e <;> cases sg <;> simp at h ⊢ <;> omega

theorem std_usual {a b : IT} (ha : Std a) (hb : Std b) : Std (usual a b) := by
  obtain ⟨sa, wa⟩ := a
  obtain ⟨sb, wb⟩ := b
  unfold usual promote int
  rcases ha with e | e | e | e <;> simp only at e <;> subst e <;> rcases hb with e | e | e | e <;> simp only at e <;> subst e <;> simp [Std, Bits.StdW]

/-- The usual conversions keep the values unless a negative value meets an unsigned type. -/
theorem fits_usual_l {a b : IT} (ha : Std a) (hb : Std b) (hs : a.sg = b.sg) {v : Int} (h : Fits a v) : Fits (usual a b) v := by
  obtain ⟨sa, wa⟩ := a
  obtain ⟨sb, wb⟩ := b
  simp only at hs; subst hs
  unfold usual promote int
  unfold Fits at h ⊢
  rcases ha with e | e | e | e <;> simp only at e <;> subst e <;> rcases hb with e | e | e | e <;> simp only at e <;> subst e <;> cases sa <;> simp at h ⊢ <;> omega

theorem fits_usual_r {a b : IT} (ha : Std a) (hb : Std b) (hs : a.sg = b.sg) {v : Int} (h : Fits b v) : Fits (usual a b) v := by
  obtain ⟨sa, wa⟩ := a
  obtain ⟨sb, wb⟩ := b
  simp only at hs; subst hs
  unfold usual promote int
  unfold Fits at h ⊢
  rcases ha with e | e | e | e <;> simp only at e <;> subst e <;> rcases hb with e | e | e | e <;> simp only at e <;> subst e <;> cases sa <;> simp at h ⊢ <;> omega

theorem eqI_same {a b : IT} (ha : Std a) (hb : Std b) (hs : a.sg = b.sg) {x y : Int} (hx : Fits a x) (hy : Fits b y) : eqI a x b y = decide (x = y) := by
  unfold eqI
  rw [conv_fits (std_usual ha hb) (fits_usual_l ha hb hs hx), conv_fits (std_usual ha hb) (fits_usual_r ha hb hs hy)]

theorem ltI_same {a b : IT} (ha : Std a) (hb : Std b) (hs : a.sg = b.sg) {x y : Int} (hx : Fits a x) (hy : Fits b y) : ltI a x b y = decide (x < y) := by
  unfold ltI
  rw [conv_fits (std_usual ha hb) (fits_usual_l ha hb hs hx), conv_fits (std_usual ha hb) (fits_usual_r ha hb hs hy)]

theorem std_int : Std int := Or.inr (Or.inr (Or.inl rfl))
theorem std_uns {t : IT} (h : Std t) : Std t.uns := h

theorem ltI_zero {a : IT} (ha : Std a) (hs : a.sg = true) {x : Int} (hx : Fits a x) : ltI a x int 0 = decide (x < 0) :=
  ltI_same ha std_int hs hx (by unfold Fits int; simp)

theorem ltI_zero' {a : IT} (ha : Std a) (hs : a.sg = true) {x : Int} (hx : Fits a x) : ltI int 0 a x = decide (0 < x) :=
  ltI_same std_int ha hs.symm (by unfold Fits int; simp) hx

theorem uns_conv {t : IT} (ht : Std t) (hs : t.sg = true) {x : Int} (hx : Fits t x) : Fits t.uns (t.uns.conv x) ∧ (t.uns.conv x = if x < 0 then x + 2 ^ t.w else x) := by
  obtain ⟨sg, w⟩ := t
  simp only at hs; subst hs
  unfold Fits at hx ⊢
  unfold IT.conv toU IT.uns
  rcases ht with e | e | e | e <;> simp only at e <;> subst e <;> simp at hx ⊢ <;> split <;> omega

theorem fits_nonneg {t : IT} (hs : t.sg = false) {x : Int} (hx : Fits t x) : 0 ≤ x := by
  unfold Fits at hx; simp [hs] at hx; exact hx.1

theorem cmpEqual_ok {a b : IT} (ha : Std a) (hb : Std b) {x y : Int} (hx : Fits a x) (hy : Fits b y) : cmpEqual a b x y = decide (x = y) := by
  unfold cmpEqual
  by_cases hs : a.sg = b.sg
  · rw [if_pos hs]; exact eqI_same ha hb hs hx hy
  · rw [if_neg hs]
    by_cases hb' : b.sg = true
    · have ha' : a.sg = false := by cases h : a.sg <;> simp_all
      obtain ⟨f, e⟩ := uns_conv hb hb' hy
      rw [if_pos hb', eqI_same ha (std_uns hb) ha' hx f, ltI_zero hb hb' hy, e]
      have := fits_nonneg ha' hx
      have hp : (0 : Int) < 2 ^ b.w := by positivity
      rw [Bool.eq_iff_iff]
      simp only [Bool.and_eq_true, Bool.or_eq_true, Bool.not_eq_true', decide_eq_true_eq, decide_eq_false_iff_not]
      split <;> omega
    · have hb' : b.sg = false := by cases h : b.sg <;> simp_all
      have ha' : a.sg = true := by cases h : a.sg <;> simp_all
      obtain ⟨f, e⟩ := uns_conv ha ha' hx
      rw [if_neg (by simp [hb']), eqI_same (std_uns ha) hb (by simp [IT.uns, hb']) f hy, ltI_zero ha ha' hx, e]
      have := fits_nonneg hb' hy
      rw [Bool.eq_iff_iff]
      simp only [Bool.and_eq_true, Bool.or_eq_true, Bool.not_eq_true', decide_eq_true_eq, decide_eq_false_iff_not]
      split <;> omega

theorem cmpLess_ok {a b : IT} (ha : Std a) (hb : Std b) {x y : Int} (hx : Fits a x) (hy : Fits b y) : cmpLess a b x y = decide (x < y) := by
  unfold cmpLess
  by_cases hs : a.sg = b.sg
  · rw [if_pos hs]; exact ltI_same ha hb hs hx hy
  · rw [if_neg hs]
    by_cases hb' : b.sg = true
    · have ha' : a.sg = false := by cases h : a.sg <;> simp_all
      obtain ⟨f, e⟩ := uns_conv hb hb' hy
      rw [if_pos hb', ltI_same ha (std_uns hb) ha' hx f, ltI_zero' hb hb' hy, e]
      have := fits_nonneg ha' hx
      rw [Bool.eq_iff_iff]
      simp only [Bool.and_eq_true, Bool.or_eq_true, Bool.not_eq_true', decide_eq_true_eq, decide_eq_false_iff_not]
      split <;> omega
    · have hb' : b.sg = false := by cases h : b.sg <;> simp_all
      have ha' : a.sg = true := by cases h : a.sg <;> simp_all
      obtain ⟨f, e⟩ := uns_conv ha ha' hx
      rw [if_neg (by simp [hb']), ltI_same (std_uns ha) hb (by simp [IT.uns, hb']) f hy, ltI_zero ha ha' hx, e]
      have := fits_nonneg hb' hy
      rw [Bool.eq_iff_iff]
      simp only [Bool.and_eq_true, Bool.or_eq_true, Bool.not_eq_true', decide_eq_true_eq, decide_eq_false_iff_not]
      split <;> omega

theorem minLimit_ok {t : IT} (ht : Std t) : minLimit t = if t.sg then -(2 ^ (t.w - 1) : Int) else 0 := by
  obtain ⟨sg, w⟩ := t
  unfold minLimit IT.conv toU toS IT.uns
  rcases ht with e | e | e | e <;> simp only at e <;> subst e <;> cases sg <;> simp

theorem maxLimit_ok {t : IT} (ht : Std t) : maxLimit t = if t.sg then (2 ^ (t.w - 1) : Int) - 1 else 2 ^ t.w - 1 := by
  obtain ⟨sg, w⟩ := t
  unfold maxLimit IT.conv toU toS IT.uns
  rcases ht with e | e | e | e <;> simp only at e <;> subst e <;> cases sg <;> simp

theorem fits_iff_limits {t : IT} (ht : Std t) {v : Int} : Fits t v ↔ minLimit t ≤ v ∧ v ≤ maxLimit t := by
  rw [minLimit_ok ht, maxLimit_ok ht]; unfold Fits
  split <;> constructor <;> intro h <;> omega

theorem limits_le {t : IT} (ht : Std t) : minLimit t ≤ 0 ∧ 0 ≤ maxLimit t ∧ Fits t (minLimit t) ∧ Fits t (maxLimit t) := by
  have : minLimit t ≤ 0 ∧ 0 ≤ maxLimit t := by
    rw [minLimit_ok ht, maxLimit_ok ht]
    obtain ⟨sg, w⟩ := t
    rcases ht with e | e | e | e <;> simp only at e <;> subst e <;> cases sg <;> simp
  exact ⟨this.1, this.2, (fits_iff_limits ht).2 ⟨le_refl _, by omega⟩, (fits_iff_limits ht).2 ⟨by omega, le_refl _⟩⟩

theorem inRange_ok {r t : IT} (hr : Std r) (ht : Std t) {v : Int} (hv : Fits t v) : inRange r t v = true ↔ Fits r v := by
  obtain ⟨a1, a2, a3, a4⟩ := limits_le hr
  obtain ⟨b1, b2, b3, b4⟩ := limits_le ht
  have hv' := (fits_iff_limits ht).1 hv
  unfold inRange cmpGreater
  rw [cmpLess_ok ht hr b3 a3, cmpLess_ok hr ht a4 b4, fits_iff_limits hr]
  by_cases h1 : minLimit t < minLimit r
  · have hf : Fits t (minLimit r) := (fits_iff_limits ht).2 ⟨by omega, by omega⟩
    rw [conv_fits ht hf, ltI_same ht ht rfl hv hf]
    by_cases h2 : maxLimit r < maxLimit t
    · have hg : Fits t (maxLimit r) := (fits_iff_limits ht).2 ⟨by omega, by omega⟩
      rw [conv_fits ht hg, ltI_same ht ht rfl hg hv]
      simp [h1, h2]
    · simp [h1, h2]; omega
  · by_cases h2 : maxLimit r < maxLimit t
    · have hg : Fits t (maxLimit r) := (fits_iff_limits ht).2 ⟨by omega, by omega⟩
      rw [conv_fits ht hg, ltI_same ht ht rfl hg hv]
      simp [h1, h2]; omega
    · simp [h1, h2]; omega

/-! ## `midpoint` -/

theorem arith_fits {t : IT} (ht : Std t) {v : Int} (h : Fits t v) : t.arith v = .ok v := by
  obtain ⟨sg, w⟩ := t
  unfold Fits at h
  unfold IT.arith chkI chkS toU
  rcases ht with e | e | e | e <;> simp only at e <;> subst e <;> cases sg <;> simp at h ⊢ <;> omega

/-- Subtraction in the unsigned type of two values, the larger one first. -/
theorem sub_uns {t : IT} (ht : Std t) {x y : Int} (hx : Fits t x) (hy : Fits t y) (h : y ≤ x) :
    ∃ d, t.uns.arith (t.uns.conv x - t.uns.conv y) = .ok d ∧ t.uns.conv d = x - y := by
  obtain ⟨sg, w⟩ := t
  unfold Fits at hx hy
  unfold IT.arith IT.conv IT.uns chkI chkS toU
  rcases ht with e | e | e | e <;> simp only at e <;> subst e <;> cases sg <;> simp at hx hy ⊢ <;>
    first
    | omega
    | (rw [if_pos (by omega)]; refine ⟨_, rfl, ?_⟩; omega)

theorem half_fits {t : IT} (ht : Std t) {x y : Int} (hx : Fits t x) (hy : Fits t y) (h : y ≤ x) : Fits t ((x - y) / 2) := by
  obtain ⟨sg, w⟩ := t
  unfold Fits at hx hy ⊢
  rcases ht with e | e | e | e <;> simp only at e <;> subst e <;> cases sg <;> simp at hx hy ⊢ <;> omega

theorem fits_between {t : IT} {x y z : Int} (hx : Fits t x) (hy : Fits t y) (h1 : x ≤ z) (h2 : z ≤ y) : Fits t z := by
  unfold Fits at *; split at hx <;> simp_all <;> omega

theorem midpoint_ok {t : IT} (ht : Std t) {x y : Int} (hx : Fits t x) (hy : Fits t y) :
    midpoint t x y = .ok (if x ≤ y then (x + y) / 2 else -((-(x + y)) / 2)) := by
  unfold midpoint
  rw [ltI_same ht ht rfl hy hx]
  by_cases h : y < x
  · simp only [h, decide_true, if_true, show ¬ x ≤ y by omega, if_false]
    obtain ⟨d, e1, e2⟩ := sub_uns ht hx hy (by omega)
    have hf : Fits t (x - (x - y) / 2) := fits_between hy hx (by omega) (by omega)
    rw [e1]; simp only [R.ok_bind]
    rw [e2, conv_fits ht (half_fits ht hx hy (by omega)), arith_fits ht hf]; simp only [R.ok_bind]
    rw [conv_fits ht hf]; congr 1; omega
  · simp only [h, decide_false, Bool.false_eq_true, if_false, show x ≤ y by omega, if_true]
    obtain ⟨d, e1, e2⟩ := sub_uns ht hy hx (by omega)
    have hf : Fits t (x + (y - x) / 2) := fits_between hx hy (by omega) (by omega)
    rw [e1]; simp only [R.ok_bind]
    rw [e2, conv_fits ht (half_fits ht hy hx (by omega)), arith_fits ht hf]; simp only [R.ok_bind]
    rw [conv_fits ht hf]; congr 1; omega

theorem midpointPtr_ok {len x y : Nat} (hl : len < 2 ^ 63) (hx : x ≤ len) (hy : y ≤ len) :
    midpointPtr len x y = .ok (if x ≤ y then (x + y) / 2 else (x + y + 1) / 2) := by
  unfold midpointPtr ptrAdd sar
  split
  · rw [chkL_ok (by omega)]
    simp only [R.ok_bind]
    rw [if_pos (by omega), if_neg (by omega)]; congr 1; omega
  · rw [chkL_ok (by omega)]
    simp only [R.ok_bind]
    rw [if_pos (by omega), if_pos (by omega)]; congr 1; omega

end STL.Num
