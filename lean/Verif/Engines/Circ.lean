import Verif.Engines.Model
import Mathlib.Logic.Function.Iterate

/-! # C51: the circular history buffer (proofs) -/

namespace STL.Engines

theorem forUp_inv {σ : Type _} {body : Nat → σ → Option σ} (I : Nat → σ → Prop) :
    ∀ (cnt lo : Nat) (s : σ),
      (∀ i s, lo ≤ i → i < lo + cnt → I i s → ∃ s', body i s = some s' ∧ I (i + 1) s') →
      I lo s → ∃ s', forUp body cnt lo s = some s' ∧ I (lo + cnt) s' := by
  intro cnt
  induction cnt with
  | zero => intro lo s _ hs; exact ⟨s, rfl, hs⟩
  | succ cnt ih =>
    intro lo s h hs
    obtain ⟨s1, e1, i1⟩ := h lo s (Nat.le_refl _) (by omega) hs
    obtain ⟨s2, e2, i2⟩ := ih (lo + 1) s1 (fun i s h1 h2 h3 => h i s (by omega) (by omega) h3) i1
    refine ⟨s2, ?_, ?_⟩
    · rw [forUp, e1]; exact e2
    · rw [show lo + (cnt + 1) = lo + 1 + cnt by omega]; exact i2

theorem wr_some {α : Type _} {a : List α} {i : Nat} (v : α) (h : i < a.length) : wr a i v = some (a.set i v) := by
  unfold wr; rw [if_pos h]

/-- The history buffer of an engine between calls. -/
structure CircOk {D : Nat} (nw : Nat) (e : Circ D) : Prop where
  pos : 0 < nw
  len : e.ax.length = 2 * nw
  lo : 1 ≤ e.idx
  hi : e.idx ≤ 2 * nw

theorem CircOk.base_lt {D nw : Nat} {e : Circ D} (h : CircOk nw e) (j : Nat) (hj : j < nw) :
    e.base nw j < e.ax.length := by
  obtain ⟨h0, h1, h2, h3⟩ := h
  unfold Circ.base
  simp only []
  split <;> omega

theorem CircOk.at_some {D nw : Nat} {e : Circ D} (h : CircOk nw e) (j : Nat) (hj : j < nw) :
    ∃ v, e.at nw j = some v :=
  ⟨_, List.getElem?_eq_getElem (h.base_lt j hj)⟩

theorem mapM_range {α : Type _} (f : Nat → Option α) (n : Nat) :
    (∀ j, j < n → ∃ v, f j = some v) →
    ∃ l, (List.range n).mapM f = some l ∧ l.length = n ∧ ∀ j, j < n → l[j]? = f j := by
  induction n with
  | zero => intro _; exact ⟨[], rfl, rfl, fun j hj => absurd hj (by omega)⟩
  | succ n ih =>
    intro h
    obtain ⟨l, h1, h2, h3⟩ := ih (fun j hj => h j (by omega))
    obtain ⟨v, hv⟩ := h n (by omega)
    refine ⟨l ++ [v], ?_, by simp [h2], ?_⟩
    · rw [List.range_succ, List.mapM_append, h1]
      simp [hv]
    · intro j hj
      by_cases hjn : j < n
      · rw [List.getElem?_append_left (by omega), h3 j hjn]
      · have : j = n := by omega
        subst this
        rw [List.getElem?_append_right (by omega), h2, hv]
        simp

theorem CircOk.save_some {D nw : Nat} {e : Circ D} (h : CircOk nw e) :
    ∃ l, e.save nw = some l ∧ l.length = nw ∧ ∀ j, j < nw → l[j]? = e.at nw j :=
  mapM_range _ _ h.at_some

theorem scanEq_spec {D : Nat} (a b : List (BitVec D)) : ∀ (cnt f o : Nat), f + cnt ≤ a.length → o + cnt ≤ b.length →
    ∃ r, scanEq a b cnt f o = some r ∧ (r = true ↔ ∀ k, k < cnt → a[f + k]? = b[o + k]?) := by
  intro cnt
  induction cnt with
  | zero => intro f o _ _; exact ⟨true, rfl, by simp⟩
  | succ cnt ih =>
    intro f o hf ho
    rw [scanEq, List.getElem?_eq_getElem (show f < a.length by omega),
      List.getElem?_eq_getElem (show o < b.length by omega)]
    simp only [Option.bind_some]
    by_cases hne : a[f]'(by omega) ≠ b[o]'(by omega)
    · rw [if_pos hne]
      refine ⟨false, rfl, ?_⟩
      simp only [Bool.false_eq_true, false_iff]
      intro hk
      have := hk 0 (by omega)
      rw [Nat.add_zero, Nat.add_zero, List.getElem?_eq_getElem (show f < a.length by omega),
        List.getElem?_eq_getElem (show o < b.length by omega)] at this
      exact hne (Option.some.inj this)
    · rw [if_neg hne]
      obtain ⟨r, hr, hiff⟩ := ih (f + 1) (o + 1) (by omega) (by omega)
      refine ⟨r, hr, hiff.trans ⟨fun hk k hkc => ?_, fun hk k hkc => ?_⟩⟩
      · rcases k with _ | k
        · rw [Nat.add_zero, Nat.add_zero, List.getElem?_eq_getElem (show f < a.length by omega),
            List.getElem?_eq_getElem (show o < b.length by omega)]
          exact congrArg some (not_not.1 hne)
        · have := hk k (by omega)
          rw [show f + (k + 1) = f + 1 + k by omega, show o + (k + 1) = o + 1 + k by omega]
          exact this
      · have := hk (k + 1) (by omega)
        rw [show f + 1 + k = f + (k + 1) by omega, show o + 1 + k = o + (k + 1) by omega]
        exact this

theorem equalsLoop_swap {D : Nat} (nw : Nat) (l r : List (BitVec D)) (l1 l2 : Nat) :
    ∀ (fuel : Nat) (nx0 : Int) (u : Bool) (f last o : Nat),
      equalsLoop nw l r l1 l2 fuel nx0 u f last o = equalsLoop nw r l l2 l1 fuel nx0 (!u) f last o := by
  intro fuel
  induction fuel with
  | zero => intros; rfl
  | succ fuel ih =>
    intro nx0 u f last o
    cases u <;> simp only [equalsLoop, ih, Bool.not_false, Bool.not_true, if_true, Bool.false_eq_true, if_false]

/-- One pass of the outer loop that starts in the left array. -/
theorem equalsLoop_pass {D : Nat} {nw : Nat} {l r : List (BitVec D)} {l1 l2 fuel : Nat} {nx0 : Int} {f last o : Nat}
    (limit : Nat) (hl : limit = if f < last then last else 2 * nw) (h0 : 0 < nx0) (hfl : f ≤ limit)
    (ha : limit ≤ l.length) (hb : o + (limit - f) ≤ r.length) {P : Prop}
    (hrec : (∀ k, k < limit - f → l[f + k]? = r[o + k]?) →
      ∃ q, equalsLoop nw r l l2 l1 fuel (nx0 - ((limit : Int) - (f : Int))) false (o + (limit - f)) l2 0 = some q ∧
        (q = true ↔ P)) :
    ∃ q, equalsLoop nw l r l1 l2 (fuel + 1) nx0 false f last o = some q ∧
      (q = true ↔ (∀ k, k < limit - f → l[f + k]? = r[o + k]?) ∧ P) := by
  obtain ⟨s, hs, hsi⟩ := scanEq_spec l r (limit - f) f o (by omega) hb
  rw [equalsLoop, if_pos h0]
  simp only [← hl, if_pos hfl, Bool.false_eq_true, if_false, Bool.not_false, hs, Option.bind_some]
  by_cases hst : s = true
  · rw [if_pos hst, equalsLoop_swap]
    obtain ⟨q, hq, hqi⟩ := hrec (hsi.1 hst)
    refine ⟨q, hq, hqi.trans ⟨fun hp => ⟨hsi.1 hst, hp⟩, fun hp => hp.2⟩⟩
  · rw [if_neg hst]
    refine ⟨false, rfl, ?_⟩
    simp only [Bool.false_eq_true, false_iff]
    intro hp
    exact hst (hsi.2 hp.1)

theorem equalsLoop_done {D : Nat} {nw : Nat} {l r : List (BitVec D)} {l1 l2 fuel : Nat} {nx0 : Int} {u : Bool}
    {f last o : Nat} (h0 : nx0 = 0) :
    ∃ q, equalsLoop nw l r l1 l2 (fuel + 1) nx0 u f last o = some q ∧ (q = true ↔ True) := by
  refine ⟨true, ?_, by simp⟩
  rw [equalsLoop, if_neg (by omega)]

theorem equalsLoop_eq {D nw : Nat} {e f : Circ D} (he : CircOk nw e) (hf : CircOk nw f)
    (hle : f.base nw 0 ≤ e.base nw 0) :
    ∃ q, equalsLoop nw e.ax f.ax e.idx f.idx 4 nw false (e.base nw 0) e.idx (f.base nw 0) = some q ∧
      (q = true ↔ ∀ j, j < nw → e.at nw j = f.at nw j) := by
  obtain ⟨h0, h1, h2, h3⟩ := he
  obtain ⟨_, g1, g2, g3⟩ := hf
  unfold Circ.at
  have hbe : (e.idx < nw → e.base nw 0 = e.idx + nw) ∧ (nw ≤ e.idx → e.base nw 0 = e.idx - nw) := by
    unfold Circ.base
    simp only [Nat.zero_add]
    constructor
    · intro h; rw [if_pos h]
    · intro h; rw [if_neg (by omega)]
  have hbf : (f.idx < nw → f.base nw 0 = f.idx + nw) ∧ (nw ≤ f.idx → f.base nw 0 = f.idx - nw) := by
    unfold Circ.base
    simp only [Nat.zero_add]
    constructor
    · intro h; rw [if_pos h]
    · intro h; rw [if_neg (by omega)]
  have hje : ∀ j, j < nw → e.base nw j = if e.base nw 0 + j < 2 * nw then e.base nw 0 + j else e.base nw 0 + j - 2 * nw := by
    intro j hj
    have hb : e.base nw j = if j + e.idx < nw then j + e.idx + nw else j + e.idx - nw := rfl
    rw [hb]
    split <;> split <;> omega
  have hjf : ∀ j, j < nw → f.base nw j = if f.base nw 0 + j < 2 * nw then f.base nw 0 + j else f.base nw 0 + j - 2 * nw := by
    intro j hj
    have hb : f.base nw j = if j + f.idx < nw then j + f.idx + nw else j + f.idx - nw := rfl
    rw [hb]
    split <;> split <;> omega
  generalize e.base nw 0 = b1 at *
  generalize f.base nw 0 = b2 at *
  by_cases hA : b1 ≤ nw
  · obtain ⟨q, hq, hqi⟩ := equalsLoop_pass (nw := nw) (l := e.ax) (r := f.ax) (l1 := e.idx) (l2 := f.idx) (fuel := 3)
      (nx0 := nw) (f := b1) (last := e.idx) (o := b2) (b1 + nw) (by rw [if_pos (by omega)]; omega)
      (by omega) (by omega) (by omega) (by omega) (P := True) (fun _ => equalsLoop_done (by omega))
    refine ⟨q, hq, hqi.trans ?_⟩
    rw [and_true]
    constructor
    · intro hk j hj
      rw [hje j hj, hjf j hj, if_pos (by omega), if_pos (by omega)]
      exact hk j (by omega)
    · intro hk j hj
      have := hk j (by omega)
      rw [hje j (by omega), hjf j (by omega), if_pos (by omega), if_pos (by omega)] at this
      exact this
  · by_cases hB : b2 ≤ nw
    · obtain ⟨q, hq, hqi⟩ := equalsLoop_pass (nw := nw) (l := e.ax) (r := f.ax) (l1 := e.idx) (l2 := f.idx) (fuel := 3)
        (nx0 := nw) (f := b1) (last := e.idx) (o := b2) (2 * nw) (by rw [if_neg (by omega)])
        (by omega) (by omega) (by omega) (by omega)
        (fun _ => equalsLoop_pass (nw := nw) (l := f.ax) (r := e.ax) (l1 := f.idx) (l2 := e.idx) (fuel := 2)
          (f := b2 + (2 * nw - b1)) (last := f.idx) (o := 0) (b2 + nw)
          (by rw [if_pos (by omega)]; omega) (by omega) (by omega) (by omega) (by omega) (P := True)
          (fun _ => equalsLoop_done (by omega)))
      refine ⟨q, hq, hqi.trans ?_⟩
      rw [and_true]
      constructor
      · rintro ⟨k1, k2⟩ j hj
        rw [hje j hj, hjf j hj]
        by_cases hj1 : b1 + j < 2 * nw
        · rw [if_pos (by omega), if_pos (by omega)]
          exact k1 j (by omega)
        · rw [if_neg (by omega), if_pos (by omega)]
          have := k2 (b1 + j - 2 * nw) (by omega)
          rw [show b2 + (2 * nw - b1) + (b1 + j - 2 * nw) = b2 + j by omega, Nat.zero_add] at this
          exact this.symm
      · intro hk
        refine ⟨fun k hk1 => ?_, fun k hk1 => ?_⟩
        · have := hk k (by omega)
          rw [hje k (by omega), hjf k (by omega), if_pos (by omega), if_pos (by omega)] at this
          exact this
        · have := hk (k + (2 * nw - b1)) (by omega)
          rw [hje _ (by omega), hjf _ (by omega), if_neg (by omega), if_pos (by omega)] at this
          rw [show b2 + (2 * nw - b1) + k = b2 + (k + (2 * nw - b1)) by omega, Nat.zero_add, ← this]
          congr 1
          omega
    · obtain ⟨q, hq, hqi⟩ := equalsLoop_pass (nw := nw) (l := e.ax) (r := f.ax) (l1 := e.idx) (l2 := f.idx) (fuel := 3)
        (nx0 := nw) (f := b1) (last := e.idx) (o := b2) (2 * nw) (by rw [if_neg (by omega)])
        (by omega) (by omega) (by omega) (by omega)
        (fun _ => equalsLoop_pass (nw := nw) (l := f.ax) (r := e.ax) (l1 := f.idx) (l2 := e.idx) (fuel := 2)
          (f := b2 + (2 * nw - b1)) (last := f.idx) (o := 0) (2 * nw)
          (by rw [if_neg (by omega)]) (by omega) (by omega) (by omega) (by omega)
          (fun _ => equalsLoop_pass (nw := nw) (l := e.ax) (r := f.ax) (l1 := e.idx) (l2 := f.idx) (fuel := 1)
            (f := 0 + (2 * nw - (b2 + (2 * nw - b1)))) (last := e.idx) (o := 0) (b1 - nw)
            (by rw [if_pos (by omega)]; omega) (by omega) (by omega) (by omega) (by omega) (P := True)
            (fun _ => equalsLoop_done (by omega))))
      refine ⟨q, hq, hqi.trans ?_⟩
      rw [and_true]
      constructor
      · rintro ⟨k1, k2, k3⟩ j hj
        rw [hje j hj, hjf j hj]
        by_cases hj1 : b1 + j < 2 * nw
        · rw [if_pos (by omega), if_pos (by omega)]
          exact k1 j (by omega)
        · by_cases hj2 : b2 + j < 2 * nw
          · rw [if_neg (by omega), if_pos (by omega)]
            have := k2 (b1 + j - 2 * nw) (by omega)
            rw [show b2 + (2 * nw - b1) + (b1 + j - 2 * nw) = b2 + j by omega, Nat.zero_add] at this
            exact this.symm
          · rw [if_neg (by omega), if_neg (by omega)]
            have := k3 (b2 + j - 2 * nw) (by omega)
            rw [show 0 + (2 * nw - (b2 + (2 * nw - b1))) + (b2 + j - 2 * nw) = b1 + j - 2 * nw by omega,
              Nat.zero_add] at this
            exact this
      · intro hk
        refine ⟨fun k hk1 => ?_, fun k hk1 => ?_, fun k hk1 => ?_⟩
        · have := hk k (by omega)
          rw [hje k (by omega), hjf k (by omega), if_pos (by omega), if_pos (by omega)] at this
          exact this
        · have := hk (k + (2 * nw - b1)) (by omega)
          rw [hje _ (by omega), hjf _ (by omega), if_neg (by omega), if_pos (by omega)] at this
          rw [show b2 + (2 * nw - b1) + k = b2 + (k + (2 * nw - b1)) by omega, Nat.zero_add, ← this]
          congr 1
          omega
        · have := hk (k + (2 * nw - b2)) (by omega)
          rw [hje _ (by omega), hjf _ (by omega), if_neg (by omega), if_neg (by omega)] at this
          rw [show 0 + (2 * nw - (b2 + (2 * nw - b1))) + k = b1 + (k + (2 * nw - b2)) - 2 * nw by omega, this]
          congr 1
          omega

theorem equals_spec {D nw : Nat} {e f : Circ D} (he : CircOk nw e) (hf : CircOk nw f) :
    ∃ q, e.equals nw f = some q ∧ (q = true ↔ e.save nw = f.save nw) := by
  have hsave : e.save nw = f.save nw ↔ ∀ j, j < nw → e.at nw j = f.at nw j := by
    obtain ⟨l1, s1, n1, a1⟩ := he.save_some
    obtain ⟨l2, s2, n2, a2⟩ := hf.save_some
    rw [s1, s2]
    constructor
    · intro h j hj
      rw [← a1 j hj, ← a2 j hj, Option.some.inj h]
    · intro h
      congr 1
      apply List.ext_getElem?
      intro j
      by_cases hj : j < nw
      · rw [a1 j hj, a2 j hj, h j hj]
      · rw [List.getElem?_eq_none (by omega), List.getElem?_eq_none (by omega)]
  rw [hsave]
  unfold Circ.equals
  by_cases hlt : e.base nw 0 < f.base nw 0
  · simp only [hlt, decide_true, if_true]
    rw [equalsLoop_swap]
    obtain ⟨q, hq, hqi⟩ := equalsLoop_eq hf he (Nat.le_of_lt hlt)
    exact ⟨q, hq, hqi.trans ⟨fun h j hj => (h j hj).symm, fun h j hj => (h j hj).symm⟩⟩
  · simp only [hlt, decide_false, if_false, Bool.false_eq_true]
    exact equalsLoop_eq he hf (by omega)

end STL.Engines
