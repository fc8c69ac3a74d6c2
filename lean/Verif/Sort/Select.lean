import Verif.Sort.Intro
import Verif.Sort.SelectModel

/-! Lemmas about `partial_sort`, `nth_element`, `is_heap`, `priority_queue`. -/

namespace STL
variable {α : Type _}

/-! ### partial_sort -/

theorem partialSortLoop_spec {lt : α → α → Bool} (hlt : SWO lt) (first mid last : Nat) (hfm : first < mid) :
    ∀ (k next : Nat) (xs : List α) (_ : last - next ≤ k) (_ : mid ≤ next) (_ : next ≤ last) (hl : last ≤ xs.length)
      (_ : HeapFrom lt first (mid - first) 0 xs)
      (_ : ∀ i (h : i < xs.length), mid ≤ i → i < next → lt xs[i] (xs[first]'(by omega)) = false),
    ∃ ys, partialSortLoop lt (full xs) first mid next last = .ok (full ys) ∧ SegPerm first last xs ys ∧
      HeapFrom lt first (mid - first) 0 ys ∧
      (∀ i j (hi : i < ys.length) (hj : j < ys.length), first ≤ i → i < mid → mid ≤ j → j < last → lt ys[j] ys[i] = false) := by
  have done : ∀ (next : Nat) (xs : List α), next = last → (hl : last ≤ xs.length) → (hm : mid ≤ last) →
      HeapFrom lt first (mid - first) 0 xs →
      (∀ i (h : i < xs.length), mid ≤ i → i < next → lt xs[i] (xs[first]'(by omega)) = false) →
      (∀ i j (hi : i < xs.length) (hj : j < xs.length), first ≤ i → i < mid → mid ≤ j → j < last → lt xs[j] xs[i] = false) := by
    intro next xs he hl hm hh hT i j hi hj h1 h2 h3 h4
    have a1 := hT j hj h3 (by omega)
    have a2 := hh.root_max hlt (i - first) (by omega) (by omega)
    simp only [show first + (i - first) = i by omega] at a2
    exact hlt.le_trans a2 a1
  intro k
  induction k with
  | zero =>
    intro next xs hk h1 h2 hl hh hT
    unfold partialSortLoop
    rw [dif_neg (by omega)]
    exact ⟨xs, rfl, SegPerm.refl _ _ _, hh, done next xs (by omega) hl (by omega) hh hT⟩
  | succ k ih =>
    intro next xs hk h1 h2 hl hh hT
    unfold partialSortLoop
    split
    · rename_i hnl
      rw [rd_full xs next (by omega), R.ok_bind, rd_full xs first (by omega), R.ok_bind]
      split
      · rename_i hc
        rw [mv_full xs next (by omega), R.ok_bind]
        dsimp only
        unfold popHeapHoleUnchecked
        rw [mvTo_holed xs _ _ (by omega) (by omega) (by omega)]
        simp only [R.ok_bind]
        have hsw := fun k (hk : k < (swapL xs next first).length) => getElem_swapL xs next first k (by omega) (by omega) hk
        have e1 := getElem_swapL_right xs next first (by omega) (by omega) (by simp; omega)
        have HH := popHeapHoleByIndex_spec hlt first (mid - first) 0 (swapL xs next first) (by simp; omega) (by omega) ?_
        · obtain ⟨ys, a1, a2, a3⟩ := HH
          simp only [Nat.add_zero, e1] at a1
          rw [a1, R.ok_bind]
          rw [show first + (mid - first) = mid by omega] at a2
          have hly := a2.len
          simp only [swapL_length] at hly
          -- everything in the heap is now at most the old top
          have hle : ∀ i (h : i < ys.length), first ≤ i → i < mid → lt (xs[first]'(by omega)) ys[i] = false := by
            refine a2.forall_seg (P := fun x => lt (xs[first]'(by omega)) x = false) ?_
            intro i h x y
            rw [hsw]
            split
            · exact hlt.asymm hc
            · rw [if_neg (by omega)]
              have := hh.root_max hlt (i - first) (by simp only [swapL_length] at h; omega) (by omega)
              simpa only [show first + (i - first) = i by omega] using this
          have HH2 := ih (next+1) ys (by omega) (by omega) (by omega) (by omega) a3 ?_
          · obtain ⟨zs, b1, b2, b3, b4⟩ := HH2
            exact ⟨zs, b1, ((SegPerm.swap xs (by omega) (by omega)).trans (a2.mono (by omega) (by omega))).trans b2, b3, b4⟩
          · intro i h x y
            have t := hle first (by omega) (by omega) hfm
            rw [a2.getElem_out i (by omega), hsw]
            rw [if_neg (by omega)]
            split
            · exact t
            · exact hlt.le_trans t (hT i (by omega) x (by omega))
        · constructor
          · intro i p h hi hp hcc hne1 hne2
            simp only [hsw]
            have hc' := hcc
            unfold Child at hcc
            simp only [show first + i ≠ first by omega, show first + i ≠ next by omega, show first + p ≠ first by omega, show first + p ≠ next by omega, if_false]
            exact hh i p (by simpa using h) (by omega) hp hc'
          · intro c p h hcn hp hcc hpc
            unfold Child at hpc; omega
      · rename_i hc
        exact ih (next+1) xs (by omega) (by omega) (by omega) hl hh (by
          intro i h x y
          by_cases he : i = next
          · subst he; simpa using hc
          · exact hT i h x (by omega))
    · exact ⟨xs, rfl, SegPerm.refl _ _ _, hh, done next xs (by omega) hl (by omega) hh hT⟩

theorem partialSort_spec {lt : α → α → Bool} (hlt : SWO lt) (first mid last : Nat) (xs : List α)
    (h1 : first ≤ mid) (h2 : mid ≤ last) (hl : last ≤ xs.length) :
    ∃ ys, partialSort lt (full xs) first mid last = .ok (full ys) ∧ SegPerm first last xs ys ∧
      SortedOn lt first mid ys ∧
      (∀ i j (hi : i < ys.length) (hj : j < ys.length), first ≤ i → i < mid → mid ≤ j → j < last → lt ys[j] ys[i] = false) := by
  unfold partialSort
  split
  · rename_i he
    exact ⟨xs, rfl, SegPerm.refl _ _ _, by intro i j hj; omega, by intro i j hi hj; omega⟩
  · obtain ⟨ys, a1, a2, a3⟩ := makeHeap_spec hlt first mid xs h1 (by omega)
    have l1 := a2.len
    rw [a1, R.ok_bind]
    obtain ⟨zs, b1, b2, b3, b4⟩ := partialSortLoop_spec hlt first mid last (by omega) _ mid ys (Nat.le_refl _) (by omega) h2 (by omega) a3
      (by intro i h x y; omega)
    have l2 := b2.len
    rw [b1, R.ok_bind]
    obtain ⟨ws, c1, c2, c3⟩ := sortHeap_spec hlt first mid zs (by omega) b3
    have l3 := c2.len
    refine ⟨ws, c1, (a2.mono (by omega) h2).trans (b2.trans (c2.mono (by omega) h2)), c3, ?_⟩
    intro i j hi hj x y z w
    rw [c2.getElem_out j (by omega)]
    exact c2.forall_seg (P := fun a => lt (zs[j]'(by omega)) a = false) (fun i h x y => b4 i j h (by omega) x y z w) i hi x y

/-! ### nth_element -/

/-- postcondition of `nth_element` on `[first, last)`. -/
def NthOn (lt : α → α → Bool) (first nth last : Nat) (ys : List α) : Prop :=
  ∃ h : nth < ys.length, (∀ i (hi : i < ys.length), first ≤ i → i < nth → lt ys[nth] ys[i] = false) ∧
    (∀ i (hi : i < ys.length), nth < i → i < last → lt ys[i] ys[nth] = false)

theorem NthOn.of_sorted {lt : α → α → Bool} {first nth last : Nat} {ys : List α} (h1 : first ≤ nth) (h2 : nth < last)
    (hl : last ≤ ys.length) (h : SortedOn lt first last ys) : NthOn lt first nth last ys :=
  ⟨by omega, fun i hi x y => h i nth (by omega) x y h2, fun i hi x y => h nth i hi h1 x y⟩

theorem swapMed5_spec {lt : α → α → Bool} (f l a d : Nat) (xs : List α) (hl : l ≤ xs.length)
    (ha : f ≤ a ∧ a + 4 < l) (hd : f ≤ d ∧ d < l) :
    ∃ ys, swapMed5 lt (full xs) a d = .ok (full ys) ∧ SegPerm f l xs ys := by
  unfold swapMed5
  obtain ⟨y1, a1, b1⟩ := med3_spec (lt := lt) f l a (a+1) (a+1+1) xs hl (by omega) (by omega) (by omega)
  have l1 := b1.len
  dsimp only
  rw [a1, R.ok_bind, rd_full y1 _ (by omega), R.ok_bind, rd_full y1 _ (by omega), R.ok_bind]
  have s1 : ∃ y2, swpIf (lt y1[a+1+1+1+1] y1[a+1+1+1] = true) (full y1) (a+1+1+1) (a+1+1+1+1) = .ok (full y2) ∧ SegPerm f l y1 y2 := by
    unfold swpIf
    split
    · exact swp_full' y1 _ _ f l (by omega) (by omega) (by omega)
    · exact ⟨y1, rfl, SegPerm.refl _ _ _⟩
  obtain ⟨y2, a2, b2⟩ := s1
  have l2 := b2.len
  rw [a2, R.ok_bind, rd_full y2 _ (by omega), R.ok_bind, rd_full y2 _ (by omega), R.ok_bind, rd_full y2 _ (by omega), R.ok_bind,
    rd_full y2 _ (by omega), R.ok_bind, rd_full y2 _ (by omega), R.ok_bind]
  obtain ⟨y3, a3, b3⟩ := swp_full' y2 d (if lt y2[a+1+1+1+1] y2[a+1] = true then if lt y2[a] y2[a+1+1+1+1] = true then a+1+1+1+1 else a
    else if lt y2[a+1] y2[a+1+1+1] = true then if lt y2[a+1+1] y2[a+1+1+1] = true then a+1+1 else a+1+1+1 else a+1) f l hd
    (by split <;> (try split) <;> (try split) <;> omega) (by omega)
  exact ⟨y3, a3, (b1.trans b2).trans b3⟩

theorem collectMedians_spec {lt : α → α → Bool} (f l : Nat) :
    ∀ (k cur dest last : Nat) (xs : List α) (_ : last - dest ≤ k) (_ : l ≤ xs.length) (_ : f ≤ cur) (_ : f ≤ dest)
      (_ : last ≤ l) (_ : cur + 5 * (last - dest) ≤ l),
    ∃ ys, collectMedians lt (full xs) cur dest last = .ok (full ys) ∧ SegPerm f l xs ys := by
  intro k
  induction k with
  | zero =>
    intro cur dest last xs hk h1 h2 h3 h4 h5
    unfold collectMedians
    rw [dif_neg (by omega)]
    exact ⟨xs, rfl, SegPerm.refl _ _ _⟩
  | succ k ih =>
    intro cur dest last xs hk h1 h2 h3 h4 h5
    unfold collectMedians
    split
    · obtain ⟨y1, a1, b1⟩ := swapMed5_spec (lt := lt) f l cur dest xs h1 (by omega) (by omega)
      have l1 := b1.len
      rw [a1, R.ok_bind]
      obtain ⟨y2, a2, b2⟩ := ih (cur+5) (dest+1) last y1 (by omega) (by omega) (by omega) (by omega) (by omega) (by omega)
      exact ⟨y2, a2, b1.trans b2⟩
    · exact ⟨xs, rfl, SegPerm.refl _ _ _⟩

theorem swapRanges_spec :
    ∀ (k f1 l1 f2 : Nat) (xs : List α) (_ : l1 - f1 ≤ k) (_ : l1 ≤ f2) (_ : f2 + (l1 - f1) ≤ xs.length),
    ∃ ys, swapRanges (full xs) f1 l1 f2 = .ok (full ys) ∧ ys.Perm xs ∧
      ∀ i, ys[i]? = if f1 ≤ i ∧ i < l1 then xs[f2 + (i - f1)]? else
        if f2 ≤ i ∧ i < f2 + (l1 - f1) then xs[f1 + (i - f2)]? else xs[i]? := by
  intro k
  induction k with
  | zero =>
    intro f1 l1 f2 xs hk h1 h2
    unfold swapRanges
    rw [dif_neg (by omega)]
    refine ⟨xs, rfl, .refl _, ?_⟩
    intro i
    rw [if_neg (by omega), if_neg (by omega)]
  | succ k ih =>
    intro f1 l1 f2 xs hk h1 h2
    unfold swapRanges
    split
    · rw [swp_full xs f1 f2 (by omega) (by omega), R.ok_bind]
      obtain ⟨ys, a1, a2, a3⟩ := ih (f1+1) l1 (f2+1) (swapL xs f1 f2) (by omega) (by omega) (by simp; omega)
      refine ⟨ys, a1, a2.trans (swapL_perm _ _ _), ?_⟩
      have hsw : ∀ k, (swapL xs f1 f2)[k]? = if k = f2 then xs[f1]? else if k = f1 then xs[f2]? else xs[k]? := by
        intro k
        rw [swapL_eq xs f1 f2 (by omega) (by omega)]
        simp only [List.getElem?_set, List.length_set]
        grind
      intro i
      rw [a3]
      simp only [hsw]
      clear ih a1 a2 a3 hsw
      by_cases c1 : f1 + 1 ≤ i ∧ i < l1
      · rw [if_pos c1, if_neg (by omega), if_neg (by omega), if_pos (by omega)]
        congr 1; omega
      · rw [if_neg c1]
        by_cases c2 : f2 + 1 ≤ i ∧ i < f2 + 1 + (l1 - (f1 + 1))
        · rw [if_pos c2, if_neg (by omega), if_neg (by omega), if_neg (by omega), if_pos (by omega)]
          congr 1; omega
        · rw [if_neg c2]
          by_cases c3 : i = f2
          · subst c3
            rw [if_pos rfl, if_neg (by omega), if_pos (by omega)]
            congr 1; omega
          · by_cases c4 : i = f1
            · subst c4
              rw [if_neg c3, if_pos rfl, if_pos (by omega)]
              congr 1; omega
            · rw [if_neg c3, if_neg c4, if_neg (by omega), if_neg (by omega)]
    · refine ⟨xs, rfl, .refl _, ?_⟩
      intro i
      rw [if_neg (by omega), if_neg (by omega)]

/-- Combine a split `≤ v ≤` of `[first,last)` at `cut ≤ nth` with the result on the right part. -/
theorem NthOn.right {lt : α → α → Bool} (hlt : SWO lt) {v : α} {first cut nth last : Nat} {ys zs : List α}
    (h1 : cut ≤ nth) (h2 : nth < last)
    (hlo : ∀ i (h : i < ys.length), first ≤ i → i < cut → lt v ys[i] = false)
    (hhi : ∀ i (h : i < ys.length), cut ≤ i → i < last → lt ys[i] v = false)
    (s : SegPerm cut last ys zs) (h : NthOn lt cut nth last zs) : NthOn lt first nth last zs := by
  obtain ⟨hn, a, b⟩ := h
  refine ⟨hn, ?_, b⟩
  intro i hi x y
  by_cases hc : cut ≤ i
  · exact a i hi hc y
  · have e := s.getElem_out i (by omega) hi
    have q := s.forall_seg (P := fun x => lt x v = false) hhi nth hn h1 h2
    rw [e]
    exact hlt.le_trans (hlo i _ x (by omega)) q

theorem NthOn.left {lt : α → α → Bool} (hlt : SWO lt) {v : α} {first cut nth last : Nat} {ys zs : List α}
    (h0 : first ≤ nth) (h1 : nth < cut) (_h2 : cut ≤ last)
    (hlo : ∀ i (h : i < ys.length), first ≤ i → i < cut → lt v ys[i] = false)
    (hhi : ∀ i (h : i < ys.length), cut ≤ i → i < last → lt ys[i] v = false)
    (s : SegPerm first cut ys zs) (h : NthOn lt first nth cut zs) : NthOn lt first nth last zs := by
  obtain ⟨hn, a, b⟩ := h
  refine ⟨hn, a, ?_⟩
  intro i hi x y
  by_cases hc : i < cut
  · exact b i hi x hc
  · have e := s.getElem_out i (by omega) hi
    have q := s.forall_seg (P := fun x => lt v x = false) hlo nth hn h0 h1
    rw [e]
    exact hlt.le_trans q (hhi i _ (by omega) y)

/-- `nth` inside the block of elements equivalent to `v`. -/
theorem NthOn.mid {lt : α → α → Bool} (hlt : SWO lt) {v : α} {first pf pl nth last : Nat} {ys : List α}
    (h1 : pf ≤ nth) (h2 : nth < pl) (hl : pl ≤ ys.length)
    (hlo : ∀ i (h : i < ys.length), first ≤ i → i < pl → lt v ys[i] = false)
    (hhi : ∀ i (h : i < ys.length), pf ≤ i → i < last → lt ys[i] v = false) (hpl : pl ≤ last) (hpf : first ≤ pf) :
    NthOn lt first nth last ys := by
  refine ⟨by omega, ?_, ?_⟩
  · intro i hi x y
    exact hlt.le_trans (hlo i hi x (by omega)) (hhi nth (by omega) h1 (by omega))
  · intro i hi x y
    exact hlt.le_trans (hlo nth (by omega) (by omega) h2) (hhi i hi (by omega) y)

theorem nthElementMoM_spec {lt : α → α → Bool} (hlt : SWO lt) :
    ∀ (fuel first nth last : Nat) (xs : List α) (_ : last - first < fuel) (_ : last ≤ xs.length)
      (_ : first ≤ nth) (_ : nth < last),
    ∃ ys, nthElementMoM lt fuel (full xs) first nth last = .ok (full ys) ∧ SegPerm first last xs ys ∧
      NthOn lt first nth last ys := by
  intro fuel
  induction fuel with
  | zero => intro first nth last xs h; omega
  | succ fuel ih =>
    intro first nth last xs hf hl h1 h2
    unfold nthElementMoM
    dsimp only
    split
    · obtain ⟨ys, a1, a2, _, a3⟩ := insertionSort_spec hlt first last xs hl
      exact ⟨ys, a1, a2, NthOn.of_sorted h1 h2 (by have := a2.len; omega) a3⟩
    · rename_i hsz
      unfold isortMax at hsz
      obtain ⟨y1, a1, b1⟩ := collectMedians_spec (lt := lt) first last _ first first (first + (last-first)/5) xs (Nat.le_refl _) hl (by omega) (by omega) (by omega) (by omega)
      have l1 := b1.len
      rw [a1, R.ok_bind]
      obtain ⟨y2, a2, b2, n2⟩ := ih first (first + (last-first)/5/2) (first + (last-first)/5) y1 (by omega) (by omega) (by omega) (by omega)
      have l2 := b2.len
      rw [a2, R.ok_bind]
      generalize hmc : (last - first) / 5 = mc at *
      generalize hmm : first + mc / 2 = mm at *
      have hgc : first + mc - mm - 1 = mc - mc/2 - 1 := by omega
      obtain ⟨y3, a3, p3, g3⟩ := swapRanges_spec _ (mm+1) (first+mc) (last - (first + mc - mm - 1)) y2 (Nat.le_refl _) (by omega) (by omega)
      have l3 := p3.length_eq
      rw [a3, R.ok_bind]
      have e4 := swp_full y3 mm (first + (last - first)/2) (by omega) (by omega)
      rw [e4, R.ok_bind]
      obtain ⟨y5, pf, pl, a5, b5, I5⟩ := partitionByPivot_spec hlt mm (last - (first + mc - mm - 1)) (first + (last - first)/2)
        (swapL y3 mm (first + (last - first)/2)) (by omega) (by omega) (by simp; omega)
      have l5 := b5.len
      simp only [swapL_length] at l5
      rw [a5, R.ok_bind]
      dsimp only
      have hsw := fun k (hk : k < (swapL y3 mm (first + (last - first)/2)).length) => getElem_swapL y3 mm (first + (last - first)/2) k (by omega) (by omega) hk
      have ev : (swapL y3 mm (first + (last - first)/2))[first + (last - first)/2]'(by simp; omega) = y2[mm]'(by omega) := by
        rw [hsw, if_pos rfl]
        have := g3 mm
        rw [if_neg (by omega), if_neg (by omega), List.getElem?_eq_getElem (by omega), List.getElem?_eq_getElem (by omega)] at this
        exact Option.some.inj this
      rw [ev] at I5
      obtain ⟨hn2, lo2, hi2⟩ := n2
      obtain ⟨c1, c2, c3, c4, c5, c6, eq1, eq2, lo, hi⟩ := I5
      -- overall segment permutation
      have s3 : SegPerm first last y2 y3 := by
        refine ⟨p3, ?_⟩
        intro i hi
        rw [g3 i, if_neg (by omega), if_neg (by omega)]
      have sAll : SegPerm first last xs y5 :=
        b1.trans ((b2.mono (by omega) (by omega)).trans (s3.trans ((SegPerm.swap y3 (by omega) (by omega)).trans (b5.mono (by omega) (by omega)))))
      -- low medians are still in front of `mm`
      have hlow : ∀ i (h : i < y5.length), first ≤ i → i < pl → lt (y2[mm]'hn2) y5[i] = false := by
        intro i h x y
        by_cases q : i < mm
        · have e1 : y5[i] = y2[i]'(by omega) := by
            rw [b5.getElem_out i (by omega), hsw, if_neg (by omega), if_neg (by omega)]
            have := g3 i
            rw [if_neg (by omega), if_neg (by omega), List.getElem?_eq_getElem (by omega), List.getElem?_eq_getElem (by omega)] at this
            exact Option.some.inj this
          rw [e1]
          exact lo2 i (by omega) x q
        · by_cases q2 : i < pf
          · exact hlt.asymm (lo i h (by omega) q2)
          · exact eq2 i h (by omega) y
      have hhigh : ∀ i (h : i < y5.length), pf ≤ i → i < last → lt y5[i] (y2[mm]'hn2) = false := by
        intro i h x y
        by_cases q : last - (first + mc - mm - 1) ≤ i
        · have e1 : y5[i] = y2[mm + 1 + (i - (last - (first + mc - mm - 1)))]'(by omega) := by
            rw [b5.getElem_out i (by omega), hsw, if_neg (by omega), if_neg (by omega)]
            have := g3 i
            rw [if_neg (by omega), if_pos (by omega), List.getElem?_eq_getElem (by omega), List.getElem?_eq_getElem (by omega)] at this
            exact Option.some.inj this
          rw [e1]
          exact hi2 _ (by omega) (by omega) (by omega)
        · by_cases q2 : i < pl
          · exact eq1 i h x q2
          · exact hlt.asymm (hi i h (by omega) (by omega))
      split
      · rename_i hc
        obtain ⟨y6, a6, b6, n6⟩ := ih pl nth last y5 (by omega) (by omega) hc h2
        exact ⟨y6, a6, sAll.trans (b6.mono (by omega) (by omega)),
          NthOn.right hlt hc h2 hlow (fun i h x y => hhigh i h (by omega) y) b6 n6⟩
      · split
        · rename_i hc1 hc2
          exact ⟨y5, rfl, sAll, NthOn.mid hlt hc2 (by omega) (by omega) hlow hhigh (by omega) (by omega)⟩
        · rename_i hc1 hc2
          obtain ⟨y6, a6, b6, n6⟩ := ih first nth pf y5 (by omega) (by omega) h1 (by omega)
          exact ⟨y6, a6, sAll.trans (b6.mono (by omega) (by omega)),
            NthOn.left hlt h1 (by omega) (by omega) (fun i h x y => hlow i h x (by omega)) hhigh b6 n6⟩

theorem nthElementUnchecked_spec {lt : α → α → Bool} (hlt : SWO lt) :
    ∀ (fuel first nth last ideal : Nat) (xs : List α) (_ : last - first < fuel) (_ : last ≤ xs.length)
      (_ : first ≤ nth) (_ : nth < last),
    ∃ ys, nthElementUnchecked lt fuel (full xs) first nth last ideal = .ok (full ys) ∧ SegPerm first last xs ys ∧
      NthOn lt first nth last ys := by
  intro fuel
  induction fuel with
  | zero => intro first nth last ideal xs h; omega
  | succ fuel ih =>
    intro first nth last ideal xs hf hl h1 h2
    unfold nthElementUnchecked
    dsimp only
    split
    · obtain ⟨ys, a1, a2, _, a3⟩ := insertionSort_spec hlt first last xs hl
      exact ⟨ys, a1, a2, NthOn.of_sorted h1 h2 (by have := a2.len; omega) a3⟩
    · rename_i hsz
      unfold isortMax at hsz
      split
      · exact nthElementMoM_spec hlt _ first nth last xs (by omega) hl h1 h2
      · obtain ⟨ys, pf, pl, v, a1, b1, I⟩ := partitionByMedianGuess_spec hlt first last xs (by omega) hl
        have l1 := b1.len
        rw [a1, R.ok_bind]
        dsimp only
        obtain ⟨c1, c2, c3, c4, c5, c6, eq1, eq2, lo, hi⟩ := I
        have hlow : ∀ i (h : i < ys.length), first ≤ i → i < pl → lt v ys[i] = false := by
          intro i h x y
          by_cases q2 : i < pf
          · exact hlt.asymm (lo i h x q2)
          · exact eq2 i h (by omega) y
        have hhigh : ∀ i (h : i < ys.length), pf ≤ i → i < last → lt ys[i] v = false := by
          intro i h x y
          by_cases q2 : i < pl
          · exact eq1 i h x q2
          · exact hlt.asymm (hi i h (by omega) y)
        split
        · rename_i hc
          obtain ⟨y6, a6, b6, n6⟩ := ih pl nth last _ ys (by omega) (by omega) hc h2
          exact ⟨y6, a6, b1.trans (b6.mono (by omega) (by omega)),
            NthOn.right hlt hc h2 hlow (fun i h x y => hhigh i h (by omega) y) b6 n6⟩
        · split
          · rename_i hc1 hc2
            exact ⟨ys, rfl, b1, NthOn.mid hlt hc2 (by omega) (by omega) hlow hhigh (by omega) (by omega)⟩
          · rename_i hc1 hc2
            obtain ⟨y6, a6, b6, n6⟩ := ih first nth pf _ ys (by omega) (by omega) h1 (by omega)
            exact ⟨y6, a6, b1.trans (b6.mono (by omega) (by omega)),
              NthOn.left hlt h1 (by omega) (by omega) (fun i h x y => hlow i h x (by omega)) hhigh b6 n6⟩

/-! ### is_heap_until -/

theorem isHeapUntilLoop_spec {lt : α → α → Bool} (first size : Nat) (xs : List α) (hl : first + size ≤ xs.length) :
    ∀ (k off : Nat) (_ : size - off ≤ k) (_ : 1 ≤ off) (_ : off ≤ size ∨ size = 0)
      (_ : HeapFrom lt first off 0 xs),
    ∃ e, isHeapUntilLoop lt (full xs) first size off = .ok (first + e) ∧ e ≤ size ∧ HeapFrom lt first e 0 xs ∧
      (e < size → ¬ HeapFrom lt first (e + 1) 0 xs) := by
  intro k
  induction k with
  | zero =>
    intro off hk h1 h2 h
    unfold isHeapUntilLoop
    rw [dif_neg (by omega)]
    refine ⟨size, rfl, by omega, ?_, by omega⟩
    intro i p hi hin hp hc
    exact h i p hi (by omega) hp hc
  | succ k ih =>
    intro off hk h1 h2 h
    unfold isHeapUntilLoop
    split
    · rename_i hlt
      rw [rd_full xs _ (by omega), R.ok_bind, rd_full xs _ (by omega), R.ok_bind]
      split
      · rename_i hc
        refine ⟨off, rfl, by omega, h, ?_⟩
        intro _ hcon
        have := hcon off ((off-1)/2) (by omega) (by omega) (by omega) (by unfold Child; omega)
        rw [this] at hc; contradiction
      · rename_i hc
        refine ih (off+1) (by omega) (by omega) (by omega) ?_
        intro i p hi hin hp hcc
        by_cases he : i = off
        · subst he
          have : (i - 1)/2 = p := by unfold Child at hcc; omega
          simp only [this] at hc
          simpa using hc
        · exact h i p hi (by omega) hp hcc
    · refine ⟨size, rfl, by omega, ?_, by omega⟩
      intro i p hi hin hp hc
      exact h i p hi (by omega) hp hc

/-! ### priority_queue -/

theorem pqPushLoop_spec {lt : α → α → Bool} (hlt : SWO lt) :
    ∀ (n e : Nat) (xs : List α) (_ : e + n = xs.length) (_ : HeapFrom lt 0 e 0 xs),
    ∃ ys, pqPushLoop lt (full xs) e n = .ok (full ys) ∧ ys.Perm xs ∧ HeapFrom lt 0 ys.length 0 ys := by
  intro n
  induction n with
  | zero => intro e xs he hh; exact ⟨xs, rfl, .refl _, by rw [show xs.length = e by omega]; exact hh⟩
  | succ n ih =>
    intro e xs he hh
    unfold pqPushLoop
    obtain ⟨ys, a1, a2, a3⟩ := pushHeap_spec hlt 0 (e+1) xs (by omega) (by omega) (by simpa using hh)
    have l1 := a2.len
    rw [a1, R.ok_bind]
    obtain ⟨zs, b1, b2, b3⟩ := ih (e+1) ys (by omega) (by simpa using a3)
    exact ⟨zs, b1, b2.trans a2.perm, b3⟩

end STL
