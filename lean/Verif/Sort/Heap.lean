import Verif.Sort.Model

/-! Lemmas about the heap algorithms (used by `Verif/Sort/Props.lean`). -/

namespace STL
variable {α : Type _}

/-- `c` is a child of `p` in the implicit binary tree. -/
def Child (c p : Nat) : Prop := c = 2 * p + 1 ∨ c = 2 * p + 2

/-- `d` is in the subtree rooted at `top`. -/
inductive Desc (top : Nat) : Nat → Prop where
  | refl : Desc top top
  | step {c p : Nat} : Desc top p → Child c p → Desc top c

theorem Desc.le {top d : Nat} (h : Desc top d) : top ≤ d := by
  induction h with
  | refl => omega
  | step _ hc ih => unfold Child at hc; omega

/-- parent order on the nodes of `[f, f+n)` whose parent index is at least `top`. -/
def HeapFrom (lt : α → α → Bool) (f n top : Nat) (xs : List α) : Prop :=
  ∀ i p (h : f + i < xs.length) (_ : i < n) (_ : top ≤ p) (hc : Child i p),
    lt (xs[f + p]'(by unfold Child at hc; omega)) xs[f + i] = false

structure HoleInv (lt : α → α → Bool) (f n top hole : Nat) (xs : List α) : Prop where
  a : ∀ i p (h : f + i < xs.length) (_ : i < n) (_ : top ≤ p) (hc : Child i p), i ≠ hole → p ≠ hole →
    lt (xs[f + p]'(by unfold Child at hc; omega)) xs[f + i] = false
  b : ∀ c p (h : f + c < xs.length) (_ : c < n) (_ : top ≤ p) (hc : Child c hole) (hp : Child hole p),
    lt (xs[f + p]'(by unfold Child at hc hp; omega)) xs[f + c] = false

theorem getElem_swapL_left (xs : List α) (i j : Nat) (hi : i < xs.length) (hj : j < xs.length)
    (hk : i < (swapL xs i j).length) : (swapL xs i j)[i] = xs[j] := by
  rw [getElem_swapL xs i j i hi hj]; grind

theorem getElem_swapL_right (xs : List α) (i j : Nat) (hi : i < xs.length) (hj : j < xs.length)
    (hk : j < (swapL xs i j).length) : (swapL xs i j)[j] = xs[i] := by
  rw [getElem_swapL xs i j j hi hj]; grind

theorem pushHeapByIndex_spec {lt : α → α → Bool} (hlt : SWO lt) (f n top : Nat) :
    ∀ (hole : Nat) (xs : List α) (_ : f + n ≤ xs.length) (hh : hole < n) (_ : Desc top hole)
      (_ : HoleInv lt f n top hole xs)
      (_ : ∀ c (h : f + c < xs.length), c < n → Child c hole → lt (xs[f + hole]'(by omega)) xs[f + c] = false),
    ∃ ys, pushHeapByIndex lt (holed xs (f + hole)) f hole top (xs[f + hole]'(by omega)) = .ok (full ys) ∧
      SegPerm f (f + n) xs ys ∧ HeapFrom lt f n top ys := by
  intro hole
  induction hole using Nat.strongRecOn with
  | _ hole ih =>
  intro xs hn hh hd hI hC
  have hf : f + hole < xs.length := by omega
  have finish : (∀ p, top ≤ p → (hp : Child hole p) → lt (xs[f+p]'(by unfold Child at hp; omega)) xs[f+hole] = false) →
      ∃ ys, wr (holed xs (f + hole)) (f + hole) xs[f + hole] = .ok (full ys) ∧
      SegPerm f (f + n) xs ys ∧ HeapFrom lt f n top ys := by
    intro hP
    refine ⟨xs, wr_holed_self xs _ hf, SegPerm.refl _ _ _, ?_⟩
    intro i p h hi hp hc
    by_cases h1 : i = hole
    · subst h1; exact hP p hp hc
    · by_cases h2 : p = hole
      · subst h2; exact hC i h hi hc
      · exact hI.a i p h hi hp hc h1 h2
  unfold pushHeapByIndex
  split
  · rename_i hlt'
    -- the parent
    obtain ⟨p, hp, hpd⟩ : ∃ p, Child hole p ∧ Desc top p := by
      cases hd with
      | refl => omega
      | step hd' hc => exact ⟨_, hc, hd'⟩
    have hpe : (hole - 1) / 2 = p := by unfold Child at hp; omega
    have hple : p < hole := by unfold Child at hp; omega
    have hpt := hpd.le
    rw [hpe]
    have hfp : f + p < xs.length := by omega
    rw [rd_holed xs _ _ hfp (by omega), R.ok_bind]
    split
    · rename_i hcmp
      rw [mvTo_holed xs _ _ hf hfp (by omega), R.ok_bind]
      have e1 := getElem_swapL_right xs (f+hole) (f+p) hf hfp (by simp; omega)
      have key := ih p hple (swapL xs (f + hole) (f + p)) (by simp; omega) (by omega) hpd
      have hsw := fun k (hk : k < (swapL xs (f+hole) (f+p)).length) => getElem_swapL xs (f+hole) (f+p) k hf hfp hk
      rw [e1] at key
      have HH := key ?_ ?_
      · obtain ⟨ys, h1, h2, h3⟩ := HH
        refine ⟨ys, h1, ?_, h3⟩
        exact (SegPerm.swap xs (by omega) (by omega)).trans h2
      · constructor
        · intro i q h hi hq hc hne1 hne2
          simp only [hsw]
          unfold Child at hc hp
          have hc' := hc
          by_cases hi' : i = hole
          · omega
          · by_cases hq' : q = hole
            · subst hq'
              simp only [show f + i ≠ f + p by omega, show f + i ≠ f + q by omega, show f + q ≠ f + p by omega, if_true, if_false]
              exact hI.b i p (by simpa using h) hi hpt hc hp
            · simp only [show f + i ≠ f + p by omega, show f + i ≠ f + hole by omega, show f + q ≠ f + p by omega, show f + q ≠ f + hole by omega, if_false]
              exact hI.a i q (by simpa using h) hi hq hc hi' hq'
        · intro c q h hc' hq hc hp'
          simp only [hsw]
          have hc2 := hc
          have hp2 := hp'
          unfold Child at hc hp' hp
          simp only [show f + c ≠ f + p by omega, show f + q ≠ f + p by omega, show f + q ≠ f + hole by omega, if_false]
          have hpq := hI.a p q (by omega) (by omega) hq hp2 (by omega) (by omega)
          split
          · exact hpq
          · have := hI.a c p (by simpa using h) hc' (by omega) hc2 (by omega) (by omega)
            exact hlt.le_trans this hpq
      · intro c h hc' hc
        simp only [hsw]
        have hc2 := hc
        unfold Child at hc
        simp only [show f + c ≠ f + p by omega, if_true, if_false]
        split
        · exact hlt.asymm hcmp
        · have := hI.a c p (by simpa using h) hc' (by omega) hc2 (by omega) (by omega)
          exact hlt.le_trans this (hlt.asymm hcmp)
    · rename_i hcmp
      apply finish
      intro q hq hcq
      have : q = p := by unfold Child at hcq hp; omega
      subst this
      simpa using hcmp
  · rename_i hnl
    apply finish
    intro p hp hc
    have := hd.le
    unfold Child at hc; omega

theorem siftDown_spec {lt : α → α → Bool} (hlt : SWO lt) (f n top : Nat) :
    ∀ (k hole : Nat) (xs : List α) (_ : n - hole ≤ k) (_ : f + n ≤ xs.length) (_ : hole < n) (_ : Desc top hole)
      (_ : HoleInv lt f n top hole xs),
    ∃ ys h', siftDown lt (holed xs (f + hole)) f n hole = .ok (holed ys (f + h'), h') ∧
      SegPerm f (f + n) xs ys ∧ HoleInv lt f n top h' ys ∧ Desc top h' ∧ h' < n ∧ (n - 1) / 2 ≤ h' ∧
      ys[f + h']? = xs[f + hole]? := by
  intro k
  induction k with
  | zero => intro hole xs hk; omega
  | succ k ih =>
  intro hole xs hk hn hh hd hI
  unfold siftDown
  split
  · rename_i hlt'
    have hf : f + hole < xs.length := by omega
    have htop := hd.le
    rw [rd_holed xs _ _ (by omega) (by omega), R.ok_bind, rd_holed xs _ _ (by omega) (by omega), R.ok_bind]
    have step : ∀ idx o, (hidx : Child idx hole) → (ho : Child o hole) → o ≠ idx → (hin : idx < n) → (hon : o < n) →
        lt (xs[f+idx]'(by omega)) (xs[f+o]'(by omega)) = false →
        ∃ ys h', (mvTo (holed xs (f + hole)) (f + hole) (f + idx) >>= fun m => siftDown lt m f n idx) = .ok (holed ys (f + h'), h') ∧
          SegPerm f (f + n) xs ys ∧ HoleInv lt f n top h' ys ∧ Desc top h' ∧ h' < n ∧ (n - 1) / 2 ≤ h' ∧
          ys[f + h']? = xs[f + hole]? := by
      intro idx o hidx ho hne hin hon hle
      have hidx' := hidx
      have ho' := ho
      unfold Child at hidx ho
      have hfi : f + idx < xs.length := by omega
      rw [mvTo_holed xs _ _ hf hfi (by omega), R.ok_bind]
      have hsw := fun k (hk : k < (swapL xs (f+hole) (f+idx)).length) => getElem_swapL xs (f+hole) (f+idx) k hf hfi hk
      have HH := ih idx (swapL xs (f+hole) (f+idx)) (by omega) (by simp; omega) hin (hd.step hidx') ?_
      · obtain ⟨ys, h', h1, h2, h3, h4, h5, h6, h7⟩ := HH
        refine ⟨ys, h', h1, (SegPerm.swap xs (by omega) (by omega)).trans h2, h3, h4, h5, h6, ?_⟩
        rw [h7, List.getElem?_eq_getElem (by simp; omega), List.getElem?_eq_getElem hf, hsw]
        simp
      · constructor
        · intro i q h hi hq hc hne1 hne2
          simp only [hsw]
          have hc' := hc
          unfold Child at hc
          by_cases hi' : i = hole
          · subst hi'
            simp only [show f + i ≠ f + idx by omega, show f + q ≠ f + idx by omega, show f + q ≠ f + i by omega, if_true, if_false]
            exact hI.b idx q hfi hin hq hidx' hc'
          · by_cases hq' : q = hole
            · subst hq'
              have : i = o := by omega
              subst this
              simp only [show f + i ≠ f + idx by omega, show f + i ≠ f + q by omega, show f + q ≠ f + idx by omega, if_true, if_false]
              exact hle
            · simp only [show f + i ≠ f + idx by omega, show f + i ≠ f + hole by omega, show f + q ≠ f + idx by omega, show f + q ≠ f + hole by omega, if_false]
              exact hI.a i q (by simpa using h) hi hq hc' hi' hq'
        · intro c p h hc' hp hc hcp
          simp only [hsw]
          have hc2 := hc
          unfold Child at hc hcp
          have : p = hole := by omega
          subst this
          simp only [show f + c ≠ f + idx by omega, show f + c ≠ f + p by omega, show f + p ≠ f + idx by omega, if_true, if_false]
          exact hI.a c idx (by simpa using h) hc' (by omega) hc2 (by omega) (by omega)
    split
    · rename_i hcmp
      have := step (2*hole+1) (2*hole+2) (Or.inl rfl) (Or.inr rfl) (by omega) (by omega) (by omega) (hlt.asymm hcmp)
      exact this
    · rename_i hcmp
      have := step (2*hole+2) (2*hole+1) (Or.inr rfl) (Or.inl rfl) (by omega) (by omega) (by omega) (by simpa using hcmp)
      exact this
  · rename_i hnl
    exact ⟨xs, hole, rfl, SegPerm.refl _ _ _, hI, hd, hh, by omega, rfl⟩

theorem popHeapHoleByIndex_spec {lt : α → α → Bool} (hlt : SWO lt) (f n hole : Nat) (xs : List α)
    (hn : f + n ≤ xs.length) (hh : hole < n) (hI : HoleInv lt f n hole hole xs) :
    ∃ ys, popHeapHoleByIndex lt (holed xs (f + hole)) f hole n (xs[f + hole]'(by omega)) = .ok (full ys) ∧
      SegPerm f (f + n) xs ys ∧ HeapFrom lt f n hole ys := by
  obtain ⟨ys, h', h1, h2, h3, h4, h5, h6, h7⟩ := siftDown_spec hlt f n hole n hole xs (by omega) hn hh .refl hI
  have hlen := h2.len
  rw [List.getElem?_eq_getElem (by omega), List.getElem?_eq_getElem (by omega)] at h7
  replace h7 := Option.some.inj h7
  unfold popHeapHoleByIndex
  rw [h1, R.ok_bind]
  dsimp only
  have htop := h4.le
  split
  · rename_i hcond
    obtain ⟨hc1, hc2⟩ := hcond
    have hchild : Child (n-1) h' := by unfold Child; omega
    have hne : h' ≠ n - 1 := by unfold Child at hchild; omega
    rw [mvTo_holed ys _ _ (by omega) (by omega) (by omega), R.ok_bind]
    have hsw := fun k (hk : k < (swapL ys (f+h') (f+(n-1))).length) => getElem_swapL ys (f+h') (f+(n-1)) k (by omega) (by omega) hk
    have e1 := getElem_swapL_right ys (f+h') (f+(n-1)) (by omega) (by omega) (by simp; omega)
    have HH := pushHeapByIndex_spec hlt f n hole (n-1) (swapL ys (f+h') (f+(n-1))) (by simp; omega) (by omega)
      (h4.step hchild) ?_ ?_
    · obtain ⟨zs, g1, g2, g3⟩ := HH
      refine ⟨zs, ?_, (h2.trans (SegPerm.swap ys (by omega) (by omega))).trans g2, g3⟩
      rw [← g1]; congr 1; rw [e1, h7]
    · constructor
      · intro i q h hi hq hc hne1 hne2
        simp only [hsw]
        have hc' := hc
        unfold Child at hc
        by_cases hi' : i = h'
        · subst hi'
          simp only [show f + i ≠ f + (n-1) by omega, show f + q ≠ f + (n-1) by omega, show f + q ≠ f + i by omega, if_true, if_false]
          exact h3.b (n-1) q (by omega) (by omega) hq hchild hc'
        · by_cases hq' : q = h'
          · omega
          · simp only [show f + i ≠ f + (n-1) by omega, show f + i ≠ f + h' by omega, show f + q ≠ f + (n-1) by omega, show f + q ≠ f + h' by omega, if_false]
            exact h3.a i q (by simpa using h) hi hq hc' hi' hq'
      · intro c p h hc hp hcc
        unfold Child at hcc; omega
    · intro c h hc hcc
      unfold Child at hcc; omega
  · rename_i hcond
    have noChild : ∀ c, c < n → ¬ Child c h' := by
      intro c hc hcc
      unfold Child at hcc
      omega
    obtain ⟨zs, g1, g2, g3⟩ := pushHeapByIndex_spec hlt f n hole h' ys (by omega) (by omega) h4 h3
      (by intro c h hc hcc; exact absurd hcc (noChild c hc))
    refine ⟨zs, ?_, h2.trans g2, g3⟩
    rw [← g1]; congr 1; rw [h7]

/-- the whole `[f, f+n)` is a heap -/
theorem makeHeapLoop_spec {lt : α → α → Bool} (hlt : SWO lt) (f n : Nat) :
    ∀ (hole : Nat) (xs : List α) (_ : f + n ≤ xs.length) (_ : hole ≤ n / 2) (_ : HeapFrom lt f n hole xs),
    ∃ ys, makeHeapLoop lt (full xs) f n hole = .ok (full ys) ∧ SegPerm f (f + n) xs ys ∧ HeapFrom lt f n 0 ys := by
  intro hole
  induction hole with
  | zero => intro xs hn _ hI; exact ⟨xs, rfl, SegPerm.refl _ _ _, hI⟩
  | succ hole ih =>
    intro xs hn hh hI
    unfold makeHeapLoop
    rw [mv_full xs _ (by omega), R.ok_bind]
    dsimp only
    have HH := popHeapHoleByIndex_spec hlt f n hole xs hn (by omega) ?_
    · obtain ⟨ys, h1, h2, h3⟩ := HH
      rw [h1, R.ok_bind]
      obtain ⟨zs, g1, g2, g3⟩ := ih ys (by have := h2.len; omega) (by omega) h3
      exact ⟨zs, g1, h2.trans g2, g3⟩
    · constructor
      · intro i p h hi hp hc hne1 hne2
        exact hI i p h hi (by omega) hc
      · intro c p h hc hp hcc hpc
        unfold Child at hcc hpc; omega

theorem makeHeap_spec {lt : α → α → Bool} (hlt : SWO lt) (f l : Nat) (xs : List α) (hfl : f ≤ l) (hl : l ≤ xs.length) :
    ∃ ys, makeHeap lt (full xs) f l = .ok (full ys) ∧ SegPerm f l xs ys ∧ HeapFrom lt f (l - f) 0 ys := by
  have := makeHeapLoop_spec hlt f (l - f) ((l-f)/2) xs (by omega) (by omega) ?_
  · rwa [show f + (l - f) = l by omega] at this
  · intro i p h hi hp hc
    unfold Child at hc; omega

theorem pushHeap_spec {lt : α → α → Bool} (hlt : SWO lt) (f l : Nat) (xs : List α) (hfl : f < l) (hl : l ≤ xs.length)
    (hh : HeapFrom lt f (l - f - 1) 0 xs) :
    ∃ ys, pushHeap lt (full xs) f l = .ok (full ys) ∧ SegPerm f l xs ys ∧ HeapFrom lt f (l - f) 0 ys := by
  unfold pushHeap
  split
  · rw [mv_full xs _ (by omega), R.ok_bind]
    dsimp only
    have hd : ∀ d, Desc 0 d := by
      intro d
      induction d using Nat.strongRecOn with
      | _ d ih =>
        by_cases h0 : d = 0
        · subst h0; exact .refl
        · exact Desc.step (ih ((d-1)/2) (by omega)) (by unfold Child; omega)
    have := pushHeapByIndex_spec hlt f (l - f) 0 (l-f-1) xs (by omega) (by omega) (hd _) ?_ ?_
    · simpa only [show f + (l - f - 1) = l - 1 by omega, show f + (l - f) = l by omega] using this
    · constructor
      · intro i p h hi hp hc hne1 hne2
        exact hh i p h (by omega) hp hc
      · intro c p h hc hp hcc hpc
        unfold Child at hcc; omega
    · intro c h hc hcc
      unfold Child at hcc; omega
  · refine ⟨xs, rfl, SegPerm.refl _ _ _, ?_⟩
    intro i p h hi hp hc
    unfold Child at hc; omega

/-- In a heap the first element is maximal. -/
theorem HeapFrom.root_max {lt : α → α → Bool} (hlt : SWO lt) {f n : Nat} {xs : List α} (h : HeapFrom lt f n 0 xs) :
    ∀ i (hi : f + i < xs.length), i < n → lt (xs[f]'(by omega)) xs[f + i] = false := by
  intro i
  induction i using Nat.strongRecOn with
  | _ i ih =>
    intro hi hin
    by_cases h0 : i = 0
    · subst h0; exact hlt.irrefl _
    · have h1 := ih ((i-1)/2) (by omega) (by omega) (by omega)
      have h2 := h i ((i-1)/2) hi hin (by omega) (by unfold Child; omega)
      exact hlt.le_trans h2 h1

theorem popHeap_spec {lt : α → α → Bool} (hlt : SWO lt) (f l : Nat) (xs : List α) (hfl : f < l) (hl : l ≤ xs.length)
    (hh : HeapFrom lt f (l - f) 0 xs) :
    ∃ ys, popHeap lt (full xs) f l = .ok (full ys) ∧ SegPerm f l xs ys ∧ HeapFrom lt f (l - f - 1) 0 ys ∧
      ys[l - 1]? = xs[f]? := by
  unfold popHeap
  split
  · dsimp only
    rw [mv_full xs _ (by omega), R.ok_bind]
    dsimp only
    unfold popHeapHoleUnchecked
    rw [mvTo_holed xs _ _ (by omega) (by omega) (by omega), R.ok_bind]
    have hsw := fun k (hk : k < (swapL xs (l-1) f).length) => getElem_swapL xs (l-1) f k (by omega) (by omega) hk
    have e1 := getElem_swapL_right xs (l-1) f (by omega) (by omega) (by simp; omega)
    have HH := popHeapHoleByIndex_spec hlt f (l-1-f) 0 (swapL xs (l-1) f) (by simp; omega) (by omega) ?_
    · obtain ⟨ys, h1, h2, h3⟩ := HH
      refine ⟨ys, ?_, ?_, ?_, ?_⟩
      · simp only [Nat.add_zero] at h1
        rw [← h1, e1]
      · exact (SegPerm.swap xs (by omega) (by omega)).trans (h2.mono (by omega) (by omega))
      · rwa [show l - f - 1 = l - 1 - f by omega]
      · have := h2.out (l-1) (by omega)
        rw [this, List.getElem?_eq_getElem (by simp; omega), hsw, List.getElem?_eq_getElem (by omega)]
        grind
    · constructor
      · intro i p h hi hp hc hne1 hne2
        simp only [hsw]
        have hc' := hc
        unfold Child at hc
        simp only [show f + i ≠ f by omega, show f + i ≠ l - 1 by omega, show f + p ≠ f by omega, show f + p ≠ l - 1 by omega, if_false]
        exact hh i p (by simpa using h) (by omega) hp hc'
      · intro c p h hc hp hcc hpc
        unfold Child at hpc; omega
  · refine ⟨xs, rfl, SegPerm.refl _ _ _, ?_, ?_⟩
    · intro i p h hi hp hc
      unfold Child at hc; omega
    · rw [show l - 1 = f by omega]

theorem sortHeap_spec {lt : α → α → Bool} (hlt : SWO lt) (f : Nat) :
    ∀ (l : Nat) (xs : List α) (_ : l ≤ xs.length) (_ : HeapFrom lt f (l - f) 0 xs),
    ∃ ys, sortHeap lt (full xs) f l = .ok (full ys) ∧ SegPerm f l xs ys ∧ SortedOn lt f l ys := by
  intro l
  induction l with
  | zero =>
    intro xs hl hh
    unfold sortHeap
    simp only [show ¬ (2 ≤ 0 - f) by omega, dite_false]
    exact ⟨xs, rfl, SegPerm.refl _ _ _, by intro i j hj; omega⟩
  | succ l ih =>
    intro xs hl hh
    unfold sortHeap
    split
    · obtain ⟨ys, h1, h2, h3, h4⟩ := popHeap_spec hlt f (l+1) xs (by omega) hl hh
      rw [h1, R.ok_bind]
      obtain ⟨zs, g1, g2, g3⟩ := ih ys (by have := h2.len; omega) (by rwa [show l - f = l + 1 - f - 1 by omega])
      refine ⟨zs, g1, h2.trans (g2.mono (by omega) (by omega)), ?_⟩
      intro i j hj hfi hij hjl
      by_cases hjl' : j < l
      · exact g3 i j hj hfi hij hjl'
      · have : j = l := by omega
        subst this
        have hl2 := h2.len
        have hl3 := g2.len
        -- zs[j] = ys[j] = xs[f], maximal in xs on the segment
        have e1 : zs[j] = xs[f]'(by omega) := by
          rw [g2.getElem_out j (by omega)]
          have := h4
          simp only [Nat.add_sub_cancel] at this
          rw [List.getElem?_eq_getElem (by omega), List.getElem?_eq_getElem (by omega)] at this
          exact Option.some.inj this
        rw [e1]
        have hmax : ∀ i (hi : i < xs.length), f ≤ i → i < j + 1 → lt (xs[f]'(by omega)) xs[i] = false := by
          intro i hi h1 h2
          have := hh.root_max hlt (i - f) (by omega) (by omega)
          simpa only [show f + (i - f) = i by omega] using this
        have hm2 := h2.forall_seg (P := fun x => lt (xs[f]'(by omega)) x = false) hmax
        have hm3 := (g2.mono (Nat.le_refl f) (Nat.le_succ j)).forall_seg (P := fun x => lt (xs[f]'(by omega)) x = false) hm2
        exact hm3 i (by omega) hfi (by omega)
    · refine ⟨xs, rfl, SegPerm.refl _ _ _, ?_⟩
      intro i j hj hfi hij hjl
      omega

end STL
