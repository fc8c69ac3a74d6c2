import Verif.Sort.Select

/-!
# Properties C01, C03, C34, C36: sort, heaps, selection, priority_queue

The specification is in `namespace STL.Spec` below; it mentions no helper of the model.
-/

namespace STL

namespace Spec
variable {α : Type _}

/-- No element is ordered before an earlier one. -/
def SortedBy (lt : α → α → Bool) (xs : List α) : Prop := xs.Pairwise (fun a b => lt b a = false)

/-- [alg.heap.operations]: `a[(i-1)/2] < a[i]` is false for every `0 < i < N`. -/
def IsHeap (lt : α → α → Bool) (xs : List α) : Prop :=
  ∀ i (h : i < xs.length), 0 < i → lt (xs[(i - 1) / 2]'(by omega)) xs[i] = false

end Spec

variable {α : Type _}

theorem isHeap_iff {lt : α → α → Bool} {xs : List α} : Spec.IsHeap lt xs ↔ HeapFrom lt 0 xs.length 0 xs := by
  constructor
  · intro h i p hi hin _ hc
    have : (i - 1) / 2 = p := by unfold Child at hc; omega
    subst this
    simpa using h i hin (by unfold Child at hc; omega)
  · intro h i hi h0
    have := h i ((i-1)/2) (by omega) hi (by omega) (by unfold Child; omega)
    simpa using this

theorem heapFrom_take {lt : α → α → Bool} {xs : List α} {n : Nat} (hn : n ≤ xs.length) :
    Spec.IsHeap lt (xs.take n) ↔ HeapFrom lt 0 n 0 xs := by
  constructor
  · intro h i p hi hin _ hc
    have e : (i - 1) / 2 = p := by unfold Child at hc; omega
    subst e
    have := h i (by simp; omega) (by unfold Child at hc; omega)
    simpa using this
  · intro h i hi h0
    simp only [List.length_take] at hi
    have := h i ((i-1)/2) (by omega) (by omega) (by omega) (by unfold Child; omega)
    simpa using this

/-! ## C01 -/

/-- **C01.** `std::sort` on any sequence with any strict weak order: no UB (no out-of-range access, no read of a
moved-from element), terminates (no fuel error), every object ends up holding a value, the values are a permutation of
the input, and they are sorted. -/
theorem C01_sort {lt : α → α → Bool} (hlt : SWO lt) (xs : List α) :
    ∃ ys, sort lt (full xs) = .ok (full ys) ∧ ys.Perm xs ∧ Spec.SortedBy lt ys := by
  unfold sort
  obtain ⟨ys, h1, h2, h3⟩ := sortUnchecked_spec hlt ((full xs).length + 1) 0 (full xs).length (full xs).length xs (by omega) (by simp)
  exact ⟨ys, h1, h2.perm, sortedOn_all (by simpa using Nat.le_of_eq h2.len) h3⟩

/-- **C01, sub-range and any depth budget.** Sorting `[first, last)` inside a larger sequence with an arbitrary
quicksort-division budget (so through any mixture of quicksort, heap sort and insertion sort) sorts exactly that
sub-range and leaves every other element in place. -/
theorem C01_sort_subrange {lt : α → α → Bool} (hlt : SWO lt) (pre mid post : List α) (ideal : Nat) :
    ∃ ys, sortUnchecked lt (mid.length + 1) (full (pre ++ mid ++ post)) pre.length (pre.length + mid.length) ideal
        = .ok (full (pre ++ ys ++ post)) ∧ ys.Perm mid ∧ Spec.SortedBy lt ys := by
  obtain ⟨zs, h1, h2, h3⟩ := sortUnchecked_spec hlt (mid.length + 1) pre.length (pre.length + mid.length) ideal
    (pre ++ mid ++ post) (by omega) (by simp)
  have hlen := h2.len
  simp only [List.length_append] at hlen
  have e1 : zs.take pre.length = pre := by
    apply List.ext_getElem?; intro i
    simp only [List.getElem?_take]
    split
    · rename_i hi
      rw [h2.out i (Or.inl hi), List.append_assoc, List.getElem?_append_left hi]
    · rename_i hi
      rw [List.getElem?_eq_none (by omega)]
  have e2 : zs.drop (pre.length + mid.length) = post := by
    apply List.ext_getElem?; intro i
    rw [List.getElem?_drop, h2.out _ (Or.inr (by omega)), List.getElem?_append_right (by simp)]
    congr 1; simp
  have e3 : zs = pre ++ (zs.take (pre.length + mid.length)).drop pre.length ++ post := by
    conv => lhs; rw [← List.take_append_drop (pre.length + mid.length) zs, e2]
    congr 1
    conv => lhs; rw [← List.take_append_drop pre.length (zs.take (pre.length + mid.length))]
    rw [List.take_take, Nat.min_eq_left (by omega), e1]
  refine ⟨(zs.take (pre.length + mid.length)).drop pre.length, by rw [h1]; congr 2, ?_, ?_⟩
  · have := h2.slice
    rwa [show ((pre ++ mid ++ post).take (pre.length + mid.length)).drop pre.length = mid by
      rw [List.append_assoc, List.take_length_add_append, List.drop_left']
      · simp
      · rfl] at this
  · unfold Spec.SortedBy
    rw [List.pairwise_iff_getElem]
    intro i j hi hj hij
    simp only [List.length_drop, List.length_take] at hi hj
    simp only [List.getElem_drop, List.getElem_take]
    exact h3 _ _ (by omega) (by omega) (by omega) (by omega)

/-- non-vacuity: the hypotheses hold for naturals, and for a non-trivial weak order on pairs. -/
example : ∃ ys, sort (fun a b : Nat => decide (a < b)) (full [5, 3, 9, 3, 1]) = .ok (full ys) ∧
    ys.Perm [5, 3, 9, 3, 1] ∧ Spec.SortedBy (fun a b : Nat => decide (a < b)) ys := C01_sort swo_nat _
example : SWO (fun a b : Nat × String => decide (a.1 < b.1)) := swo_fst

/-! ## C03 -/

/-- **C03 make_heap**: any range becomes a heap, by permuting it. -/
theorem C03_make_heap {lt : α → α → Bool} (hlt : SWO lt) (xs : List α) :
    ∃ ys, makeHeap lt (full xs) 0 xs.length = .ok (full ys) ∧ ys.Perm xs ∧ Spec.IsHeap lt ys := by
  obtain ⟨ys, h1, h2, h3⟩ := makeHeap_spec hlt 0 xs.length xs (by omega) (by omega)
  exact ⟨ys, h1, h2.perm, isHeap_iff.2 (by rw [h2.len]; simpa using h3)⟩

/-- **C03 push_heap**: if all but the last element form a heap, then afterwards the whole range is a heap. -/
theorem C03_push_heap {lt : α → α → Bool} (hlt : SWO lt) (xs : List α) (x : α) (h : Spec.IsHeap lt xs) :
    ∃ ys, pushHeap lt (full (xs ++ [x])) 0 (xs.length + 1) = .ok (full ys) ∧ ys.Perm (xs ++ [x]) ∧ Spec.IsHeap lt ys := by
  obtain ⟨ys, h1, h2, h3⟩ := pushHeap_spec hlt 0 (xs.length + 1) (xs ++ [x]) (by omega) (by simp)
    ((heapFrom_take (by simp)).1 (by simpa using h))
  have := h2.len
  simp only [List.length_append, List.length_cons, List.length_nil] at this
  exact ⟨ys, h1, h2.perm, isHeap_iff.2 (by rw [this]; simpa using h3)⟩

/-- **C03 pop_heap**: on a non-empty heap the old first element, which is maximal, goes last and the rest is a heap. -/
theorem C03_pop_heap {lt : α → α → Bool} (hlt : SWO lt) (x : α) (xs : List α) (h : Spec.IsHeap lt (x :: xs)) :
    ∃ ys, popHeap lt (full (x :: xs)) 0 (xs.length + 1) = .ok (full (ys ++ [x])) ∧ (ys ++ [x]).Perm (x :: xs) ∧
      Spec.IsHeap lt ys ∧ ∀ y ∈ x :: xs, lt x y = false := by
  have hh := isHeap_iff.1 h
  obtain ⟨zs, h1, h2, h3, h4⟩ := popHeap_spec hlt 0 (xs.length + 1) (x :: xs) (by omega) (by simp) (by simpa using hh)
  have hl := h2.len
  simp only [List.length_cons] at hl
  have e : zs = zs.take xs.length ++ [x] := by
    have : zs.drop xs.length = [x] := by
      rw [List.drop_eq_getElem_cons (by omega), List.drop_eq_nil_of_le (by omega)]
      simp only [Nat.add_sub_cancel, List.getElem?_cons_zero] at h4
      rw [List.getElem?_eq_getElem (by omega)] at h4
      rw [Option.some.inj h4]
    conv => lhs; rw [← List.take_append_drop xs.length zs, this]
  refine ⟨zs.take xs.length, by rw [h1, ← e], by rw [← e]; exact h2.perm, (heapFrom_take (by omega)).2 (by simpa using h3), ?_⟩
  intro y hy
  obtain ⟨i, hi, rfl⟩ := List.mem_iff_getElem.1 hy
  have := hh.root_max hlt i (by omega) hi
  simpa using this

/-- **C03 sort_heap**: a heap becomes a sorted range. -/
theorem C03_sort_heap {lt : α → α → Bool} (hlt : SWO lt) (xs : List α) (h : Spec.IsHeap lt xs) :
    ∃ ys, sortHeap lt (full xs) 0 xs.length = .ok (full ys) ∧ ys.Perm xs ∧ Spec.SortedBy lt ys := by
  obtain ⟨ys, h1, h2, h3⟩ := sortHeap_spec hlt 0 xs.length xs (by omega) (by simpa using isHeap_iff.1 h)
  exact ⟨ys, h1, h2.perm, sortedOn_all (by rw [h2.len]; omega) h3⟩

/-- **C03 is_heap_until**: returns the longest prefix that is a heap (no ordering law is needed). -/
theorem C03_is_heap_until (lt : α → α → Bool) (xs : List α) :
    ∃ e, isHeapUntil lt (full xs) 0 xs.length = .ok e ∧ e ≤ xs.length ∧ Spec.IsHeap lt (xs.take e) ∧
      ∀ e', e' ≤ xs.length → Spec.IsHeap lt (xs.take e') → e' ≤ e := by
  obtain ⟨e, h1, h2, h3, h4⟩ := isHeapUntilLoop_spec (lt := lt) 0 xs.length xs (by omega) _ 1 (Nat.le_refl _) (by omega) (by omega)
    (by intro i p hi hin hp hc; unfold Child at hc; omega)
  refine ⟨e, by simpa [isHeapUntil] using h1, h2, (heapFrom_take h2).2 h3, ?_⟩
  intro e' he' hh
  by_cases hc : e' ≤ e
  · exact hc
  · exfalso
    refine h4 (by omega) ?_
    have := (heapFrom_take he').1 hh
    intro i p hi hin hp hcc
    exact this i p hi (by omega) hp hcc

/-- **C03 is_heap** decides the heap property. -/
theorem C03_is_heap (lt : α → α → Bool) (xs : List α) :
    ∃ b, isHeap lt (full xs) 0 xs.length = .ok b ∧ (b = true ↔ Spec.IsHeap lt xs) := by
  obtain ⟨e, h1, h2, h3, h4⟩ := C03_is_heap_until lt xs
  refine ⟨e == xs.length, by unfold isHeap; rw [h1]; rfl, ?_⟩
  rw [beq_iff_eq]
  constructor
  · rintro rfl; simpa using h3
  · intro h; have := h4 xs.length (by omega) (by simpa using h); omega

/-- non-vacuity: a heap with several levels, and a non-heap. -/
example : Spec.IsHeap (fun a b : Nat => decide (a < b)) [9, 7, 8, 3, 7, 1] := by
  intro i h h0
  have : i = 1 ∨ i = 2 ∨ i = 3 ∨ i = 4 ∨ i = 5 := by simp at h; omega
  rcases this with rfl | rfl | rfl | rfl | rfl <;> simp
example : ¬ Spec.IsHeap (fun a b : Nat => decide (a < b)) [1, 2] := fun h => by
  have := h 1 (by decide) (by decide); simp at this

/-! ## C34 -/

/-- **C34 partial_sort**: the range is permuted, the first `k` elements are sorted and none of the remaining
elements is ordered before any of them. -/
theorem C34_partial_sort {lt : α → α → Bool} (hlt : SWO lt) (xs : List α) (k : Nat) (hk : k ≤ xs.length) :
    ∃ ys, partialSort lt (full xs) 0 k xs.length = .ok (full ys) ∧ ys.Perm xs ∧ Spec.SortedBy lt (ys.take k) ∧
      ∀ a ∈ ys.take k, ∀ b ∈ ys.drop k, lt b a = false := by
  obtain ⟨ys, h1, h2, h3, h4⟩ := partialSort_spec hlt 0 k xs.length xs (by omega) hk (by omega)
  have hl := h2.len
  refine ⟨ys, h1, h2.perm, ?_, ?_⟩
  · unfold Spec.SortedBy
    rw [List.pairwise_iff_getElem]
    intro i j hi hj hij
    simp only [List.length_take] at hi hj
    simp only [List.getElem_take]
    exact h3 i j (by omega) (by omega) hij (by omega)
  · intro a ha b hb
    obtain ⟨i, hi, rfl⟩ := List.mem_iff_getElem.1 ha
    obtain ⟨j, hj, rfl⟩ := List.mem_iff_getElem.1 hb
    simp only [List.length_take, List.length_drop] at hi hj
    simp only [List.getElem_take, List.getElem_drop]
    exact h4 i (k + j) (by omega) (by omega) (by omega) (by omega) (by omega) (by omega)

/-- **C34 nth_element**: the range is permuted; nothing before position `n` is greater than the element there and
nothing after it is smaller. -/
theorem C34_nth_element {lt : α → α → Bool} (hlt : SWO lt) (xs : List α) (n : Nat) (hn : n < xs.length) :
    ∃ ys, ∃ h : n < ys.length, nthElement lt (full xs) n = .ok (full ys) ∧ ys.Perm xs ∧
      (∀ a ∈ ys.take n, lt ys[n] a = false) ∧ (∀ b ∈ ys.drop (n + 1), lt b ys[n] = false) := by
  unfold nthElement
  rw [if_neg (by simp; omega)]
  simp only [full_length]
  obtain ⟨ys, h1, h2, hn', h3, h4⟩ := nthElementUnchecked_spec hlt (xs.length + 1) 0 n xs.length xs.length xs (by omega) (by omega) (by omega) hn
  have hl := h2.len
  refine ⟨ys, hn', h1, h2.perm, ?_, ?_⟩
  · intro a ha
    obtain ⟨i, hi, rfl⟩ := List.mem_iff_getElem.1 ha
    simp only [List.length_take] at hi
    simp only [List.getElem_take]
    exact h3 i (by omega) (by omega) (by omega)
  · intro a ha
    obtain ⟨i, hi, rfl⟩ := List.mem_iff_getElem.1 ha
    simp only [List.length_drop] at hi
    simp only [List.getElem_drop]
    exact h4 _ (by omega) (by omega) (by omega)

/-- **C34 nth_element, agreement with a full sort**: the element at `n` is equivalent to the element any sorted
permutation of the input has at `n`. -/
theorem C34_nth_element_eq_sort {lt : α → α → Bool} (hlt : SWO lt) (xs : List α) (n : Nat) (hn : n < xs.length)
    (ss : List α) (hp : ss.Perm xs) (hs : Spec.SortedBy lt ss) :
    ∃ ys, nthElement lt (full xs) n = .ok (full ys) ∧ ∃ (h : n < ys.length) (h' : n < ss.length),
      lt ys[n] ss[n] = false ∧ lt ss[n] ys[n] = false := by
  obtain ⟨ys, h, h1, h2, h3, h4⟩ := C34_nth_element hlt xs n hn
  have hls := hp.length_eq
  have h' : n < ss.length := by omega
  refine ⟨ys, h1, h, h', ?_⟩
  obtain ⟨v, hv⟩ : ∃ v, v = ys[n] := ⟨_, rfl⟩
  rw [← hv] at h3 h4 ⊢
  constructor
  · -- count elements of `ss` not less than v … by pigeonhole
    cases hc : lt v ss[n] with
    | false => rfl
    | true =>
      exfalso
      -- all of ss.drop n is > v: n-th and later; so at least len-n elements > v; but in ys at most len-n-1
      have c1 : ss.countP (fun x => lt v x) = ys.countP (fun x => lt v x) := (hp.trans h2.symm).countP_eq _
      have c2 : ss.length - n ≤ ss.countP (fun x => lt v x) := by
        have : (ss.drop n).countP (fun x => lt v x) = (ss.drop n).length := by
          rw [List.countP_eq_length]
          intro x hx
          obtain ⟨i, hi, rfl⟩ := List.mem_iff_getElem.1 hx
          simp only [List.length_drop] at hi
          simp only [List.getElem_drop]
          by_cases h0 : i = 0
          · subst h0; exact hc
          · exact hlt.lt_of_lt_of_le hc ((List.pairwise_iff_getElem.1 hs) n (n+i) (by omega) (by omega) (by omega))
        have l := (List.drop_sublist n ss).countP_le (p := fun x => lt v x)
        rw [this, List.length_drop] at l
        exact l
      have c3 : ys.countP (fun x => lt v x) ≤ ys.length - n - 1 := by
        conv => lhs; rw [← List.take_append_drop (n+1) ys]
        rw [List.countP_append]
        have z : (ys.take (n+1)).countP (fun x => lt v x) = 0 := by
          rw [List.countP_eq_zero]
          intro x hx
          rw [List.take_add_one, List.getElem?_eq_getElem h] at hx
          simp only [Option.toList_some, List.mem_append, List.mem_singleton] at hx
          rcases hx with hx | rfl
          · simp [h3 x hx]
          · rw [← hv]; simp [hlt.irrefl]
        rw [z]
        have := List.countP_le_length (p := fun x => lt v x) (l := ys.drop (n+1))
        simp only [List.length_drop] at this
        omega
      have hl2 := h2.length_eq
      omega
  · cases hc : lt ss[n] v with
    | false => rfl
    | true =>
      exfalso
      have c1 : ss.countP (fun x => lt x v) = ys.countP (fun x => lt x v) := (hp.trans h2.symm).countP_eq _
      have c2 : n + 1 ≤ ss.countP (fun x => lt x v) := by
        have : (ss.take (n+1)).countP (fun x => lt x v) = (ss.take (n+1)).length := by
          rw [List.countP_eq_length]
          intro x hx
          obtain ⟨i, hi, rfl⟩ := List.mem_iff_getElem.1 hx
          simp only [List.length_take] at hi
          simp only [List.getElem_take]
          by_cases h0 : i = n
          · subst h0; exact hc
          · exact hlt.lt_of_le_of_lt ((List.pairwise_iff_getElem.1 hs) i n (by omega) (by omega) (by omega)) hc
        have l := (List.take_sublist (n+1) ss).countP_le (p := fun x => lt x v)
        rw [this, List.length_take] at l
        omega
      have c3 : ys.countP (fun x => lt x v) ≤ n := by
        conv => lhs; rw [← List.take_append_drop n ys]
        rw [List.countP_append]
        have z : (ys.drop n).countP (fun x => lt x v) = 0 := by
          rw [List.countP_eq_zero]
          intro x hx
          rw [List.drop_eq_getElem_cons h] at hx
          rcases List.mem_cons.1 hx with rfl | hx
          · rw [← hv]; simp [hlt.irrefl]
          · simp [h4 x hx]
        rw [z]
        have := List.countP_le_length (p := fun x => lt x v) (l := ys.take n)
        simp only [List.length_take] at this
        omega
      omega

/-- `nth_element(first, last, last)` does nothing. -/
theorem C34_nth_element_end (lt : α → α → Bool) (xs : List α) : nthElement lt (full xs) xs.length = .ok (full xs) := by
  unfold nthElement; rw [if_pos (by simp)]; rfl

/-! ## C36 priority_queue -/

namespace Spec
variable {α : Type _}
/-- Abstract priority queue: a bag of elements, as a list up to permutation. `BagStep lt b op b'` relates the bag
before and after one operation: push adds, push_range adds all, pop removes one maximal element. -/
inductive BagStep (lt : α → α → Bool) : List α → PqOp α → List α → Prop where
  | push (b x b') : b'.Perm (x :: b) → BagStep lt b (.push x) b'
  | pushRange (b xs b') : b'.Perm (xs ++ b) → BagStep lt b (.pushRange xs) b'
  | pop (b t b') : b.Perm (t :: b') → (∀ y ∈ b, lt t y = false) → BagStep lt b .pop b'

/-- A history of bag operations. -/
inductive BagRun (lt : α → α → Bool) : List α → List (PqOp α) → List α → Prop where
  | nil (b) : BagRun lt b [] b
  | cons {b op b' ops b''} : BagStep lt b op b' → BagRun lt b' ops b'' → BagRun lt b (op :: ops) b''

/-- A history never pops an empty queue (that is UB for the user). -/
def NoUnderflow : Nat → List (PqOp α) → Prop
  | _, [] => True
  | n, .push _ :: ops => NoUnderflow (n + 1) ops
  | n, .pushRange xs :: ops => NoUnderflow (n + xs.length) ops
  | n, .pop :: ops => 0 < n ∧ NoUnderflow (n - 1) ops
end Spec

theorem pqStep_spec {lt : α → α → Bool} (hlt : SWO lt) (c : List α) (hh : Spec.IsHeap lt c) (op : PqOp α)
    (hop : op = .pop → 0 < c.length) :
    ∃ c', pqStep lt (full c) op = .ok (full c') ∧ Spec.IsHeap lt c' ∧ Spec.BagStep lt c op c' := by
  cases op with
  | push x =>
    obtain ⟨ys, h1, h2, h3⟩ := C03_push_heap hlt c x hh
    refine ⟨ys, ?_, h3, .push _ _ _ (h2.trans List.perm_append_comm)⟩
    unfold pqStep
    simpa [full] using h1
  | pop =>
    have := hop rfl
    cases c with
    | nil => simp at this
    | cons x xs =>
      obtain ⟨ys, h1, h2, h3, h4⟩ := C03_pop_heap hlt x xs hh
      refine ⟨ys, ?_, h3, .pop _ x _ (h2.symm.trans List.perm_append_comm) h4⟩
      unfold pqStep
      simp only [full_length, List.length_cons]
      rw [if_neg (by omega), h1]
      simp [full, bind, Except.bind, pure, Except.pure]
  | pushRange xs =>
    unfold pqStep
    have e : full c ++ full xs = full (c ++ xs) := by simp [full]
    dsimp only
    rw [e]
    simp only [full_length]
    split
    · obtain ⟨ys, h1, h2, h3⟩ := C03_make_heap hlt (c ++ xs)
      exact ⟨ys, h1, h3, .pushRange _ _ _ (h2.trans List.perm_append_comm)⟩
    · obtain ⟨ys, h1, h2, h3⟩ := pqPushLoop_spec hlt ((c ++ xs).length - c.length) c.length (c ++ xs) (by simp)
        ((heapFrom_take (by simp)).1 (by simpa using hh))
      exact ⟨ys, h1, isHeap_iff.2 h3, .pushRange _ _ _ (h2.trans List.perm_append_comm)⟩

theorem BagStep_length {lt : α → α → Bool} {b b' : List α} {op : PqOp α} (h : Spec.BagStep lt b op b') :
    b'.length = match op with | .push _ => b.length + 1 | .pushRange xs => b.length + xs.length | .pop => b.length - 1 := by
  cases h with
  | push x _ hp => simpa using hp.length_eq
  | pushRange xs _ hp => have := hp.length_eq; simp at this; simp; omega
  | pop t _ hp _ => have := hp.length_eq; simp at this; simp; omega

/-- **C36.** Over every history of push / push_range / pop that never pops an empty queue, a `priority_queue` behaves as
a bag whose pop removes a maximal element; `size()` agrees, and `top()` of a non-empty queue is a maximal element of
the bag. Holds from any starting heap, in particular from the empty queue. -/
theorem C36_priority_queue_history {lt : α → α → Bool} (hlt : SWO lt) (ops : List (PqOp α)) :
    ∀ (c : List α) (_ : Spec.IsHeap lt c) (_ : Spec.NoUnderflow c.length ops),
    ∃ c', pqRun lt (full c) ops = .ok (full c') ∧ Spec.BagRun lt c ops c' ∧ Spec.IsHeap lt c' ∧
      (c' ≠ [] → ∃ t, pqTop (full c') = .ok t ∧ t ∈ c' ∧ ∀ y ∈ c', lt t y = false) := by
  induction ops with
  | nil =>
    intro c hh _
    refine ⟨c, rfl, .nil _, hh, ?_⟩
    intro hne
    cases c with
    | nil => contradiction
    | cons x xs =>
      refine ⟨x, by simp [pqTop], by simp, ?_⟩
      obtain ⟨_, _, _, _, h4⟩ := C03_pop_heap hlt x xs hh
      exact h4
  | cons op ops ih =>
    intro c hh hu
    obtain ⟨c1, h1, h2, h3⟩ := pqStep_spec hlt c hh op (by rintro rfl; exact hu.1)
    have hl := BagStep_length h3
    obtain ⟨c2, g1, g2, g3, g4⟩ := ih c1 h2 (by
      rw [hl]
      cases op with
      | push x => exact hu
      | pop => exact hu.2
      | pushRange xs => exact hu)
    refine ⟨c2, ?_, .cons h3 g2, g3, g4⟩
    unfold pqRun
    rw [h1, R.ok_bind, g1]

/-- **C36, pop removes exactly the element `top()` shows** (not merely an equivalent one). -/
theorem C36_pop_removes_top {lt : α → α → Bool} (hlt : SWO lt) (c : List α) (hh : Spec.IsHeap lt c) (hne : c ≠ []) :
    ∃ t c', pqTop (full c) = .ok t ∧ pqStep lt (full c) .pop = .ok (full c') ∧ c.Perm (t :: c') := by
  cases c with
  | nil => contradiction
  | cons x xs =>
    obtain ⟨ys, h1, h2, h3, h4⟩ := C03_pop_heap hlt x xs hh
    refine ⟨x, ys, by simp [pqTop], ?_, h2.symm.trans List.perm_append_comm⟩
    unfold pqStep
    simp only [full_length, List.length_cons]
    rw [if_neg (by omega), h1]
    simp [full, bind, Except.bind, pure, Except.pure]

/-- **C36, underflow**: popping an empty queue is flagged as UB by the model. -/
theorem C36_pop_empty (lt : α → α → Bool) : pqStep lt (full ([] : List α)) .pop = .error .ub := rfl

/-- non-vacuity: from the empty queue, a history with pops that meets the hypotheses. -/
example : Spec.IsHeap (fun a b : Nat => decide (a < b)) [] ∧
    Spec.NoUnderflow 0 [PqOp.push 3, .pushRange [1, 7, 7], .pop, .push 2, .pop, .pop] := by
  refine ⟨by intro i h; simp at h, ?_⟩
  simp [Spec.NoUnderflow]

end STL
