import Verif.Par.SortDeque
import Verif.Sort.Intro
import Mathlib.Data.Multiset.Count

/-!
# The elements: sorted except inside of the items that are still to be processed
-/

namespace STL.Par.PSort

variable {α : Type}

def Item.has (I : Item) (p : Nat) : Prop := I.off ≤ p ∧ p < I.off + I.size

instance (I : Item) (p : Nat) : Decidable (I.has p) := inferInstanceAs (Decidable (_ ∧ _))

/-- Any two elements that are not both in one of the items are in order. -/
def SortedMod (lt : α → α → Bool) (M : Multiset Item) (mem : List α) : Prop :=
  ∀ i j (hj : j < mem.length) (hij : i < j), (∀ I ∈ M, ¬ (I.has i ∧ I.has j)) → lt mem[j] (mem[i]'(by omega)) = false

theorem allSome_full (l : List α) : allSome (full l) = .ok l := by
  induction l with
  | nil => rfl
  | cons x l ih =>
    show (do let l' ← allSome (full l); return x :: l') = _
    rw [ih]; rfl

/-- `_Process_sort_work_item`: the elements are permuted; not divided: they are sorted; divided at `a` and `b`: everything is in order except inside of `[0, a)` and of `[b, size)`. -/
theorem processItem_spec {lt : α → α → Bool} (hlt : SWO lt) (seg : List α) (ideal : Nat) :
    ∃ ys r, processItem lt seg ideal = .ok (full ys, r) ∧ ys.Perm seg ∧
      (r = none → ∀ i j (hj : j < ys.length) (hij : i < j), lt ys[j] (ys[i]'(by omega)) = false) ∧
      ∀ a b, r = some (a, b) → a < b ∧ b ≤ seg.length ∧
        ∀ i j (hj : j < ys.length) (hij : i < j), ¬ j < a → ¬ b ≤ i → lt ys[j] (ys[i]'(by omega)) = false := by
  unfold processItem
  simp only []
  have hfull : seg.map some = full seg := rfl
  rw [hfull]
  split
  · obtain ⟨ys, h1, h2, _, h3⟩ := insertionSort_spec hlt 0 seg.length seg (Nat.le_refl _)
    rw [h1]
    refine ⟨ys, none, rfl, h2.perm, fun _ i j hj hij => h3 i j hj (Nat.zero_le _) hij (by rw [← h2.len]; exact hj), fun a b h => by cases h⟩
  · split
    · obtain ⟨ys, a, b, v, h1, h2, h3⟩ := partitionByMedianGuess_spec hlt 0 seg.length seg (by unfold isortMax at *; omega) (Nat.le_refl _)
      rw [h1]
      refine ⟨ys, some (a, b), rfl, h2.perm, fun h => (by cases h), fun a' b' h => ?_⟩
      simp only [Option.some.injEq, Prod.mk.injEq] at h
      obtain ⟨rfl, rfl⟩ := h
      have hlen := h2.len
      have ⟨b1, b2, b3, b4, b5, b6, eq1, eq2, lo, hi⟩ := h3
      refine ⟨b3, b4, fun i j hj hij hja hib => ?_⟩
      have a1 : lt v (ys[i]'(by omega)) = false := by
        by_cases c : i < a
        · exact hlt.asymm (lo i (by omega) (Nat.zero_le _) c)
        · exact eq2 i (by omega) (by omega) (by omega)
      have a2 : lt ys[j] v = false := by
        by_cases c : j < b
        · exact eq1 j hj (by omega) c
        · exact hlt.asymm (hi j hj (by omega) (by omega))
      exact hlt.le_trans a1 a2
    · obtain ⟨ys, h1, h2, h3⟩ := makeHeap_spec hlt 0 seg.length seg (Nat.zero_le _) (Nat.le_refl _)
      rw [h1, R.ok_bind]
      obtain ⟨zs, g1, g2, g3⟩ := sortHeap_spec hlt 0 seg.length ys (by have := h2.len; omega) h3
      rw [g1]
      refine ⟨zs, none, rfl, g2.perm.trans h2.perm, fun _ i j hj hij => g3 i j hj (Nat.zero_le _) hij ?_, fun a b h => by cases h⟩
      rw [← h2.len, ← g2.len]; exact hj

theorem putRange_length {mem seg : List α} {off : Nat} (h : off + seg.length ≤ mem.length) : (putRange mem off seg).length = mem.length := by
  unfold putRange
  simp only [List.length_append, List.length_take, List.length_drop]
  omega

theorem putRange_get {mem seg : List α} {off : Nat} (h : off + seg.length ≤ mem.length) (p : Nat) (hp : p < mem.length) :
    (putRange mem off seg)[p]'(by rw [putRange_length h]; exact hp) =
      if h' : off ≤ p ∧ p < off + seg.length then seg[p - off]'(by omega) else mem[p] := by
  unfold putRange
  split
  · rename_i h'
    rw [List.getElem_append_left (by simp; omega), List.getElem_append_right (by simp; omega)]
    congr 1
    simp; omega
  · rename_i h'
    by_cases c : p < off
    · rw [List.getElem_append_left (by simp; omega), List.getElem_append_left (by simp; omega)]
      simp
    · rw [List.getElem_append_right (by simp; omega)]
      simp only [List.getElem_drop, List.length_append, List.length_take]
      congr 1
      omega

theorem putRange_perm {mem seg : List α} {off size : Nat} (h : off + size ≤ mem.length) (hs : seg.Perm ((mem.drop off).take size)) :
    (putRange mem off seg).Perm mem := by
  have hlen : seg.length = size := by
    rw [hs.length_eq]; simp; omega
  unfold putRange
  rw [hlen]
  have e : mem = mem.take off ++ ((mem.drop off).take size ++ mem.drop (off + size)) := by
    conv_lhs => rw [← List.take_append_drop off mem]
    congr 1
    rw [← List.drop_drop, List.take_append_drop]
  conv_rhs => rw [e]
  rw [List.append_assoc]
  exact (hs.append_right _).append_left _

/-- Processing an item. -/
theorem sortedMod_replace {lt : α → α → Bool} {mem seg : List α} {I : Item} {R N : Multiset Item} (hI : I.off + I.size ≤ mem.length)
    (hseg : seg.Perm ((mem.drop I.off).take I.size)) (hdis : ∀ p, (({I} + R).countP fun J => J.has p) ≤ 1) (hs : SortedMod lt ({I} + R) mem)
    (hN : ∀ i j (hj : j < seg.length) (hij : i < j), (∀ J ∈ N, ¬ (J.has (I.off + i) ∧ J.has (I.off + j))) → lt seg[j] (seg[i]'(by omega)) = false) :
    SortedMod lt (N + R) (putRange mem I.off seg) := by
  have hlen : seg.length = I.size := by
    rw [hseg.length_eq]; simp; omega
  have hb : I.off + seg.length ≤ mem.length := by omega
  have hfrom : ∀ k (hk : k < seg.length), ∃ p, ∃ (hp : p < mem.length), I.has p ∧ mem[p] = seg[k] := by
    intro k hk
    have : seg[k] ∈ (mem.drop I.off).take I.size := hseg.subset (List.getElem_mem hk)
    obtain ⟨m, hm, e⟩ := List.mem_iff_getElem.1 this
    simp only [List.length_take, List.length_drop] at hm
    refine ⟨I.off + m, by omega, ⟨by omega, by omega⟩, ?_⟩
    rw [← e]
    simp
  -- an item of `R` does not meet `I`
  have hdisj : ∀ J ∈ R, ∀ p, J.has p → I.has p → False := by
    intro J hJ p h1 h2
    have := hdis p
    rw [Multiset.countP_add] at this
    have c1 : ({I} : Multiset Item).countP (fun J => J.has p) = 1 := by
      show Multiset.countP _ (I ::ₘ 0) = 1
      rw [Multiset.countP_cons_of_pos (p := fun J : Item => J.has p) 0 h2, Multiset.countP_zero]
    have c2 : 0 < R.countP (fun J => J.has p) := Multiset.countP_pos.2 ⟨J, hJ, h1⟩
    omega
  intro i j hj hij hcov
  rw [putRange_length hb] at hj
  have hi : i < mem.length := by omega
  rw [putRange_get hb j hj, putRange_get hb i hi]
  by_cases cj : I.off ≤ j ∧ j < I.off + seg.length
  · by_cases ci : I.off ≤ i ∧ i < I.off + seg.length
    · rw [dif_pos cj, dif_pos ci]
      refine hN (i - I.off) (j - I.off) (by omega) (by omega) fun J hJ h => ?_
      rw [show I.off + (i - I.off) = i by omega, show I.off + (j - I.off) = j by omega] at h
      exact hcov J (Multiset.mem_add.2 (.inl hJ)) h
    · rw [dif_pos cj, dif_neg ci]
      obtain ⟨p, hp, hIp, e⟩ := hfrom (j - I.off) (by omega)
      rw [← e]
      refine hs i p hp (by unfold Item.has at hIp; omega) fun J hJ h => ?_
      rcases Multiset.mem_add.1 hJ with hJ | hJ
      · rw [Multiset.mem_singleton] at hJ
        subst hJ
        unfold Item.has at h; omega
      · exact hdisj J hJ p h.2 hIp
  · by_cases ci : I.off ≤ i ∧ i < I.off + seg.length
    · rw [dif_neg cj, dif_pos ci]
      obtain ⟨p, hp, hIp, e⟩ := hfrom (i - I.off) (by omega)
      rw [← e]
      refine hs p j hj (by unfold Item.has at hIp; omega) fun J hJ h => ?_
      rcases Multiset.mem_add.1 hJ with hJ | hJ
      · rw [Multiset.mem_singleton] at hJ
        subst hJ
        unfold Item.has at h; omega
      · exact hdisj J hJ p h.1 hIp
    · rw [dif_neg cj, dif_neg ci]
      refine hs i j hj hij fun J hJ h => ?_
      rcases Multiset.mem_add.1 hJ with hJ | hJ
      · rw [Multiset.mem_singleton] at hJ
        subst hJ
        unfold Item.has at h; omega
      · exact hcov J (Multiset.mem_add.2 (.inr hJ)) h

end STL.Par.PSort
