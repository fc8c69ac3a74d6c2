import Verif.Par.SortStep
import Verif.Sort.Props

/-!
# C42: the parallel `sort` under every schedule
-/

namespace STL.Par.PSort
open STL.Conc

variable {ι α : Type} [DecidableEq ι] [Fintype ι]

/-- Two disjoint ranges at most cover a position once, and so on: the invariant holds at the start. -/
theorem inv_init (lt : α → α → Bool) {T : Nat} (hT : 0 < T) (main : ι) (xs : List α) (junk : Nat → Item) :
    Inv1 T (init T main xs junk) ∧ Inv2 lt xs T main (init T main xs junk) := by
  have hpc : ∀ u, ((init T main xs junk).l u).pc = .join ∨ ((init T main xs junk).l u).pc = .idle := by
    intro u
    unfold init
    simp only []
    split <;> simp
  have hno : ∀ u, hasId ((init T main xs junk).l u).pc = false := by
    intro u
    rcases hpc u with h | h <;> rw [h] <;> rfl
  have hwc : ∀ u, ((init T main xs junk).l u).wc = 0 := fun u => rfl
  have hout : out xs.length T (init T main xs junk) = {⟨0, xs.length, xs.length⟩} := by
    unfold out
    have e1 : ∀ u, held ((init T main xs junk).l u) = 0 := by
      intro u
      rcases hpc u with h | h <;> unfold held <;> rw [h]
    have e2 : ∀ k, queued ((init T main xs junk).q k) = 0 := by
      intro k
      unfold queued init dq0
      simp
    simp only [e1, e2, Finset.sum_const_zero]
    simp [init]
  constructor
  · constructor
    · intro u hu; rw [hno u] at hu; cases hu
    · intro u _ hu; rw [hno u] at hu; cases hu
    · intro i
      simp only [hno]
      simp [init]
    · exact hT
    · intro u hu; rw [hno u] at hu; cases hu
    · intro k _; rfl
    · intro u hu; rcases hpc u with h | h <;> rw [h] at hu <;> cases hu
    · intro u hu; rcases hpc u with h | h <;> rw [h] at hu <;> cases hu
    · intro k
      constructor <;> simp [init, dq0]
    · intro k
      have e1 : ∀ u g, hold k ((init T main xs junk).l u) g = 0 := by
        intro u g
        unfold hold holdOwn holdThief
        rcases hpc u with h | h <;> rw [h] <;> simp
      simp only [e1, Finset.sum_const_zero]
      constructor
      · intro g
        by_cases hg : g = 0 <;> simp [init, dq0, hg]
      · intro g
        by_cases hg : g = 0 <;> simp [init, dq0, hg]
      · intro g
        by_cases hg : g = 0 <;> simp [init, dq0, hg]
  · constructor
    · exact List.Perm.refl _
    · intro p
      rw [hout]
      refine (Multiset.countP_le_card _ _).trans ?_
      simp
    · intro I hI
      rw [hout, Multiset.mem_singleton] at hI
      subst hI
      simp
    · intro i j hj hij hI
      rw [hout] at hI
      exfalso
      refine hI _ (Multiset.mem_singleton_self _) ?_
      unfold Item.has
      have : j < xs.length := hj
      simp only []
      omega
    · rw [hout]
      simp only [hwc, Finset.sum_const_zero]
      simp [init]
    · intro u
      refine busyOk_of ?_ ?_ <;> rcases hpc u with h | h <;> rw [h] <;> decide
    · intro u hu; rcases hpc u with h | h <;> rw [h] at hu <;> cases hu
    · intro u _; rcases hpc u with h | h <;> rw [h] <;> decide
    · unfold MainOk init
      simp
    · intro u _; rfl

theorem reach_inv {lt : α → α → Bool} (hlt : SWO lt) {T : Nat} (hT : Fintype.card ι ≤ T) {main : ι} {xs : List α} {o : Option (St ι α)} (h : Reach lt T main xs o) :
    ∃ s, o = some s ∧ Inv1 T s ∧ Inv2 lt xs T main s := by
  induction h with
  | init junk =>
    have : 0 < Fintype.card ι := Fintype.card_pos_iff.2 ⟨main⟩
    exact ⟨_, rfl, inv_init lt (by omega) main xs junk⟩
  | step e t _ ih =>
    obtain ⟨s, e1, h1, h2⟩ := ih
    cases e1
    obtain ⟨s', e2, h3⟩ := Inv.step hlt hT h1 h2 e t
    exact ⟨s', by rw [e2]; rfl, h3⟩

/-- **C42, no undefined behaviour.** Whatever the schedule, the allocations that are refused and the spurious failures, no thread touches a buffer that has been given back, an element outside
of its work item or a queue that does not exist. -/
theorem C42_safe {lt : α → α → Bool} (hlt : SWO lt) {T : Nat} (hT : Fintype.card ι ≤ T) (main : ι) (xs : List α) : ¬ Reach lt T main xs (none : Option (St ι α)) := by
  intro h
  obtain ⟨s, e, _⟩ := reach_inv hlt hT h
  cases e

/-- **C42, the result.** When `sort` returns in the calling thread (and from then on) the sequence is a sorted permutation of what it was. -/
theorem C42_sorted {lt : α → α → Bool} (hlt : SWO lt) {T : Nat} (hT : Fintype.card ι ≤ T) {main : ι} {xs : List α} {s : St ι α} (h : Reach lt T main xs (some s))
    (hd : (s.l main).pc = .done) : s.tm.mem.Perm xs ∧ Spec.SortedBy lt s.tm.mem := by
  obtain ⟨s', e, h1, h2⟩ := reach_inv hlt hT h
  cases e
  refine ⟨h2.perm, ?_⟩
  have hz := h2.done main hd
  have hrem := h2.rem
  have hs : ((out xs.length T s).map Item.size).sum = 0 := by omega
  have hz : ∀ I ∈ out xs.length T s, I.size = 0 := by
    intro I hI
    have := Multiset.single_le_sum (s := (out xs.length T s).map Item.size) (fun x _ => Nat.zero_le x) I.size (Multiset.mem_map_of_mem _ hI)
    omega
  have := h2.srt
  rw [Spec.SortedBy, List.pairwise_iff_getElem]
  intro i j _ hj hij
  refine this i j hj hij ?_
  intro I hI hh
  have := hz I hI
  have h3 := hh.1
  unfold Item.has at h3
  omega

/-- The positions that a thread is reading and writing. -/
def workingOn (x : Th α) (p : Nat) : Prop :=
  (x.pc = .busy ∧ x.wi.off ≤ p ∧ p < x.wi.off + x.wi.size) ∨ (x.pc = .serialBusy ∧ x.rf.off ≤ p ∧ p < x.rf.off + x.rf.size)

/-- **C42, no data race on the elements.** Two threads never work on the same element, and only on elements of the sequence. -/
theorem C42_exclusive {lt : α → α → Bool} (hlt : SWO lt) {T : Nat} (hT : Fintype.card ι ≤ T) {main : ι} {xs : List α} {s : St ι α} (h : Reach lt T main xs (some s)) {u v : ι} (huv : u ≠ v)
    {p : Nat} (hu : workingOn (s.l u) p) : p < xs.length ∧ ¬ workingOn (s.l v) p := by
  obtain ⟨s', e, h1, h2⟩ := reach_inv hlt hT h
  cases e
  have key : ∀ w, workingOn (s.l w) p → ∃ I ∈ held (s.l w), I.has p := by
    intro w hw
    rcases hw with ⟨hp, hw⟩ | ⟨hp, hw⟩
    · exact ⟨_, by rw [mem_held_work (.inr hp)]; exact Multiset.mem_singleton_self _, hw⟩
    · exact ⟨_, by rw [mem_held_serial (.inr (.inl hp))]; exact Multiset.mem_add.2 (.inr (Multiset.mem_singleton_self _)), hw⟩
  obtain ⟨I, hI, hIp⟩ := key u hu
  have hle : held (s.l u) + held (s.l v) ≤ out xs.length T s := by
    unfold out
    have e1 : held (s.l u) + held (s.l v) ≤ ∑ u, held (s.l u) := by
      rw [← Finset.add_sum_erase _ _ (Finset.mem_univ u)]
      refine add_le_add_right ?_ _
      rw [← Finset.add_sum_erase _ _ (Finset.mem_erase.2 ⟨Ne.symm huv, Finset.mem_univ v⟩)]
      exact Multiset.le_add_right _ _
    exact e1.trans ((Multiset.le_add_left _ _).trans (Multiset.le_add_right _ _))
  constructor
  · have := h2.bnd I (Multiset.mem_of_le hle (Multiset.mem_add.2 (.inl hI)))
    unfold Item.has at hIp
    omega
  · intro hv
    obtain ⟨J, hJ, hJp⟩ := key v hv
    have hd := h2.dis p
    have h3 := Multiset.countP_le_of_le (fun J : Item => J.has p) hle
    rw [Multiset.countP_add] at h3
    have h4 : 0 < (held (s.l u)).countP (fun J => J.has p) := Multiset.countP_pos.2 ⟨I, hI, hIp⟩
    have h5 : 0 < (held (s.l v)).countP (fun J => J.has p) := Multiset.countP_pos.2 ⟨J, hJ, hJp⟩
    omega

/-- **C42, memory.** When no thread is in a deque any more, the destructor of every queue gives its last buffer back, and all the buffers that it ever had have then been given back (exactly once: giving
back twice is undefined behaviour). -/
theorem C42_memory {lt : α → α → Bool} (hlt : SWO lt) {T : Nat} (hT : Fintype.card ι ≤ T) {main : ι} {xs : List α} {s : St ι α} (h : Reach lt T main xs (some s))
    (hq : ∀ u, (s.l u).pc = .idle ∨ (s.l u).pc = .done) (k : Nat) : ∃ d, destroy (s.q k) = .ok d ∧ ∀ g, (d.segs g).live = false := by
  obtain ⟨s', e, h1, h2⟩ := reach_inv hlt hT h
  cases e
  have hh : ∀ u g, hold k (s.l u) g = 0 := by
    intro u g
    unfold hold
    rw [holdOwn_zero (by rcases hq u with h | h <;> rw [h] <;> decide), holdThief_zero (by rcases hq u with h | h <;> rw [h] <;> decide)]
    simp
  have hrc := h1.rc k
  simp only [hh, Finset.sum_const_zero, Nat.zero_add] at hrc
  have hc := hrc.eq (s.q k).cur
  rw [if_pos rfl] at hc
  have hlv : ((s.q k).segs (s.q k).cur).live = true := by rw [hrc.live, hc]; rfl
  unfold destroy release
  rw [if_pos ⟨hlv, by omega⟩]
  refine ⟨_, rfl, fun g => ?_⟩
  simp only []
  by_cases hg : g = (s.q k).cur
  · subst hg; rw [upd_self]; simp [hc]
  · rw [upd_ne _ _ hg, hrc.live, hrc.eq, if_neg hg]; rfl

/-! ## A run with a theft -/

/-- Run a list of threads. -/
def run (lt : α → α → Bool) (T : Nat) (main : ι) (xs : List α) (e : Env) : List ι → St ι α → Option (St ι α)
  | [], s => some s
  | t :: ts, s => match step lt xs.length T main e s t with
    | .ok s => run lt T main xs e ts s
    | .error _ => none

theorem reach_run {lt : α → α → Bool} {T : Nat} {main : ι} {xs : List α} {e : Env} (ts : List ι) {s s' : St ι α} (h : Reach lt T main xs (some s)) (hr : run lt T main xs e ts s = some s') :
    Reach lt T main xs (some s') := by
  induction ts generalizing s with
  | nil => cases hr; exact h
  | cons t ts ih =>
    unfold run at hr
    split at hr
    · rename_i s1 h1
      refine ih ?_ hr
      have := Reach.step e t h
      rw [h1] at this
      exact this
    · cases hr

def exXs : List Nat := (List.range 40).map fun i => (i * 7 + 3) % 41
def exEnv : Env := ⟨false, false, fun _ => ⟨9, 9, 9⟩⟩
/-- The calling thread divides the sequence and offers the right part; thread 1 starts and takes it; then they take turns. -/
def exSched : List (Fin 2) := List.replicate 12 0 ++ List.replicate 19 1 ++ (List.replicate 14 [0, 1]).flatten
def exLt (a b : Nat) : Bool := decide (a < b)
def exRun (ts : List (Fin 2)) : Option (St (Fin 2) Nat) := run exLt 2 0 exXs exEnv ts (init 2 0 exXs exEnv.junk)

theorem exReach {ts : List (Fin 2)} {s} (h : exRun ts = some s) : Reach exLt 2 (0 : Fin 2) exXs (some s) := reach_run ts (.init _) h

theorem exists_of {o : Option (St (Fin 2) Nat)} {f : St (Fin 2) Nat → Bool} (h : o.map f = some true) : ∃ s, o = some s ∧ f s = true := by
  cases o with
  | none => cases h
  | some s => exact ⟨s, rfl, by simpa using h⟩

/-- Both threads have finished, and thread 1 has processed 19 elements of the 40, which it stole. -/
example : ∃ s, Reach exLt 2 (0 : Fin 2) exXs (some s) ∧ (s.l 0).pc = .done ∧ (∀ u, (s.l u).pc = .idle ∨ (s.l u).pc = .done) ∧ (s.l 1).wi.size = 19 ∧ s.tm.mem ≠ exXs := by
  obtain ⟨s, h1, h2⟩ := exists_of (o := exRun exSched)
    (f := fun s => decide ((s.l 0).pc = .done ∧ (∀ u, (s.l u).pc = .idle ∨ (s.l u).pc = .done) ∧ (s.l 1).wi.size = 19 ∧ s.tm.mem ≠ exXs)) (by decide +kernel)
  exact ⟨s, exReach h1, of_decide_eq_true h2⟩

/-- The two threads work at the same time. -/
example : ∃ s, Reach exLt 2 (0 : Fin 2) exXs (some s) ∧ workingOn (s.l 0) 3 ∧ workingOn (s.l 1) 33 := by
  obtain ⟨s, h1, h2⟩ := exists_of (o := exRun (List.replicate 12 0 ++ List.replicate 19 1 ++ [0]))
    (f := fun s => decide ((s.l 0).pc = .busy ∧ (s.l 0).wi.off ≤ 3 ∧ 3 < (s.l 0).wi.off + (s.l 0).wi.size ∧
      (s.l 1).pc = .busy ∧ (s.l 1).wi.off ≤ 33 ∧ 33 < (s.l 1).wi.off + (s.l 1).wi.size)) (by decide +kernel)
  obtain ⟨a, b, c, d, e, f⟩ := of_decide_eq_true h2
  exact ⟨s, exReach h1, .inl ⟨a, b, c⟩, .inl ⟨d, e, f⟩⟩

theorem exLt_swo : SWO exLt := by
  constructor <;> simp [exLt] <;> omega

end STL.Par.PSort
