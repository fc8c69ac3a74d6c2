import Verif.Par.SortTeam
import Mathlib.Tactic.Abel

/-!
# The invariant of the parallel sort
-/

namespace STL.Par.PSort
open STL.Conc

variable {ι α : Type} [DecidableEq ι] [Fintype ι]

/-- The items that are still to be processed. -/
def out (n T : Nat) (s : St ι α) : Multiset Item :=
  (if s.tm.submitted = true then 0 else {⟨0, n, n⟩}) + ∑ u, held (s.l u) + ∑ k ∈ Finset.range T, queued (s.q k)

/-- The calling thread before and after `_Submit`. -/
def MainOk (sub : Bool) (p : Pc) : Prop :=
  if sub = true then p ≠ .idle ∧ p ≠ .join ∧ p ≠ .high ∧ p ≠ .raise ∧ p ≠ .submit ∧ p ≠ .leave else p = .join ∨ p = .high ∨ p = .raise ∨ p = .submit

/-- Program points at which `_Work_complete` is zero. -/
def zeroPc : Pc → Bool
  | .idle | .join | .high | .raise | .submit | .steal1 | .steal2 | .s0 | .s1 | .s2 | .s3 | .s4 | .s5 | .s6 | .s7 | .s8 | .s9 | .s10 | .leave | .done => true
  | _ => false

/-- The thread has the contents of its range. -/
def BusyOk (mem : List α) (x : Th α) : Prop :=
  (x.pc = .busy → x.snap = (mem.drop x.wi.off).take x.wi.size) ∧ (x.pc = .serialBusy → x.snap = (mem.drop x.rf.off).take x.rf.size)

structure Inv2 (lt : α → α → Bool) (xs : List α) (T : Nat) (main : ι) (s : St ι α) : Prop where
  perm : s.tm.mem.Perm xs
  dis : ∀ p, ((out xs.length T s).countP fun J => J.has p) ≤ 1
  bnd : ∀ I ∈ out xs.length T s, I.off + I.size ≤ xs.length
  srt : SortedMod lt (out xs.length T s) s.tm.mem
  rem : s.tm.remaining = (((out xs.length T s).map Item.size).sum : Nat) + ((∑ u, (s.l u).wc : Nat) : Int)
  busy : ∀ u, BusyOk s.tm.mem (s.l u)
  done : ∀ u, (s.l u).pc = .done → s.tm.remaining = 0
  sub : ∀ u, u ≠ main → (s.l u).pc ≠ .submit
  mn : MainOk s.tm.submitted (s.l main).pc
  zero : ∀ u, zeroPc (s.l u).pc = true → (s.l u).wc = 0

/-- A step that processes nothing. -/
theorem Inv2.frame {lt : α → α → Bool} {xs : List α} {T : Nat} {main : ι} {s : St ι α} (h : Inv2 lt xs T main s) (t : ι) {s' : St ι α} {x' : Th α} (hl : s'.l = upd s.l t x')
    (hmem : s'.tm.mem = s.tm.mem) (hout : out xs.length T s' = out xs.length T s) (hrem : s'.tm.remaining = s.tm.remaining) (hwc : x'.wc = (s.l t).wc)
    (hbusy : BusyOk s.tm.mem x') (hdone : x'.pc ≠ .done) (hmain : t ≠ main → s'.tm.submitted = s.tm.submitted ∧ x'.pc ≠ .submit) (hmain' : t = main → MainOk s'.tm.submitted x'.pc)
    (hz : zeroPc x'.pc = true → x'.wc = 0) : Inv2 lt xs T main s' := by
  obtain ⟨r, hr1, hr2⟩ := split_sum (fun x : Th α => x.wc) s.l t
  constructor
  · rw [hmem]; exact h.perm
  · rw [hout]; exact h.dis
  · rw [hout]; exact h.bnd
  · rw [hout, hmem]; exact h.srt
  · rw [hout, hrem, h.rem, hl]
    rw [hr2, hr1, hwc]
  · intro u
    rw [hl, hmem]
    by_cases hu : u = t
    · subst hu; rw [upd_self]; exact hbusy
    · rw [upd_ne _ _ hu]; exact h.busy u
  · intro u hu
    rw [hl] at hu
    rw [hrem]
    by_cases hut : u = t
    · subst hut; rw [upd_self] at hu; exact absurd hu hdone
    · rw [upd_ne _ _ hut] at hu; exact h.done u hu
  · intro u hu
    rw [hl]
    by_cases hut : u = t
    · subst hut; rw [upd_self]; exact (hmain hu).2
    · rw [upd_ne _ _ hut]; exact h.sub u hu
  · rw [hl]
    by_cases hut : main = t
    · subst hut; rw [upd_self]; exact hmain' rfl
    · rw [upd_ne _ _ hut, (hmain (Ne.symm hut)).1]; exact h.mn
  · intro u hu
    rw [hl] at hu ⊢
    by_cases hut : u = t
    · subst hut; rw [upd_self] at hu ⊢; exact hz hu
    · rw [upd_ne _ _ hut] at hu ⊢; exact h.zero u hu

theorem out_move {n T : Nat} {s : St ι α} {t : ι} {k : Nat} (hk : k < T) {d : Dq ι} {x : Th α} (h : queued d + held x = queued (s.q k) + held (s.l t)) :
    out n T { s with q := upd s.q k d, l := upd s.l t x } = out n T s := by
  obtain ⟨r, hr1, hr2⟩ := split_sum (fun x : Th α => held x) s.l t
  obtain ⟨r', hr1', hr2'⟩ := split_range (fun d : Dq ι => queued d) s.q hk
  unfold out
  simp only [] at *
  rw [hr1, hr2, hr1', hr2']
  have e1 : ∀ P : Multiset Item, P + (r + held x) + (r' + queued d) = P + r + r' + (queued d + held x) := fun P => by abel
  have e2 : ∀ P : Multiset Item, P + (r + held (s.l t)) + (r' + queued (s.q k)) = P + r + r' + (queued (s.q k) + held (s.l t)) := fun P => by abel
  rw [e1, e2, h]

theorem out_local {n T : Nat} {s : St ι α} {t : ι} {tm' : Team α} {x : Th α} (hs : tm'.submitted = s.tm.submitted) (h : held x = held (s.l t)) :
    out n T { s with tm := tm', l := upd s.l t x } = out n T s := by
  obtain ⟨r, hr1, hr2⟩ := split_sum (fun x : Th α => held x) s.l t
  unfold out
  simp only [] at *
  rw [hr1, hr2, hs, h]

/-- The items of one thread and all the others. -/
theorem out_split (n T : Nat) (s : St ι α) (t : ι) : ∃ r, out n T s = held (s.l t) + r ∧
    ∀ tm' x, tm'.submitted = s.tm.submitted → out n T { s with tm := tm', l := upd s.l t x } = held x + r := by
  obtain ⟨r, hr1, hr2⟩ := split_sum (fun x : Th α => held x) s.l t
  refine ⟨(if s.tm.submitted = true then 0 else {⟨0, n, n⟩}) + r + ∑ k ∈ Finset.range T, queued (s.q k), ?_, fun tm' x hs => ?_⟩
  · unfold out
    rw [hr1]
    abel
  · unfold out
    simp only []
    rw [hr2, hs]
    abel

theorem busyOk_of {mem : List α} {x : Th α} (h1 : x.pc ≠ .busy) (h2 : x.pc ≠ .serialBusy) : BusyOk mem x :=
  ⟨fun h => absurd h h1, fun h => absurd h h2⟩

theorem mem_held_work {x : Th α} (h : x.pc = .work ∨ x.pc = .busy) : held x = {x.wi} := by
  rcases h with h | h <;> unfold held <;> rw [h]

theorem mem_held_serial {x : Th α} (h : x.pc = .serial ∨ x.pc = .serialBusy ∨ x.pc = .push0) : held x = {x.wi} + {x.rf} := by
  rcases h with h | h | h <;> unfold held <;> rw [h]

/-- The end of the processing of an item: the rest of the items is `R`, the item is replaced by `N`. -/
theorem Inv2.process {lt : α → α → Bool} {xs : List α} {T : Nat} {main : ι} {s : St ι α} (h : Inv2 lt xs T main s) (t : ι) {I : Item} {R N : Multiset Item} {seg : List α} {x' : Th α} {w : Nat}
    (ho : out xs.length T s = {I} + R) (hx : I ∈ held (s.l t)) (hseg : seg.Perm ((s.tm.mem.drop I.off).take I.size))
    (ho' : out xs.length T { s with tm := { s.tm with mem := putRange s.tm.mem I.off seg }, l := upd s.l t x' } = N + R)
    (hN : ∀ i j (hj : j < seg.length) (hij : i < j), (∀ J ∈ N, ¬ (J.has (I.off + i) ∧ J.has (I.off + j))) → lt seg[j] (seg[i]'(by omega)) = false)
    (hsub : ∀ p, (N.countP fun J => J.has p) ≤ if I.has p then 1 else 0) (hNb : ∀ J ∈ N, J.off + J.size ≤ I.off + I.size)
    (hsz : I.size = (N.map Item.size).sum + w) (hwc : x'.wc = (s.l t).wc + w)
    (hpc : (s.l t).pc = .busy ∨ (s.l t).pc = .serialBusy) (hpc' : x'.pc = .pop0 ∨ x'.pc = .push0 ∨ x'.pc = .work) :
    Inv2 lt xs T main { s with tm := { s.tm with mem := putRange s.tm.mem I.off seg }, l := upd s.l t x' } := by
  have hmemlen : s.tm.mem.length = xs.length := h.perm.length_eq
  have hI : I.off + I.size ≤ s.tm.mem.length := by
    rw [hmemlen]
    exact h.bnd I (by rw [ho]; exact Multiset.mem_add.2 (.inl (Multiset.mem_singleton_self _)))
  have hdis := h.dis
  rw [ho] at hdis
  have hsrt := h.srt
  rw [ho] at hsrt
  have hlen : seg.length = I.size := by
    rw [hseg.length_eq]; simp; omega
  obtain ⟨r, hr1, hr2⟩ := split_sum (fun x : Th α => x.wc) s.l t
  constructor
  · exact (putRange_perm hI hseg).trans h.perm
  · intro p
    rw [ho', Multiset.countP_add]
    have h1 := hdis p
    rw [Multiset.countP_add] at h1
    have h2 := hsub p
    have h3 : ({I} : Multiset Item).countP (fun J => J.has p) = if I.has p then 1 else 0 := by
      show Multiset.countP _ (I ::ₘ 0) = _
      rw [Multiset.countP_cons, Multiset.countP_zero]
      simp
    omega
  · intro J hJ
    rw [ho'] at hJ
    rcases Multiset.mem_add.1 hJ with hJ | hJ
    · have := hNb J hJ
      omega
    · exact h.bnd J (by rw [ho]; exact Multiset.mem_add.2 (.inr hJ))
  · rw [ho']
    exact sortedMod_replace hI hseg hdis hsrt hN
  · rw [ho']
    simp only []
    rw [h.rem, ho, hr2, hr1, hwc]
    simp only [Multiset.map_add, Multiset.sum_add, Multiset.map_singleton, Multiset.sum_singleton, hsz]
    push_cast
    ring
  · intro u
    simp only []
    by_cases hu : u = t
    · subst hu; rw [upd_self]
      refine busyOk_of ?_ ?_ <;> rcases hpc' with h | h | h <;> rw [h] <;> decide
    · rw [upd_ne _ _ hu]
      -- the range of another thread is not touched
      have key : ∀ J, J ∈ held (s.l u) → (((putRange s.tm.mem I.off seg).drop J.off).take J.size) = (s.tm.mem.drop J.off).take J.size := by
        intro J hJ
        have hdj : ∀ p, J.has p → I.has p → False := by
          intro p h1 h2
          have hd := h.dis p
          have hle : held (s.l t) + held (s.l u) ≤ out xs.length T s := by
            unfold out
            have e1 : held (s.l t) + held (s.l u) ≤ ∑ u, held (s.l u) := by
              rw [← Finset.add_sum_erase _ _ (Finset.mem_univ t)]
              refine add_le_add_right ?_ _
              rw [← Finset.add_sum_erase _ _ (Finset.mem_erase.2 ⟨hu, Finset.mem_univ u⟩)]
              exact Multiset.le_add_right _ _
            exact e1.trans ((Multiset.le_add_left _ _).trans (Multiset.le_add_right _ _))
          have h3 := Multiset.countP_le_of_le (fun J : Item => J.has p) hle
          rw [Multiset.countP_add] at h3
          have h4 : 0 < (held (s.l t)).countP (fun J => J.has p) := Multiset.countP_pos.2 ⟨I, hx, h2⟩
          have h5 : 0 < (held (s.l u)).countP (fun J => J.has p) := Multiset.countP_pos.2 ⟨J, hJ, h1⟩
          omega
        have hb : I.off + seg.length ≤ s.tm.mem.length := by omega
        apply List.ext_getElem
        · simp only [List.length_take, List.length_drop, putRange_length hb]
        · intro m h1 h2
          simp only [List.length_take, List.length_drop] at h2
          rw [List.getElem_take, List.getElem_take, List.getElem_drop, List.getElem_drop, putRange_get hb _ (by omega)]
          rw [dif_neg]
          intro hc
          exact hdj (J.off + m) ⟨by omega, by omega⟩ ⟨hc.1, by omega⟩
      obtain ⟨b1, b2⟩ := h.busy u
      constructor
      · intro hp
        rw [b1 hp, key _ (by rw [mem_held_work (.inr hp)]; exact Multiset.mem_singleton_self _)]
      · intro hp
        rw [b2 hp, key _ (by rw [mem_held_serial (.inr (.inl hp))]; exact Multiset.mem_add.2 (.inr (Multiset.mem_singleton_self _)))]
  · intro u hu
    simp only [] at hu ⊢
    by_cases hut : u = t
    · subst hut; rw [upd_self] at hu
      rcases hpc' with h | h | h <;> rw [h] at hu <;> cases hu
    · rw [upd_ne _ _ hut] at hu; exact h.done u hu
  · intro u hu
    simp only []
    by_cases hut : u = t
    · subst hut; rw [upd_self]
      rcases hpc' with h | h | h <;> rw [h] <;> decide
    · rw [upd_ne _ _ hut]; exact h.sub u hu
  · simp only []
    by_cases hut : main = t
    · subst hut; rw [upd_self]
      have hm := h.mn
      unfold MainOk at hm ⊢
      split
      · rcases hpc' with h | h | h <;> rw [h] <;> decide
      · rename_i hs
        rw [if_neg hs] at hm
        rcases hpc with hp | hp <;> rw [hp] at hm <;> simp at hm
    · rw [upd_ne _ _ hut]; exact h.mn
  · intro u hu
    simp only [] at hu ⊢
    by_cases hut : u = t
    · subst hut; rw [upd_self] at hu
      rcases hpc' with h | h | h <;> rw [h] at hu <;> cases hu
    · rw [upd_ne _ _ hut] at hu ⊢; exact h.zero u hu

end STL.Par.PSort
