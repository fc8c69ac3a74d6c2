import Verif.Par.SortInv

namespace STL.Par.PSort
open STL.Conc

variable {ι α : Type} [DecidableEq ι] [Fintype ι]

theorem mainOk_sub {sub : Bool} {p p' : Pc} (h : MainOk sub p) (h1 : p ≠ .join) (h2 : p ≠ .high) (h3 : p ≠ .raise) (h4 : p ≠ .submit) (h5 : p' ≠ .idle) (h6 : p' ≠ .join)
    (h7 : p' ≠ .high) (h8 : p' ≠ .raise) (h9 : p' ≠ .submit) (h10 : p' ≠ .leave) : MainOk sub p' := by
  unfold MainOk at *
  split
  · exact ⟨h5, h6, h7, h8, h9, h10⟩
  · rename_i hs
    rw [if_neg hs] at h
    rcases h with h | h | h | h <;> contradiction

theorem Inv.step {lt : α → α → Bool} (hlt : SWO lt) {xs : List α} {T : Nat} (hT : Fintype.card ι ≤ T) {main : ι} {s : St ι α} (h1 : Inv1 T s) (h2 : Inv2 lt xs T main s) (e : Env) (t : ι) :
    ∃ s', step lt xs.length T main e s t = .ok s' ∧ Inv1 T s' ∧ Inv2 lt xs T main s' := by
  have hmn : t = main → MainOk s.tm.submitted (s.l t).pc := fun h => by rw [h]; exact h2.mn
  have hmemlen : s.tm.mem.length = xs.length := h2.perm.length_eq
  unfold PSort.step
  cases hk : kind (s.l t).pc with
  | own =>
    simp only []
    have hid : (s.l t).id < T := h1.idLt t (hasId_own hk)
    rw [if_pos hid]
    obtain ⟨d', x', r, e1, ok, hinv⟩ := h1.own_step e t hk
    rw [e1]
    refine ⟨_, rfl, hinv, h2.frame t rfl rfl (out_move hid ok.cons) rfl ok.wc ?_ ?_ (fun _ => ⟨rfl, ?_⟩) (fun hm => ?_) ?_⟩
    · refine busyOk_of ?_ ?_ <;> intro hp <;> rcases ok.pc with h | h | h | h <;> rw [hp] at h <;> simp [kind] at h
    · intro hp; rcases ok.pc with h | h | h | h <;> rw [hp] at h <;> simp [kind] at h
    · intro hp; rcases ok.pc with h | h | h | h <;> rw [hp] at h <;> simp [kind] at h
    · refine mainOk_sub (hmn hm) ?_ ?_ ?_ ?_ ?_ ?_ ?_ ?_ ?_ ?_ <;> intro hp
      iterate 4 rw [hp] at hk; simp [kind] at hk
      all_goals rcases ok.pc with h | h | h | h <;> rw [hp] at h <;> simp [kind] at h
    · intro hz
      exfalso
      rcases ok.pc with h | h | h | h
      · revert h hz; cases x'.pc <;> simp [kind, zeroPc]
      all_goals rw [h] at hz; cases hz
  | thief =>
    simp only []
    have hid : (s.l t).idx < T := (h1.thief t hk).2.1
    rw [if_pos hid]
    obtain ⟨d', x', r, e1, ok, hinv⟩ := h1.thief_step t hk
    rw [e1]
    refine ⟨_, rfl, hinv, h2.frame t rfl rfl (out_move hid ok.cons) rfl ok.wc ?_ ?_ (fun _ => ⟨rfl, ?_⟩) (fun hm => ?_) ?_⟩
    · refine busyOk_of ?_ ?_ <;> intro hp <;> rcases ok.pc with h | h | h <;> rw [hp] at h <;> simp [kind] at h
    · intro hp; rcases ok.pc with h | h | h <;> rw [hp] at h <;> simp [kind] at h
    · intro hp; rcases ok.pc with h | h | h <;> rw [hp] at h <;> simp [kind] at h
    · refine mainOk_sub (hmn hm) ?_ ?_ ?_ ?_ ?_ ?_ ?_ ?_ ?_ ?_ <;> intro hp
      iterate 4 rw [hp] at hk; simp [kind] at hk
      all_goals rcases ok.pc with h | h | h <;> rw [hp] at h <;> simp [kind] at h
    · intro _
      rw [ok.wc]
      refine h2.zero t ?_
      revert hk; cases (s.l t).pc <;> simp [kind, zeroPc]
  | stop => exact ⟨s, rfl, h1, h2⟩
  | team =>
    simp only []
    unfold teamStep
    generalize hp : (s.l t).pc = p at hk
    have hmn' := fun h => hp ▸ hmn h
    cases p <;> simp only [kind, reduceCtorEq] at hk <;> simp only []
    case idle =>
      refine ⟨_, rfl, h1.team_out t (by rw [hp]; rfl) ?_, h2.frame t rfl rfl (out_local rfl ?_) rfl ?_ ?_ ?_ (fun _ => ⟨rfl, ?_⟩) (fun hm => ?_) ?_⟩
      · split
        · rfl
        · rw [hp]; rfl
      · split
        · unfold held; rw [hp]
        · rfl
      · split <;> rfl
      · split
        · exact busyOk_of (by simp) (by simp)
        · exact h2.busy t
      · split
        · simp
        · rw [hp]; simp
      · split
        · simp
        · rw [hp]; simp
      · exfalso
        have := hmn' hm
        unfold MainOk at this
        split at this <;> simp at this
      · intro _
        have := h2.zero t (by rw [hp]; rfl)
        split <;> exact this
    case join =>
      obtain ⟨i, e1, e2⟩ := h1.join_some hT t (by rw [hp]; rfl)
      rw [e1]
      refine ⟨_, rfl, h1.team_join t hp e2 rfl rfl, ?_⟩
      have hout : out xs.length T { s with tm := { s.tm with avail := upd s.tm.avail i false }, l := upd s.l t { s.l t with pc := .high, id := i, wc := 0 } } = out xs.length T s :=
        out_local rfl (by unfold held; rw [hp])
      refine h2.frame t rfl rfl hout rfl ?_ (busyOk_of (by simp) (by simp)) (by simp) (fun _ => ⟨rfl, by simp⟩) (fun hm => ?_) fun _ => rfl
      · simp only []
        exact (h2.zero t (by rw [hp]; rfl)).symm
      · have := hmn' hm
        unfold MainOk at this ⊢
        simp only [] at this ⊢
        split at this
        · simp at this
        · rename_i hs
          rw [if_neg hs]; simp
    case high =>
      refine ⟨_, rfl, h1.team_keep t rfl h1.used (by rw [hp]; rfl) rfl rfl (by rw [hp]; rfl) (.inl (by simp [kind])) (by simp [kind]) (by simp),
        h2.frame t rfl rfl (out_local rfl (by unfold held; rw [hp])) rfl rfl (busyOk_of (by simp) (by simp)) (by simp) (fun _ => ⟨rfl, by simp⟩) (fun hm => ?_) fun _ => h2.zero t (by rw [hp]; rfl)⟩
      have := hmn' hm
      unfold MainOk at this ⊢
      simp only [] at this ⊢
      split at this
      · simp at this
      · rename_i hs
        rw [if_neg hs]; simp
    case raise =>
      have hm1 : ∀ (hm : t = main), MainOk s.tm.submitted .submit := by
        intro hm
        have := hmn' hm
        unfold MainOk at this ⊢
        split at this
        · simp at this
        · rename_i hs
          rw [if_neg hs]; simp
      have hm2 : ∀ (hm : t = main), MainOk s.tm.submitted .raise := hmn'
      have hid : (s.l t).id < T := h1.idLt t (by rw [hp]; rfl)
      split
      · split
        · refine ⟨_, rfl, h1.team_keep t rfl hid (by rw [hp]; rfl) ?_ rfl (by rw [hp]; rfl) (.inl ?_) ?_ ?_,
            h2.frame t rfl rfl (out_local rfl ?_) rfl rfl (busyOk_of ?_ ?_) ?_ (fun hm => ⟨rfl, ?_⟩) (fun hm => ?_) fun _ => h2.zero t (by rw [hp]; rfl)⟩
          all_goals by_cases hm' : t = main <;> simp only [hm', decide_true, decide_false, if_true, Bool.false_eq_true, if_false]
          any_goals rfl
          any_goals simp [kind]
          · unfold held; rw [← hm', hp]
          · unfold held; rw [hp]
          · exact absurd hm' hm
          · exact hm1 hm'
          · exact absurd hm hm'
        · refine ⟨_, rfl, h1.team_keep t rfl h1.used (by rw [hp]; rfl) rfl rfl (by rw [hp]; rfl) (.inl (by simp [kind])) (by simp [kind]) (by simp),
            h2.frame t rfl rfl (out_local rfl (by unfold held; rw [hp])) rfl rfl (busyOk_of (by simp) (by simp)) (by simp) (fun _ => ⟨rfl, by simp⟩) hm2 fun _ => h2.zero t (by rw [hp]; rfl)⟩
      · refine ⟨_, rfl, h1.team_keep t rfl h1.used (by rw [hp]; rfl) ?_ rfl (by rw [hp]; rfl) (.inl ?_) ?_ ?_,
            h2.frame t rfl rfl (out_local rfl ?_) rfl rfl (busyOk_of ?_ ?_) ?_ (fun hm => ⟨rfl, ?_⟩) (fun hm => ?_) fun _ => h2.zero t (by rw [hp]; rfl)⟩
        all_goals by_cases hm' : t = main <;> simp only [hm', decide_true, decide_false, if_true, Bool.false_eq_true, if_false]
        any_goals rfl
        any_goals simp [kind]
        · unfold held; rw [← hm', hp]
        · unfold held; rw [hp]
        · exact absurd hm' hm
        · exact hm1 hm'
        · exact absurd hm hm'
    case submit =>
      have htm : t = main := by
        by_contra hc
        exact h2.sub t hc hp
      have hsub : s.tm.submitted = false := by
        have := hmn' htm
        unfold MainOk at this
        cases hs : s.tm.submitted
        · rfl
        · rw [hs] at this; simp at this
      obtain ⟨r, hr1, hr2⟩ := split_sum (fun x : Th α => held x) s.l t
      refine ⟨_, rfl, h1.team_keep t rfl h1.used (by rw [hp]; rfl) rfl rfl (by rw [hp]; rfl) (.inl (by simp [kind])) (by simp [kind]) (by simp),
        h2.frame t rfl rfl ?_ rfl rfl (busyOk_of (by simp) (by simp)) (by simp) (fun hm => absurd htm hm) (fun _ => by unfold MainOk; simp) (by simp [zeroPc])⟩
      unfold out
      simp only [hr1, hr2, hsub]
      have e1 : held (s.l t) = 0 := by unfold held; rw [hp]
      rw [e1, mem_held_work (.inl rfl)]
      simp only [if_true, Bool.false_eq_true, if_false]
      abel
    case work =>
      have hin : (s.l t).wi ∈ out xs.length T s := by
        obtain ⟨r, hr, _⟩ := out_split xs.length T s t
        rw [hr, mem_held_work (.inl hp)]
        exact Multiset.mem_add.2 (.inl (Multiset.mem_singleton_self _))
      have hb := h2.bnd _ hin
      unfold getRange
      rw [if_pos (by omega)]
      refine ⟨_, rfl, h1.team_keep t rfl h1.used (by rw [hp]; rfl) rfl rfl (by rw [hp]; rfl) (.inl (by simp [kind])) (by simp [kind]) (by simp),
        h2.frame t rfl rfl (out_local rfl ?_) rfl rfl ⟨fun _ => rfl, by simp⟩ (by simp) (fun _ => ⟨rfl, by simp⟩) (fun hm => mainOk_sub (hmn' hm) (by simp) (by simp) (by simp) (by simp) (by simp) (by simp) (by simp) (by simp) (by simp) (by simp)) (by simp [zeroPc])⟩
      rw [mem_held_work (.inl hp), mem_held_work (.inr rfl)]
    case busy =>
      obtain ⟨ys, r, e1, e2, e3, e4⟩ := processItem_spec hlt (s.l t).snap (s.l t).wi.ideal
      rw [e1, R.ok_bind]
      simp only []
      rw [allSome_full, R.ok_bind]
      obtain ⟨R, hR1, hR2⟩ := out_split xs.length T s t
      have hheld := mem_held_work (.inr hp)
      have hin : (s.l t).wi ∈ out xs.length T s := by
        rw [hR1, hheld]
        exact Multiset.mem_add.2 (.inl (Multiset.mem_singleton_self _))
      have hb := h2.bnd _ hin
      have hsnap := (h2.busy t).1 hp
      have hlen : (s.l t).snap.length = (s.l t).wi.size := by rw [hsnap]; simp; omega
      have hylen : ys.length = (s.l t).wi.size := by rw [e2.length_eq, hlen]
      rw [hsnap] at e2
      rw [hheld] at hR1
      cases r with
      | none =>
        refine ⟨_, rfl, h1.team_keep t rfl h1.used (by rw [hp]; rfl) rfl rfl (by rw [hp]; rfl) (.inr (.inr rfl)) (by simp [processEnd, kind]) (by simp [processEnd]),
          h2.process (N := 0) (w := (s.l t).wi.size) t hR1 (by rw [hheld]; exact Multiset.mem_singleton_self _) e2 ?_ (fun i j hj hij _ => e3 rfl i j hj hij) (fun p => by simp) (by simp) (by simp) rfl (.inl hp) (.inl rfl)⟩
        rw [hR2 { s.tm with mem := putRange s.tm.mem (s.l t).wi.off ys } (processEnd (s.l t) none) rfl]
        rfl
      | some ab =>
        obtain ⟨a, b⟩ := ab
        obtain ⟨a1, a2, a3⟩ := e4 a b rfl
        rw [hlen] at a2
        refine ⟨_, rfl, h1.team_keep t rfl h1.used (by rw [hp]; rfl) rfl rfl (by rw [hp]; rfl) (.inr (.inl rfl)) (by simp [processEnd, kind]) (by simp [processEnd]),
          h2.process (N := {(processEnd (s.l t) (some (a, b))).wi} + {(processEnd (s.l t) (some (a, b))).rf}) (w := b - a) t hR1 (by rw [hheld]; exact Multiset.mem_singleton_self _) e2 ?_ ?_ ?_ ?_ ?_ rfl (.inl hp) (.inr (.inl rfl))⟩
        · rw [hR2 { s.tm with mem := putRange s.tm.mem (s.l t).wi.off ys } (processEnd (s.l t) (some (a, b))) rfl]
          rw [mem_held_serial (.inr (.inr rfl))]
        · intro i j hj hij hN
          refine a3 i j hj hij (fun hja => ?_) fun hib => ?_
          · refine hN _ (Multiset.mem_add.2 (.inl (Multiset.mem_singleton_self _))) ?_
            unfold Item.has processEnd
            simp only []
            omega
          · refine hN _ (Multiset.mem_add.2 (.inr (Multiset.mem_singleton_self _))) ?_
            unfold Item.has processEnd
            simp only []
            omega
        · intro p
          rw [Multiset.countP_add]
          have hc : ∀ J : Item, ({J} : Multiset Item).countP (fun J => J.has p) = if J.has p then 1 else 0 := by
            intro J
            show Multiset.countP _ (J ::ₘ 0) = _
            rw [Multiset.countP_cons, Multiset.countP_zero]
            simp
          rw [hc, hc]
          have hh1 : (processEnd (s.l t) (some (a, b))).wi.has p ↔ (s.l t).wi.off ≤ p ∧ p < (s.l t).wi.off + a := Iff.rfl
          have hh2 : (processEnd (s.l t) (some (a, b))).rf.has p ↔ (s.l t).wi.off + b ≤ p ∧ p < (s.l t).wi.off + b + ((s.l t).wi.size - b) := Iff.rfl
          have hh3 : (s.l t).wi.has p ↔ (s.l t).wi.off ≤ p ∧ p < (s.l t).wi.off + (s.l t).wi.size := Iff.rfl
          by_cases c1 : (processEnd (s.l t) (some (a, b))).wi.has p <;> by_cases c2 : (processEnd (s.l t) (some (a, b))).rf.has p <;> by_cases c3 : (s.l t).wi.has p <;>
            simp only [c1, c2, c3, if_true, if_false] <;> rw [hh1] at c1 <;> rw [hh2] at c2 <;> rw [hh3] at c3 <;> omega
        · intro J hJ
          rcases Multiset.mem_add.1 hJ with hJ | hJ <;> rw [Multiset.mem_singleton] at hJ <;> subst hJ <;> unfold processEnd <;> simp only [] <;> omega
        · simp only [Multiset.map_add, Multiset.sum_add, Multiset.map_singleton, Multiset.sum_singleton]
          unfold processEnd
          simp only []
          omega
    case serial =>
      have hin : (s.l t).rf ∈ out xs.length T s := by
        obtain ⟨r, hr, _⟩ := out_split xs.length T s t
        rw [hr, mem_held_serial (.inl hp)]
        exact Multiset.mem_add.2 (.inl (Multiset.mem_add.2 (.inr (Multiset.mem_singleton_self _))))
      have hb := h2.bnd _ hin
      unfold getRange
      rw [if_pos (by omega)]
      refine ⟨_, rfl, h1.team_keep t rfl h1.used (by rw [hp]; rfl) rfl rfl (by rw [hp]; rfl) (.inl (by simp [kind])) (by simp [kind]) (by simp),
        h2.frame t rfl rfl (out_local rfl ?_) rfl rfl ⟨by simp, fun _ => rfl⟩ (by simp) (fun _ => ⟨rfl, by simp⟩) (fun hm => mainOk_sub (hmn' hm) (by simp) (by simp) (by simp) (by simp) (by simp) (by simp) (by simp) (by simp) (by simp) (by simp)) (by simp [zeroPc])⟩
      rw [mem_held_serial (.inl hp), mem_held_serial (.inr (.inl rfl))]
    case serialBusy =>
      obtain ⟨ys, e1, e2, e3⟩ := sortUnchecked_spec hlt ((s.l t).snap.length + 1) 0 (s.l t).snap.length (s.l t).rf.ideal (s.l t).snap (by omega) (Nat.le_refl _)
      have hfull : (s.l t).snap.map some = full (s.l t).snap := rfl
      rw [hfull, e1, R.ok_bind, allSome_full, R.ok_bind]
      obtain ⟨R, hR1, hR2⟩ := out_split xs.length T s t
      have hheld := mem_held_serial (.inr (.inl hp))
      have hin : (s.l t).rf ∈ held (s.l t) := by
        rw [hheld]
        exact Multiset.mem_add.2 (.inr (Multiset.mem_singleton_self _))
      have hsnap := (h2.busy t).2 hp
      have hperm := e2.perm
      have hlen := hperm.length_eq
      rw [hsnap] at hperm
      have ho : out xs.length T s = {(s.l t).rf} + ({(s.l t).wi} + R) := by
        rw [hR1, hheld]; abel
      refine ⟨_, rfl, h1.team_keep t rfl h1.used (by rw [hp]; rfl) rfl rfl (by rw [hp]; rfl) (.inl (by simp [kind])) (by simp [kind]) (by simp),
        h2.process (N := 0) (w := (s.l t).rf.size) t ho hin hperm ?_ (fun i j hj hij _ => e3 i j hj (Nat.zero_le _) hij (by omega)) (fun p => by simp) (by simp) (by simp) rfl (.inr hp) (.inr (.inr rfl))⟩
      rw [hR2 { s.tm with mem := putRange s.tm.mem (s.l t).rf.off ys } _ rfl, mem_held_work (.inl rfl)]
      simp
    case steal0 =>
      have hout : ∀ tm' x', tm'.submitted = s.tm.submitted → held x' = 0 → out xs.length T { s with tm := tm', l := upd s.l t x' } = out xs.length T s := by
        intro tm' x' hs hh
        exact out_local hs (by rw [hh]; unfold held; rw [hp])
      obtain ⟨r, hr1, hr2⟩ := split_sum (fun x : Th α => x.wc) s.l t
      have hrem := h2.rem
      rw [hr1] at hrem
      have hgen : ∀ x' : Th α, (x'.pc = .done ∨ x'.pc = .steal1) → x'.wc = 0 → x'.id = (s.l t).id → (x'.pc = .done → s.tm.remaining - (s.l t).wc = 0) →
          Inv1 T { s with tm := { s.tm with remaining := s.tm.remaining - (s.l t).wc }, l := upd s.l t x' } ∧
          Inv2 lt xs T main { s with tm := { s.tm with remaining := s.tm.remaining - (s.l t).wc }, l := upd s.l t x' } := by
        intro x' hx hw hid hd
        have ho := hout { s.tm with remaining := s.tm.remaining - (s.l t).wc } x' rfl (by rcases hx with h | h <;> unfold held <;> rw [h])
        refine ⟨h1.team_keep t rfl h1.used (by rw [hp]; rfl) ?_ hid (by rw [hp]; rfl) (.inl ?_) ?_ ?_, ?_⟩
        · rcases hx with h | h <;> rw [h] <;> rfl
        · rcases hx with h | h <;> rw [h] <;> decide
        · rcases hx with h | h <;> rw [h] <;> simp [kind]
        · rcases hx with h | h <;> rw [h] <;> simp
        constructor
        · exact h2.perm
        · rw [ho]; exact h2.dis
        · rw [ho]; exact h2.bnd
        · rw [ho]; exact h2.srt
        · rw [ho]
          simp only [hr2, hw]
          rw [hrem]
          push_cast
          ring
        · intro u
          simp only []
          by_cases hu : u = t
          · subst hu; rw [upd_self]
            refine busyOk_of ?_ ?_ <;> rcases hx with h | h <;> rw [h] <;> decide
          · rw [upd_ne _ _ hu]; exact h2.busy u
        · intro u hu
          simp only [] at hu ⊢
          by_cases hut : u = t
          · subst hut; rw [upd_self] at hu; exact hd hu
          · rw [upd_ne _ _ hut] at hu
            have := h2.done u hu
            omega
        · intro u hu
          simp only []
          by_cases hut : u = t
          · subst hut; rw [upd_self]
            rcases hx with h | h <;> rw [h] <;> decide
          · rw [upd_ne _ _ hut]; exact h2.sub u hu
        · simp only []
          by_cases hut : main = t
          · subst hut; rw [upd_self]
            refine mainOk_sub (hmn' rfl) (by simp) (by simp) (by simp) (by simp) ?_ ?_ ?_ ?_ ?_ ?_ <;> rcases hx with h | h <;> rw [h] <;> decide
          · rw [upd_ne _ _ hut]; exact h2.mn
        · intro u hu
          simp only [] at hu ⊢
          by_cases hut : u = t
          · subst hut; rw [upd_self]; exact hw
          · rw [upd_ne _ _ hut] at hu ⊢; exact h2.zero u hu
      by_cases hz : s.tm.remaining - (s.l t).wc = 0
      · simp only [hz, if_true]
        have := hgen { s.l t with pc := .done, wc := 0 } (.inl rfl) rfl rfl (fun _ => hz)
        rw [hz] at this
        exact ⟨_, rfl, this⟩
      · simp only [hz, if_false]
        exact ⟨_, rfl, hgen { s.l t with pc := .steal1, wc := 0 } (.inr rfl) rfl rfl (by simp)⟩
    case steal1 =>
      have hu := h1.used
      have hid : (s.l t).id < T := h1.idLt t (by rw [hp]; rfl)
      exact ⟨_, rfl, h1.team_keep t rfl h1.used (by rw [hp]; rfl) rfl rfl (by rw [hp]; rfl) (.inl (by simp [kind])) (by simp [kind]) (fun _ => ⟨hid, hu⟩),
        h2.frame t rfl rfl (out_local rfl (by unfold held; rw [hp])) rfl rfl (busyOk_of (by simp) (by simp)) (by simp) (fun _ => ⟨rfl, by simp⟩)
        (fun hm => mainOk_sub (hmn' hm) (by simp) (by simp) (by simp) (by simp) (by simp) (by simp) (by simp) (by simp) (by simp) (by simp)) fun _ => h2.zero t (by rw [hp]; rfl)⟩
    case steal2 =>
      have hid : (s.l t).id < T := h1.idLt t (by rw [hp]; rfl)
      obtain ⟨l1, l2⟩ := h1.loop t hp
      by_cases hi : (if (s.l t).idx = 0 then (s.l t).hi else (s.l t).idx) - 1 = (s.l t).id
      · simp only [hi, if_true]
        by_cases hm' : t = main
        · simp only [hm', decide_true, if_true]
          subst hm'
          exact ⟨_, rfl, h1.team_keep t rfl h1.used (by rw [hp]; rfl) rfl rfl (by rw [hp]; rfl) (.inl (by simp [kind])) (by simp [kind]) (by simp),
            h2.frame t rfl rfl (out_local rfl (by unfold held; rw [hp])) rfl rfl (busyOk_of (by simp) (by simp)) (by simp) (fun _ => ⟨rfl, by simp⟩)
            (fun hm => mainOk_sub (hmn' hm) (by simp) (by simp) (by simp) (by simp) (by simp) (by simp) (by simp) (by simp) (by simp) (by simp)) fun _ => h2.zero t (by rw [hp]; rfl)⟩
        · simp only [hm', decide_false, Bool.false_eq_true, if_false]
          exact ⟨_, rfl, h1.team_keep t rfl h1.used (by rw [hp]; rfl) rfl rfl (by rw [hp]; rfl) (.inl (by simp [kind])) (by simp [kind]) (by simp),
            h2.frame t rfl rfl (out_local rfl (by unfold held; rw [hp])) rfl rfl (busyOk_of (by simp) (by simp)) (by simp) (fun _ => ⟨rfl, by simp⟩)
            (fun hm => absurd hm hm') fun _ => h2.zero t (by rw [hp]; rfl)⟩
      · simp only [hi, if_false]
        refine ⟨_, rfl, h1.team_keep t rfl h1.used (by rw [hp]; rfl) rfl rfl (by rw [hp]; rfl) (.inl (by simp [kind])) (fun _ => ⟨rfl, ?_, hi, l2⟩) (by simp),
          h2.frame t rfl rfl (out_local rfl (by unfold held; rw [hp])) rfl rfl (busyOk_of (by simp) (by simp)) (by simp) (fun _ => ⟨rfl, by simp⟩)
          (fun hm => mainOk_sub (hmn' hm) (by simp) (by simp) (by simp) (by simp) (by simp) (by simp) (by simp) (by simp) (by simp) (by simp)) fun _ => h2.zero t (by rw [hp]; rfl)⟩
        simp only []
        split <;> omega
    case leave =>
      have htm : t ≠ main := by
        intro hm
        have := hmn' hm
        unfold MainOk at this
        split at this <;> simp at this
      exact ⟨_, rfl, h1.team_leave t hp rfl,
        h2.frame t rfl rfl (out_local rfl (by unfold held; rw [hp])) rfl rfl (busyOk_of (by simp) (by simp)) (by simp) (fun _ => ⟨rfl, by simp⟩)
        (fun hm => absurd hm htm) fun _ => h2.zero t (by rw [hp]; rfl)⟩

end STL.Par.PSort
