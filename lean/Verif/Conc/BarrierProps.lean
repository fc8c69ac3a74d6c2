import Verif.Conc.Barrier

/-!
# C44: `barrier`
-/

namespace STL.Barrier
open STL STL.Conc

variable {ι : Type} [Fintype ι] [DecidableEq ι]

def isDrop (x : Loc) : Nat := if x.pc = .drop1 then 1 else 0
/-- The thread is in the phase completion step. -/
def isComp (x : Loc) : Nat := if x.pc = .cLoad ∨ x.pc = .cFn ∨ x.pc = .cStore then 1 else 0
def isStore (x : Loc) : Nat := if x.pc = .cStore then 1 else 0

def LocOK (phase : Nat) (total : Int) (x : Loc) : Prop :=
  match x.pc with
  | .cLoad => x.ph = phase ∧ x.cur = ((phase % 2 : Nat) : Int) ∧ x.bit = phase % 2
  | .cFn | .cStore => x.ph = phase ∧ x.cur = ((phase % 2 : Nat) : Int) ∧ x.bit = phase % 2 ∧ x.rem = total
  | .drop1 => x.kind = .drop
  | .cNotify => x.bit = x.ph % 2 ∧ x.ph < phase
  | .wLoad => x.bit = x.ph % 2 ∧ x.ph ≤ phase
  | .aLoad | .aBlock | .asleep => x.bit = x.ph % 2 ∧ x.ph ≤ phase ∧ bitOf x.cur = x.bit
  | _ => True

structure Inv (expected : Nat) (s : St ι) : Prop where
  e0 : s.exp0 = expected
  ar : s.arrived + s.resv ≤ s.expc
  cu : s.cur = 2 * ((s.expc : Int) - s.arrived) + ((s.phase % 2 : Nat) : Int)
  tt : s.total = 2 * ((s.exp0 : Int) - s.drops)
  dr : s.dropsThis ≤ s.arrived + s.resv
  ex : s.expc + s.drops = s.exp0 + s.dropsThis
  nd : tot isDrop s.l = s.resv
  nc : tot isComp s.l = if s.arrived = s.expc ∧ 0 < s.expc then 1 else 0
  ns : s.runs = s.phase + tot isStore s.l
  lo : ∀ u, LocOK s.phase s.total (s.l u)
  tk : ∀ k ∈ s.toks, k.bit = k.ph % 2 ∧ k.ph ≤ s.phase
  sl : ∀ u, (s.l u).pc = .asleep → s.phase % 2 = (s.l u).bit ∨ ∃ n, (s.l n).pc = .cNotify

theorem bitOf_eq (a : Int) (p : Nat) : bitOf (2 * a + ((p % 2 : Nat) : Int)) = p % 2 := by unfold bitOf; omega

theorem valOf_eq (a : Int) (p : Nat) : valOf (2 * a + ((p % 2 : Nat) : Int)) = 2 * a := by unfold valOf; omega

omit [Fintype ι] in
theorem loc_upd {ph : Nat} {tl : Int} {l : ι → Loc} {t : ι} {x : Loc} (h : ∀ u, u ≠ t → LocOK ph tl (l u)) (hx : LocOK ph tl x) (u : ι) : LocOK ph tl (upd l t x u) := by
  by_cases hu : u = t
  · subst hu; rw [upd_self]; exact hx
  · rw [upd_ne _ _ hu]; exact h u hu

/-- A thread that sleeps after a step, if the step did not change the phase and no notification ended. -/
theorem sl_upd {s : St ι} {e : Nat} (h : Inv e s) {t : ι} {x : Loc} (hx : x.pc = .asleep → s.phase % 2 = x.bit ∨ ∃ n, (upd s.l t x n).pc = .cNotify) (ht : (s.l t).pc ≠ .cNotify) (u : ι)
    (hu : (upd s.l t x u).pc = .asleep) : s.phase % 2 = (upd s.l t x u).bit ∨ ∃ n, (upd s.l t x n).pc = .cNotify := by
  by_cases hut : u = t
  · subst hut; rw [upd_self] at hu ⊢; exact hx hu
  · rw [upd_ne _ _ hut] at hu ⊢
    rcases h.sl u hu with h1 | ⟨n, h1⟩
    · exact .inl h1
    · refine .inr ⟨n, ?_⟩
      rw [upd_ne _ _ (by rintro rfl; exact ht h1)]; exact h1

/-- A step that changes only a thread outside of the completion step. -/
theorem Inv.loc {s : St ι} {e : Nat} (h : Inv e s) (t : ι) {x : Loc} (h1 : isDrop x = isDrop (s.l t)) (h2 : isComp x = isComp (s.l t)) (h3 : isStore x = isStore (s.l t)) (hx : LocOK s.phase s.total x)
    (hz : x.pc = .asleep → s.phase % 2 = x.bit) (ht : (s.l t).pc ≠ .cNotify) {tk' : List Tok} (htk : ∀ k ∈ tk', k.bit = k.ph % 2 ∧ k.ph ≤ s.phase) : Inv e { s with toks := tk', l := upd s.l t x } := by
  have e1 := tot_upd isDrop s.l t x
  have e2 := tot_upd isComp s.l t x
  have e3 := tot_upd isStore s.l t x
  have q1 := h.nd
  have q2 := h.nc
  have q3 := h.ns
  exact ⟨h.e0, h.ar, h.cu, h.tt, h.dr, h.ex, by simp only []; omega, by simp only []; rw [← q2]; omega, by simp only []; omega, loc_upd (fun u _ => h.lo u) hx, htk, sl_upd h (fun hp => .inl (hz hp)) ht⟩

/-- An arrival. -/
theorem Inv.arrive {s : St ι} {e : Nat} (h : Inv e s) (t : ι) {k : Kind} {u : Nat} {r : Bool} (hu : 0 < u) (hr : r = true → (s.l t).pc = .drop1 ∧ u = 1) (hr' : r = false → (s.l t).pc = .idle)
    (hp : r = false → s.arrived + s.resv + u ≤ s.expc) : ∃ s', arriveStep s t k u r = some s' ∧ Inv e s' := by
  have hc := h.cu
  have ha := h.ar
  have hrv : r = true → 0 < s.resv := by
    intro hr1
    have := le_tot isDrop s.l t
    rw [h.nd] at this
    have h2 : isDrop (s.l t) = 1 := by unfold isDrop; rw [if_pos (hr hr1).1]
    omega
  have hle : s.arrived + u ≤ s.expc := by
    cases r with
    | true => have := hrv rfl; have := (hr rfl).2; omega
    | false => have := hp rfl; omega
  have hr3 : s.arrived + u + (if r = true then s.resv - 1 else s.resv) ≤ s.expc := by
    cases r with
    | true => have := hrv rfl; have := (hr rfl).2; simp; omega
    | false => have := hp rfl; simp; omega
  have hcv : s.cur - 2 * (u : Int) = 2 * ((s.expc : Int) - s.arrived - u) + ((s.phase % 2 : Nat) : Int) := by omega
  have hnn : (s.l t).pc ≠ .cNotify := by
    cases r with
    | true => rw [(hr rfl).1]; simp
    | false => rw [hr' rfl]; simp
  have h0c : tot isComp s.l = 0 := by rw [h.nc, if_neg]; omega
  have hct : isComp (s.l t) = 0 := tot_zero h0c t
  have hst : isStore (s.l t) = 0 := by
    cases r with
    | true => unfold isStore; rw [(hr rfl).1]; rfl
    | false => unfold isStore; rw [hr' rfl]; rfl
  have hdt : isDrop (s.l t) = if r = true then 1 else 0 := by
    cases r with
    | true => unfold isDrop; rw [(hr rfl).1]; rfl
    | false => unfold isDrop; rw [hr' rfl]; rfl
  have hdr := h.dr
  have hnd := h.nd
  have hnc := h.nc
  have hns := h.ns
  have key : ∀ (x : Loc) (tk' : List Tok), isDrop x = 0 → isStore x = 0 → isComp x = (if s.arrived + u = s.expc then 1 else 0) → LocOK s.phase s.total x → x.pc ≠ .asleep →
      (∀ k ∈ tk', k.bit = k.ph % 2 ∧ k.ph ≤ s.phase) →
      Inv e { s with cur := s.cur - 2 * (u : Int), arrived := s.arrived + u, resv := if r = true then s.resv - 1 else s.resv, toks := tk', l := upd s.l t x } := by
    intro x tk' x1 x2 x3 x4 x5 x6
    have e1 := tot_upd isDrop s.l t x
    have e2 := tot_upd isComp s.l t x
    have e3 := tot_upd isStore s.l t x
    refine ⟨h.e0, hr3, ?_, h.tt, ?_, h.ex, ?_, ?_, ?_, loc_upd (fun u _ => h.lo u) x4, x6, sl_upd h (fun hp => absurd hp x5) hnn⟩
    · simp only []; omega
    · simp only []
      cases r with
      | true => have := hrv rfl; have := (hr rfl).2; simp; omega
      | false => simp; omega
    · simp only []
      rw [hdt] at e1
      cases r with
      | true => have := hrv rfl; simp at e1 ⊢; omega
      | false => simp at e1 ⊢; omega
    · simp only []
      rw [h0c, hct, x3] at e2
      by_cases hq : s.arrived + u = s.expc
      · rw [if_pos hq] at e2
        rw [if_pos ⟨hq, by omega⟩]; omega
      · rw [if_neg hq] at e2
        rw [if_neg (fun hq' => hq hq'.1)]; omega
    · simp only []; omega
  unfold arriveStep
  simp only []
  rw [if_neg (by omega), hcv, valOf_eq, bitOf_eq, ← hcv]
  by_cases hv : 2 * ((s.expc : Int) - s.arrived - u) = 0
  · rw [if_pos hv]
    refine ⟨_, rfl, ?_⟩
    refine key _ s.toks rfl rfl ?_ ⟨rfl, by simp only []; omega, rfl⟩ (by simp) h.tk
    rw [if_pos (by omega)]; rfl
  · rw [if_neg hv]
    have hne : ¬ s.arrived + u = s.expc := by omega
    cases k with
    | arriveAndWait =>
      refine ⟨_, rfl, key _ s.toks rfl rfl ?_ ⟨rfl, Nat.le_refl _, ?_⟩ (by simp) h.tk⟩
      · rw [if_neg hne]; rfl
      · simp only []; rw [hcv, bitOf_eq]
    | arrive =>
      refine ⟨_, rfl, key _ _ rfl rfl ?_ trivial (by simp) ?_⟩
      · rw [if_neg hne]; rfl
      · intro k hk
        rcases List.mem_append.1 hk with hk | hk
        · exact h.tk k hk
        · rw [List.mem_singleton] at hk; subst hk; exact ⟨rfl, Nat.le_refl _⟩
    | wait | drop =>
      refine ⟨_, rfl, key _ s.toks rfl rfl ?_ trivial (by simp) h.tk⟩
      rw [if_neg hne]; rfl

omit [Fintype ι] [DecidableEq ι] in
theorem wake_ind {x : Loc} : isDrop (wake x) = isDrop x ∧ isComp (wake x) = isComp x ∧ isStore (wake x) = isStore x ∧ (wake x).pc ≠ .asleep := by
  unfold wake
  split
  · rename_i h; simp [isDrop, isComp, isStore, h]
  · rename_i h; exact ⟨rfl, rfl, rfl, h⟩

theorem LocOK.wake {p : Nat} {tl : Int} {x : Loc} (h : LocOK p tl x) : LocOK p tl (wake x) := by
  unfold Barrier.wake
  split
  · rename_i hp; unfold LocOK at h ⊢; rw [hp] at h; exact h
  · exact h

theorem comp_unique {s : St ι} {e : Nat} (h : Inv e s) {t u : ι} (ht : isComp (s.l t) = 1) (hu : u ≠ t) : isComp (s.l u) = 0 := by
  have h1 : tot isComp s.l ≤ 1 := by rw [h.nc]; split <;> omega
  have h2 := tot_upd isComp s.l t {}
  have h3 := le_tot isComp (upd s.l t {}) u
  rw [upd_ne _ _ hu] at h3
  have h4 : isComp ({} : Loc) = 0 := rfl
  omega

theorem Inv.adv {s : St ι} {e : Nat} (h : Inv e s) (t : ι) : ∃ s', advStep s t = some s' ∧ Inv e s' := by
  have hlo := h.lo t
  have hcomp : isComp (s.l t) = 1 → s.arrived = s.expc ∧ 0 < s.expc ∧ s.resv = 0 := by
    intro hc
    have h1 := le_tot isComp s.l t
    have h2 := h.nc
    have h3 := h.ar
    by_cases hq : s.arrived = s.expc ∧ 0 < s.expc
    · exact ⟨hq.1, hq.2, by omega⟩
    · rw [if_neg hq] at h2; omega
  unfold LocOK at hlo
  unfold advStep
  simp only []
  cases hp : (s.l t).pc <;> rw [hp] at hlo <;> simp only [] at hlo ⊢
  case idle => exact ⟨s, rfl, h⟩
  case asleep => exact ⟨s, rfl, h⟩
  case drop1 => exact h.arrive t Nat.one_pos (fun _ => ⟨hp, rfl⟩) (fun hc => by cases hc) (fun hc => by cases hc)
  case cLoad =>
    have hz : ¬ s.total < 0 := by have := h.tt; have := h.ex; have := h.dr; have := h.ar; omega
    rw [if_neg hz]
    refine ⟨_, rfl, h.loc t ?_ ?_ ?_ ?_ (by simp) (by rw [hp]; simp) h.tk⟩
    · simp [isDrop, hp]
    · simp [isComp, hp]
    · simp [isStore, hp]
    · exact ⟨hlo.1, hlo.2.1, hlo.2.2, rfl⟩
  case cFn =>
    have e1 := tot_upd isDrop s.l t (⟨.cStore, (s.l t).kind, (s.l t).cur, (s.l t).bit, (s.l t).rem, (s.l t).ph⟩ : Loc)
    have e2 := tot_upd isComp s.l t (⟨.cStore, (s.l t).kind, (s.l t).cur, (s.l t).bit, (s.l t).rem, (s.l t).ph⟩ : Loc)
    have e3 := tot_upd isStore s.l t (⟨.cStore, (s.l t).kind, (s.l t).cur, (s.l t).bit, (s.l t).rem, (s.l t).ph⟩ : Loc)
    have i1 : isDrop (s.l t) = 0 := by simp [isDrop, hp]
    have i2 : isComp (s.l t) = 1 := by simp [isComp, hp]
    have i3 : isStore (s.l t) = 0 := by simp [isStore, hp]
    have j1 : isDrop (⟨.cStore, (s.l t).kind, (s.l t).cur, (s.l t).bit, (s.l t).rem, (s.l t).ph⟩ : Loc) = 0 := rfl
    have j2 : isComp (⟨.cStore, (s.l t).kind, (s.l t).cur, (s.l t).bit, (s.l t).rem, (s.l t).ph⟩ : Loc) = 1 := rfl
    have j3 : isStore (⟨.cStore, (s.l t).kind, (s.l t).cur, (s.l t).bit, (s.l t).rem, (s.l t).ph⟩ : Loc) = 1 := rfl
    have q1 := h.nd
    have q2 := h.nc
    have q3 := h.ns
    refine ⟨_, rfl, h.e0, h.ar, h.cu, h.tt, h.dr, h.ex, ?_, ?_, ?_, loc_upd (fun u _ => h.lo u) hlo, h.tk, sl_upd h (by simp) (by rw [hp]; simp)⟩
    · simp only []; omega
    · simp only []; rw [← q2]; omega
    · simp only []; omega
  case cStore =>
    have i2 : isComp (s.l t) = 1 := by simp [isComp, hp]
    obtain ⟨a1, a2, a3⟩ := hcomp i2
    have e1 := tot_upd isDrop s.l t (⟨.cNotify, (s.l t).kind, (s.l t).cur, (s.l t).bit, (s.l t).rem, (s.l t).ph⟩ : Loc)
    have e2 := tot_upd isComp s.l t (⟨.cNotify, (s.l t).kind, (s.l t).cur, (s.l t).bit, (s.l t).rem, (s.l t).ph⟩ : Loc)
    have e3 := tot_upd isStore s.l t (⟨.cNotify, (s.l t).kind, (s.l t).cur, (s.l t).bit, (s.l t).rem, (s.l t).ph⟩ : Loc)
    have i1 : isDrop (s.l t) = 0 := by simp [isDrop, hp]
    have i3 : isStore (s.l t) = 1 := by simp [isStore, hp]
    have j1 : isDrop (⟨.cNotify, (s.l t).kind, (s.l t).cur, (s.l t).bit, (s.l t).rem, (s.l t).ph⟩ : Loc) = 0 := rfl
    have j2 : isComp (⟨.cNotify, (s.l t).kind, (s.l t).cur, (s.l t).bit, (s.l t).rem, (s.l t).ph⟩ : Loc) = 0 := rfl
    have j3 : isStore (⟨.cNotify, (s.l t).kind, (s.l t).cur, (s.l t).bit, (s.l t).rem, (s.l t).ph⟩ : Loc) = 0 := rfl
    have q1 := h.nd
    have q2 := h.nc
    rw [if_pos ⟨a1, a2⟩] at q2
    have q3 := h.ns
    have q4 := h.tt
    have q5 := h.ex
    have q6 := h.dr
    obtain ⟨l1, l2, l3, l4⟩ := hlo
    refine ⟨_, rfl, h.e0, ?_, ?_, h.tt, ?_, ?_, ?_, ?_, ?_, loc_upd (fun u hu => ?_) ?_, ?_, ?_⟩
    · simp only []; omega
    · simp only []
      rw [l2, l4, q4]
      unfold bitOf
      omega
    · simp only []; omega
    · simp only []; omega
    · simp only []; omega
    · simp only []
      rw [if_neg (by omega)]; omega
    · simp only []; omega
    · have hcu := comp_unique h i2 hu
      have := h.lo u
      unfold LocOK at this ⊢
      unfold isComp at hcu
      cases hq : (s.l u).pc <;> rw [hq] at this hcu <;> simp only [] at this ⊢
      case cLoad | cFn | cStore => simp at hcu
      case drop1 => exact this
      case cNotify => exact ⟨this.1, by omega⟩
      case wLoad => exact ⟨this.1, by omega⟩
      case aLoad | aBlock | asleep => exact ⟨this.1, by omega, this.2.2⟩
    · refine ⟨?_, ?_⟩
      · simp only []; omega
      · simp only []; omega
    · intro k hk
      have := h.tk k hk
      exact ⟨this.1, by simp only []; omega⟩
    · intro u _
      exact .inr ⟨t, by simp only [upd_self]⟩
  case cNotify =>
    have w : ∀ (f : Loc → Nat), (∀ x, f (wake x) = f x) → tot f (fun u => wake (s.l u)) = tot f s.l := by
      intro f hf
      unfold tot
      exact Finset.sum_congr rfl (fun u _ => hf _)
    have e1 := tot_upd isDrop (fun u => wake (s.l u)) t (⟨.idle, (s.l t).kind, (s.l t).cur, (s.l t).bit, (s.l t).rem, (s.l t).ph⟩ : Loc)
    have e2 := tot_upd isComp (fun u => wake (s.l u)) t (⟨.idle, (s.l t).kind, (s.l t).cur, (s.l t).bit, (s.l t).rem, (s.l t).ph⟩ : Loc)
    have e3 := tot_upd isStore (fun u => wake (s.l u)) t (⟨.idle, (s.l t).kind, (s.l t).cur, (s.l t).bit, (s.l t).rem, (s.l t).ph⟩ : Loc)
    rw [w _ (fun x => wake_ind.1), wake_ind.1] at e1
    rw [w _ (fun x => wake_ind.2.1), wake_ind.2.1] at e2
    rw [w _ (fun x => wake_ind.2.2.1), wake_ind.2.2.1] at e3
    have i1 : isDrop (s.l t) = 0 := by simp [isDrop, hp]
    have i2 : isComp (s.l t) = 0 := by simp [isComp, hp]
    have i3 : isStore (s.l t) = 0 := by simp [isStore, hp]
    have j1 : isDrop (⟨.idle, (s.l t).kind, (s.l t).cur, (s.l t).bit, (s.l t).rem, (s.l t).ph⟩ : Loc) = 0 := rfl
    have j2 : isComp (⟨.idle, (s.l t).kind, (s.l t).cur, (s.l t).bit, (s.l t).rem, (s.l t).ph⟩ : Loc) = 0 := rfl
    have j3 : isStore (⟨.idle, (s.l t).kind, (s.l t).cur, (s.l t).bit, (s.l t).rem, (s.l t).ph⟩ : Loc) = 0 := rfl
    have q1 := h.nd
    have q2 := h.nc
    have q3 := h.ns
    have hns : ∀ u, (upd (fun u => wake (s.l u)) t { s.l t with pc := .idle } u).pc ≠ .asleep := by
      intro u
      by_cases hu : u = t
      · subst hu; rw [upd_self]; simp
      · rw [upd_ne _ _ hu]; exact wake_ind.2.2.2
    have key : ∀ tk' : List Tok, (∀ k ∈ tk', k.bit = k.ph % 2 ∧ k.ph ≤ s.phase) → Inv e { s with toks := tk', l := upd (fun u => wake (s.l u)) t { s.l t with pc := .idle } } := by
      intro tk' htk
      exact ⟨h.e0, h.ar, h.cu, h.tt, h.dr, h.ex, by simp only []; omega, by simp only []; rw [← q2]; omega, by simp only []; omega, loc_upd (fun u _ => (h.lo u).wake) trivial, htk,
        fun u hu => absurd hu (hns u)⟩
    by_cases hk : (s.l t).kind = .arrive
    · rw [if_pos hk]
      refine ⟨_, rfl, key _ ?_⟩
      intro k hk
      rcases List.mem_append.1 hk with hk | hk
      · exact h.tk k hk
      · rw [List.mem_singleton] at hk; subst hk; exact ⟨hlo.1, by simp only []; omega⟩
    · rw [if_neg hk]
      exact ⟨_, rfl, key s.toks h.tk⟩
  case wLoad =>
    have hz : ¬ s.cur < 0 := by have := h.cu; have := h.ar; omega
    rw [if_neg hz]
    refine ⟨_, rfl, ?_⟩
    by_cases hb : bitOf s.cur ≠ (s.l t).bit
    · rw [if_pos hb]
      refine h.loc t ?_ ?_ ?_ (by trivial) (by simp) (by rw [hp]; simp) h.tk
      · simp [isDrop, hp]
      · simp [isComp, hp]
      · simp [isStore, hp]
    · rw [if_neg hb]
      refine h.loc t ?_ ?_ ?_ (by exact ⟨hlo.1, hlo.2, by push Not at hb; exact hb⟩) (by simp) (by rw [hp]; simp) h.tk
      · simp [isDrop, hp]
      · simp [isComp, hp]
      · simp [isStore, hp]
  case aLoad =>
    refine ⟨_, rfl, ?_⟩
    by_cases hb : s.cur = (s.l t).cur
    · rw [if_pos hb]
      refine h.loc t ?_ ?_ ?_ (by exact hlo) (by simp) (by rw [hp]; simp) h.tk
      · simp [isDrop, hp]
      · simp [isComp, hp]
      · simp [isStore, hp]
    · rw [if_neg hb]
      refine h.loc t ?_ ?_ ?_ (by exact ⟨hlo.1, hlo.2.1⟩) (by simp) (by rw [hp]; simp) h.tk
      · simp [isDrop, hp]
      · simp [isComp, hp]
      · simp [isStore, hp]
  case aBlock =>
    refine ⟨_, rfl, ?_⟩
    by_cases hb : s.cur = (s.l t).cur
    · rw [if_pos hb]
      refine h.loc t ?_ ?_ ?_ (by exact hlo) ?_ (by rw [hp]; simp) h.tk
      · simp [isDrop, hp]
      · simp [isComp, hp]
      · simp [isStore, hp]
      · intro _
        simp only []
        rw [← hlo.2.2, ← hb, h.cu, bitOf_eq]
    · rw [if_neg hb]
      refine h.loc t ?_ ?_ ?_ (by exact hlo) (by simp) (by rw [hp]; simp) h.tk
      · simp [isDrop, hp]
      · simp [isComp, hp]
      · simp [isStore, hp]

theorem Inv.step {s : St ι} {e : Nat} (h : Inv e s) (t : ι) (c : Act) : ∃ s', step s t c = some s' ∧ Inv e s' := by
  cases c with
  | adv => exact h.adv t
  | spurious =>
    unfold Barrier.step
    simp only []
    by_cases hp : (s.l t).pc = .asleep
    · rw [if_pos hp]
      have hlo := h.lo t
      unfold LocOK at hlo
      rw [hp] at hlo
      refine ⟨_, rfl, h.loc t ?_ ?_ ?_ (by exact hlo) (by simp) (by rw [hp]; simp) h.tk⟩
      · simp [isDrop, hp]
      · simp [isComp, hp]
      · simp [isStore, hp]
    · rw [if_neg hp]; exact ⟨s, rfl, h⟩
  | arrive u =>
    unfold Barrier.step
    simp only []
    by_cases hp : (s.l t).pc = .idle ∧ 0 < u ∧ s.arrived + s.resv + u ≤ s.expc
    · rw [if_pos hp]
      exact h.arrive t hp.2.1 (fun hc => by cases hc) (fun _ => hp.1) (fun _ => hp.2.2)
    · rw [if_neg hp]; exact ⟨s, rfl, h⟩
  | arriveAndWait =>
    unfold Barrier.step
    simp only []
    by_cases hp : (s.l t).pc = .idle ∧ s.arrived + s.resv + 1 ≤ s.expc
    · rw [if_pos hp]
      exact h.arrive t Nat.one_pos (fun hc => by cases hc) (fun _ => hp.1) (fun _ => hp.2)
    · rw [if_neg hp]; exact ⟨s, rfl, h⟩
  | arriveAndDrop =>
    unfold Barrier.step
    simp only []
    by_cases hp : (s.l t).pc = .idle ∧ s.arrived + s.resv + 1 ≤ s.expc
    · rw [if_pos hp]
      have q1 := h.nd
      have q2 := h.nc
      have q3 := h.ns
      have q4 := h.tt
      have q5 := h.ex
      have q6 := h.dr
      have q7 := h.ar
      rw [if_neg (by omega)]
      have e1 := tot_upd isDrop s.l t (⟨.drop1, .drop, (s.l t).cur, (s.l t).bit, (s.l t).rem, (s.l t).ph⟩ : Loc)
      have e2 := tot_upd isComp s.l t (⟨.drop1, .drop, (s.l t).cur, (s.l t).bit, (s.l t).rem, (s.l t).ph⟩ : Loc)
      have e3 := tot_upd isStore s.l t (⟨.drop1, .drop, (s.l t).cur, (s.l t).bit, (s.l t).rem, (s.l t).ph⟩ : Loc)
      have i1 : isDrop (s.l t) = 0 := by simp [isDrop, hp.1]
      have i2 : isComp (s.l t) = 0 := by simp [isComp, hp.1]
      have i3 : isStore (s.l t) = 0 := by simp [isStore, hp.1]
      have j1 : isDrop (⟨.drop1, .drop, (s.l t).cur, (s.l t).bit, (s.l t).rem, (s.l t).ph⟩ : Loc) = 1 := rfl
      have j2 : isComp (⟨.drop1, .drop, (s.l t).cur, (s.l t).bit, (s.l t).rem, (s.l t).ph⟩ : Loc) = 0 := rfl
      have j3 : isStore (⟨.drop1, .drop, (s.l t).cur, (s.l t).bit, (s.l t).rem, (s.l t).ph⟩ : Loc) = 0 := rfl
      refine ⟨_, rfl, h.e0, ?_, h.cu, ?_, ?_, ?_, ?_, ?_, ?_, loc_upd (fun u _ => ?_) rfl, h.tk, sl_upd h (by simp) (by rw [hp.1]; simp)⟩
      · simp only []; omega
      · simp only []; omega
      · simp only []; omega
      · simp only []; omega
      · simp only []; omega
      · simp only []; rw [← q2]; omega
      · simp only []; omega
      · have h0c : tot isComp s.l = 0 := by rw [q2, if_neg]; omega
        have hcu := tot_zero h0c u
        have := h.lo u
        unfold LocOK at this ⊢
        unfold isComp at hcu
        cases hq : (s.l u).pc <;> rw [hq] at this hcu <;> simp only [] at this ⊢ <;> first | exact this | simp at hcu
    · rw [if_neg hp]; exact ⟨s, rfl, h⟩
  | wait i =>
    unfold Barrier.step
    simp only []
    cases hk : s.toks[i]? with
    | none => exact ⟨s, rfl, h⟩
    | some k =>
      simp only []
      by_cases hp : (s.l t).pc = .idle ∧ (k.ph = s.phase ∨ k.ph + 1 = s.phase)
      · rw [if_pos hp]
        have := h.tk k (List.mem_of_getElem? hk)
        refine ⟨_, rfl, h.loc t ?_ ?_ ?_ (by exact this) (by simp) (by rw [hp.1]; simp) fun k' hk' => h.tk k' (List.mem_of_mem_eraseIdx hk')⟩
        · simp [isDrop, hp.1]
        · simp [isComp, hp.1]
        · simp [isStore, hp.1]
      · rw [if_neg hp]; exact ⟨s, rfl, h⟩

theorem init_inv (e : Nat) : Inv e (init e : St ι) := by
  refine ⟨rfl, by simp [init], by simp [init], by simp [init], by simp [init], by simp [init], tot_eq_zero (fun _ => rfl), ?_, ?_, fun u => trivial, by simp [init], by simp [init]⟩
  · rw [if_neg (by simp only [init]; omega)]; exact tot_eq_zero (fun _ => rfl)
  · have : tot isStore (init e : St ι).l = 0 := tot_eq_zero (fun _ => rfl)
    rw [this]; rfl

theorem reach_inv' {e : Nat} {o : Option (St ι)} (h : Reach e o) : ∃ s, o = some s ∧ Inv e s := by
  induction h with
  | init => exact ⟨_, rfl, init_inv e⟩
  | step t c _ ih =>
    obtain ⟨s, hs, hi⟩ := ih
    injection hs with hs
    subst hs
    exact hi.step t c

theorem reach_inv {e : Nat} {s : St ι} (h : Reach e (some s)) : Inv e s := by
  obtain ⟨s', h1, h2⟩ := reach_inv' h
  injection h1 with h1
  subst h1; exact h2

/-- **C44 (checks never fail).** As long as the calls respect the preconditions of the standard, no internal check fails. -/
theorem C44_safe {e : Nat} : ¬ Reach e (none : Option (St ι)) := by
  intro h
  obtain ⟨s, h1, _⟩ := reach_inv' h
  cases h1

/-- **C44 (completion).** A phase ends only after exactly the expected number of arrivals, after exactly one call of the completion function for it, and the expected count of the next phase is the initial one less
the number of calls of `arrive_and_drop`. -/
theorem C44_completion {e : Nat} {s s' : St ι} (hr : Reach e (some s)) {t : ι} {c : Act} (hs : step s t c = some s') (hp : s'.phase ≠ s.phase) :
    s'.phase = s.phase + 1 ∧ s.arrived = s.expc ∧ 0 < s.expc ∧ s.runs = s.phase + 1 ∧ s'.runs = s.runs ∧ s'.arrived = 0 ∧ s'.expc + s.drops = e ∧ s'.drops = s.drops := by
  have h := reach_inv hr
  have harr : ∀ {k u r s'}, arriveStep s t k u r = some s' → s'.phase = s.phase := by
    intro k u r s' ha
    unfold arriveStep at ha
    simp only [] at ha
    split at ha
    · cases ha
    · split at ha
      · injection ha with ha; subst ha; rfl
      · split at ha <;> (injection ha with ha; subst ha; rfl)
  cases c with
  | spurious => injection hs with hs; subst hs; split at hp <;> exact absurd rfl hp
  | arrive u =>
    unfold Barrier.step at hs
    simp only [] at hs
    split at hs
    · exact absurd (harr hs) hp
    · injection hs with hs; subst hs; exact absurd rfl hp
  | arriveAndWait =>
    unfold Barrier.step at hs
    simp only [] at hs
    split at hs
    · exact absurd (harr hs) hp
    · injection hs with hs; subst hs; exact absurd rfl hp
  | arriveAndDrop =>
    unfold Barrier.step at hs
    simp only [] at hs
    split at hs
    · split at hs
      · cases hs
      · injection hs with hs; subst hs; exact absurd rfl hp
    · injection hs with hs; subst hs; exact absurd rfl hp
  | wait i =>
    unfold Barrier.step at hs
    simp only [] at hs
    split at hs
    · split at hs
      · injection hs with hs; subst hs; exact absurd rfl hp
      · injection hs with hs; subst hs; exact absurd rfl hp
    · injection hs with hs; subst hs; exact absurd rfl hp
  | adv =>
    have hs : advStep s t = some s' := hs
    unfold advStep at hs
    simp only [] at hs
    cases hq : (s.l t).pc <;> rw [hq] at hs <;> simp only [] at hs
    case idle | asleep => injection hs with hs; subst hs; exact absurd rfl hp
    case drop1 => exact absurd (harr hs) hp
    case cLoad | wLoad =>
      split at hs
      · cases hs
      · injection hs with hs; subst hs; exact absurd rfl hp
    case cFn | aLoad | aBlock => injection hs with hs; subst hs; exact absurd rfl hp
    case cNotify =>
      injection hs with hs; subst hs
      split at hp <;> exact absurd rfl hp
    case cStore =>
      have i2 : isComp (s.l t) = 1 := by simp [isComp, hq]
      have h1 := le_tot isComp s.l t
      have h2 := h.nc
      have h3 := le_tot isStore s.l t
      have i3 : isStore (s.l t) = 1 := by simp [isStore, hq]
      have h4 : tot isStore s.l ≤ tot isComp s.l := tot_mono (fun u => by unfold isStore isComp; split <;> rename_i hx <;> simp [hx])
      have h5 := h.ns
      have h6 := h.ex
      have h7 := h.dr
      have h8 := h.ar
      have h9 := h.e0
      by_cases hq : s.arrived = s.expc ∧ 0 < s.expc
      · rw [if_pos hq] at h2
        injection hs with hs
        subst hs
        refine ⟨rfl, hq.1, hq.2, by omega, rfl, rfl, ?_, rfl⟩
        simp only []
        omega
      · rw [if_neg hq] at h2; omega

/-- **C44 (the completion function runs when all have arrived, once per phase).** When the completion function is called, all expected arrivals of the phase have happened, nothing else can arrive, and it has not been
called for this phase before. -/
theorem C44_function {e : Nat} {s : St ι} (hr : Reach e (some s)) {t : ι} (hp : (s.l t).pc = .cFn) : s.arrived = s.expc ∧ s.resv = 0 ∧ s.runs = s.phase := by
  have h := reach_inv hr
  have h1 := le_tot isComp s.l t
  have i2 : isComp (s.l t) = 1 := by simp [isComp, hp]
  have h2 := h.nc
  have h3 := h.ns
  have h8 := h.ar
  have h0 : tot isStore s.l = 0 := by
    refine tot_eq_zero fun u => ?_
    by_cases hu : u = t
    · subst hu; simp [isStore, hp]
    · have := comp_unique h i2 hu
      unfold isComp at this
      unfold isStore
      split
      · rename_i hx; simp [hx] at this
      · rfl
  by_cases hq : s.arrived = s.expc ∧ 0 < s.expc
  · exact ⟨hq.1, by omega, by omega⟩
  · rw [if_neg hq] at h2; omega

/-- **C44 (calls).** `arrive_and_wait` arrives once in the current phase and begins a wait for the end of it (or completes it); `arrive(u)` counts `u` arrivals and at once or after completing the phase hands out a token of
it; `wait` begins a wait for the phase of its token; `arrive_and_drop` lowers the expected count of the following phases by one. -/
theorem C44_calls {s s' : St ι} {t : ι} (hidle : (s.l t).pc = .idle) :
    (s.arrived + s.resv + 1 ≤ s.expc → step s t .arriveAndWait = some s' →
      (s'.l t).kind = .arriveAndWait ∧ (s'.l t).pc ≠ .idle ∧ (s'.l t).ph = s.phase ∧ s'.arrived = s.arrived + 1 ∧ s'.toks = s.toks) ∧
    (∀ u, 0 < u → s.arrived + s.resv + u ≤ s.expc → step s t (.arrive u) = some s' → s'.arrived = s.arrived + u ∧
      ((∃ b, s'.toks = s.toks ++ [⟨b, s.phase⟩] ∧ (s'.l t).pc = .idle) ∨ ((s'.l t).kind = .arrive ∧ (s'.l t).ph = s.phase ∧ (s'.l t).pc = .cLoad))) ∧
    (∀ i k, s.toks[i]? = some k → k.ph = s.phase ∨ k.ph + 1 = s.phase → step s t (.wait i) = some s' →
      (s'.l t).kind = .wait ∧ (s'.l t).pc ≠ .idle ∧ (s'.l t).ph = k.ph ∧ s'.toks = s.toks.eraseIdx i) ∧
    (s.arrived + s.resv + 1 ≤ s.expc → step s t .arriveAndDrop = some s' → s'.drops = s.drops + 1 ∧ s'.resv = s.resv + 1 ∧ s'.total = s.total - 2 ∧ (s'.l t).pc = .drop1) := by
  refine ⟨fun h1 hs => ?_, fun u hu h1 hs => ?_, fun i k hk hp hs => ?_, fun h1 hs => ?_⟩
  · rw [step, if_pos ⟨hidle, h1⟩] at hs
    unfold arriveStep at hs
    simp only [] at hs
    split at hs
    · cases hs
    · split at hs <;> injection hs with hs <;> subst hs <;> simp [upd_self]
  · rw [step, if_pos ⟨hidle, hu, h1⟩] at hs
    unfold arriveStep at hs
    simp only [] at hs
    split at hs
    · cases hs
    · split at hs <;> injection hs with hs <;> subst hs
      · simp [upd_self]
      · exact ⟨rfl, .inl ⟨_, rfl, by simp [upd_self]⟩⟩
  · rw [step, hk] at hs
    simp only [] at hs
    rw [if_pos ⟨hidle, hp⟩] at hs
    injection hs with hs
    subst hs
    simp [upd_self]
  · rw [step, if_pos ⟨hidle, h1⟩] at hs
    split at hs
    · cases hs
    · injection hs with hs
      subst hs
      simp [upd_self]

/-- **C44 (nobody passes early).** When `wait` with a token of phase `p`, or an `arrive_and_wait` that arrived in phase `p`, returns, phase `p` has ended and its completion function has been called. -/
theorem C44_no_early {e : Nat} {s s' : St ι} (hr : Reach e (some s)) {t : ι} {c : Act} (hk : (s.l t).kind = .wait ∨ (s.l t).kind = .arriveAndWait) (hn : (s.l t).pc ≠ .idle) (hs : step s t c = some s')
    (hi : (s'.l t).pc = .idle) : (s.l t).ph < s.phase ∧ (s.l t).ph < s.runs := by
  have h := reach_inv hr
  have key : (s.l t).ph < s.phase := by
    have hlo := h.lo t
    unfold LocOK at hlo
    cases c with
    | spurious =>
      injection hs with hs; subst hs
      split at hi
      · simp at hi
      · exact absurd hi hn
    | arrive u => unfold step at hs; simp only [] at hs; rw [if_neg (fun hx => hn hx.1)] at hs; injection hs with hs; subst hs; exact absurd hi hn
    | arriveAndWait => unfold step at hs; simp only [] at hs; rw [if_neg (fun hx => hn hx.1)] at hs; injection hs with hs; subst hs; exact absurd hi hn
    | arriveAndDrop => unfold step at hs; simp only [] at hs; rw [if_neg (fun hx => hn hx.1)] at hs; injection hs with hs; subst hs; exact absurd hi hn
    | wait i =>
      unfold step at hs; simp only [] at hs
      split at hs
      · rw [if_neg (fun hx => hn hx.1)] at hs; injection hs with hs; subst hs; exact absurd hi hn
      · injection hs with hs; subst hs; exact absurd hi hn
    | adv =>
      have hs : advStep s t = some s' := hs
      unfold advStep at hs
      simp only [] at hs
      cases hq : (s.l t).pc <;> rw [hq] at hs hlo hn <;> simp only [] at hs hlo
      case idle => exact absurd rfl hn
      case asleep => injection hs with hs; subst hs; rw [hq] at hi; cases hi
      case drop1 => rcases hk with hk | hk <;> rw [hk] at hlo <;> cases hlo
      case cLoad =>
        split at hs
        · cases hs
        · injection hs with hs; subst hs; simp at hi
      case cFn | cStore => injection hs with hs; subst hs; simp at hi
      case cNotify => exact hlo.2
      case wLoad =>
        split at hs
        · cases hs
        · injection hs with hs; subst hs
          simp only [upd_self] at hi
          split at hi
          · rename_i hb
            have hcu := h.cu
            rw [hcu, bitOf_eq] at hb
            obtain ⟨h1, h2⟩ := hlo
            rcases Nat.lt_or_ge (s.l t).ph s.phase with h3 | h3
            · exact h3
            · have : (s.l t).ph = s.phase := by omega
              rw [this] at h1
              exact absurd h1.symm hb
          · simp at hi
      case aLoad | aBlock =>
        injection hs with hs; subst hs
        simp only [upd_self] at hi
        split at hi <;> cases hi
  exact ⟨key, by have := h.ns; omega⟩

/-- **C44 (no lost wake-up).** A thread sleeps on although its phase has ended and the next one has not only while the notification of the end is still to come. -/
theorem C44_no_lost {e : Nat} {s : St ι} (hr : Reach e (some s)) {t : ι} (hp : (s.l t).pc = .asleep) (hph : s.phase = (s.l t).ph + 1) : ∃ n, (s.l n).pc = .cNotify := by
  have h := reach_inv hr
  have hlo := h.lo t
  unfold LocOK at hlo
  rw [hp] at hlo
  rcases h.sl t hp with h1 | h1
  · have := hlo.1; omega
  · exact h1

/-- **C44 (no deadlock).** When no thread can go on, every thread is outside of the functions or sleeps in a wait for the end of a phase `p` such that the barrier is in phase `p`, `p + 2`, `p + 4`, ...: if no phase ends while
a thread still waits for the end of the phase before it, all sleeping threads wait for the current phase to end. -/
theorem C44_quiescent {e : Nat} {s : St ι} (hr : Reach e (some s)) (hq : ∀ t, advStep s t = some s) (t : ι) :
    (s.l t).pc = .idle ∨ ((s.l t).pc = .asleep ∧ ((s.l t).ph = s.phase ∨ (s.l t).ph + 2 ≤ s.phase)) := by
  have h := reach_inv hr
  have key : ∀ u, (s.l u).pc = .idle ∨ (s.l u).pc = .asleep := by
    intro u
    have hs := hq u
    have hlo := h.lo u
    unfold advStep at hs
    simp only [] at hs
    cases hp : (s.l u).pc <;> rw [hp] at hs <;> simp only [] at hs
    case idle => exact .inl rfl
    case asleep => exact .inr rfl
    case drop1 =>
      exfalso
      unfold arriveStep at hs
      simp only [] at hs
      have := congrArg (fun o : Option (St ι) => o.map (·.arrived)) hs
      split at hs
      · cases hs
      · split at hs
        · injection hs with hs
          have := congrArg (·.arrived) hs
          simp at this
        · injection hs with hs
          have := congrArg (·.arrived) hs
          simp at this
    case cLoad =>
      exfalso
      split at hs
      · cases hs
      · injection hs with hs
        have := congrArg (fun x => (x.l u).pc) hs
        simp [hp] at this
    case cFn | cStore =>
      exfalso
      injection hs with hs
      have := congrArg (fun x => (x.l u).pc) hs
      simp [hp] at this
    case cNotify =>
      exfalso
      injection hs with hs
      have := congrArg (fun x => (x.l u).pc) hs
      split at this <;> simp [hp] at this
    case wLoad =>
      exfalso
      split at hs
      · cases hs
      · injection hs with hs
        have := congrArg (fun x => (x.l u).pc) hs
        simp only [upd_self, hp] at this
        split at this <;> cases this
    case aLoad | aBlock =>
      exfalso
      injection hs with hs
      have := congrArg (fun x => (x.l u).pc) hs
      simp only [upd_self, hp] at this
      split at this <;> cases this
  rcases key t with h1 | h1
  · exact .inl h1
  · refine .inr ⟨h1, ?_⟩
    have hlo := h.lo t
    unfold LocOK at hlo
    rw [h1] at hlo
    rcases h.sl t h1 with h2 | ⟨n, h2⟩
    · have := hlo.1; have := hlo.2.1; omega
    · rcases key n with h3 | h3 <;> rw [h3] at h2 <;> cases h2

/-! ### Executions -/

def run (s : St ι) : List (ι × Act) → Option (St ι)
  | [] => some s
  | (t, c) :: r => (step s t c).bind (run · r)

omit [Fintype ι] in
theorem reach_run {e : Nat} (sch : List (ι × Act)) : ∀ {s s' : St ι}, Reach e (some s) → run s sch = some s' → Reach e (some s') := by
  induction sch with
  | nil => intro s s' h hs; injection hs with hs; subst hs; exact h
  | cons q r ih =>
    obtain ⟨t, c⟩ := q
    intro s s' h hs
    have hs : (step s t c).bind (run · r) = some s' := hs
    cases h1 : step s t c with
    | none => rw [h1] at hs; cases hs
    | some s1 =>
      rw [h1] at hs
      have := Reach.step t c h
      rw [h1] at this
      exact ih this hs

theorem ex_of_run (e : Nat) (sch : List (Fin 3 × Act)) (P : St (Fin 3) → Prop) [DecidablePred P] (h : (match run (init e) sch with | some s => decide (P s) | none => false) = true) :
    ∃ s, Reach e (some s) ∧ P s := by
  cases hr : run (init e : St (Fin 3)) sch with
  | none => rw [hr] at h; cases h
  | some s => rw [hr] at h; exact ⟨s, reach_run sch .init hr, of_decide_eq_true h⟩

/-- Thread 0 sleeps in `arrive_and_wait`, thread 1 drops out, thread 2 completes the phase: the hypotheses of `C44_function`. -/
def phase0 : List (Fin 3 × Act) := [(0, .arriveAndWait), (0, .adv), (0, .adv), (1, .arriveAndDrop), (1, .adv), (2, .arriveAndWait), (2, .adv)]

example : ∃ s : St (Fin 3), Reach 3 (some s) ∧ (s.l 2).pc = .cFn ∧ (s.l 0).pc = .asleep ∧ s.arrived = 3 ∧ s.phase = 0 := ex_of_run 3 phase0 _ (by decide +kernel)

/-- The hypotheses of `C44_completion`. -/
example : ∃ s : St (Fin 3), Reach 3 (some s) ∧ s.phase = 0 ∧ (step s 2 .adv).map (fun s' => (s'.phase, s'.expc)) = some (1, 2) :=
  ex_of_run 3 (phase0 ++ [(2, .adv)]) _ (by decide +kernel)

/-- The hypotheses of `C44_no_lost`: the store has been done, the notification has not. -/
example : ∃ s : St (Fin 3), Reach 3 (some s) ∧ (s.l 0).pc = .asleep ∧ s.phase = (s.l 0).ph + 1 := ex_of_run 3 (phase0 ++ [(2, .adv), (2, .adv)]) _ (by decide +kernel)

/-- The hypotheses of `C44_no_early`: thread 0 is about to return from `arrive_and_wait`. -/
example : ∃ s : St (Fin 3), Reach 3 (some s) ∧ (s.l 0).kind = .arriveAndWait ∧ (s.l 0).pc = .wLoad ∧ bitOf s.cur ≠ (s.l 0).bit ∧ s.phase = 1 ∧ s.expc = 2 :=
  ex_of_run 3 (phase0 ++ [(2, .adv), (2, .adv), (2, .adv), (0, .adv)]) _ (by decide +kernel)

/-- **C44 (a limit: the phase is one bit).** The phase a token belongs to is remembered modulo 2. A thread that calls `wait` with a token of the phase before the current one, which the standard allows, sleeps if another thread
completes the current phase before the load; it sleeps on, although its phase ended before it called `wait`, as long as no further phase ends. -/
theorem C44_wait_two_phases : ∃ s : St (Fin 3), Reach 1 (some s) ∧ (s.l 0).pc = .asleep ∧ (s.l 0).ph = 0 ∧ s.phase = 2 ∧ (s.l 1).pc = .idle ∧ (s.l 2).pc = .idle :=
  ex_of_run 1 [(0, .arrive 1), (0, .adv), (0, .adv), (0, .adv), (0, .adv), (0, .wait 0), (1, .arrive 1), (1, .adv), (1, .adv), (1, .adv), (1, .adv), (0, .adv), (0, .adv), (0, .adv)] _ (by decide +kernel)

end STL.Barrier
