import Verif.Conc.Semaphore

/-!
# Property C18 (counting_semaphore): exact accounting and no lost wake-up
-/

namespace STL.Semaphore
open STL STL.Conc

variable {ι : Type} [Fintype ι] [DecidableEq ι]

namespace Spec

/-- States reached by any interleaving from a semaphore constructed with `desired`. -/
inductive Reach (max desired : Int) : State ι → Prop
  | init : Reach max desired (init desired)
  | step {σ σ' t a} : Reach max desired σ → step max σ t a = some σ' → Reach max desired σ'

end Spec
open Spec

def pW : PC → Nat | .waitLoad _ => 1 | .waitBlock _ _ => 1 | .asleep _ => 1 | .waitDec _ => 1 | _ => 0
def pS : PC → Nat | .asleep _ => 1 | _ => 0
def pA : PC → Nat | .acqLoad _ => 1 | .acqTest _ c => if c = 0 then 0 else 1 | .waitDec _ => 1 | _ => 0
def pP : PC → Nat | .relLoad u => u | .relAll u => u | .relOne k => k | _ => 0
def fW (x : Loc) : Nat := pW x.pc
def fS (x : Loc) : Nat := pS x.pc
def fA (x : Loc) : Nat := pA x.pc
def fP (x : Loc) : Nat := pP x.pc

/-- what each position guarantees about the value it holds -/
def PcOk (max : Int) : PC → Prop
  | .waitBlock _ c => c = 0
  | .acqTest _ c => 0 ≤ c ∧ c ≤ max
  | .tryCas c => 0 < c ∧ c ≤ max
  | .relOne k => 0 < k
  | .relLoad u => 0 < u
  | _ => True

structure Inv (max desired : Int) (b : Sem) (W S A P : Nat) : Prop where
  lo : 0 ≤ b.counter
  hi : b.counter ≤ max
  cons : b.counter + b.acquired = desired + b.released
  wait : b.waiting = W
  ok : b.aborted = false
  wake : S = 0 ∨ b.counter ≤ A + P

def InvS (max desired : Int) (σ : State ι) : Prop :=
  Inv max desired σ.b (tot fW σ.l) (tot fS σ.l) (tot fA σ.l) (tot fP σ.l) ∧ ∀ t, PcOk max (σ.l t).pc

theorem inv_init {max desired : Int} (h0 : 0 ≤ desired) (h1 : desired ≤ max) : InvS max desired (init (ι := ι) desired) := by
  have hz : ∀ f : Loc → Nat, (∀ t, f ((init (ι := ι) desired).l t) = 0) → tot f (init (ι := ι) desired).l = 0 := fun f h => tot_eq_zero h
  refine ⟨?_, fun t => by simp [init, PcOk]⟩
  rw [hz fW (fun t => by simp [fW, pW, init]), hz fS (fun t => by simp [fS, pS, init]), hz fA (fun t => by simp [fA, pA, init]),
    hz fP (fun t => by simp [fP, pP, init])]
  constructor <;> simp [init, h0, h1]

theorem verify_ok {max : Int} {b : Sem} {c : Int} (hb : b.aborted = false) (h0 : 0 < c) (h1 : c ≤ max) : verify max b c = b := by
  cases b; simp at hb; subst hb; simp [verify, h0, h1]

theorem local_inv {max desired : Int} {b b' : Sem} {me me' : Loc} {a : Act ι} {W S A P : Nat}
    (h : Inv max desired b (W + fW me) (S + fS me) (A + fA me) (P + fP me)) (hp : PcOk max me.pc)
    (hSW : S + fS me ≤ W + fW me)
    (hs : local_ max b me a = some (b', me')) :
    Inv max desired b' (W + fW me') (S + fS me') (A + fA me') (P + fP me') ∧ PcOk max me'.pc := by
  obtain ⟨i1, i2, i3, i4, i5, i6⟩ := h
  obtain ⟨pc, res⟩ := me
  unfold local_ at hs
  cases pc <;> cases a <;> simp only [fW, fS, fA, fP, pW, pS, pA, pP, PcOk] at * <;>
    (try simp only [reduceCtorEq] at hs) <;> (try split at hs) <;> (try split at hs) <;>
    (try simp only [reduceCtorEq] at hs) <;>
    (try (simp only [Option.some.injEq, Prod.mk.injEq] at hs; obtain ⟨rfl, rfl⟩ := hs)) <;>
    (try rw [verify_ok i5 (by omega) (by omega)]) <;>
    (refine ⟨⟨?_, ?_, ?_, ?_, ?_, ?_⟩, ?_⟩) <;> (try simp only [take, pW, pS, pA, pP, PcOk] at *) <;> (try split_ifs) <;> (try assumption) <;> (try omega) <;>
    (split at i6 <;> omega)


theorem fS_le_fW (x : Loc) : fS x ≤ fW x := by
  obtain ⟨pc, res⟩ := x
  cases pc <;> simp [fS, fW, pS, pW]

theorem wakeL_facts {max : Int} (x : Loc) : fW (wakeL x) = fW x ∧ fS (wakeL x) = 0 ∧ fA (wakeL x) = fA x + fS x ∧ fP (wakeL x) = fP x ∧
    (PcOk max x.pc → PcOk max (wakeL x).pc) := by
  obtain ⟨pc, res⟩ := x
  cases pc <;> simp [wakeL, fS, fW, fA, fP, pS, pW, pA, pP, PcOk]

theorem pcOk_upd {max : Int} {l : ι → Loc} (h : ∀ t, PcOk max (l t).pc) (t : ι) {x : Loc} (hx : PcOk max x.pc) (u : ι) :
    PcOk max (upd l t x u).pc := by
  by_cases hu : u = t
  · subst hu; rw [upd_self]; exact hx
  · rw [upd_ne _ _ hu]; exact h u

theorem relNext_facts {max : Int} {k : Nat} (h : 0 < k) : pW (relNext k) = 0 ∧ pS (relNext k) = 0 ∧ pA (relNext k) = 0 ∧
    pP (relNext k) = k - 1 ∧ PcOk max (relNext k) := by
  unfold relNext
  split
  · subst_vars; simp [pW, pS, pA, pP, PcOk]
  · refine ⟨rfl, rfl, rfl, rfl, ?_⟩; show 0 < k - 1; omega

theorem inv_step {max desired : Int} {σ σ' : State ι} {t : ι} {a : Act ι} (hI : InvS max desired σ)
    (hs : step max σ t a = some σ') : InvS max desired σ' := by
  obtain ⟨h, hp⟩ := hI
  have hSW : tot fS σ.l ≤ tot fW σ.l := tot_mono (fun u => fS_le_fW (σ.l u))
  have hpt := hp t
  obtain ⟨rW, eW, uW⟩ := split_tot fW σ.l t
  obtain ⟨rS, eS, uS⟩ := split_tot fS σ.l t
  obtain ⟨rA, eA, uA⟩ := split_tot fA σ.l t
  obtain ⟨rP, eP, uP⟩ := split_tot fP σ.l t
  unfold step at hs
  split at hs
  · -- notify_all
    rename_i u hpc
    simp only [Option.some.injEq] at hs; subst hs
    refine ⟨?_, pcOk_upd (fun v => (wakeL_facts (σ.l v)).2.2.2.2 (hp v)) t (by simp [PcOk])⟩
    have tW : tot fW (fun v => wakeL (σ.l v)) = tot fW σ.l := Finset.sum_congr rfl (fun v _ => (wakeL_facts (max := max) (σ.l v)).1)
    have tS : tot fS (fun v => wakeL (σ.l v)) = 0 := tot_eq_zero (fun v => (wakeL_facts (max := max) (σ.l v)).2.1)
    have e1 := tot_upd fW (fun v => wakeL (σ.l v)) t ⟨.idle, (σ.l t).res⟩
    have e2 := tot_upd fS (fun v => wakeL (σ.l v)) t ⟨.idle, (σ.l t).res⟩
    have m1 := (wakeL_facts (max := max) (σ.l t)).1
    have m2 := (wakeL_facts (max := max) (σ.l t)).2.1
    have m3 : fW (σ.l t) = 0 := by simp [fW, hpc, pW]
    obtain ⟨i1, i2, i3, i4, i5, i6⟩ := h
    have z1 : fW (⟨.idle, (σ.l t).res⟩ : Loc) = 0 := rfl
    have z2 : fS (⟨.idle, (σ.l t).res⟩ : Loc) = 0 := rfl
    dsimp only
    refine ⟨i1, i2, i3, by omega, i5, Or.inl (by omega)⟩
  · -- notify_one, someone wakes
    rename_i k u hpc
    rw [hpc] at hpt
    simp only [Option.ite_none_right_eq_some, Option.some.injEq] at hs
    obtain ⟨hu, rfl⟩ := hs
    have hut : u ≠ t := by rintro rfl; simp [isAsleep, hpc] at hu
    obtain ⟨w1, w2, w3, w4, w5⟩ := wakeL_facts (max := max) (σ.l u)
    have hSu : fS (σ.l u) = 1 := by
      unfold isAsleep at hu
      split at hu
      · rename_i tm hx; simp [fS, hx, pS]
      · cases hu
    obtain ⟨n1, n2, n3, n4, n5⟩ := relNext_facts (max := max) (k := k) hpt
    refine ⟨?_, pcOk_upd (pcOk_upd hp u (w5 (hp u))) t n5⟩
    have q : ∀ f : Loc → Nat, tot f (upd (upd σ.l u (wakeL (σ.l u))) t ⟨relNext k, (σ.l t).res⟩) + f (σ.l t) + f (σ.l u)
        = tot f σ.l + f ⟨relNext k, (σ.l t).res⟩ + f (wakeL (σ.l u)) := by
      intro f
      have e1 := tot_upd f (upd σ.l u (wakeL (σ.l u))) t ⟨relNext k, (σ.l t).res⟩
      have e2 := tot_upd f σ.l u (wakeL (σ.l u))
      rw [upd_ne _ _ (Ne.symm hut)] at e1
      omega
    have qW := q fW; have qS := q fS; have qA := q fA; have qP := q fP
    have o1 : fW (σ.l t) = 0 := by simp [fW, hpc, pW]
    have o2 : fS (σ.l t) = 0 := by simp [fS, hpc, pS]
    have o3 : fA (σ.l t) = 0 := by simp [fA, hpc, pA]
    have o4 : fP (σ.l t) = k := by simp [fP, hpc, pP]
    have o5 : fW (⟨relNext k, (σ.l t).res⟩ : Loc) = 0 := n1
    have o6 : fS (⟨relNext k, (σ.l t).res⟩ : Loc) = 0 := n2
    have o7 : fA (⟨relNext k, (σ.l t).res⟩ : Loc) = 0 := n3
    have o8 : fP (⟨relNext k, (σ.l t).res⟩ : Loc) = k - 1 := n4
    have hk : 0 < k := hpt
    obtain ⟨i1, i2, i3, i4, i5, i6⟩ := h
    dsimp only
    refine ⟨i1, i2, i3, by omega, i5, ?_⟩
    rcases i6 with i6 | i6
    · left; omega
    · right; omega
  · -- notify_one, nobody sleeps
    rename_i k hpc
    rw [hpc] at hpt
    simp only [Option.ite_none_right_eq_some, Option.some.injEq] at hs
    obtain ⟨hu, rfl⟩ := hs
    obtain ⟨n1, n2, n3, n4, n5⟩ := relNext_facts (max := max) (k := k) hpt
    refine ⟨?_, pcOk_upd hp t n5⟩
    have hS0 : tot fS σ.l = 0 := tot_eq_zero (fun v => by
      have := hu v
      unfold isAsleep at this
      split at this
      · cases this
      · rename_i hx
        unfold fS
        generalize (σ.l v).pc = pc at *
        cases pc <;> simp_all [pS])
    have o1 : fW (σ.l t) = 0 := by simp [fW, hpc, pW]
    have o2 : fS (σ.l t) = 0 := by simp [fS, hpc, pS]
    have o5 : fW (⟨relNext k, (σ.l t).res⟩ : Loc) = 0 := n1
    have o6 : fS (⟨relNext k, (σ.l t).res⟩ : Loc) = 0 := n2
    obtain ⟨i1, i2, i3, i4, i5, i6⟩ := h
    simp only [uW, uS, uA, uP]
    refine ⟨i1, i2, i3, by omega, i5, Or.inl (by omega)⟩
  · rw [Option.map_eq_some_iff] at hs
    obtain ⟨⟨b', me'⟩, hl, rfl⟩ := hs
    rw [eW, eS, eA, eP] at h
    have := local_inv h hpt (by omega) hl
    refine ⟨?_, pcOk_upd hp t this.2⟩
    simp only [uW, uS, uA, uP]
    exact this.1

theorem reach_inv {max desired : Int} (h0 : 0 ≤ desired) (h1 : desired ≤ max) {σ : State ι} (hr : Reach max desired σ) :
    InvS max desired σ := by
  induction hr with
  | init => exact inv_init h0 h1
  | step _ hs ih => exact inv_step ih hs

/-- **C18, accounting.** At every moment of every execution `counter = desired + released - acquired`, it is in `[0, max()]`
(so acquires never exceed the initial count plus releases), and no `_STL_VERIFY` in an acquire operation fires. -/
theorem C18_semaphore_accounting {max desired : Int} (h0 : 0 ≤ desired) (h1 : desired ≤ max) {σ : State ι} (hr : Reach max desired σ) :
    σ.b.counter + σ.b.acquired = desired + σ.b.released ∧ 0 ≤ σ.b.counter ∧ σ.b.counter ≤ max ∧
    (σ.b.acquired : Int) ≤ desired + σ.b.released ∧ σ.b.aborted = false := by
  obtain ⟨⟨i1, i2, i3, i4, i5, i6⟩, _⟩ := reach_inv h0 h1 hr
  exact ⟨i3, i1, i2, by omega, i5⟩

/-- **C18, no lost wake-up.** If every thread is outside any operation or asleep in an acquire, and some thread is asleep,
there is no token: no thread sleeps forever beside an available token. -/
theorem C18_semaphore_no_lost_wakeup {max desired : Int} (h0 : 0 ≤ desired) (h1 : desired ≤ max) {σ : State ι}
    (hr : Reach max desired σ) (hq : ∀ t, (σ.l t).pc = .idle ∨ ∃ tm, (σ.l t).pc = .asleep tm)
    (hs : ∃ t tm, (σ.l t).pc = .asleep tm) : σ.b.counter = 0 := by
  obtain ⟨⟨i1, i2, i3, i4, i5, i6⟩, _⟩ := reach_inv h0 h1 hr
  have hA : tot fA σ.l = 0 := tot_eq_zero (fun t => by rcases hq t with h | ⟨tm, h⟩ <;> simp [fA, h, pA])
  have hP : tot fP σ.l = 0 := tot_eq_zero (fun t => by rcases hq t with h | ⟨tm, h⟩ <;> simp [fP, h, pP])
  obtain ⟨t, tm, ht⟩ := hs
  have hS : 1 ≤ tot fS σ.l := by
    have := le_tot fS σ.l t
    simpa [fS, ht, pS] using this
  omega

/-- **C18, no stuck thread.** A thread inside an operation and not asleep can always take a step. -/
theorem C18_semaphore_progress (max : Int) (σ : State ι) (t : ι) (h1 : (σ.l t).pc ≠ .idle) (h2 : ∀ tm, (σ.l t).pc ≠ .asleep tm) :
    ∃ a, (step max σ t a).isSome := by
  obtain ⟨pc, he⟩ : ∃ pc, (σ.l t).pc = pc := ⟨_, rfl⟩
  rw [he] at h1 h2
  cases pc with
  | idle => exact absurd rfl h1
  | asleep tm => exact absurd rfl (h2 tm)
  | relOne k =>
    by_cases hu : ∀ u, isAsleep (σ.l u) = false
    · exact ⟨.adv, by unfold step; simp only [he]; rw [if_pos hu]; rfl⟩
    · push Not at hu
      obtain ⟨u, hu⟩ := hu
      have hu' : isAsleep (σ.l u) = true := by simpa using hu
      exact ⟨.wake u, by unfold step; simp only [he]; rw [if_pos hu']; rfl⟩
  | _ => exact ⟨.adv, by unfold step local_; simp only [he]; (try split) <;> (try split) <;> rfl⟩

def ResOk (l : ι → Loc) : Prop := ∀ t, (l t).pc ≠ .idle → (l t).res = none

theorem local_res {max : Int} {b b' : Sem} {me me' : Loc} {a : Act ι} (hr : me.pc ≠ .idle → me.res = none)
    (hl : local_ max b me a = some (b', me')) : (me'.pc ≠ .idle → me'.res = none) ∧
    (b'.acquired = b.acquired ∨ b'.acquired = b.acquired + 1) ∧
    (b'.acquired = b.acquired + 1 ↔ me.res ≠ some true ∧ me'.res = some true) := by
  obtain ⟨pc, res⟩ := me
  unfold local_ at hl
  cases pc <;> cases a <;> simp only at hl hr <;> (try simp only [reduceCtorEq] at hl) <;> (try split at hl) <;> (try split at hl) <;>
    (try simp only [reduceCtorEq] at hl) <;> (simp only [Option.some.injEq, Prod.mk.injEq] at hl; obtain ⟨rfl, rfl⟩ := hl) <;>
    simp_all [take, verify]

theorem resOk_upd {l : ι → Loc} (h : ResOk l) (t : ι) {x : Loc} (hx : x.pc ≠ .idle → x.res = none) : ResOk (upd l t x) := by
  intro u
  by_cases hu : u = t
  · subst hu; rw [upd_self]; exact hx
  · rw [upd_ne _ _ hu]; exact h u

theorem wakeL_res {x : Loc} (h : x.pc ≠ .idle → x.res = none) : (wakeL x).pc ≠ .idle → (wakeL x).res = none := by
  obtain ⟨pc, r⟩ := x
  cases pc <;> simp_all [wakeL]

theorem step_res {max : Int} {σ σ' : State ι} {t : ι} {a : Act ι} (hr : ResOk σ.l) (hs : step max σ t a = some σ') :
    ResOk σ'.l ∧ (σ'.b.acquired = σ.b.acquired ∨ σ'.b.acquired = σ.b.acquired + 1) ∧
    (σ'.b.acquired = σ.b.acquired + 1 ↔ (σ.l t).res ≠ some true ∧ (σ'.l t).res = some true) := by
  unfold step at hs
  split at hs
  · rename_i hpc
    simp only [Option.some.injEq] at hs; subst hs
    have := hr t (by rw [hpc]; simp)
    refine ⟨resOk_upd (fun u => wakeL_res (hr u)) t (by simp), Or.inl rfl, by simp⟩
  · rename_i hpc
    simp only [Option.ite_none_right_eq_some, Option.some.injEq] at hs; obtain ⟨_, rfl⟩ := hs
    have := hr t (by rw [hpc]; simp)
    refine ⟨resOk_upd (resOk_upd hr _ (wakeL_res (hr _))) t (fun _ => this), Or.inl rfl, by simp⟩
  · rename_i hpc
    simp only [Option.ite_none_right_eq_some, Option.some.injEq] at hs; obtain ⟨_, rfl⟩ := hs
    have := hr t (by rw [hpc]; simp)
    refine ⟨resOk_upd hr t (fun _ => this), Or.inl rfl, by simp⟩
  · rw [Option.map_eq_some_iff] at hs
    obtain ⟨⟨b', me'⟩, hl, rfl⟩ := hs
    have := local_res (hr t) hl
    refine ⟨resOk_upd hr t this.1, this.2.1, ?_⟩
    simp only [upd_self]
    exact this.2.2

/-- **C18, results.** In every transition of every execution, a token is taken out exactly when the acting thread's operation
returns `true` (`acquire` counts as returning `true`). -/
theorem C18_semaphore_result {max desired : Int} {σ σ' : State ι} {t : ι} {a : Act ι}
    (hr : Reach max desired σ) (hs : step max σ t a = some σ') :
    (σ'.b.acquired = σ.b.acquired ∨ σ'.b.acquired = σ.b.acquired + 1) ∧
    (σ'.b.acquired = σ.b.acquired + 1 ↔ (σ.l t).res ≠ some true ∧ (σ'.l t).res = some true) := by
  have : ResOk σ.l := by
    clear hs
    induction hr with
    | init => intro t; simp [init]
    | step _ hs ih => exact (step_res ih hs).1
  exact (step_res this hs).2

/-! Non-vacuity: an execution in which a thread sleeps, is woken by a release and gets the token. -/

def runD : List (Fin 2 × Act (Fin 2)) → State (Fin 2) → Option (State (Fin 2))
  | [], σ => some σ
  | (t, a) :: r, σ => (step 5 σ t a).bind (runD r)

theorem reach_runD {tr : List (Fin 2 × Act (Fin 2))} : ∀ {σ σ' : State (Fin 2)}, Reach 5 0 σ → runD tr σ = some σ' → Reach 5 0 σ' := by
  induction tr with
  | nil => intro σ σ' h e; simp [runD] at e; exact e ▸ h
  | cons p r ih =>
    intro σ σ' h e
    obtain ⟨t, a⟩ := p
    simp only [runD, Option.bind_eq_some_iff] at e
    obtain ⟨σ1, h1, h2⟩ := e
    exact ih (.step h h1) h2

/-- thread 0 goes to sleep in `acquire` -/
def demoSleep : List (Fin 2 × Act (Fin 2)) :=
  [(0, .acquire), (0, .adv), (0, .adv), (0, .adv), (0, .adv), (0, .adv)]

example : ∃ σ : State (Fin 2), Reach 5 0 σ ∧ (∀ t, (σ.l t).pc = .idle ∨ ∃ tm, (σ.l t).pc = .asleep tm) ∧
    (∃ t tm, (σ.l t).pc = .asleep tm) := by
  cases h : runD demoSleep (init 0) with
  | none => exact absurd h (by decide)
  | some σ =>
    refine ⟨σ, reach_runD .init h, ?_⟩
    obtain rfl : (runD demoSleep (init 0)).get (by decide) = σ := by simp [h]
    refine ⟨fun t => ?_, 0, false, by decide⟩
    match t with
    | 0 => exact Or.inr ⟨false, by decide⟩
    | 1 => exact Or.inl (by decide)

/-- … thread 1 releases 2, wakes it, and it takes a token -/
def demoWake : List (Fin 2 × Act (Fin 2)) :=
  demoSleep ++ [(1, .release 2), (1, .adv), (1, .adv), (0, .adv), (0, .adv), (0, .adv)]

example : ∃ σ : State (Fin 2), Reach 5 0 σ ∧ (σ.l 0).res = some true ∧ σ.b.counter = 1 ∧ σ.b.acquired = 1 := by
  cases h : runD demoWake (init 0) with
  | none => exact absurd h (by decide)
  | some σ =>
    refine ⟨σ, reach_runD .init h, ?_⟩
    obtain rfl : (runD demoWake (init 0)).get (by decide) = σ := by simp [h]
    decide

end STL.Semaphore
