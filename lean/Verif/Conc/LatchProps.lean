import Verif.Conc.Latch

/-!
# Property C18 (latch and binary_semaphore)
-/

namespace STL.Latch
open STL STL.Conc

variable {ι : Type} [Fintype ι] [DecidableEq ι]

namespace Spec
/-- States reached by any interleaving from a latch constructed with `expected`. -/
inductive Reach (expected : Nat) : State ι → Prop
  | init : Reach expected (init expected)
  | step {σ σ' t a} : Reach expected σ → step σ t a = some σ' → Reach expected σ'
end Spec
open Spec

def fS (x : Loc) : Nat := match x.pc with | .asleep _ => 1 | _ => 0
def fN (x : Loc) : Nat := match x.pc with | .notify _ => 1 | _ => 0

/-- what each position and result guarantees, given the counter -/
def LocOk (c : Nat) (x : Loc) : Prop :=
  (x.res = some true → c = 0) ∧ (match x.pc with | .wLoad d => d ≠ 0 | .wBlock d => d ≠ 0 | .asleep d => d ≠ 0 | .notify _ => c = 0 | _ => True)

structure Inv (expected : Nat) (σ : State ι) : Prop where
  cons : σ.b.counter + σ.b.counted = expected
  ok : ∀ t, LocOk σ.b.counter (σ.l t)
  wake : σ.b.counter = 0 → 0 < tot fS σ.l → 0 < tot fN σ.l

theorem inv_init (expected : Nat) : Inv expected (init (ι := ι) expected) :=
  ⟨rfl, fun t => ⟨by simp [init], by simp [init]⟩, fun _ h => by
    have : tot fS (init (ι := ι) expected).l = 0 := tot_eq_zero (fun t => rfl)
    omega⟩

theorem locOk_upd {c : Nat} {l : ι → Loc} (h : ∀ t, LocOk c (l t)) (t : ι) {x : Loc} (hx : LocOk c x) (u : ι) : LocOk c (upd l t x u) := by
  by_cases hu : u = t
  · subst hu; rw [upd_self]; exact hx
  · rw [upd_ne _ _ hu]; exact h u

theorem locOk_mono {c c' : Nat} (h : c' ≤ c) {x : Loc} (hx : LocOk c x) : LocOk c' x := by
  obtain ⟨pc, res⟩ := x
  obtain ⟨h1, h2⟩ := hx
  refine ⟨fun e => by have := h1 e; omega, ?_⟩
  cases pc <;> simp_all

theorem local_ok {b b' : Shared} {me me' : Loc} {a : Act} (h : LocOk b.counter me) (hs : local_ b me a = some (b', me')) :
    b'.counter + b'.counted = b.counter + b.counted ∧ b'.counter ≤ b.counter ∧ LocOk b'.counter me' ∧ fN me ≤ fN me' ∧
    (b'.counter < b.counter → b'.counter = 0 → 0 < fN me') ∧ (fS me < fS me' → b'.counter ≠ 0) := by
  obtain ⟨pc, res⟩ := me
  unfold local_ at hs
  unfold LocOk at h ⊢
  cases pc <;> cases a <;> simp only at h hs <;> (try simp only [reduceCtorEq] at hs) <;> (try split at hs) <;>
    (try simp only [reduceCtorEq] at hs) <;> (simp only [Option.some.injEq, Prod.mk.injEq] at hs; obtain ⟨rfl, rfl⟩ := hs) <;>
    (try split_ifs) <;> simp_all [fN, fS] <;> omega

theorem inv_step {expected : Nat} {σ σ' : State ι} {t : ι} {a : Act} (hI : Inv expected σ) (hs : step σ t a = some σ') : Inv expected σ' := by
  obtain ⟨hc, hok, hw⟩ := hI
  unfold step at hs
  split at hs
  · rename_i aw hpc
    simp only [Option.some.injEq] at hs; subst hs
    have h0 : σ.b.counter = 0 := by have := (hok t).2; rw [hpc] at this; exact this
    refine ⟨hc, ?_, ?_⟩
    · intro u
      refine locOk_upd (fun v => ?_) t ?_ u
      · have := hok v
        unfold LocOk at this ⊢
        generalize σ.l v = x at *
        obtain ⟨pc, res⟩ := x
        cases pc <;> simp_all [wakeL]
      · exact ⟨fun _ => h0, trivial⟩
    · intro _ hS
      exfalso
      obtain ⟨u, hu⟩ := tot_pos hS
      dsimp only at hu
      by_cases hut : u = t
      · subst hut; rw [upd_self] at hu; simp [fS] at hu
      · rw [upd_ne _ _ hut] at hu
        generalize σ.l u = x at *
        obtain ⟨pc, res⟩ := x
        cases pc <;> simp_all [wakeL, fS]
  · rw [Option.map_eq_some_iff] at hs
    obtain ⟨⟨b', me'⟩, hl, rfl⟩ := hs
    obtain ⟨q1, q2, q3, q4, q5, q6⟩ := local_ok (hok t) hl
    refine ⟨by simp only; omega, locOk_upd (fun v => locOk_mono q2 (hok v)) t q3, ?_⟩
    intro h0 hS
    simp only at h0 hS ⊢
    have eN := tot_upd fN σ.l t me'
    have eS := tot_upd fS σ.l t me'
    have lN := le_tot fN (upd σ.l t me') t
    rw [upd_self] at lN
    by_cases hlt : b'.counter < σ.b.counter
    · have := q5 hlt h0; omega
    · have hw' := hw (by omega)
      by_cases hS' : 0 < tot fS σ.l
      · have := hw' hS'; omega
      · exact absurd h0 (q6 (by omega))

theorem reach_inv {expected : Nat} {σ : State ι} (hr : Reach expected σ) : Inv expected σ := by
  induction hr with
  | init => exact inv_init expected
  | step _ hs ih => exact inv_step ih hs

/-- **C18, latch.** At every moment the counter is the expected count minus what was counted down; once any `wait` or
`arrive_and_wait` has returned, or a `try_wait` returned `true`, the whole expected count has been counted down. -/
theorem C18_latch_accounting {expected : Nat} {σ : State ι} (hr : Reach expected σ) :
    σ.b.counter + σ.b.counted = expected ∧ ∀ t, (σ.l t).res = some true → σ.b.counted = expected := by
  obtain ⟨hc, hok, _⟩ := reach_inv hr
  exact ⟨hc, fun t h => by have := (hok t).1 h; omega⟩

/-- **C18, latch try_wait.** `try_wait` tells exactly whether the expected count has been counted down. -/
theorem C18_latch_try_wait {expected : Nat} {σ σ' : State ι} {t : ι} (hr : Reach expected σ) (hs : step σ t .tryWait = some σ') :
    (σ'.l t).res = some (decide (σ.b.counted = expected)) := by
  obtain ⟨hc, hok, _⟩ := reach_inv hr
  unfold step local_ at hs
  split at hs
  · simp at *
  · obtain ⟨pc, he⟩ : ∃ pc, (σ.l t).pc = pc := ⟨_, rfl⟩
    rw [he] at hs
    cases pc <;> simp at hs
    subst hs
    simp only [upd_self, Option.some.injEq]
    rw [Bool.eq_iff_iff, beq_iff_eq, decide_eq_true_iff]; omega

/-- **C18, latch: no lost wake-up.** If every thread is outside any operation or asleep and some thread is asleep, the count
has not reached zero. -/
theorem C18_latch_no_lost_wakeup {expected : Nat} {σ : State ι} (hr : Reach expected σ)
    (hq : ∀ t, (σ.l t).pc = .idle ∨ ∃ c, (σ.l t).pc = .asleep c) (hs : ∃ t c, (σ.l t).pc = .asleep c) : σ.b.counted < expected := by
  obtain ⟨hc, hok, hw⟩ := reach_inv hr
  have hN : tot fN σ.l = 0 := tot_eq_zero (fun t => by rcases hq t with h | ⟨c, h⟩ <;> simp [fN, h])
  obtain ⟨t, c, ht⟩ := hs
  have hS : 1 ≤ tot fS σ.l := by have := le_tot fS σ.l t; simpa [fS, ht] using this
  by_contra hcon
  have := hw (by omega) (by omega)
  omega

/-- **C18, latch: no stuck thread.** A thread inside an operation and not asleep can always take its next step. -/
theorem C18_latch_progress (σ : State ι) (t : ι) (h1 : (σ.l t).pc ≠ .idle) (h2 : ∀ c, (σ.l t).pc ≠ .asleep c) :
    (step σ t .adv).isSome := by
  obtain ⟨pc, he⟩ : ∃ pc, (σ.l t).pc = pc := ⟨_, rfl⟩
  rw [he] at h1 h2
  unfold step local_
  cases pc <;> simp_all <;> split <;> simp_all

/-! Non-vacuity: thread 0 sleeps on a latch of 2; then thread 1 arrives twice and both go on. -/

def runD : List (Fin 2 × Act) → State (Fin 2) → Option (State (Fin 2))
  | [], σ => some σ
  | (t, a) :: r, σ => (step σ t a).bind (runD r)

theorem reach_runD {tr : List (Fin 2 × Act)} : ∀ {σ σ' : State (Fin 2)}, Reach 2 σ → runD tr σ = some σ' → Reach 2 σ' := by
  induction tr with
  | nil => intro σ σ' h e; simp [runD] at e; exact e ▸ h
  | cons p r ih =>
    intro σ σ' h e
    obtain ⟨t, a⟩ := p
    simp only [runD, Option.bind_eq_some_iff] at e
    obtain ⟨σ1, h1, h2⟩ := e
    exact ih (.step h h1) h2

def demoSleep : List (Fin 2 × Act) := [(0, .wait), (0, .adv), (0, .adv), (0, .adv)]

example : ∃ σ : State (Fin 2), Reach 2 σ ∧ (∀ t, (σ.l t).pc = .idle ∨ ∃ c, (σ.l t).pc = .asleep c) ∧ (∃ t c, (σ.l t).pc = .asleep c) := by
  cases h : runD demoSleep (init 2) with
  | none => exact absurd h (by decide)
  | some σ =>
    refine ⟨σ, reach_runD .init h, ?_⟩
    obtain rfl : (runD demoSleep (init 2)).get (by decide) = σ := by simp [h]
    refine ⟨fun t => ?_, 0, 2, by decide⟩
    match t with
    | 0 => exact Or.inr ⟨2, by decide⟩
    | 1 => exact Or.inl (by decide)

def demoGo : List (Fin 2 × Act) :=
  demoSleep ++ [(1, .countDown 1), (1, .arriveAndWait 1), (1, .adv), (0, .adv), (0, .adv)]

example : ∃ σ : State (Fin 2), Reach 2 σ ∧ (σ.l 0).res = some true ∧ (σ.l 1).res = some true ∧ σ.b.counted = 2 := by
  cases h : runD demoGo (init 2) with
  | none => exact absurd h (by decide)
  | some σ =>
    refine ⟨σ, reach_runD .init h, ?_⟩
    obtain rfl : (runD demoGo (init 2)).get (by decide) = σ := by simp [h]
    decide

end STL.Latch

namespace STL.BinSem
open STL STL.Conc

variable {ι : Type} [Fintype ι] [DecidableEq ι]

namespace Spec
/-- States reached by any interleaving from a binary semaphore constructed with `desired`. -/
inductive Reach (desired : Nat) : State ι → Prop
  | init : Reach desired (init desired)
  | step {σ σ' t a} : Reach desired σ → step σ t a = some σ' → Reach desired σ'
end Spec
open Spec

def fS (x : Loc) : Nat := match x.pc with | .asleep _ => 1 | _ => 0
/-- threads that will look at the counter again before sleeping, and pending notifications -/
def fA (x : Loc) : Nat := match x.pc with | .xchg _ => 1 | .wLoad => 1 | .notify => 1 | _ => 0

structure Inv (desired : Nat) (b : Shared) (S A : Nat) : Prop where
  hi : b.counter ≤ 1
  cons : b.counter + b.acquired = desired + b.released
  ok : b.aborted = false
  wake : S = 0 ∨ b.counter ≤ A

def ResOk (l : ι → Loc) : Prop := ∀ t, (l t).pc ≠ .idle → (l t).res = none

def InvS (desired : Nat) (σ : State ι) : Prop := Inv desired σ.b (tot fS σ.l) (tot fA σ.l) ∧ ResOk σ.l

theorem inv_init {desired : Nat} (h : desired ≤ 1) : InvS desired (init (ι := ι) desired) := by
  refine ⟨?_, fun t => by simp [init]⟩
  have hS : tot fS (init (ι := ι) desired).l = 0 := tot_eq_zero (fun t => rfl)
  exact ⟨h, rfl, rfl, Or.inl hS⟩

theorem resOk_upd {l : ι → Loc} (h : ResOk l) (t : ι) {x : Loc} (hx : x.pc ≠ .idle → x.res = none) : ResOk (upd l t x) := by
  intro u
  by_cases hu : u = t
  · subst hu; rw [upd_self]; exact hx
  · rw [upd_ne _ _ hu]; exact h u

theorem local_ok {desired : Nat} {b b' : Shared} {me me' : Loc} {a : Act ι} {S A : Nat} (h : Inv desired b (S + fS me) (A + fA me))
    (hr : me.pc ≠ .idle → me.res = none)
    (hs : local_ b me a = some (b', me')) : Inv desired b' (S + fS me') (A + fA me') ∧ (me'.pc ≠ .idle → me'.res = none) ∧
    (b'.acquired = b.acquired ∨ b'.acquired = b.acquired + 1) ∧
    (b'.acquired = b.acquired + 1 ↔ me'.pc = .idle ∧ me'.res = some true) := by
  obtain ⟨i1, i2, i3, i4⟩ := h
  obtain ⟨pc, res⟩ := me
  unfold local_ at hs
  cases pc <;> cases a <;> simp only at hr hs <;> (try simp only [reduceCtorEq] at hs) <;> (try split at hs) <;>
    (try simp only [reduceCtorEq] at hs) <;> (simp only [Option.some.injEq, Prod.mk.injEq, wakeL] at hs; obtain ⟨rfl, rfl⟩ := hs) <;>
    (refine ⟨⟨?_, ?_, ?_, ?_⟩, ?_, ?_, ?_⟩) <;> (try split_ifs) <;> simp_all [fA, fS, xchg0] <;> (try split_ifs) <;> (try omega)

theorem wakeL_facts {x : Loc} (h : isAsleep x = true) : fS x = 1 ∧ fA x = 0 ∧ fS (wakeL x) = 0 ∧ fA (wakeL x) = 1 := by
  obtain ⟨pc, res⟩ := x
  cases pc <;> simp_all [isAsleep, fS, fA, wakeL]
  split_ifs <;> simp_all

theorem wakeL_res {x : Loc} (h : x.pc ≠ .idle → x.res = none) : (wakeL x).pc ≠ .idle → (wakeL x).res = none := by
  obtain ⟨pc, r⟩ := x
  cases pc <;> simp_all [wakeL]

theorem inv_step {desired : Nat} {σ σ' : State ι} {t : ι} {a : Act ι} (hI : InvS desired σ) (hs : step σ t a = some σ') :
    InvS desired σ' ∧ (σ'.b.acquired = σ.b.acquired ∨ σ'.b.acquired = σ.b.acquired + 1) ∧
    (σ'.b.acquired = σ.b.acquired + 1 ↔ (σ'.l t).pc = .idle ∧ (σ'.l t).res = some true) := by
  obtain ⟨h, hr⟩ := hI
  unfold step at hs
  split at hs
  · rename_i u hpc
    simp only [Option.ite_none_right_eq_some, Option.some.injEq] at hs
    obtain ⟨hu, rfl⟩ := hs
    have hut : u ≠ t := by rintro rfl; simp [isAsleep, hpc] at hu
    obtain ⟨w1, w2, w3, w4⟩ := wakeL_facts hu
    refine ⟨⟨?_, resOk_upd (resOk_upd hr _ (wakeL_res (hr _))) t (fun _ => rfl)⟩, Or.inl rfl, by simp⟩
    have q : ∀ f : Loc → Nat, tot f (upd (upd σ.l u (wakeL (σ.l u))) t ⟨.idle, none⟩) + f (σ.l t) + f (σ.l u)
        = tot f σ.l + f ⟨.idle, none⟩ + f (wakeL (σ.l u)) := by
      intro f
      have e1 := tot_upd f (upd σ.l u (wakeL (σ.l u))) t ⟨.idle, none⟩
      have e2 := tot_upd f σ.l u (wakeL (σ.l u))
      rw [upd_ne _ _ (Ne.symm hut)] at e1
      omega
    have qS := q fS; have qA := q fA
    have o2 : fS (σ.l t) = 0 := by simp [fS, hpc]
    have o3 : fA (σ.l t) = 1 := by simp [fA, hpc]
    have o6 : fS (⟨.idle, none⟩ : Loc) = 0 := rfl
    have o7 : fA (⟨.idle, none⟩ : Loc) = 0 := rfl
    obtain ⟨i1, i2, i3, i4⟩ := h
    refine ⟨i1, i2, i3, ?_⟩
    dsimp only
    rcases i4 with i4 | i4
    · left; omega
    · right; omega
  · rename_i hpc
    simp only [Option.ite_none_right_eq_some, Option.some.injEq] at hs
    obtain ⟨hu, rfl⟩ := hs
    refine ⟨⟨?_, resOk_upd hr t (fun _ => rfl)⟩, Or.inl rfl, by simp⟩
    have hS0 : tot fS σ.l = 0 := tot_eq_zero (fun v => by
      have := hu v
      generalize σ.l v = x at *
      obtain ⟨pc, r⟩ := x
      cases pc <;> simp_all [fS, isAsleep])
    have e := tot_upd fS σ.l t ⟨.idle, none⟩
    have o6 : fS (⟨.idle, none⟩ : Loc) = 0 := rfl
    obtain ⟨i1, i2, i3, i4⟩ := h
    refine ⟨i1, i2, i3, Or.inl ?_⟩
    dsimp only; omega
  · rw [Option.map_eq_some_iff] at hs
    obtain ⟨⟨b', me'⟩, hl, rfl⟩ := hs
    obtain ⟨rS, eS, uS⟩ := split_tot fS σ.l t
    obtain ⟨rA, eA, uA⟩ := split_tot fA σ.l t
    rw [eS, eA] at h
    obtain ⟨q1, q2, q3, q4⟩ := local_ok h (hr t) hl
    refine ⟨⟨?_, resOk_upd hr t q2⟩, q3, ?_⟩
    · simp only [uS, uA]; exact q1
    · simp only [upd_self]; exact q4

theorem reach_inv {desired : Nat} (h0 : desired ≤ 1) {σ : State ι} (hr : Reach desired σ) : InvS desired σ := by
  induction hr with
  | init => exact inv_init h0
  | step _ hs ih => exact (inv_step ih hs).1

/-- **C18, binary_semaphore accounting.** The counter is 0 or 1 and equals `desired + released - acquired` at every moment; no
`_STL_VERIFY` of an acquire operation fires. -/
theorem C18_binary_semaphore_accounting {desired : Nat} (h0 : desired ≤ 1) {σ : State ι} (hr : Reach desired σ) :
    σ.b.counter + σ.b.acquired = desired + σ.b.released ∧ σ.b.counter ≤ 1 ∧ σ.b.acquired ≤ desired + σ.b.released ∧ σ.b.aborted = false := by
  obtain ⟨⟨i1, i2, i3, i4⟩, _⟩ := reach_inv h0 hr
  exact ⟨i2, i1, by omega, i3⟩

/-- **C18, binary_semaphore results.** A token is taken out exactly in the transitions in which an acquire operation returns
`true`. -/
theorem C18_binary_semaphore_result {desired : Nat} (h0 : desired ≤ 1) {σ σ' : State ι} {t : ι} {a : Act ι}
    (hr : Reach desired σ) (hs : step σ t a = some σ') :
    (σ'.b.acquired = σ.b.acquired ∨ σ'.b.acquired = σ.b.acquired + 1) ∧
    (σ'.b.acquired = σ.b.acquired + 1 ↔ (σ'.l t).pc = .idle ∧ (σ'.l t).res = some true) :=
  (inv_step (reach_inv h0 hr) hs).2

/-- **C18, binary_semaphore: no lost wake-up.** -/
theorem C18_binary_semaphore_no_lost_wakeup {desired : Nat} (h0 : desired ≤ 1) {σ : State ι} (hr : Reach desired σ)
    (hq : ∀ t, (σ.l t).pc = .idle ∨ ∃ tm, (σ.l t).pc = .asleep tm) (hs : ∃ t tm, (σ.l t).pc = .asleep tm) : σ.b.counter = 0 := by
  obtain ⟨⟨i1, i2, i3, i4⟩, _⟩ := reach_inv h0 hr
  have hA : tot fA σ.l = 0 := tot_eq_zero (fun t => by rcases hq t with h | ⟨tm, h⟩ <;> simp [fA, h])
  obtain ⟨t, tm, ht⟩ := hs
  have hS : 1 ≤ tot fS σ.l := by have := le_tot fS σ.l t; simpa [fS, ht] using this
  omega

/-- **C18, binary_semaphore: no stuck thread.** -/
theorem C18_binary_semaphore_progress (σ : State ι) (t : ι) (h1 : (σ.l t).pc ≠ .idle) (h2 : ∀ tm, (σ.l t).pc ≠ .asleep tm) :
    ∃ a, (step σ t a).isSome := by
  obtain ⟨pc, he⟩ : ∃ pc, (σ.l t).pc = pc := ⟨_, rfl⟩
  rw [he] at h1 h2
  cases pc with
  | idle => exact absurd rfl h1
  | asleep tm => exact absurd rfl (h2 tm)
  | notify =>
    by_cases hu : ∀ u, isAsleep (σ.l u) = false
    · exact ⟨.adv, by unfold step; simp only [he]; rw [if_pos hu]; rfl⟩
    · push Not at hu
      obtain ⟨u, hu⟩ := hu
      have hu' : isAsleep (σ.l u) = true := by simpa using hu
      exact ⟨.wake u, by unfold step; simp only [he]; rw [if_pos hu']; rfl⟩
  | _ => exact ⟨.adv, by unfold step local_; simp only [he]; (try split) <;> (try split) <;> rfl⟩

/-! Non-vacuity: thread 0 sleeps in `acquire`; thread 1 releases and wakes it; it takes the token. -/

def runD : List (Fin 2 × Act (Fin 2)) → State (Fin 2) → Option (State (Fin 2))
  | [], σ => some σ
  | (t, a) :: r, σ => (step σ t a).bind (runD r)

theorem reach_runD {tr : List (Fin 2 × Act (Fin 2))} : ∀ {σ σ' : State (Fin 2)}, Reach 0 σ → runD tr σ = some σ' → Reach 0 σ' := by
  induction tr with
  | nil => intro σ σ' h e; simp [runD] at e; exact e ▸ h
  | cons p r ih =>
    intro σ σ' h e
    obtain ⟨t, a⟩ := p
    simp only [runD, Option.bind_eq_some_iff] at e
    obtain ⟨σ1, h1, h2⟩ := e
    exact ih (.step h h1) h2

def demoSleep : List (Fin 2 × Act (Fin 2)) := [(0, .acquire), (0, .adv), (0, .adv), (0, .adv)]

example : ∃ σ : State (Fin 2), Reach 0 σ ∧ (∀ t, (σ.l t).pc = .idle ∨ ∃ tm, (σ.l t).pc = .asleep tm) ∧
    (∃ t tm, (σ.l t).pc = .asleep tm) := by
  cases h : runD demoSleep (init 0) with
  | none => exact absurd h (by decide)
  | some σ =>
    refine ⟨σ, reach_runD .init h, ?_⟩
    obtain rfl : (runD demoSleep (init 0)).get (by decide) = σ := by simp [h]
    refine ⟨fun t => ?_, 0, false, by decide⟩
    match t with
    | 0 => exact Or.inr ⟨false, by decide⟩
    | 1 => exact Or.inl (by decide)

def demoWake : List (Fin 2 × Act (Fin 2)) := demoSleep ++ [(1, .release), (1, .wake 0), (0, .adv), (0, .adv)]

example : ∃ σ : State (Fin 2), Reach 0 σ ∧ (σ.l 0).res = some true ∧ σ.b.counter = 0 ∧ σ.b.acquired = 1 := by
  cases h : runD demoWake (init 0) with
  | none => exact absurd h (by decide)
  | some σ =>
    refine ⟨σ, reach_runD .init h, ?_⟩
    obtain rfl : (runD demoWake (init 0)).get (by decide) = σ := by simp [h]
    decide

end STL.BinSem
