import Verif.Par.ScanOther

/-! # Complete runs: the hypotheses of C28, C39 and C40 are met -/

namespace STL.Par.Examples
open STL STL.Conc

/-! Two threads, five elements in two chunks `[0, 3)`, `[3, 5)`. -/

theorem team52 : mkTeam 5 2 = .ok (team 5 2) := mkTeam_ok (by decide) (by decide) (by decide)

section ForEach
open ForEach

def run (σ : State (Fin 2)) : List (Fin 2) → Option (State (Fin 2))
  | [] => some σ
  | t :: ts => (step (team 5 2) σ t).bind fun σ' => run σ' ts

theorem run_reach : ∀ (ts : List (Fin 2)) (m : Nat) (σ σ' : State (Fin 2)), Reach (team 5 2) m σ → run σ ts = some σ' → Reach (team 5 2) (m + ts.length) σ' := by
  intro ts
  induction ts with
  | nil => intro m σ σ' h e; simp only [run, Option.some.injEq] at e; subst e; exact h
  | cons t ts ih =>
    intro m σ σ' h e
    simp only [run, Option.bind_eq_some_iff] at e
    obtain ⟨σ1, h1, h2⟩ := e
    have := ih (m + 1) σ1 σ' (.step h h1) h2
    rw [List.length_cons, show m + (ts.length + 1) = m + 1 + ts.length by omega]
    exact this

/-- Thread 1 takes the second chunk while thread 0 works on the first. -/
def sched : List (Fin 2) := [0, 0, 0, 1, 1, 1, 1, 1, 0, 0, 0, 1, 0]

theorem sched_calls : (run init sched).map (fun σ => (σ.s.calls, decide (σ.l 0 = .done), decide (σ.l 1 = .done))) = some ([0, 3, 4, 1, 2], true, true) := by decide +kernel

example : ∃ m σ, Reach (team 5 2) m σ ∧ Finished (0 : Fin 2) σ := by
  have h := sched_calls
  rw [Option.map_eq_some_iff] at h
  obtain ⟨σ, h1, h2⟩ := h
  simp only [Prod.mk.injEq, decide_eq_true_eq] at h2
  refine ⟨_, σ, run_reach _ _ _ _ .init h1, h2.2.1, fun t => ?_⟩
  match t with
  | 0 => exact Or.inr h2.2.1
  | 1 => exact Or.inr h2.2.2

end ForEach

section FindA
open Find.A

def runA (pred : Nat → Bool) (σ : State (Fin 2)) : List (Fin 2 × Act) → Option (State (Fin 2))
  | [] => some σ
  | (t, a) :: ts => (step (team 5 2) pred 5 σ t a).bind fun σ' => runA pred σ' ts

theorem runA_reach (pred : Nat → Bool) : ∀ (ts : List (Fin 2 × Act)) (σ σ' : State (Fin 2)), Reach (team 5 2) pred 5 σ → runA pred σ ts = some σ' → Reach (team 5 2) pred 5 σ' := by
  intro ts
  induction ts with
  | nil => intro σ σ' h e; simp only [runA, Option.some.injEq] at e; subst e; exact h
  | cons t ts ih =>
    obtain ⟨t, a⟩ := t
    intro σ σ' h e
    simp only [runA, Option.bind_eq_some_iff] at e
    obtain ⟨σ1, h1, h2⟩ := e
    exact ih σ1 σ' (.step h h1) h2

/-- Both chunks match; the thread with the later chunk publishes first, the other overtakes it after a spurious failure. -/
def schedA : List (Fin 2 × Act) := [(0, .adv), (0, .adv), (0, .adv), (1, .adv), (1, .adv), (1, .adv), (1, .adv), (1, .adv), (0, .adv), (0, .spur), (0, .adv)]

theorem schedA_result : (runA (fun x => x = 2 || x = 4) (init 5) schedA).map (fun σ => (σ.s.result, decide (σ.l 0 = .done), decide (σ.l 1 = .done))) = some (2, true, true) := by decide +kernel

example : ∃ σ, Reach (team 5 2) (fun x => x = 2 || x = 4) 5 σ ∧ Finished (0 : Fin 2) σ := by
  have h := schedA_result
  rw [Option.map_eq_some_iff] at h
  obtain ⟨σ, h1, h2⟩ := h
  simp only [Prod.mk.injEq, decide_eq_true_eq] at h2
  refine ⟨σ, runA_reach _ _ _ _ .init h1, h2.2.1, fun t => ?_⟩
  match t with
  | 0 => exact Or.inr h2.2.1
  | 1 => exact Or.inr h2.2.2

end FindA

section FindB
open Find.B

def runB (pred : Nat → Bool) (σ : State (Fin 2)) : List (Fin 2) → Option (State (Fin 2))
  | [] => some σ
  | t :: ts => (step (team 5 2) pred σ t .adv).bind fun σ' => runB pred σ' ts

theorem runB_reach (pred : Nat → Bool) : ∀ (ts : List (Fin 2)) (σ σ' : State (Fin 2)), Reach (team 5 2) pred 5 σ → runB pred σ ts = some σ' → Reach (team 5 2) pred 5 σ' := by
  intro ts
  induction ts with
  | nil => intro σ σ' h e; simp only [runB, Option.some.injEq] at e; subst e; exact h
  | cons t ts ih =>
    intro σ σ' h e
    simp only [runB, Option.bind_eq_some_iff] at e
    obtain ⟨σ1, h1, h2⟩ := e
    exact ih σ1 σ' (.step h h1) h2

/-- The thread with the later chunk holds the mutex and is about to write when the other selects the earlier chunk. -/
def schedB : List (Fin 2) := [0, 0, 0, 1, 1, 1, 1, 1, 1, 1, 0, 0, 0, 1, 1, 0, 0, 0, 0]

theorem schedB_result : (runB (fun x => x = 2 || x = 4) (init 5) schedB).map (fun σ => (σ.s.result, decide (σ.l 0 = .done), decide (σ.l 1 = .done))) = some (2, true, true) := by decide +kernel

example : ∃ σ, Reach (team 5 2) (fun x => x = 2 || x = 4) 5 σ ∧ Finished (0 : Fin 2) σ := by
  have h := schedB_result
  rw [Option.map_eq_some_iff] at h
  obtain ⟨σ, h1, h2⟩ := h
  simp only [Prod.mk.injEq, decide_eq_true_eq] at h2
  refine ⟨σ, runB_reach _ _ _ _ .init h1, h2.2.1, fun t => ?_⟩
  match t with
  | 0 => exact Or.inr h2.2.1
  | 1 => exact Or.inr h2.2.2

end FindB

section AllOf
open AllOf

def runC (bad : Nat → Bool) (σ : State (Fin 2)) : List (Fin 2) → Option (State (Fin 2))
  | [] => some σ
  | t :: ts => (step (team 5 2) bad σ t).bind fun σ' => runC bad σ' ts

/-- The failure is found by the other thread. -/
example : (runC (fun x => x = 4) init [0, 0, 0, 1, 1, 1, 1, 1, 0, 0]).map (fun σ => (result σ, decide (σ.l 0 = .done), decide (σ.l 1 = .done))) = some (false, true, true) := by decide +kernel

end AllOf

section Scan
open Scan

/-- Is the thread done? -/
def fin? : PC Nat → Bool
  | .done => true
  | _ => false

def runS (A : Alg Nat) (I : Src Nat) (σ : State (Fin 3) Nat) : List (Fin 3) → Option (State (Fin 3) Nat)
  | [] => some σ
  | t :: ts => (step (team 7 3) A I (· + ·) σ t).bind fun σ' => runS A I σ' ts

theorem runS_reach (A : Alg Nat) (I : Src Nat) (out : Nat → Nat) : ∀ (ts : List (Fin 3)) (m : Nat) (σ σ' : State (Fin 3) Nat), Reach (team 7 3) A I (· + ·) out m σ → runS A I σ ts = some σ' →
    Reach (team 7 3) A I (· + ·) out (m + ts.length) σ' := by
  intro ts
  induction ts with
  | nil => intro m σ σ' h e; simp only [runS, Option.some.injEq] at e; subst e; exact h
  | cons t ts ih =>
    intro m σ σ' h e
    simp only [runS, Option.bind_eq_some_iff] at e
    obtain ⟨σ1, h1, h2⟩ := e
    have := ih (m + 1) σ1 σ' (.step h h1) h2
    rw [List.length_cons, show m + (ts.length + 1) = m + 1 + ts.length by omega]
    exact this

/-- Three threads with one chunk each: both later chunks publish local sums, the last looks back over the second to the first. In place: `1, 2, …, 7`. -/
def schedS : List (Fin 3) := [0, 0, 1, 1, 1, 1, 1, 2, 2, 2, 2, 2, 2, 0, 0, 2, 2, 2, 2, 2, 1, 1, 1, 1, 1, 0]

theorem schedS_result : (runS (.excl 10) (.inplace id) (init (· + 1)) schedS).map (fun σ => ((List.range 7).map σ.s.out, fin? (σ.l 0), fin? (σ.l 1), fin? (σ.l 2))) =
    some ([10, 11, 13, 16, 20, 25, 31], true, true, true) := by decide +kernel

example : ∃ m σ, Reach (team 7 3) (.excl 10) (.inplace id) (· + ·) (· + 1) m σ ∧ Finished (0 : Fin 3) σ := by
  have h := schedS_result
  rw [Option.map_eq_some_iff] at h
  obtain ⟨σ, h1, h2⟩ := h
  simp only [Prod.mk.injEq] at h2
  have e : ∀ p : PC Nat, fin? p = true → p = .done := by intro p hp; cases p <;> simp [fin?] at hp <;> rfl
  refine ⟨_, σ, runS_reach _ _ _ _ _ _ _ .init h1, e _ h2.2.1, fun t => ?_⟩
  match t with
  | 0 => exact Or.inr (e _ h2.2.1)
  | 1 => exact Or.inr (e _ h2.2.2.1)
  | 2 => exact Or.inr (e _ h2.2.2.2)

end Scan
end STL.Par.Examples
