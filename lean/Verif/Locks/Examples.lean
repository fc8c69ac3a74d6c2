import Verif.Locks.TimedProps
import Verif.Locks.SharedProps
import Verif.Locks.MultiProps

/-!
# Locks: concrete executions

They meet the hypotheses of the theorems.
-/

namespace STL.Locks
open STL STL.Conc

abbrev T := Fin 3

namespace Timed

def run (rc : Bool) : St T → List (T × Act T) → Option (St T)
  | s, [] => some s
  | s, (t, a) :: as => (step rc s t a).bind fun s' => run rc s' as

theorem run_reach {rc : Bool} {s s' : St T} (hr : Reach rc s) {as : List (T × Act T)} (h : run rc s as = some s') : Reach rc s' := by
  induction as generalizing s with
  | nil => cases h; exact hr
  | cons x as ih =>
    obtain ⟨s1, h1, h2⟩ := Option.bind_eq_some_iff.1 h
    exact ih (hr.step x.1 x.2 h1) h2

theorem run_reach' {rc : Bool} {as : List (T × Act T)} {P : St T → Prop} [DecidablePred P] (h : ((run rc Timed.init as).any fun s => decide (P s)) = true) : ∃ s, Reach rc s ∧ P s := by
  cases hr : run rc Timed.init as with
  | none => rw [hr] at h; cases h
  | some s => exact ⟨s, run_reach .init hr, by simpa [hr] using h⟩

def advs (t : T) (n : Nat) (b : Bool := false) (c : Option T := none) : List (T × Act T) := List.replicate n (t, .adv b c)

/-- Thread 0 owns the mutex; thread 1 sleeps in `lock`; thread 2 has got `false` from `try_lock`: the hypotheses of `C48_timed_progress` hold (nobody can go on). -/
theorem ex_blocked : ∃ s : St T, Reach false s ∧ ((s.l 1).pc = .slp ∧ (s.l 0).done = [(.lock, .yes)] ∧ (s.l 2).done = [(.tryLock, .no)] ∧
    (∀ t, ∀ b, ∀ c : Option T, (advStep false s t b c).isNone) ∧ ∀ t, (step false s t .timer).isNone) :=
  run_reach' (as := [(0, .start .lock)] ++ advs 0 4 ++ [(1, .start .lock)] ++ advs 1 3 ++ [(2, .start .tryLock)] ++ advs 2 3) (by decide +kernel)

/-- The unlock wakes thread 1, which gets the mutex. -/
theorem ex_handover : ∃ s : St T, Reach false s ∧ ((s.l 1).done = [(.lock, .yes)] ∧ (s.l 0).done = [(.lock, .yes), (.unlock, .yes)] ∧ owns (s.l 1) = 1 ∧ owns (s.l 0) = 0) :=
  run_reach' (as := [(0, .start .lock)] ++ advs 0 4 ++ [(1, .start .lock)] ++ advs 1 3 ++ [(0, .start .unlock)] ++ advs 0 3 ++ advs 0 1 false (some 1) ++ advs 1 3) (by decide +kernel)

/-- `recursive_timed_mutex`: thread 0 owns it three times; thread 1 waits with a time limit and gets `false`. -/
theorem ex_recursive : ∃ s : St T, Reach true s ∧ (owns (s.l 0) = 3 ∧ (s.l 1).done = [(.until, .no)]) :=
  run_reach' (as := [(0, .start .lock)] ++ advs 0 4 ++ [(0, .start .tryLock)] ++ advs 0 3 ++ [(0, .start .until)] ++ advs 0 3 ++ [(1, .start .until)] ++ advs 1 4 ++ [(1, .timer)] ++ advs 1 4 true)
    (by decide +kernel)

/-- The position before a refusal: the hypotheses of `C48_timed_refused`. -/
theorem ex_refused : ∃ s : St T, Reach false s ∧ ((s.l 1).pc = .loop true ∧ (advStep false s 1 true none).any (fun s' => decide ((s'.l 1).pc = .unl .no false)) = true) :=
  run_reach' (as := [(0, .start .lock)] ++ advs 0 4 ++ [(1, .start .until)] ++ advs 1 4 ++ [(1, .timer)] ++ advs 1 2 true) (by decide +kernel)

/-- A finding: a timed waiter that the timer wakes a little early sleeps again although the mutex is free, because `wait_until` (`mutex:563-578`) looks only at the clock then. The
notification of the unlock came while it was awake. It sleeps until its time, and only then sees that the mutex is free: it returns `true`, but late. -/
theorem ex_late : ∃ s : St T, Reach false s ∧ ((s.l 1).pc = .slp ∧ (s.l 1).op = .until ∧ s.locked = 0 ∧ (s.l 0).done = [(.lock, .yes), (.unlock, .yes)] ∧
    ∀ t, ∀ b, ∀ c : Option T, (advStep false s t b c).isNone) :=
  run_reach' (as := [(0, .start .lock)] ++ advs 0 4 ++ [(1, .start .until)] ++ advs 1 4 ++ [(1, .timer)] ++ [(0, .start .unlock)] ++ advs 0 4 ++ advs 1 2) (by decide +kernel)

end Timed

namespace Shared

def run (M : Nat) : St T → List (T × Act T) → Option (St T)
  | s, [] => some s
  | s, (t, a) :: as => (step M s t a).bind fun s' => run M s' as

theorem run_reach {M : Nat} {s s' : St T} (hr : Reach M s) {as : List (T × Act T)} (h : run M s as = some s') : Reach M s' := by
  induction as generalizing s with
  | nil => cases h; exact hr
  | cons x as ih =>
    obtain ⟨s1, h1, h2⟩ := Option.bind_eq_some_iff.1 h
    exact ih (hr.step x.1 x.2 h1) h2

theorem run_reach' {M : Nat} {as : List (T × Act T)} {P : St T → Prop} [DecidablePred P] (h : ((run M Shared.init as).any fun s => decide (P s)) = true) : ∃ s, Reach M s ∧ P s := by
  cases hr : run M Shared.init as with
  | none => rw [hr] at h; cases h
  | some s => exact ⟨s, run_reach .init hr, by simpa [hr] using h⟩

def advs (t : T) (n : Nat) (b : Bool := false) (c : Option T := none) : List (T × Act T) := List.replicate n (t, .adv b c)

/-- A reader owns the mutex; a writer waits for it to go; a second reader waits for the writer: nobody can go on. -/
theorem ex_blocked : ∃ s : St T, Reach 4294967295 s ∧ ((s.l 1).pc = .rSlp ∧ (s.l 2).pc = .wSlp ∧ holdOf (s.l 0).done = .shar ∧
    (∀ t, ∀ b, ∀ c : Option T, (advStep 4294967295 s t b c).isNone) ∧ ∀ t, (step 4294967295 s t .timer).isNone) :=
  run_reach' (as := [(0, .start .lockSh)] ++ advs 0 4 ++ [(1, .start .lock)] ++ advs 1 4 ++ [(2, .start .lockSh)] ++ advs 2 3) (by decide +kernel)

/-- The reader goes, the writer gets the mutex and gives it back, the second reader gets it. -/
theorem ex_handover : ∃ s : St T, Reach 4294967295 s ∧ ((s.l 1).done = [(.lock, true), (.unlock, true)] ∧ holdOf (s.l 2).done = .shar ∧ holdOf (s.l 0).done = .non) :=
  run_reach' (as := [(0, .start .lockSh)] ++ advs 0 4 ++ [(1, .start .lock)] ++ advs 1 4 ++ [(2, .start .lockSh)] ++ advs 2 3 ++ [(0, .start .unlockSh)] ++ advs 0 3 ++ advs 0 1 false (some 1) ++
    advs 1 3 ++ [(1, .start .unlock)] ++ advs 1 4 ++ advs 2 3) (by decide +kernel)

/-- With a limit of one reader: a second reader sleeps, and is woken when the first goes. -/
theorem ex_max : ∃ s : St T, Reach 1 s ∧ ((s.l 1).done = [(.lockSh, true)] ∧ (s.l 0).done = [(.lockSh, true), (.unlockSh, true)] ∧ s.readers = 1) :=
  run_reach' (as := [(0, .start .lockSh)] ++ advs 0 4 ++ [(1, .start .lockSh)] ++ advs 1 3 ++ [(0, .start .unlockSh)] ++ advs 0 4 ++ advs 1 3) (by decide +kernel)

/-- A writer's time is up while a reader owns the mutex: `false`, and the reader that waited for the writer is woken. -/
theorem ex_timeout : ∃ s : St T, Reach 4294967295 s ∧ ((s.l 1).done = [(.lockUntil, false)] ∧ (s.l 2).done = [(.lockSh, true)] ∧ s.readers = 2 ∧ s.writing = false) :=
  run_reach' (as := [(0, .start .lockSh)] ++ advs 0 4 ++ [(1, .start .lockUntil)] ++ advs 1 5 ++ [(2, .start .lockSh)] ++ advs 2 3 ++ [(1, .timer)] ++ advs 1 5 true ++ advs 2 3) (by decide +kernel)

/-- The position before that refusal: the hypotheses of `C48_shared_refused`. -/
theorem ex_refused : ∃ s : St T, Reach 4294967295 s ∧ ((advStep 4294967295 s 1 true none).any (fun s' => decide ((s'.l 1).pc = .unl false .wAll)) = true) :=
  run_reach' (as := [(0, .start .lockSh)] ++ advs 0 4 ++ [(1, .start .lockUntil)] ++ advs 1 5 ++ [(1, .timer)] ++ advs 1 2 true) (by decide +kernel)

end Shared

namespace Multi

abbrev K := Fin 4

def run : St T K → List (T × Act K) → Option (St T K)
  | s, [] => some s
  | s, (t, a) :: as => (step s t a).bind fun s' => run s' as

theorem run_reach {s s' : St T K} (hr : Reach s) {as : List (T × Act K)} (h : run s as = some s') : Reach s' := by
  induction as generalizing s with
  | nil => cases h; exact hr
  | cons x as ih =>
    obtain ⟨s1, h1, h2⟩ := Option.bind_eq_some_iff.1 h
    exact ih (hr.step x.1 x.2 h1) h2

theorem run_reach' {as : List (T × Act K)} {P : St T K → Prop} [DecidablePred P] (h : ((run Multi.init as).any fun s => decide (P s)) = true) : ∃ s, Reach s ∧ P s := by
  cases hr : run Multi.init as with
  | none => rw [hr] at h; cases h
  | some s => exact ⟨s, run_reach .init hr, by simpa [hr] using h⟩

def advs (t : T) (n : Nat) (e : Env := .fine) : List (T × Act K) := List.replicate n (t, .adv e)

/-- Two threads lock the same three mutexes in opposite orders. Thread 1 has mutex 2, finds mutex 1 taken, gives back 2 and waits for 1 with nothing in its hands; thread 0 gets all three. -/
theorem ex_opposite : ∃ s : St T K, Reach s ∧ ((s.l 0).last = some ([0, 1, 2], false, .ok) ∧ blockedOn (s.l 1) = some 1 ∧ s.owner 0 = some 0 ∧ s.owner 1 = some 0 ∧ s.owner 2 = some 0 ∧
    ∀ t, (advStep s t .fine).isNone) :=
  run_reach' (as := [(0, .lock [0, 1, 2]), (1, .lock [2, 1, 0])] ++ advs 1 1 ++ advs 0 2 ++ advs 1 3 ++ advs 0 2) (by decide +kernel)

/-- `try_lock` fails at its third argument: it gives 2, and the others are given back; an exception from a later call gives back as well. -/
theorem ex_try : ∃ s : St T K, Reach s ∧ ((s.l 1).last = some ([3, 1, 0], true, .fail 2) ∧ (s.l 2).last = some ([1, 2, 3], false, .threw) ∧ s.owner 1 = none ∧ s.owner 3 = none ∧ s.owner 0 = some 0) :=
  run_reach' (as := [(0, .lock [0])] ++ advs 0 2 ++ [(1, .tryLock [3, 1, 0])] ++ advs 1 6 ++ [(2, .lock [1, 2, 3])] ++ advs 2 2 ++ advs 2 1 .throws ++ advs 2 3) (by decide +kernel)

/-- With two locks the general functions do what the special ones do: the first lock is given back, and the other is locked first the next time. -/
theorem ex_two : backout (some 0) 1 = [0] ∧ backout (some 1) 0 = [1] ∧ nextPC (some 0) 0 2 = .tr (some 0) 1 ∧ nextPC (some 1) 0 2 = .tr (some 1) 0 ∧ nextPC (some 0) 2 2 = .fin ∧
    nextPC (some 1) 1 2 = .fin ∧ backout none 0 = [] ∧ backout none 1 = [0] := by decide +kernel

end Multi

end STL.Locks
