import Verif.Future.Props

/-!
# `future`: concrete executions

They meet the hypotheses of the theorems in `Props.lean`. The last three leave the rule for the destruction of the provider, and show what the code then does.
-/

namespace STL.Future
open STL STL.Conc

abbrev T := Fin 3

def okActB (s : St T) : Act T → Bool
  | .start .drop => decide ((∀ u, isUse (s.l u).op = true → active (s.l u).pc = false) ∧ s.reg = none)
  | _ => true

theorem okActB_ok {s : St T} {a : Act T} (h : okActB s a = true) : okAct s a := by
  cases a with
  | start o => cases o <;> simp [okAct, okActB] at h ⊢; exact h
  | _ => trivial

/-- A run that follows the rule. -/
def run (k : Kind) : St T → List (T × Act T) → Option (St T)
  | s, [] => some s
  | s, (t, a) :: as => if okActB s a then (step k s t a).bind fun s' => run k s' as else none

/-- Any run. -/
def runAny (k : Kind) : St T → List (T × Act T) → Option (St T)
  | s, [] => some s
  | s, (t, a) :: as => (step k s t a).bind fun s' => runAny k s' as

theorem run_reach {k : Kind} {t0 : T} {s s' : St T} (hr : Reach k t0 s) {as : List (T × Act T)} (h : run k s as = some s') : Reach k t0 s' := by
  induction as generalizing s with
  | nil => cases h; exact hr
  | cons x as ih =>
    simp only [run] at h
    split at h
    · rename_i hok
      obtain ⟨s1, h1, h2⟩ := Option.bind_eq_some_iff.1 h
      exact ih (hr.step x.1 x.2 (okActB_ok hok) h1) h2
    · cases h

theorem run_reach' {k : Kind} {as : List (T × Act T)} {P : St T → Prop} [DecidablePred P] (h : ((run k (init k 0) as).any fun s => decide (P s)) = true) : ∃ s, Reach k (0 : T) s ∧ P s := by
  cases hr : run k (init k 0) as with
  | none => rw [hr] at h; cases h
  | some s => exact ⟨s, run_reach .init hr, by simpa [hr] using h⟩

def advs (t : T) (n : Nat) : List (T × Act T) := List.replicate n (t, .adv (.val 7))

/-- Thread 1 waits in `get`; thread 0 provides 5; a second `set_value` throws; the promise and the future are gone, the state is freed. -/
theorem ex_get : ∃ s, Reach .prom (0 : T) s ∧ (s.freed = 1 ∧ s.stored = some (.val 5) ∧ (s.l 1).done = [(.get, .res (.val 5))] ∧
    (s.l 0).done = [(.set (.val 5) false, .okv (.val 5)), (.set (.val 6) false, .satisfied), (.drop, .unit)]) :=
  run_reach' (as := [(0, .getFuture 1), (1, .start .get)] ++ advs 1 3 ++ [(0, .start (.set (.val 5) false))] ++ advs 0 5 ++ advs 1 1 ++ [(0, .start (.set (.val 6) false))] ++ advs 1 2 ++
    advs 0 3 ++ [(0, .start .drop)] ++ advs 0 2 ++ advs 1 3) (by decide +kernel)

/-- A promise destroyed without a result: the waiting thread gets `broken_promise`; two `shared_future` objects give the same result. -/
theorem ex_broken : ∃ s, Reach .prom (0 : T) s ∧ (s.prov = false ∧ s.ready = true ∧ (s.l 1).done = [(.sget, .res .broken)] ∧ (s.l 2).done = [(.sget, .res .broken)] ∧
    (s.l 0).done = [(.drop, .okv .broken)]) :=
  run_reach' (as := [(0, .getFuture 1), (1, .share), (1, .copy), (1, .giveSh 2), (1, .start .sget), (2, .start .sget)] ++ advs 1 3 ++ advs 2 3 ++ [(0, .start .drop)] ++ advs 0 7 ++ advs 2 3 ++ advs 1 3)
    (by decide +kernel)

/-- A `packaged_task`. -/
theorem ex_task : ∃ s, Reach .task (0 : T) s ∧ (s.calls = [(2, .val 7)] ∧ (s.l 1).done = [(.waitFor false, .timeout), (.get, .res (.val 7))] ∧ (s.l 2).done = [(.call false, .okv (.val 7)), (.call false, .satisfied)]) :=
  run_reach' (as := [(0, .getFuture 1), (1, .start (.waitFor false))] ++ advs 1 3 ++ [(1, .wakeup true)] ++ advs 1 3 ++ [(2, .start (.call false))] ++ advs 2 7 ++ [(1, .start .get)] ++ advs 1 5 ++
    [(2, .start (.call false))] ++ advs 2 1) (by decide +kernel)

/-- A deferred function: called by the first waiting thread, while the second waits for it. -/
theorem ex_deferred : ∃ s, Reach .dfr (0 : T) s ∧ (s.calls = [(1, .val 7)] ∧ s.freed = 1 ∧ (s.l 0).done = [(.waitFor true, .deferred), (.sget, .res (.val 7)), (.dropSh, .unit)] ∧ (s.l 1).done = [(.wait true, .ready), (.dropSh, .unit)]) :=
  run_reach' (as := [(0, .share), (0, .copy), (0, .giveSh 1), (0, .start (.waitFor true))] ++ advs 0 3 ++ [(1, .start (.wait true))] ++ advs 1 4 ++ [(0, .start .sget)] ++ advs 0 3 ++ advs 1 8 ++
    advs 0 3 ++ [(0, .start .dropSh), (1, .start .dropSh)] ++ advs 0 1 ++ advs 1 3) (by decide +kernel)

/-- `set_value_at_thread_exit`: the result is there, the state becomes ready when thread 0 ends, and thread 1 wakes up then. -/
theorem ex_exit : ∃ s, Reach .prom (0 : T) s ∧ (s.ready = true ∧ (s.l 0).pc = .exited ∧ (s.l 1).done = [(.wait false, .ready)] ∧ (s.l 2).done = [(.drop, .unit)]) :=
  run_reach' (as := [(0, .getFuture 1), (1, .start (.wait false))] ++ advs 1 3 ++ [(0, .start (.set (.val 5) true))] ++ advs 0 3 ++ [(0, .exit)] ++ advs 0 3 ++ advs 1 3 ++
    [(2, .start .drop)] ++ advs 2 2) (by decide +kernel)

def stuck (k : Kind) (s : St T) : Bool := decide (∀ t, (advStep k s t (.val 7)).isNone = true)

/-- The hypothesis of `C47_progress`: thread 1 waits, nothing else happens. -/
theorem ex_stuck : ∃ s, Reach .prom (0 : T) s ∧ (stuck .prom s = true ∧ (s.l 1).pc = .wSleep ∧ s.stored = none ∧ s.prov = true) :=
  run_reach' (as := [(0, .getFuture 1), (1, .start (.wait false))] ++ advs 1 3) (by decide +kernel)

/-- The last case of `C47_progress`: thread 0 has called `set_value_at_thread_exit` and has not ended. Even `wait_for` in thread 1 blocks, beyond any timeout: thread 0
keeps the mutex. -/
theorem ex_stuck_exit : ∃ s, Reach .prom (0 : T) s ∧ (stuck .prom s = true ∧ (s.l 1).pc = .wLock ∧ (s.l 1).op = .waitFor false ∧ s.ready = false ∧ s.reg = some 0 ∧ s.own = some 0 ∧ (s.l 0).pc = .idle) :=
  run_reach' (as := [(0, .getFuture 1), (0, .start (.set (.val 5) true))] ++ advs 0 3 ++ [(1, .start (.waitFor false))]) (by decide +kernel)

/-- In the thread that has called `set_value_at_thread_exit`, a second call throws `system_error(resource_deadlock_would_occur)`, not `promise_already_satisfied`, and so does `get`. -/
theorem ex_deadlock : ∃ s, Reach .prom (0 : T) s ∧ ((s.l 0).done = [(.set (.val 5) true, .okv (.val 5)), (.set (.val 6) false, .deadlock), (.get, .deadlock)]) :=
  run_reach' (as := [(0, .getFuture 0), (0, .start (.set (.val 5) true))] ++ advs 0 3 ++ [(0, .start (.set (.val 6) false))] ++ advs 0 1 ++ [(0, .start .get)] ++ advs 0 2) (by decide +kernel)

/-! Outside of the rule. -/

/-- A thread calls `set_value_at_thread_exit` and then destroys the promise, before it ends: `terminate`. -/
theorem ex_terminate : ((runAny .prom (init .prom (0 : T)) ([(0, .getFuture 1), (0, .start (.set (.val 5) true))] ++ advs 0 3 ++ [(0, .start .drop)] ++ advs 0 2)).any fun s => s.term) = true := by
  decide +kernel

/-- The same, in another thread: that thread waits for the end of the first, and then `terminate` is called. -/
theorem ex_terminate2 : ((runAny .prom (init .prom (0 : T)) ([(0, .getFuture 1), (0, .start (.set (.val 5) true))] ++ advs 0 3 ++ [(2, .start .drop)] ++ advs 2 1 ++ [(0, .exit)] ++ advs 0 3 ++
    advs 2 2)).any fun s => s.term) = true := by
  decide +kernel

/-- Thread 0 ends after `set_value_at_thread_exit`; `_Ready` is set, but the notification is still to come. Now the promise and the future are destroyed by the other threads, for which the state is
ready; then thread 0 uses the condition variable and the mutex in freed memory. -/
theorem ex_use_after_free : ((runAny .prom (init .prom (0 : T)) ([(0, .getFuture 1), (0, .start (.set (.val 5) true))] ++ advs 0 3 ++ [(0, .exit)] ++ advs 0 1 ++ [(2, .start .drop)] ++ advs 2 2 ++
    [(1, .start .dropFut)] ++ advs 1 3 ++ advs 0 2)).any fun s => s.bad && decide (s.freed = 1)) = true := by
  decide +kernel

end STL.Future
