import Verif.AtomicSp.Props

/-!
# `atomic<shared_ptr<T>>`: concrete executions
-/

namespace STL.AtomicSp
open STL STL.Conc Spec

/-- Run a schedule of two threads, without destruction of the atomic object. -/
def exec (v : Val) (l : List (Fin 2 × Act (Fin 2))) : Option (St (Fin 2)) := l.foldlM (fun s e => match e.2 with | .destroy => none | a => step s e.1 a) (init v)

theorem foldlM_reach {v : Val} : ∀ (l : List (Fin 2 × Act (Fin 2))) {s s' : St (Fin 2)}, Reach v s →
    l.foldlM (fun s e => match e.2 with | .destroy => none | a => step s e.1 a) s = some s' → Reach v s'
  | [], s, s', hr, he => by cases he; exact hr
  | (t, a) :: l, s, s', hr, he => by
    rw [List.foldlM_cons] at he
    simp only [Option.bind_eq_bind, Option.bind_eq_some_iff] at he
    obtain ⟨s1, h1, h2⟩ := he
    refine foldlM_reach l (.step (t := t) (a := a) hr ?_ ?_) h2
    · rintro rfl; simp at h1
    · cases a <;> first | exact h1 | cases h1

theorem exec_reach {v : Val} (hv : v.r % 4 = 0) {l : List (Fin 2 × Act (Fin 2))} {s : St (Fin 2)} (he : exec v l = some s) : Reach v s := foldlM_reach l (.init hv) he

/-- `n` steps of one thread. -/
def go (t : Fin 2) (n : Nat) : List (Fin 2 × Act (Fin 2)) := List.replicate n (t, .adv false)

/-- Thread 0 stores while thread 1 wants to load: thread 1 falls asleep, thread 0 unlocks and notifies it; it then loads the new value. Afterwards thread 0
replaces what it stored. -/
def sched : List (Fin 2 × Act (Fin 2)) :=
  [(0, .make 10 4), (0, .call (.store ⟨10, 4⟩)), (1, .call .load)] ++ go 0 2 ++ go 1 4 ++ go 0 5 ++ go 1 7 ++
  [(0, .make 20 8), (0, .call (.xchg ⟨20, 8⟩))] ++ go 0 6 ++ [(0, .null 0), (0, .call (.cas ⟨10, 4⟩ ⟨0, 0⟩))] ++ go 0 8

/-- The sleep is reached. -/
example : ∃ s : St (Fin 2), Reach ⟨0, 0⟩ s ∧ (s.l 1).pc = .lAsleep 2 ∧ s.m.word = 2 := by
  have : (exec ⟨0, 0⟩ (sched.take 9)).map (fun s => ((s.l 1).pc, s.m.word)) = some (.lAsleep 2, 2) := by decide +kernel
  rw [Option.map_eq_some_iff] at this
  obtain ⟨s, h1, h2⟩ := this
  simp only [Prod.mk.injEq] at h2
  exact ⟨s, exec_reach rfl h1, h2.1, h2.2⟩

set_option synthInstance.maxSize 1024 in
set_option synthInstance.maxHeartbeats 400000 in
/-- The end of the schedule: four operations have taken effect, one of them a failed `compare_exchange`; the first object has two owners, the second one is
owned by the atomic object and by what the failed `compare_exchange` returned. -/
example : ∃ s : St (Fin 2), Reach ⟨0, 0⟩ s ∧ s.log = [(0, .store ⟨10, 4⟩, .unit), (1, .load, .val ⟨10, 4⟩), (0, .xchg ⟨20, 8⟩, .val ⟨10, 4⟩), (0, .cas ⟨10, 4⟩ ⟨0, 0⟩, .no ⟨20, 8⟩)] ∧
    s.reg = ⟨20, 8⟩ ∧ (s.l 0).hs = [⟨20, 8⟩] ∧ (s.l 1).hs = [⟨10, 4⟩] ∧ s.m.uses 4 = 1 ∧ s.m.uses 8 = 2 ∧ (s.l 0).pc = .idle ∧ (s.l 1).pc = .idle := by
  have : (exec ⟨0, 0⟩ sched).map (fun s => (s.log, s.reg, (s.l 0).hs, (s.l 1).hs, s.m.uses 4, s.m.uses 8, (s.l 0).pc, (s.l 1).pc)) =
      some ([(0, .store ⟨10, 4⟩, .unit), (1, .load, .val ⟨10, 4⟩), (0, .xchg ⟨20, 8⟩, .val ⟨10, 4⟩), (0, .cas ⟨10, 4⟩ ⟨0, 0⟩, .no ⟨20, 8⟩)], ⟨20, 8⟩, [⟨20, 8⟩], [⟨10, 4⟩], 1, 2, .idle, .idle) := by
    decide +kernel
  rw [Option.map_eq_some_iff] at this
  obtain ⟨s, h1, h2⟩ := this
  simp only [Prod.mk.injEq] at h2
  obtain ⟨a, b, c, d, e, f, g, h⟩ := h2
  exact ⟨s, exec_reach rfl h1, a, b, c, d, e, f, g, h⟩

/-- A `wait` for another value than the present one returns. -/
example : (exec ⟨7, 4⟩ ([(0, .null 0), (0, .call (.wait ⟨0, 0⟩))] ++ go 0 5)).map (fun s => (s.log, (s.l 0).pc)) = some ([(0, .wait ⟨0, 0⟩, .unit)], .idle) := by decide +kernel

/-- A `wait` for the present value sleeps. -/
example : (exec ⟨7, 0⟩ ([(0, .null 7), (0, .call (.wait ⟨7, 0⟩))] ++ go 0 6)).map (fun s => (s.log, (s.l 0).pc)) = some ([], .pAsleep) := by decide +kernel

end STL.AtomicSp
