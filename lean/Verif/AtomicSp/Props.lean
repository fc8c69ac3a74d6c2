import Verif.AtomicSp.Step

/-!
# C46: `atomic<shared_ptr<T>>`

`Reach v s`: the state `s` is reached from an atomic object constructed with the value `v` by some interleaving of the threads; the atomic object is destroyed
only when no operation on it is in progress. `Spec.apply` (in `Inv.lean`) is the sequential specification of the operations.
-/

namespace STL.AtomicSp
open STL STL.Conc Spec

variable {ι : Type} [Fintype ι] [DecidableEq ι]

/-- Reachable states. -/
inductive Reach (v : Val) : St ι → Prop
  | init : v.r % 4 = 0 → Reach v (init v)
  | step {s s' : St ι} {t : ι} {a : Act ι} : Reach v s → (a = .destroy → ∀ u, (s.l u).pc = .idle) → step s t a = some s' → Reach v s'

/-- Any number of transitions. -/
inductive Steps : St ι → St ι → Prop
  | refl (s : St ι) : Steps s s
  | step {s s' s'' : St ι} {t : ι} {a : Act ι} : Steps s s' → step s' t a = some s'' → Steps s s''

theorem reach_inv {v : Val} {s : St ι} (hr : Reach v s) : Inv v s := by
  induction hr with
  | init h => exact inv_init v h
  | step _ hd he ih => exact step_inv ih hd he

/-- No use of a control block after it was freed, and the error report of `_Locked_pointer` is never reached. -/
theorem C46_safe {v : Val} {s : St ι} (hr : Reach v s) : s.m.bad = false := (reach_inv hr).bad

/-- The operations take effect one at a time: there is one history of the operations of all threads that is possible for the sequential specification and
leads to the present value; the operations that a thread has completed, with what they returned, are those of the history in the same order, where only the
operation that it has in progress may be in the history already. -/
theorem C46_linearizable {v : Val} {s : St ι} (hr : Reach v s) :
    replay v s.log = some s.reg ∧
    ∀ u, ∃ p, ops u s.log = (s.l u).done ++ p ∧ ((s.l u).pc = .idle → p = []) ∧ (p = [] ∨ ∃ r, p = [((s.l u).op, r)]) := by
  have h := reach_inv hr
  refine ⟨h.lg.1, fun u => ⟨pend (s.l u), h.lg.2 u, fun hi => by simp [pend, hi], ?_⟩⟩
  unfold pend
  split
  · split
    · exact .inr ⟨_, rfl⟩
    · exact .inl rfl
  · split
    · exact .inr ⟨_, rfl⟩
    · exact .inl rfl
  · exact .inr ⟨_, rfl⟩
  · exact .inl rfl

omit [Fintype ι] in
theorem adv_log {s s' : St ι} {t : ι} {spur : Bool} (he : advStep s t spur = some s') : ∃ new, s'.log = s.log ++ new := by
  have hn : ∀ s1 : St ι, s1.log = s.log → ∃ new, s1.log = s.log ++ new := fun s1 h => ⟨[], by simp [h]⟩
  unfold advStep at he
  simp only at he
  cases hp : (s.l t).pc with
  | idle => simp [hp] at he
  | lAsleep r => simp [hp] at he
  | pAsleep => simp [hp] at he
  | lTry rep =>
    simp only [hp, Option.some.injEq] at he; subst he
    unfold tryStep
    simp only
    split_ifs <;> exact hn _ rfl
  | c2 c =>
    simp only [hp, Option.some.injEq] at he; subst he
    apply hn
    cases ho : (s.l t).op <;> simp only [critStep, ho] <;> (try split_ifs) <;> rfl
  | c3 c =>
    simp only [hp, Option.some.injEq] at he; subst he
    apply hn
    cases ho : (s.l t).op <;> simp only [critStep, ho] <;> (try split_ifs) <;> rfl
  | fin c =>
    simp only [hp, Option.some.injEq] at he; subst he
    apply hn
    cases ho : (s.l t).op <;> simp only [finStep, ho] <;> (try split_ifs) <;> rfl
  | fin2 c =>
    simp only [hp, Option.some.injEq] at he; subst he
    apply hn
    cases ho : (s.l t).op <;> simp only [fin2Step, ho]
  | unl c =>
    simp only [hp, Option.some.injEq] at he; subst he
    simp only [unlockStep]
    split
    · exact ⟨_, rfl⟩
    · exact ⟨[], by simp⟩
  | pSlp =>
    simp only [hp] at he
    cases ho : (s.l t).op <;> simp [ho] at he
    subst he; exact hn _ rfl
  | _ => simp only [hp, Option.some.injEq] at he; subst he; exact hn _ rfl

omit [Fintype ι] in
theorem step_log {s s' : St ι} {t : ι} {a : Act ι} (he : step s t a = some s') : ∃ new, s'.log = s.log ++ new := by
  unfold step at he
  simp only at he
  cases a with
  | adv spur => exact adv_log he
  | call o =>
    simp only [Option.ite_none_right_eq_some, Option.map_eq_some_iff] at he
    obtain ⟨-, -, -, rfl⟩ := he
    exact ⟨[], by simp⟩
  | wakeUp =>
    cases hp : (s.l t).pc <;> simp only [hp, Option.some.injEq, reduceCtorEq] at he
    all_goals subst he; exact ⟨[], by simp⟩
  | _ =>
    simp only [Option.ite_none_right_eq_some, Option.some.injEq] at he
    obtain ⟨-, rfl⟩ := he
    exact ⟨[], by simp⟩

/-- The history only grows. With `C46_linearizable` it respects the order of calls that do not overlap: what is completed before a call begins is in the
history before it. -/
theorem C46_order {s s' : St ι} (hs : Steps s s') : ∃ new, s'.log = s.log ++ new := by
  induction hs with
  | refl => exact ⟨[], by simp⟩
  | step _ he ih =>
    obtain ⟨n1, h1⟩ := ih
    obtain ⟨n2, h2⟩ := step_log he
    exact ⟨n1 ++ n2, by rw [h2, h1, List.append_assoc]⟩

/-- What the caller has after an operation: the value it returned; after a `compare_exchange` the argument `_Expected`, unchanged after success, and the value
found after failure. -/
def Spec.given : Op → Ret → List Val
  | _, .val w => [w]
  | .cas e _, .yes => [e]
  | _, .no w => [w]
  | _, _ => []

/-- The `shared_ptr` objects that an operation returns hold the values recorded in the history. -/
theorem C46_results {v : Val} {s s' : St ι} (hr : Reach v s) {t : ι} {a : Act ι} (he : step s t a = some s') (hb : (s.l t).pc ≠ .idle) (hi : (s'.l t).pc = .idle) :
    ∃ r, (s'.l t).done = (s.l t).done ++ [((s.l t).op, r)] ∧ (s'.l t).hs = Spec.given (s.l t).op r ++ (s.l t).hs := by
  have key : ∀ s' : St ι, (s'.l t) = (s.l t) → (s'.l t).pc = .idle → False := fun s' h1 h2 => hb (h1 ▸ h2)
  unfold step at he
  simp only at he
  cases a with
  | adv spur =>
    simp only at he
    unfold advStep at he
    simp only at he
    cases hp : (s.l t).pc with
    | idle => exact absurd hp hb
    | lAsleep r => simp [hp] at he
    | pAsleep => simp [hp] at he
    | lLoad => simp only [hp, Option.some.injEq] at he; subst he; simp at hi
    | lTry rep =>
      simp only [hp, Option.some.injEq] at he; subst he
      unfold tryStep at hi
      simp only at hi
      split_ifs at hi <;> first | (simp at hi; done) | exact (hb hi).elim
    | lWait rep => simp only [hp, Option.some.injEq] at he; subst he; simp only [upd_self] at hi; split at hi <;> cases hi
    | lSlp rep => simp only [hp, Option.some.injEq] at he; subst he; simp only [upd_self] at hi; split at hi <;> cases hi
    | c1 rep =>
      simp only [hp, Option.some.injEq] at he; subst he
      simp only [upd_self, afterLoad] at hi
      split at hi <;> cases hi
    | c2 c =>
      simp only [hp, Option.some.injEq] at he; subst he
      unfold critStep at hi
      simp only at hi
      split at hi <;> (try split_ifs at hi) <;> first | (simp at hi; done) | exact (hb hi).elim
    | c3 c =>
      simp only [hp, Option.some.injEq] at he; subst he
      unfold critStep at hi
      simp only at hi
      split at hi <;> (try split_ifs at hi) <;> first | (simp at hi; done) | exact (hb hi).elim
    | unl c =>
      simp only [hp, Option.some.injEq] at he; subst he
      simp only [unlockStep, upd_self] at hi
      split at hi <;> cases hi
    | ntf c => simp only [hp, Option.some.injEq] at he; subst he; simp at hi
    | fin c =>
      simp only [hp, Option.some.injEq] at he; subst he
      unfold finStep at hi ⊢
      simp only at hi ⊢
      cases ho : (s.l t).op with
      | cas e d =>
        simp only [ho] at hi ⊢
        split
        · rename_i hok; exact ⟨.yes, by simp [Loc.ret, ho, retOf, hok], by simp [Loc.ret, Spec.given]⟩
        · rename_i hok; simp [hok] at hi
      | wait o =>
        simp only [ho] at hi ⊢
        split
        · rename_i hok; simp [hok] at hi
        · rename_i hok; exact ⟨.unit, by simp [Loc.ret, ho, retOf], by simp [Loc.ret, Spec.given]⟩
      | store v => exact ⟨.unit, by simp [Loc.ret, ho, retOf], by simp [Loc.ret, Spec.given]⟩
      | load => exact ⟨.val ⟨c.q, c.rep⟩, by simp [Loc.ret, ho, retOf], by simp [Loc.ret, Spec.given]⟩
      | xchg v => exact ⟨.val ⟨c.q, c.rep⟩, by simp [Loc.ret, ho, retOf], by simp [Loc.ret, Spec.given]⟩
    | fin2 c =>
      simp only [hp, Option.some.injEq] at he; subst he
      unfold fin2Step at hi ⊢
      simp only at hi ⊢
      cases ho : (s.l t).op with
      | cas e d =>
        simp only
        have h2 := (reach_inv hr).loc t
        simp only [LocOK, hp] at h2
        exact ⟨.no ⟨c.q, c.rep⟩, by simp [Loc.ret, ho, retOf, h2.2.2], by simp [Loc.ret, Spec.given]⟩
      | _ => simp only [ho] at hi; exact (hb hi).elim
    | pSlp =>
      simp only [hp] at he
      split at he
      · simp only [Option.some.injEq] at he; subst he
        simp only [upd_self] at hi; split at hi <;> cases hi
      · cases he
  | call o =>
    simp only [Option.ite_none_right_eq_some] at he
    exact absurd he.1.1 hb
  | wakeUp =>
    cases hp : (s.l t).pc <;> simp only [hp, Option.some.injEq, reduceCtorEq] at he
    all_goals subst he; simp at hi
  | null p => simp only [Option.ite_none_right_eq_some] at he; exact absurd he.1 hb
  | _ =>
    simp only [Option.ite_none_right_eq_some] at he
    exact absurd he.1.1 hb

/-- Number of `shared_ptr` objects of the threads that own the block `r`. -/
def Spec.owners (r : Nat) (s : St ι) : Nat := ∑ u, ((s.l u).hs.map (·.r)).count r

/-- The object managed through `r` exists: it was created once more than it was destroyed. -/
def Spec.alive (r : Nat) (s : St ι) : Prop := s.m.ctor r = s.m.dtor r + 1

/-- What a `shared_ptr` owns exists, and so does what the atomic object owns. When no operation is in progress, an object exists exactly as long as it has an
owner, and its use count is the number of its owners; it was then destroyed as often as created, otherwise once less. -/
theorem C46_owners {v : Val} {s : St ι} (hr : Reach v s) :
    (∀ u, ∀ x ∈ (s.l u).hs, x.r ≠ 0 → Spec.alive x.r s) ∧ (s.m.gone = false → s.reg.r ≠ 0 → Spec.alive s.reg.r s) ∧
    ((∀ u, (s.l u).pc = .idle) → ∀ r, r ≠ 0 →
      s.m.uses r = Spec.owners r s + (if s.m.gone = false ∧ s.reg.r = r then 1 else 0) ∧ s.m.ctor r = s.m.dtor r + (if s.m.uses r = 0 then 0 else 1)) := by
  have h := reach_inv hr
  have hal : ∀ r, 0 < s.m.uses r → Spec.alive r s := fun r hp => by
    have := h.life r
    rw [if_neg (by omega)] at this; exact this
  refine ⟨fun u x hx h0 => hal _ (h.uses_pos (t := u) h0 (by have := mem_cnt hx; simp only [cnt]; omega)), fun hg h0 => hal _ ?_, fun hid r h0 => ⟨?_, h.life r⟩⟩
  · rw [h.rg] at h0 ⊢; exact holds_pos h hg h0
  · have h1 := h.cn r h0
    rw [h.rg]
    rw [h1]
    congr 1
    unfold Spec.owners tot
    exact Finset.sum_congr rfl fun u _ => by simp [cnt, opCnt, hid u]

/-- Steps that a thread still has to do until it has released the lock and notified the threads that wait for it; 0 if it does not hold it. -/
def rank (x : Loc) : Nat :=
  match x.pc with
  | .c1 _ => 5
  | .c2 _ => 4
  | .c3 _ => 3
  | .unl _ => 2
  | .ntf _ => 1
  | _ => 0

/-- No wake-up is lost: while a thread sleeps for the lock, some other thread holds it or is about to notify all threads that sleep. -/
theorem C46_no_lost {v : Val} {s : St ι} (hr : Reach v s) {t : ι} {rep : Nat} (ht : (s.l t).pc = .lAsleep rep) : ∃ u, u ≠ t ∧ 0 < rank (s.l u) := by
  have h := reach_inv hr
  rcases h.sl t rep ht with h1 | ⟨n, c, h1⟩
  · have h2 := h.cr
    unfold lk at h2
    rw [if_neg (by omega)] at h2
    obtain ⟨u, hu⟩ := tot_pos (f := isCrit) (l := s.l) (by omega)
    refine ⟨u, by rintro rfl; simp [isCrit, ht] at hu, ?_⟩
    unfold isCrit at hu; unfold rank
    cases hp : (s.l u).pc <;> simp [hp] at hu ⊢
  · exact ⟨n, by rintro rfl; simp [ht] at h1, by simp [rank, h1]⟩

/-- A thread that holds the lock is never blocked, and every step of its own brings it nearer to its release and to the notification: at most five steps. -/
theorem C46_release {v : Val} {s : St ι} (hr : Reach v s) {u : ι} (hu : 0 < rank (s.l u)) (spur : Bool) :
    rank (s.l u) ≤ 5 ∧ ∃ s', step s u (.adv spur) = some s' ∧ rank (s'.l u) < rank (s.l u) := by
  have h := (reach_inv hr).loc u
  refine ⟨by unfold rank; split <;> omega, ?_⟩
  unfold step advStep
  simp only
  unfold rank at hu
  cases hp : (s.l u).pc <;> simp only [hp] at hu <;> try omega
  · refine ⟨_, rfl, ?_⟩
    simp only [rank, hp, upd_self, afterLoad]
    cases (s.l u).op <;> simp
  · refine ⟨_, rfl, ?_⟩
    simp only [LocOK, hp] at h
    cases ho : (s.l u).op <;> simp [critStep, rank, hp, upd_self, ho]
    simp [isWait, ho] at h
  · refine ⟨_, rfl, ?_⟩
    simp only [LocOK, hp] at h
    cases ho : (s.l u).op <;> simp [isCas, ho] at h
    rename_i c _ _
    cases hc : c.ok <;> simp [critStep, rank, hp, ho, hc]
  · refine ⟨_, rfl, ?_⟩
    simp only [unlockStep, rank, hp, upd_self]
    by_cases h2 : s.m.word % 4 = 2 <;> simp [h2]
  · exact ⟨_, rfl, by simp [rank, hp]⟩

/-- Once no thread can go on by itself, every operation has returned, except for calls of `wait` that sleep on the atomic object itself. -/
theorem C46_quiescent {v : Val} {s : St ι} (hr : Reach v s) (hq : ∀ t spur, step s t (.adv spur) = none) (t : ι) : (s.l t).pc = .idle ∨ (s.l t).pc = .pAsleep := by
  cases hp : (s.l t).pc with
  | idle => exact .inl rfl
  | pAsleep => exact .inr rfl
  | lAsleep rep =>
    obtain ⟨u, -, hu⟩ := C46_no_lost hr hp
    obtain ⟨-, s', h1, -⟩ := C46_release hr hu false
    rw [hq u false] at h1; cases h1
  | pSlp =>
    have h := (reach_inv hr).loc t
    have h1 := hq t false
    simp only [LocOK, hp] at h
    unfold step advStep at h1
    cases ho : (s.l t).op <;> simp [isWait, ho] at h
    simp [hp, ho] at h1
  | _ =>
    have h1 := hq t false
    unfold step advStep at h1
    simp [hp] at h1

end STL.AtomicSp
