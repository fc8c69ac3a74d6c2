import Verif.AWait.Step2

/-!
# C43: `atomic::wait`, `notify_one` and `notify_all` with the wait table

Specification vocabulary: `inWait`, `inNotify` (program points of a call), `Asleep s w a v` (thread `w` sleeps in `wait(v)` on the object at address `a`), `Path P s s'` (a part of an execution
along which `P` holds), `run` (a schedule).
-/

namespace STL.AWait
open STL.Conc

variable {ι : Type} [DecidableEq ι]

/-- Program points of a call of `wait`. -/
def inWait : Pc → Bool
  | .load | .wLock | .wInit | .wLink0 | .wLink1 | .wLink2 | .cmp | .wSleep | .asleep | .wRelock | .wUnlink0 | .wUnlink1 | .wUnlock => true
  | _ => false

/-- Program points of a call of `notify_one` or `notify_all`. -/
def inNotify : Pc → Bool
  | .nLock | .nHead | .nTest | .nWake | .nNext | .nUnlock => true
  | _ => false

/-- Thread `w` is in `wait(v)` on the object at `a`. -/
def Waiting (s : St ι) (w : ι) (a v : Nat) : Prop := inWait (s.l w).pc = true ∧ (s.l w).a = a ∧ (s.l w).v = v

/-- ... and sleeps. -/
def Asleep (s : St ι) (w : ι) (a v : Nat) : Prop := (s.l w).pc = .asleep ∧ (s.l w).a = a ∧ (s.l w).v = v

/-- Thread `n` is about to return from a notification of the object at `a`. -/
def Returning (s : St ι) (n : ι) (all : Bool) (a : Nat) : Prop := (s.l n).pc = .nUnlock ∧ (s.l n).a = a ∧ (s.l n).all = all

/-- A schedule. -/
def run (s : St ι) : List (ι × Act) → R (St ι)
  | [] => .ok s
  | (t, c) :: r => step s t c >>= fun s' => run s' r

theorem Inv.step {s : St ι} (h : Inv s) (t : ι) (c : Act) : ∃ s', step s t c = .ok s' ∧ Inv s' := by
  cases c with
  | adv => exact h.adv t
  | wait a v =>
    unfold AWait.step
    simp only []
    by_cases hp : (s.l t).pc = .idle
    · rw [if_pos hp]
      refine ⟨_, rfl, h.loc (val' := s.val) t 0 ?_ ?_ ?_ ?_ ?_ ?_ ?_ ?_ ?_⟩
      all_goals simp [hp, inT, crit, linked, hasCtx, Noti]
    · rw [if_neg hp]; exact ⟨s, rfl, h⟩
  | notify all a =>
    unfold AWait.step
    simp only []
    by_cases hp : (s.l t).pc = .idle
    · rw [if_pos hp]
      refine ⟨_, rfl, h.loc (val' := s.val) t 0 ?_ ?_ ?_ ?_ ?_ ?_ ?_ ?_ ?_⟩
      all_goals simp [hp, inT, crit, linked, hasCtx, Noti]
    · rw [if_neg hp]; exact ⟨s, rfl, h⟩
  | store a v =>
    unfold AWait.step
    simp only []
    by_cases hp : (s.l t).pc = .idle
    · rw [if_pos hp]
      have := h.loc (val' := upd s.val a v) (x' := s.l t) t (entryOf (s.l t).a) (fun _ => rfl) (fun _ => rfl) rfl rfl id (fun _ => rfl) (fun _ => id) ?_ id
      · rw [show upd s.l t (s.l t) = s.l from by
          funext u
          by_cases hu : u = t
          · subst hu; rw [upd_self]
          · rw [upd_ne _ _ hu]] at this
        exact ⟨_, rfl, this⟩
      · refine noti_trivial ?_ ?_ ?_ ?_ <;> simp [hp]
    · rw [if_neg hp]; exact ⟨s, rfl, h⟩
  | spurious =>
    unfold AWait.step
    simp only []
    by_cases hp : (s.l t).pc = .asleep
    · rw [if_pos hp]
      refine ⟨_, rfl, h.loc (val' := s.val) t (entryOf (s.l t).a) (fun _ => rfl) (fun _ => rfl) ?_ ?_ ?_ (fun _ => rfl) ?_ ?_ ?_⟩
      all_goals simp [hp, crit, linked, hasCtx, Noti, ShapeOf]
    · rw [if_neg hp]; exact ⟨s, rfl, h⟩

omit [DecidableEq ι] in
theorem init_inv (val : Nat → Nat) : Inv (init val : St ι) := by
  constructor
  · intro e u; simp [init, crit]
  · intro e u; simp [init, linked]
  · intro u; simp [init, hasCtx]
  · intro e; rfl
  · intro e; simp [init]
  · intro e; exact .inr ⟨rfl, rfl⟩
  · intro n; simp [Noti, init]

theorem reach_inv' {val : Nat → Nat} {o : Option (St ι)} (h : Reach val o) : ∃ s, o = some s ∧ Inv s := by
  induction h with
  | init => exact ⟨_, rfl, init_inv val⟩
  | step t c _ ih =>
    obtain ⟨s, hs, hi⟩ := ih
    injection hs with hs
    subst hs
    obtain ⟨s', h1, h2⟩ := hi.step t c
    exact ⟨s', by rw [h1]; rfl, h2⟩

theorem reach_inv {val : Nat → Nat} {s : St ι} (h : Reach val (some s)) : Inv s := by
  obtain ⟨s', h1, h2⟩ := reach_inv' h
  injection h1 with h1
  subst h1; exact h2

/-- **C43 (no dangling context).** No execution reads or writes a context that has been destroyed, or follows a null pointer. -/
theorem C43_safe {val : Nat → Nat} : ¬ Reach val (none : Option (St ι)) := by
  intro h
  obtain ⟨s, h1, _⟩ := reach_inv' h
  cases h1

/-- The program points that can follow. -/
def Edge (s : St ι) (x : Th ι) (pc' : Pc) : Prop :=
  match x.pc with
  | .load => (s.val x.a = x.v ∧ pc' = .wLock) ∨ (s.val x.a ≠ x.v ∧ pc' = .idle)
  | .wLock => pc' = .wInit
  | .wInit => pc' = .wLink0
  | .wLink0 => pc' = .wLink1
  | .wLink1 => pc' = .wLink2
  | .wLink2 => pc' = .cmp
  | .cmp => (s.val x.a = x.v ∧ pc' = .wSleep) ∨ (s.val x.a ≠ x.v ∧ pc' = .wUnlink0)
  | .wSleep => pc' = .asleep
  | .asleep => pc' = .wRelock
  | .wRelock => pc' = .cmp
  | .wUnlink0 => pc' = .wUnlink1
  | .wUnlink1 => pc' = .wUnlock
  | .wUnlock => pc' = .load
  | .nLock => pc' = .nHead
  | .nHead => pc' = .nUnlock ∨ pc' = .nTest
  | .nTest => pc' = .nUnlock ∨ pc' = .nWake ∨ pc' = .nNext
  | .nWake => pc' = if x.all = true then .nNext else .nUnlock
  | .nNext => pc' = .nTest
  | .nUnlock => pc' = .idle
  | .idle => False

theorem bind_ok' {α β : Type} {x : R α} {f : α → R β} {y : β} (h : x >>= f = .ok y) : ∃ z, x = .ok z ∧ f z = .ok y := by
  cases x with
  | error e => cases h
  | ok z => exact ⟨z, rfl, h⟩

/-- The thread cannot go on. -/
def Blocked (s : St ι) (t : ι) : Prop :=
  (s.l t).pc = .idle ∨ (s.l t).pc = .asleep ∨ (((s.l t).pc = .wLock ∨ (s.l t).pc = .wRelock ∨ (s.l t).pc = .nLock) ∧ s.lock (entryOf (s.l t).a) ≠ none)

/-- What a transition does to the thread. -/
theorem adv_self {s s' : St ι} {t : ι} (hs : advStep s t = .ok s') : (s'.l t = s.l t ∧ Blocked s t) ∨ ∃ pc' cur', s'.l t = { s.l t with pc := pc', cur := cur' } ∧ Edge s (s.l t) pc' := by
  unfold advStep at hs
  unfold Edge
  simp only [] at hs
  cases hp : (s.l t).pc <;> rw [hp] at hs <;> simp only [] at hs ⊢
  case load | cmp =>
    injection hs with hs
    subst hs
    by_cases hv : s.val (s.l t).a = (s.l t).v
    · exact .inr ⟨_, (s.l t).cur, upd_self _ _ _, .inl ⟨hv, if_pos hv⟩⟩
    · exact .inr ⟨_, (s.l t).cur, upd_self _ _ _, .inr ⟨hv, if_neg hv⟩⟩
  case wLock | wRelock | nLock =>
    injection hs with hs
    subst hs
    unfold acquire
    split
    · exact .inr ⟨_, (s.l t).cur, upd_self _ _ _, rfl⟩
    · rename_i hk
      exact .inl ⟨rfl, .inr (.inr ⟨by simp [hp], hk⟩)⟩
  case wInit | wLink0 => injection hs with hs; subst hs; exact .inr ⟨_, (s.l t).cur, upd_self _ _ _, rfl⟩
  case wSleep | wUnlock | nUnlock => injection hs with hs; subst hs; exact .inr ⟨_, (s.l t).cur, upd_self _ _ _, rfl⟩
  case asleep | idle => injection hs with hs; subst hs; exact .inl ⟨rfl, by simp [Blocked, hp]⟩
  case wLink1 | wUnlink0 | wUnlink1 | wLink2 =>
    obtain ⟨m, _, hs⟩ := bind_ok' hs
    injection hs with hs
    subst hs
    exact .inr ⟨_, (s.l t).cur, upd_self _ _ _, rfl⟩
  case nHead =>
    injection hs with hs
    subst hs
    refine .inr ⟨_, _, upd_self _ _ _, ?_⟩
    split <;> simp
  case nTest =>
    split at hs
    · injection hs with hs
      subst hs
      exact .inr ⟨_, (s.l t).cur, upd_self _ _ _, .inl rfl⟩
    · obtain ⟨m, _, hs⟩ := bind_ok' hs
      injection hs with hs
      subst hs
      refine .inr ⟨_, (s.l t).cur, upd_self _ _ _, ?_⟩
      split <;> simp
  case nWake =>
    split at hs
    · split at hs
      · injection hs with hs
        subst hs
        exact .inr ⟨_, (s.l t).cur, upd_self _ _ _, rfl⟩
      · cases hs
    · cases hs
  case nNext =>
    obtain ⟨m, _, hs⟩ := bind_ok' hs
    injection hs with hs
    subst hs
    exact .inr ⟨_, _, upd_self _ _ _, rfl⟩

/-- What a transition does to the other threads. -/
theorem adv_other {s s' : St ι} {t : ι} (hs : advStep s t = .ok s') {u : ι} (hu : u ≠ t) :
    s'.l u = s.l u ∨ (s'.l u = wake (s.l u) ∧ (s.l t).pc = .nWake ∧ (s.l t).cur = some (.ctx u)) := by
  unfold advStep at hs
  simp only [] at hs
  cases hp : (s.l t).pc <;> rw [hp] at hs <;> simp only [] at hs
  case load | cmp | wInit | wLink0 | wSleep | wUnlock | nUnlock | asleep | idle | nHead =>
    injection hs with hs
    subst hs
    left; simp [goto, releaseTo, upd_ne _ _ hu]
  case wLock | wRelock | nLock =>
    injection hs with hs
    subst hs
    unfold acquire
    split
    · left; simp [upd_ne _ _ hu]
    · exact .inl rfl
  case wLink1 | wUnlink0 | wUnlink1 | wLink2 | nNext =>
    obtain ⟨m, _, hs⟩ := bind_ok' hs
    injection hs with hs
    subst hs
    left; simp [goto, upd_ne _ _ hu]
  case nTest =>
    split at hs
    · injection hs with hs
      subst hs
      left; simp [goto, upd_ne _ _ hu]
    · obtain ⟨m, _, hs⟩ := bind_ok' hs
      injection hs with hs
      subst hs
      left; simp [goto, upd_ne _ _ hu]
  case nWake =>
    split at hs
    · rename_i w hw
      split at hs
      · injection hs with hs
        subst hs
        simp only []
        rw [upd_ne _ _ hu]
        by_cases huw : u = w
        · subst huw; right; rw [upd_self]; exact ⟨rfl, trivial, hw⟩
        · left; rw [upd_ne _ _ huw]
      · cases hs
    · cases hs

/-- What a transition does to the thread. -/
theorem step_self {s s' : St ι} {t : ι} {c : Act} (hs : step s t c = .ok s') : s'.l t = s.l t ∨ ((s.l t).pc = .idle ∧ ((s'.l t).pc = .load ∨ (s'.l t).pc = .nLock)) ∨
    ∃ pc' cur', s'.l t = { s.l t with pc := pc', cur := cur' } ∧ Edge s (s.l t) pc' := by
  cases c with
  | adv => rcases adv_self hs with h | h
           · exact .inl h.1
           · exact .inr (.inr h)
  | wait a v =>
    injection hs with hs
    subst hs
    split
    · rename_i hp
      exact .inr (.inl ⟨hp, by simp⟩)
    · exact .inl rfl
  | notify all a =>
    injection hs with hs
    subst hs
    split
    · rename_i hp
      exact .inr (.inl ⟨hp, by simp⟩)
    · exact .inl rfl
  | store a v =>
    injection hs with hs
    subst hs
    split <;> exact .inl rfl
  | spurious =>
    injection hs with hs
    subst hs
    split
    · rename_i hp
      refine .inr (.inr ⟨.wRelock, (s.l t).cur, upd_self _ _ _, ?_⟩)
      unfold Edge; rw [hp]
    · exact .inl rfl

/-- What a transition does to the other threads. -/
theorem step_other {s s' : St ι} {t : ι} {c : Act} (hs : step s t c = .ok s') {u : ι} (hu : u ≠ t) :
    s'.l u = s.l u ∨ (s'.l u = wake (s.l u) ∧ (s.l t).pc = .nWake ∧ (s.l t).cur = some (.ctx u)) := by
  cases c with
  | adv => exact adv_other hs hu
  | wait a v =>
    injection hs with hs
    subst hs
    split
    · left; simp [upd_ne _ _ hu]
    · exact .inl rfl
  | notify all a =>
    injection hs with hs
    subst hs
    split
    · left; simp [upd_ne _ _ hu]
    · exact .inl rfl
  | store a v =>
    injection hs with hs
    subst hs
    split <;> exact .inl rfl
  | spurious =>
    injection hs with hs
    subst hs
    split
    · left; simp [goto, upd_ne _ _ hu]
    · exact .inl rfl

/-- **C43 (`wait` returns only if the value has changed).** At the moment of its return, `wait(v)` has seen a value other than `v`. -/
theorem C43_return {s s' : St ι} {t : ι} {c : Act} {a v : Nat} (hw : Waiting s t a v) (hs : step s t c = .ok s') (hr : (s'.l t).pc = .idle) : s.val a ≠ v := by
  obtain ⟨h1, rfl, rfl⟩ := hw
  rcases step_self hs with h | ⟨h, _⟩ | ⟨pc', cur', h, h2⟩
  · rw [h] at hr; rw [hr] at h1; cases h1
  · rw [h] at h1; cases h1
  · rw [h] at hr
    simp only [] at hr
    subst hr
    unfold Edge at h2
    cases hp : (s.l t).pc <;> rw [hp] at h1 h2 <;> simp [inWait] at h1 h2
    exact h2

/-- **C43 (calls).** A call `wait(v)` on the object at `a` begins a wait for that object and that value, a call of `notify_one` / `notify_all` a notification of that object, and a store changes the value of its
object alone. -/
theorem C43_calls {s s' : St ι} {t : ι} {c : Act} (hidle : (s.l t).pc = .idle) (hs : step s t c = .ok s') :
    (∀ a v, c = .wait a v → Waiting s' t a v ∧ s'.val = s.val) ∧
    (∀ all a, c = .notify all a → inNotify (s'.l t).pc = true ∧ (s'.l t).a = a ∧ (s'.l t).all = all ∧ s'.val = s.val) ∧
    (∀ a v, c = .store a v → s'.val a = v ∧ (∀ b, b ≠ a → s'.val b = s.val b) ∧ s'.l = s.l) := by
  refine ⟨?_, ?_, ?_⟩
  · rintro a v rfl
    injection hs with hs
    rw [if_pos hidle] at hs
    subst hs
    exact ⟨by simp [Waiting, upd_self, inWait], rfl⟩
  · rintro all a rfl
    injection hs with hs
    rw [if_pos hidle] at hs
    subst hs
    simp [upd_self, inNotify]
  · rintro a v rfl
    injection hs with hs
    rw [if_pos hidle] at hs
    subst hs
    exact ⟨upd_self _ _ _, fun b hb => upd_ne _ _ hb, rfl⟩

/-- **C43 (a wait stays the same wait).** Whatever any thread does, a thread in `wait(v)` on the object at `a` stays in it until it returns. -/
theorem C43_same_wait {s s' : St ι} {t u : ι} {c : Act} {a v : Nat} (hw : Waiting s t a v) (hs : step s u c = .ok s') : Waiting s' t a v ∨ (u = t ∧ (s'.l t).pc = .idle) := by
  obtain ⟨h1, rfl, rfl⟩ := hw
  by_cases hu : t = u
  · subst hu
    rcases step_self hs with h | ⟨h, _⟩ | ⟨pc', cur', h, h2⟩
    · left; exact ⟨by rw [h]; exact h1, by rw [h], by rw [h]⟩
    · rw [h] at h1; cases h1
    · by_cases hi : pc' = .idle
      · right; rw [h]; exact ⟨rfl, hi⟩
      · left
        refine ⟨?_, by rw [h], by rw [h]⟩
        rw [h]
        unfold Edge at h2
        cases hp : (s.l t).pc <;> rw [hp] at h1 h2 <;> simp [inWait] at h1 h2 ⊢ <;> (try subst h2) <;> (try rfl) <;> rcases h2 with ⟨_, h2⟩ | ⟨_, h2⟩ <;> subst h2 <;> first | rfl | exact absurd rfl hi
  · rcases step_other hs hu with h | ⟨h, _⟩
    · left; exact ⟨by rw [h]; exact h1, by rw [h], by rw [h]⟩
    · left
      rw [Waiting, h]
      unfold wake
      split
      · exact ⟨rfl, rfl, rfl⟩
      · exact ⟨h1, rfl, rfl⟩

/-- **C43 (only the notified object).** A thread that sleeps in a `wait` on the object at `a` is woken by a notification of `a` itself, or spuriously: notifications of other objects that share the entry of the
table do not wake it. -/
theorem C43_only {val : Nat → Nat} {s s' : St ι} (hr : Reach val (some s)) {t w : ι} {c : Act} {a v : Nat} (hw : Asleep s w a v) (htw : t ≠ w) (hs : step s t c = .ok s') (hn : ¬ Asleep s' w a v) :
    inNotify (s.l t).pc = true ∧ (s.l t).a = a := by
  obtain ⟨h1, rfl, rfl⟩ := hw
  rcases step_other hs (fun h => htw h.symm) with h | ⟨h, h2, h3⟩
  · exact absurd ⟨by rw [h]; exact h1, by rw [h], by rw [h]⟩ hn
  · refine ⟨by rw [h2]; rfl, ?_⟩
    have := (reach_inv hr).noti t
    unfold Noti at this
    rw [h2] at this
    obtain ⟨A, u, B, _, h5, _, h6⟩ := this
    rw [h3] at h5
    injection h5 with h5; injection h5 with h5
    subst h5; exact h6.symm

/-- **C43 (`notify_one` wakes at most one thread).** After it has woken a thread, `notify_one` returns without waking another. -/
theorem C43_at_most_one {s s' : St ι} {t w : ι} {c : Act} {a v : Nat} (hw : Asleep s w a v) (htw : t ≠ w) (hs : step s t c = .ok s') (hn : ¬ Asleep s' w a v) (ho : (s.l t).all = false) :
    (s'.l t).pc = .nUnlock := by
  obtain ⟨h1, rfl, rfl⟩ := hw
  rcases step_other hs (fun h => htw h.symm) with h | ⟨h, h2, h3⟩
  · exact absurd ⟨by rw [h]; exact h1, by rw [h], by rw [h]⟩ hn
  · rcases step_self hs with h4 | ⟨h4, _⟩ | ⟨pc', cur', h4, h5⟩
    · exfalso
      cases c with
      | adv =>
        have hs : advStep s t = .ok s' := hs
        unfold advStep at hs
        simp only [h2, h3] at hs
        split at hs
        · injection hs with hs
          subst hs
          have := congrArg Th.pc h4
          simp only [upd_self, h2] at this
          split at this <;> cases this
        · cases hs
      | spurious => injection hs with hs; rw [if_neg (by rw [h2]; simp)] at hs; subst hs; exact hn ⟨h1, rfl, rfl⟩
      | wait a v => injection hs with hs; rw [if_neg (by rw [h2]; simp)] at hs; subst hs; exact hn ⟨h1, rfl, rfl⟩
      | store a v => injection hs with hs; rw [if_neg (by rw [h2]; simp)] at hs; subst hs; exact hn ⟨h1, rfl, rfl⟩
      | notify a v => injection hs with hs; rw [if_neg (by rw [h2]; simp)] at hs; subst hs; exact hn ⟨h1, rfl, rfl⟩
    · rw [h2] at h4; cases h4
    · unfold Edge at h5
      rw [h2] at h5
      simp only [ho] at h5
      rw [h4, h5]; rfl

/-- The thread is not asleep, or about to, in `wait(v)` on `a`. -/
def NoSleep (s : St ι) (w : ι) (a v : Nat) : Prop := (s.l w).a = a → (s.l w).v = v → (s.l w).pc ≠ .wSleep ∧ (s.l w).pc ≠ .asleep

theorem nosleep_step {s s' : St ι} {t w : ι} {c : Act} {a v : Nat} (hv : s.val a ≠ v) (h : NoSleep s w a v) (hs : step s t c = .ok s') : NoSleep s' w a v := by
  intro ha hv'
  by_cases hwt : w = t
  · subst hwt
    rcases step_self hs with h1 | ⟨_, h1⟩ | ⟨pc', cur', h1, h2⟩
    · rw [h1] at ha hv' ⊢; exact h ha hv'
    · rcases h1 with h1 | h1 <;> rw [h1] <;> simp
    · rw [h1] at ha hv' ⊢
      simp only [] at ha hv' ⊢
      obtain ⟨h3, h4⟩ := h ha hv'
      subst ha
      unfold Edge at h2
      cases hp : (s.l w).pc <;> rw [hp] at h2 h3 h4 <;> simp only [] at h2
      case wSleep => exact absurd rfl h3
      case asleep => exact absurd rfl h4
      case cmp =>
        rcases h2 with ⟨h2, _⟩ | ⟨_, h2⟩
        · exact absurd (h2.trans hv') hv
        · subst h2; simp
      case load =>
        rcases h2 with ⟨_, h2⟩ | ⟨_, h2⟩ <;> subst h2 <;> simp
      case nHead => rcases h2 with h2 | h2 <;> subst h2 <;> simp
      case nTest => rcases h2 with h2 | h2 | h2 <;> subst h2 <;> simp
      case nWake => subst h2; split <;> simp
      case wInit | wLink0 | wLink1 | wLink2 | wUnlink0 | wUnlink1 | wUnlock | nNext | nUnlock | wLock | wRelock | nLock => subst h2; simp
  · rcases step_other hs hwt with h1 | ⟨h1, _⟩
    · rw [h1] at ha hv' ⊢; exact h ha hv'
    · rw [h1] at hv' ha ⊢
      rw [wake_a] at ha
      have hv2 : (s.l w).v = v := by rw [← hv']; unfold wake; split <;> rfl
      obtain ⟨h3, h4⟩ := h ha hv2
      rw [show wake (s.l w) = s.l w from by unfold wake; rw [if_neg h4]]
      exact ⟨h3, h4⟩

theorem nosleep_path {s s' : St ι} {w : ι} {a v : Nat} (hp : Path (fun x => x.val a ≠ v) s s') (h : NoSleep s w a v) : s'.val a ≠ v ∧ NoSleep s' w a v := by
  induction hp with
  | refl h1 => exact ⟨h1, h⟩
  | step t c _ hs h2 ih => exact ⟨h2, nosleep_step ih.1 ih.2 hs⟩

omit [DecidableEq ι] in
/-- A thread that does not sleep while a notification of its object holds the lock is not about to. -/
theorem nosleep_returning {s : St ι} (h : Inv s) {n w : ι} {all : Bool} {a : Nat} (hn : Returning s n all a) (hw : (s.l w).pc ≠ .asleep) (v : Nat) : NoSleep s w a v := by
  intro ha _
  refine ⟨fun hp => ?_, hw⟩
  obtain ⟨h1, h2, _⟩ := hn
  have e1 := (h.lockI (entryOf a) n).2 ⟨by rw [h1]; rfl, by rw [h2]⟩
  have e2 := (h.lockI (entryOf a) w).2 ⟨by rw [hp]; rfl, by rw [ha]⟩
  rw [e1] at e2
  injection e2 with e2
  subst e2
  rw [h1] at hp; cases hp

/-- **C43 (`notify_all` loses no wake-up).** If the object at `a` holds a value other than `v` when `notify_all` ends and from then on, then no thread sleeps in `wait(v)` on it, then or later: neither one that
slept before, nor one that was between its comparison and its sleep, nor one that calls `wait(v)` afterwards. -/
theorem C43_notify_all {val : Nat → Nat} {s1 s2 : St ι} (hr : Reach val (some s1)) {n : ι} {a v : Nat} (hn : Returning s1 n true a) (hp : Path (fun s => s.val a ≠ v) s1 s2) (w : ι) : ¬ Asleep s2 w a v := by
  have hi := reach_inv hr
  have hw : NoSleep s1 w a v := by
    by_cases hz : (s1.l w).pc = .asleep
    · intro ha hv
      exfalso
      have hno := hi.noti n
      obtain ⟨h1, h2, h3⟩ := hn
      unfold Noti at hno
      rw [h1] at hno
      simp only [] at hno
      unfold Fin at hno
      rw [if_pos h3, h2] at hno
      exact hno w ((hi.memI _ w).2 ⟨by rw [hz]; rfl, by rw [ha]⟩) ha hz
    · exact nosleep_returning hi hn hz v
  rintro ⟨h1, h2, h3⟩
  exact ((nosleep_path hp hw).2 h2 h3).2 h1

/-- **C43 (`notify_one` loses no wake-up).** If a thread sleeps in a `wait` on the object at `a` when `notify_one` ends, then there is also a thread in a `wait` on `a` that is awake; it will not sleep again as
long as the object does not hold the value it waits for to change. -/
theorem C43_notify_one {val : Nat → Nat} {s1 : St ι} (hr : Reach val (some s1)) {n w : ι} {a v : Nat} (hn : Returning s1 n false a) (hw : Asleep s1 w a v) :
    ∃ u v', Waiting s1 u a v' ∧ (s1.l u).pc ≠ .asleep ∧ ∀ s2, Path (fun s => s.val a ≠ v') s1 s2 → ¬ Asleep s2 u a v' := by
  have hi := reach_inv hr
  have hno := hi.noti n
  obtain ⟨h1, h2, h3⟩ := id hn
  unfold Noti at hno
  rw [h1] at hno
  simp only [] at hno
  unfold Fin at hno
  rw [if_neg (by rw [h3]; simp), h2] at hno
  obtain ⟨hz, ha, hv⟩ := hw
  rcases hno with hno | ⟨u, hu1, hu2, hu3⟩
  · exact absurd ha (hno w ((hi.memI _ w).2 ⟨by rw [hz]; rfl, by rw [ha]⟩))
  · refine ⟨u, (s1.l u).v, ⟨?_, hu2, rfl⟩, hu3, fun s2 hp hc => ?_⟩
    · have := ((hi.memI _ u).1 hu1).1
      revert this; cases (s1.l u).pc <;> simp [linked, inWait]
    · exact ((nosleep_path hp (nosleep_returning hi hn hu3 _)).2 hc.2.1 hc.2.2).2 hc.1

end STL.AWait
