import Verif.AWait.Props

/-!
# C43: progress of `wait` and of the notifications; examples
-/

namespace STL.AWait
open STL.Conc

variable {ι : Type} [DecidableEq ι]

/-- **C43 (no deadlock).** When no thread can go on, every thread is outside of these functions or sleeps. -/
theorem C43_no_deadlock {val : Nat → Nat} {s : St ι} (hr : Reach val (some s)) (hq : ∀ t, advStep s t = .ok s) (t : ι) : (s.l t).pc = .idle ∨ (s.l t).pc = .asleep := by
  have hi := reach_inv hr
  have key : ∀ u, Blocked s u := by
    intro u
    rcases adv_self (hq u) with h | ⟨pc', cur', h1, h2⟩
    · exact h.2
    · exfalso
      have hpc := congrArg Th.pc h1
      simp only [] at hpc
      rw [← hpc] at h2
      unfold Edge at h2
      cases hp : (s.l u).pc <;> rw [hp] at h2 <;> simp at h2
      split at h2 <;> cases h2
  rcases key t with h | h | ⟨_, h⟩
  · exact .inl h
  · exact .inr h
  · exfalso
    cases hl : s.lock (entryOf (s.l t).a) with
    | none => exact h hl
    | some u =>
      have hc := ((hi.lockI _ u).1 hl).1
      rcases key u with h | h | ⟨h | h | h, _⟩ <;> rw [h] at hc <;> cases hc

/-- **C43 (after `notify_all`, every waiter returns).** If the object at `a` holds a value other than `v` from the end of a `notify_all` on, and no thread can go on any more, then no thread is in `wait(v)` on it. -/
theorem C43_all_return {val : Nat → Nat} {s1 s2 : St ι} (hr : Reach val (some s1)) {n : ι} {a v : Nat} (hn : Returning s1 n true a) (hp : Path (fun s => s.val a ≠ v) s1 s2)
    (hq : ∀ t, advStep s2 t = .ok s2) (w : ι) : ¬ Waiting s2 w a v := by
  have hr2 : Reach val (some s2) := by
    clear hq
    induction hp with
    | refl _ => exact hr
    | step t c _ hs _ ih => have := Reach.step t c ih; rw [hs] at this; exact this
  rintro ⟨h1, h2, h3⟩
  rcases C43_no_deadlock hr2 hq w with h | h
  · rw [h] at h1; cases h1
  · exact C43_notify_all hr hn hp w ⟨h, h2, h3⟩

/-- Steps to the return of a `wait` whose value has changed. -/
def wsteps : Pc → Nat
  | .load => 1 | .wUnlock => 2 | .wUnlink1 => 3 | .wUnlink0 => 4 | .cmp => 5 | .wRelock => 6 | .wLink2 => 6 | .wLink1 => 7 | .wLink0 => 8 | .wInit => 9 | .wLock => 10
  | _ => 0

theorem adv_val {s s' : St ι} {t : ι} (hs : advStep s t = .ok s') : s'.val = s.val := by
  unfold advStep at hs
  simp only [] at hs
  cases hp : (s.l t).pc <;> rw [hp] at hs <;> simp only [] at hs
  case load | cmp | wInit | wLink0 | wSleep | wUnlock | nUnlock | asleep | idle | nHead => injection hs with hs; subst hs; rfl
  case wLock | wRelock | nLock =>
    injection hs with hs
    subst hs
    unfold acquire
    split <;> rfl
  case wLink1 | wUnlink0 | wUnlink1 | wLink2 | nNext =>
    obtain ⟨m, _, hs⟩ := bind_ok' hs
    injection hs with hs
    subst hs
    rfl
  case nTest =>
    split at hs
    · injection hs with hs
      subst hs
      rfl
    · obtain ⟨m, _, hs⟩ := bind_ok' hs
      injection hs with hs
      subst hs
      rfl
  case nWake =>
    split at hs
    · split at hs
      · injection hs with hs
        subst hs
        rfl
      · cases hs
    · cases hs

theorem wait_returns_aux {s : St ι} {w : ι} {a v : Nat} (k : Nat) (hi : Inv s) (hk : wsteps (s.l w).pc = k) (hw : Waiting s w a v) (hn : NoSleep s w a v) (hv : s.val a ≠ v)
    (hl : s.lock (entryOf a) = none ∨ s.lock (entryOf a) = some w) : ∃ s', run s (List.replicate k (w, .adv)) = .ok s' ∧ (s'.l w).pc = .idle := by
  induction k using Nat.strong_induction_on generalizing s with
  | _ k ih =>
    obtain ⟨s', h1, h2⟩ := hi.adv w
    obtain ⟨hw1, hw2, hw3⟩ := hw
    obtain ⟨hn1, hn2⟩ := hn hw2 hw3
    have hval := adv_val h1
    have hn' : NoSleep s' w a v := nosleep_step (c := .adv) hv (fun _ _ => ⟨hn1, hn2⟩) h1
    rcases adv_self h1 with ⟨_, h3⟩ | ⟨pc', cur', h3, h4⟩
    · exfalso
      rcases h3 with h3 | h3 | ⟨h3, h4⟩
      · rw [h3] at hw1; cases hw1
      · exact hn2 h3
      · rcases hl with hl | hl
        · rw [hw2] at h4; exact h4 hl
        · have := ((hi.lockI _ w).1 hl).1
          rcases h3 with h3 | h3 | h3 <;> rw [h3] at this <;> cases this
    · have hpc : (s'.l w).pc = pc' := by rw [h3]
      have ha' : (s'.l w).a = a := by rw [h3]; exact hw2
      have hv' : (s'.l w).v = v := by rw [h3]; exact hw3
      have hdec : k = wsteps pc' + 1 ∧ (pc' = .idle ∨ (inWait pc' = true ∧ (crit pc' = true ∨ pc' = .load))) := by
        unfold Edge at h4
        rw [hw2, hw3] at h4
        subst hk
        cases hp : (s.l w).pc <;> rw [hp] at h4 hw1 hn1 hn2 <;> simp only [] at h4
        case asleep => exact absurd rfl hn2
        case wSleep => exact absurd rfl hn1
        case load | cmp =>
          rcases h4 with ⟨h4, _⟩ | ⟨_, h4⟩
          · exact absurd h4 hv
          · subst h4; simp [wsteps, inWait, crit]
        case wLock | wRelock | wInit | wLink0 | wLink1 | wLink2 | wUnlink0 | wUnlink1 | wUnlock => subst h4; simp [wsteps, inWait, crit]
        all_goals cases hw1
      obtain ⟨hd1, hd2⟩ := hdec
      subst hd1
      rcases hd2 with hd2 | ⟨hd2, hd3⟩
      · subst hd2
        refine ⟨s', ?_, hpc⟩
        show step s w .adv >>= _ = _
        rw [show step s w .adv = advStep s w from rfl, h1]; rfl
      · rcases hd3 with hd3 | hd3
        · obtain ⟨s'', h5, h6⟩ := ih (wsteps pc') (by omega) h2 (by rw [hpc]) ⟨by rw [hpc]; exact hd2, ha', hv'⟩ hn' (by rw [hval]; exact hv)
            (.inr ((h2.lockI _ w).2 ⟨by rw [hpc]; exact hd3, by rw [ha']⟩))
          refine ⟨s'', ?_, h6⟩
          rw [List.replicate_succ]
          show step s w .adv >>= _ = _
          rw [show step s w .adv = advStep s w from rfl, h1]
          exact h5
        · subst hd3
          obtain ⟨s'', h5, h6⟩ := h2.adv w
          have h7 : (s''.l w).pc = .idle := by
            rcases adv_self h5 with ⟨_, h8⟩ | ⟨p, c, h8, h9⟩
            · exfalso
              rcases h8 with h8 | h8 | ⟨h8 | h8 | h8, _⟩ <;> rw [hpc] at h8 <;> cases h8
            · unfold Edge at h9
              rw [hpc, ha', hv'] at h9
              rcases h9 with ⟨h9, _⟩ | ⟨_, h9⟩
              · rw [hval] at h9; exact absurd h9 hv
              · rw [h8, h9]
          refine ⟨s'', ?_, h7⟩
          show step s w .adv >>= _ = _
          rw [show step s w .adv = advStep s w from rfl, h1]
          show step s' w .adv >>= _ = _
          rw [show step s' w .adv = advStep s' w from rfl, h5]
          rfl

/-- **C43 (`wait` returns after a change).** A thread in `wait(v)` on the object at `a` that does not sleep returns after finitely many steps if the object holds a value other than `v` and the entry of the table
is not locked by another thread. -/
theorem C43_wait_returns {val : Nat → Nat} {s : St ι} (hr : Reach val (some s)) {w : ι} {a v : Nat} (hw : Waiting s w a v) (hn : (s.l w).pc ≠ .wSleep ∧ (s.l w).pc ≠ .asleep) (hv : s.val a ≠ v)
    (hl : s.lock (entryOf a) = none ∨ s.lock (entryOf a) = some w) : ∃ k s', run s (List.replicate k (w, .adv)) = .ok s' ∧ (s'.l w).pc = .idle := by
  obtain ⟨s', h⟩ := wait_returns_aux _ (reach_inv hr) rfl hw (fun _ _ => hn) hv hl
  exact ⟨_, s', h⟩

/-- The part of the list that is left. -/
def rem (L : List ι) : Option (Ptr ι) → Nat
  | some (.ctx u) => (L.dropWhile (fun x => decide (x ≠ u))).length
  | _ => 0

theorem rem_le (L : List ι) (c : Option (Ptr ι)) : rem L c ≤ L.length := by
  unfold rem
  split
  · exact (List.dropWhile_sublist _).length_le
  · exact Nat.zero_le _

theorem rem_split {A B : List ι} {u : ι} (h : (A ++ u :: B).Nodup) : rem (A ++ u :: B) (some (.ctx u)) = B.length + 1 := by
  have hA : ∀ x ∈ A, x ≠ u := by
    intro x hx hc
    rw [List.nodup_append] at h
    exact h.2.2 x hx u (by simp) hc
  unfold rem
  simp only []
  rw [List.dropWhile_append_of_pos (by simpa using hA), List.dropWhile_cons_of_neg (by simp)]
  rfl

/-- Steps to the return of a notification that holds the lock. -/
def nsteps (s : St ι) (n : ι) : Nat :=
  match (s.l n).pc with
  | .nHead => 3 * (s.ord (entryOf (s.l n).a)).length + 4
  | .nTest => 3 * rem (s.ord (entryOf (s.l n).a)) (s.l n).cur + 3
  | .nWake => 3 * rem (s.ord (entryOf (s.l n).a)) (s.l n).cur + 2
  | .nNext => 3 * rem (s.ord (entryOf (s.l n).a)) (s.l n).cur + 1
  | .nUnlock => 1
  | _ => 0

/-- A notification that holds the lock. -/
def inLoop : Pc → Bool
  | .nHead | .nTest | .nWake | .nNext | .nUnlock => true
  | _ => false

theorem nsteps_own {s s' : St ι} (h : Inv s) {n : ι} (hp : inLoop (s.l n).pc = true) (hs : advStep s n = .ok s') : nsteps s' n < nsteps s n ∧ ((s'.l n).pc = .idle ∨ inLoop (s'.l n).pc = true) := by
  have hnoti := h.noti n
  unfold Noti at hnoti
  unfold advStep at hs
  simp only [] at hs
  cases hq : (s.l n).pc <;> rw [hq] at hs hp hnoti <;> simp only [] at hs hnoti
  case nHead =>
    injection hs with hs
    subst hs
    unfold nsteps
    simp only [upd_self, hq]
    have := rem_le (s.ord (entryOf (s.l n).a)) (s.mem (Ptr.head (entryOf (s.l n).a))).next
    by_cases hx : (s.mem (Ptr.head (entryOf (s.l n).a))).next = none
    · simp only [hx, if_true]; exact ⟨by omega, .inr rfl⟩
    · simp only [if_neg hx]; exact ⟨by omega, .inr rfl⟩
  case nTest =>
    split at hs
    · injection hs with hs
      subst hs
      unfold nsteps goto
      simp only [upd_self, hq]
      exact ⟨by omega, .inr rfl⟩
    · obtain ⟨m, _, hs⟩ := bind_ok' hs
      injection hs with hs
      subst hs
      unfold nsteps goto
      simp only [upd_self, hq]
      by_cases hx : m.storage = some (s.l n).a
      · simp only [if_pos hx]; exact ⟨by omega, .inr rfl⟩
      · simp only [if_neg hx]; exact ⟨by omega, .inr rfl⟩
  case nWake =>
    split at hs
    · split at hs
      · injection hs with hs
        subst hs
        unfold nsteps
        simp only [upd_self, hq]
        by_cases hx : (s.l n).all = true
        · simp only [if_pos hx]; exact ⟨by omega, .inr rfl⟩
        · simp only [if_neg hx]; exact ⟨by omega, .inr rfl⟩
      · cases hs
    · cases hs
  case nNext =>
    obtain ⟨A, u, B, h1, h2, h3⟩ := hnoti
    rw [h2] at hs
    obtain ⟨m, hm, hs⟩ := bind_ok' hs
    injection hs with hs
    subst hs
    unfold rdc at hm
    simp only [] at hm
    split at hm
    · injection hm with hm
      subst hm
      unfold nsteps
      simp only [upd_self, hq]
      have hnd := h.nodup (entryOf (s.l n).a)
      rw [h1] at hnd
      have hu : u ∈ s.ord (entryOf (s.l n).a) := by rw [h1]; simp
      have hlt : s.lock (entryOf (s.l n).a) = some n := (h.lockI _ n).2 ⟨by rw [hq]; rfl, rfl⟩
      have hsh := h.shape (entryOf (s.l n).a)
      unfold Shape at hsh
      rw [hlt] at hsh
      simp only [Option.map_some] at hsh
      rw [hq] at hsh
      have hr := (ru_ring hsh hu).1
      rw [h1, List.map_append, List.map_cons] at hr
      have hr' := (path_append.1 hr).2
      rw [h1, h2, rem_split hnd]
      refine ⟨?_, .inr rfl⟩
      have : rem (A ++ u :: B) (s.mem (.ctx u)).next ≤ B.length := by
        cases B with
        | nil =>
          have hx : (s.mem (.ctx u)).next = some (.head (entryOf (s.l n).a)) := hr'
          rw [hx]; simp [rem]
        | cons v B =>
          have hx : (s.mem (.ctx u)).next = some (.ctx v) := hr'.1
          rw [hx]
          have e : A ++ u :: v :: B = (A ++ [u]) ++ v :: B := by simp
          rw [e] at hnd ⊢
          rw [rem_split hnd]
          simp
      omega
    · cases hm
  case nUnlock =>
    injection hs with hs
    subst hs
    unfold nsteps releaseTo
    simp only [upd_self, hq]
    exact ⟨by omega, .inl trivial⟩
  all_goals cases hp

/-- The list of an entry changes only by a thread that holds its lock. -/
theorem ord_other {s s' : St ι} (h : Inv s) {t n : ι} {c : Act} (hn : crit (s.l n).pc = true) (ht : t ≠ n) (hs : step s t c = .ok s') :
    s'.ord (entryOf (s.l n).a) = s.ord (entryOf (s.l n).a) := by
  have hne : crit (s.l t).pc = true → entryOf (s.l n).a ≠ entryOf (s.l t).a := by
    intro hc he
    have e1 := (h.lockI (entryOf (s.l n).a) n).2 ⟨hn, rfl⟩
    have e2 := (h.lockI (entryOf (s.l n).a) t).2 ⟨hc, he.symm⟩
    rw [e1] at e2
    injection e2 with e2
    exact ht e2.symm
  cases c with
  | wait a v => injection hs with hs; subst hs; split <;> rfl
  | store a v => injection hs with hs; subst hs; split <;> rfl
  | notify a v => injection hs with hs; subst hs; split <;> rfl
  | spurious => injection hs with hs; subst hs; split <;> rfl
  | adv =>
    have hs : advStep s t = .ok s' := hs
    unfold advStep at hs
    simp only [] at hs
    cases hp : (s.l t).pc <;> rw [hp] at hs hne <;> simp only [] at hs
    case load | cmp | wInit | wLink0 | wSleep | wUnlock | nUnlock | asleep | idle | nHead => injection hs with hs; subst hs; rfl
    case wLock | wRelock | nLock =>
      injection hs with hs
      subst hs
      unfold acquire
      split <;> rfl
    case wLink1 | wUnlink0 | nNext =>
      obtain ⟨m, _, hs⟩ := bind_ok' hs
      injection hs with hs
      subst hs
      rfl
    case wLink2 | wUnlink1 =>
      obtain ⟨m, _, hs⟩ := bind_ok' hs
      injection hs with hs
      subst hs
      exact upd_ne _ _ (hne rfl)
    case nTest =>
      split at hs
      · injection hs with hs
        subst hs
        rfl
      · obtain ⟨m, _, hs⟩ := bind_ok' hs
        injection hs with hs
        subst hs
        rfl
    case nWake =>
      split at hs
      · split at hs
        · injection hs with hs
          subst hs
          rfl
        · cases hs
      · cases hs

theorem notify_returns_aux {n : ι} (sch : List (ι × Act)) : ∀ {s : St ι}, Inv s → ((s.l n).pc = .idle ∨ inLoop (s.l n).pc = true) → ∀ s', run s sch = .ok s' →
    nsteps s n ≤ sch.countP (fun p => decide (p.1 = n) && (match p.2 with | .adv => true | _ => false)) → ∃ pre s'', pre <+: sch ∧ run s pre = .ok s'' ∧ (s''.l n).pc = .idle := by
  induction sch with
  | nil =>
    intro s hi hp s' _ hc
    rcases hp with hp | hp
    · exact ⟨[], s, List.prefix_refl _, rfl, hp⟩
    · exfalso
      rw [List.countP_nil] at hc
      unfold nsteps at hc
      cases hq : (s.l n).pc <;> rw [hq] at hp hc <;> simp at hc <;> cases hp
  | cons q r ih =>
    obtain ⟨t, c⟩ := q
    intro s hi hp s' hs hc
    rcases hp with hp | hp
    · exact ⟨[], s, List.nil_prefix, rfl, hp⟩
    · obtain ⟨s1, h1, h2⟩ := hi.step t c
      have hs1 : run s1 r = .ok s' := by
        have : step s t c >>= (fun x => run x r) = .ok s' := hs
        rw [h1] at this; exact this
      have main : ((s1.l n).pc = .idle ∨ inLoop (s1.l n).pc = true) ∧ nsteps s1 n ≤ r.countP (fun p => decide (p.1 = n) && (match p.2 with | .adv => true | _ => false)) := by
        have hcr : crit (s.l n).pc = true := by revert hp; cases (s.l n).pc <;> simp [inLoop, crit]
        have hkeep : s1.l n = s.l n → s1.ord (entryOf (s.l n).a) = s.ord (entryOf (s.l n).a) → nsteps s1 n = nsteps s n := by
          intro e1 e2
          unfold nsteps
          rw [e1, e2]
        rw [List.countP_cons] at hc
        by_cases htn : t = n
        · subst htn
          cases c with
          | adv =>
            obtain ⟨h3, h4⟩ := nsteps_own hi hp h1
            simp only [decide_true, Bool.and_self, if_true] at hc
            exact ⟨h4, by omega⟩
          | wait a v =>
            have : s1 = s := by
              injection h1 with h1
              rw [if_neg (by intro hx; rw [hx] at hp; cases hp)] at h1; exact h1.symm
            subst this
            exact ⟨.inr hp, by simpa using hc⟩
          | store a v =>
            have : s1 = s := by
              injection h1 with h1
              rw [if_neg (by intro hx; rw [hx] at hp; cases hp)] at h1; exact h1.symm
            subst this
            exact ⟨.inr hp, by simpa using hc⟩
          | notify a v =>
            have : s1 = s := by
              injection h1 with h1
              rw [if_neg (by intro hx; rw [hx] at hp; cases hp)] at h1; exact h1.symm
            subst this
            exact ⟨.inr hp, by simpa using hc⟩
          | spurious =>
            have : s1 = s := by
              injection h1 with h1
              rw [if_neg (by intro hx; rw [hx] at hp; cases hp)] at h1; exact h1.symm
            subst this
            exact ⟨.inr hp, by simpa using hc⟩
        · have e1 : s1.l n = s.l n := by
            rcases step_other h1 (fun h => htn h.symm) with h | ⟨h, _⟩
            · exact h
            · rw [h, wake_of_crit hcr]
          have e2 := ord_other hi hcr htn h1
          rw [hkeep e1 e2, e1]
          refine ⟨.inr hp, ?_⟩
          have : decide (t = n) = false := by simp [htn]
          simpa [this] using hc
      obtain ⟨pre, s'', h3, h4, h5⟩ := ih h2 main.1 s' hs1 main.2
      refine ⟨(t, c) :: pre, s'', ?_, ?_, h5⟩
      · obtain ⟨x, hx⟩ := h3
        exact ⟨x, by rw [← hx]; rfl⟩
      · show step s t c >>= _ = _
        rw [h1]; exact h4

/-- **C43 (the notifications return).** A notification that has the lock of the entry returns within a bounded number of its own steps, whatever the other threads do meanwhile. -/
theorem C43_notify_returns {val : Nat → Nat} {s : St ι} (hr : Reach val (some s)) {n : ι} (hn : inNotify (s.l n).pc = true) (hl : (s.l n).pc ≠ .nLock) :
    ∃ k, ∀ sch s', run s sch = .ok s' → k ≤ sch.countP (fun p => decide (p.1 = n) && (match p.2 with | .adv => true | _ => false)) →
      ∃ pre s'', pre <+: sch ∧ run s pre = .ok s'' ∧ (s''.l n).pc = .idle := by
  refine ⟨nsteps s n, fun sch s' h1 h2 => notify_returns_aux sch (reach_inv hr) (.inr ?_) s' h1 h2⟩
  revert hn hl; cases (s.l n).pc <;> simp [inNotify, inLoop]

/-! ### Executions -/

theorem reach_run {val : Nat → Nat} (sch : List (ι × Act)) : ∀ {s s' : St ι}, Reach val (some s) → run s sch = .ok s' → Reach val (some s') := by
  induction sch with
  | nil => intro s s' h hs; injection hs with hs; subst hs; exact h
  | cons q r ih =>
    obtain ⟨t, c⟩ := q
    intro s s' h hs
    obtain ⟨s1, h1, h2⟩ := bind_ok' (show step s t c >>= (fun x => run x r) = .ok s' from hs)
    have := Reach.step t c h
    rw [h1] at this
    exact ih this h2

/-- Threads 1 and 2 sleep in `wait(0)` on the object at 5, thread 3 in `wait(0)` on the object at 260, which has the same entry. -/
def slept : List (Nat × Act) :=
  (1, .wait 5 0) :: List.replicate 8 (1, .adv) ++ (2, .wait 5 0) :: List.replicate 8 (2, .adv) ++ (3, .wait 260 0) :: List.replicate 8 (3, .adv)

def pcs (o : R (St Nat)) (ts : List Nat) : Option (List Pc) :=
  match o with
  | .ok s => some (ts.map fun t => (s.l t).pc)
  | .error _ => none

example : entryOf 5 = entryOf 260 := by decide +kernel

instance (s : St ι) (w : ι) (a v : Nat) : Decidable (Asleep s w a v) := inferInstanceAs (Decidable (_ ∧ _ ∧ _))
instance (s : St ι) (w : ι) (a v : Nat) : Decidable (Waiting s w a v) := inferInstanceAs (Decidable (_ ∧ _ ∧ _))
instance (s : St ι) (w : ι) (all : Bool) (a : Nat) : Decidable (Returning s w all a) := inferInstanceAs (Decidable (_ ∧ _ ∧ _))

theorem ex_of_run (val : Nat → Nat) (sch : List (Nat × Act)) (P : St Nat → Prop) [DecidablePred P] (h : (match run (init val) sch with | .ok s => decide (P s) | .error _ => false) = true) :
    ∃ s, Reach val (some s) ∧ P s := by
  cases hr : run (init val : St Nat) sch with
  | error e => rw [hr] at h; cases h
  | ok s => rw [hr] at h; exact ⟨s, reach_run sch .init hr, of_decide_eq_true h⟩

/-- The hypotheses of `C43_notify_one`: thread 0 is about to return from `notify_one` after a store, thread 1 is awake, thread 2 sleeps. -/
example : ∃ s, Reach (fun _ => 0) (some s) ∧ Returning s 0 false 5 ∧ Asleep s 2 5 0 ∧ Waiting s 1 5 0 ∧ s.val 5 ≠ 0 ∧ (s.l 1).pc = .wRelock :=
  ex_of_run _ (slept ++ (0, .store 5 1) :: (0, .notify false 5) :: List.replicate 4 (0, .adv)) _ (by decide +kernel)

/-- The hypotheses of `C43_notify_all`, `C43_all_return`: threads 1 and 2 are awake, thread 3 still sleeps. -/
example : ∃ s, Reach (fun _ => 0) (some s) ∧ Returning s 0 true 5 ∧ s.val 5 ≠ 0 ∧ Waiting s 1 5 0 ∧ Waiting s 2 5 0 ∧ Asleep s 3 260 0 ∧ (s.l 1).pc = .wRelock ∧ (s.l 2).pc = .wRelock :=
  ex_of_run _ (slept ++ (0, .store 5 1) :: (0, .notify true 5) :: List.replicate 11 (0, .adv)) _ (by decide +kernel)

/-- The hypotheses of `C43_wait_returns`, and the run it promises. -/
example : ∃ s, Reach (fun _ => 0) (some s) ∧ Waiting s 1 5 0 ∧ (s.l 1).pc = .wRelock ∧ s.val 5 ≠ 0 ∧ s.lock (entryOf 5) = none :=
  ex_of_run _ (slept ++ (0, .store 5 1) :: (0, .notify true 5) :: List.replicate 12 (0, .adv)) _ (by decide +kernel)

/-- The hypotheses of `C43_only`, `C43_at_most_one`, `C43_notify_returns`: `notify_one` is about to wake thread 1. -/
example : ∃ s, Reach (fun _ => 0) (some s) ∧ Asleep s 1 5 0 ∧ (s.l 0).pc = .nWake ∧ (s.l 0).all = false :=
  ex_of_run _ (slept ++ (0, .store 5 1) :: (0, .notify false 5) :: List.replicate 3 (0, .adv)) _ (by decide +kernel)

/-- The hypothesis of `C43_return`. -/
example : ∃ s, Reach (fun _ => 0) (some s) ∧ Waiting s 1 5 0 ∧ (s.l 1).pc = .load ∧ s.val 5 ≠ 0 :=
  ex_of_run _ (slept ++ (0, .store 5 1) :: (0, .notify true 5) :: List.replicate 12 (0, .adv) ++ List.replicate 5 (1, .adv)) _ (by decide +kernel)

example : pcs (run (init fun _ => 0) slept) [1, 2, 3] = some [.asleep, .asleep, .asleep] := by decide +kernel

/-- **C43 (two `notify_one` for one thread).** Two threads sleep in `wait(0)` on an object, then the object is set to 1 and `notify_one` is called twice: both calls may notify the same thread (its context stays in the
list until it has the lock again), and the other one sleeps on although nobody will notify it any more. -/
theorem C43_notify_one_repeats : pcs (run (init fun _ => 0) (slept ++ (0, .store 5 1) :: (0, .notify false 5) :: List.replicate 5 (0, .adv) ++ (0, .notify false 5) :: List.replicate 5 (0, .adv) ++
    List.replicate 6 (1, .adv))) [0, 1, 2] = some [.idle, .idle, .asleep] := by decide +kernel

end STL.AWait
