import Mathlib.Data.List.Nodup
import Mathlib.Data.List.Range
import Verif.Locks.Multi

/-!
# `std::lock` and `std::try_lock`: all or nothing, no deadlock
-/

namespace STL.Locks.Multi
open STL STL.Conc

variable {ι κ : Type} [DecidableEq ι] [DecidableEq κ]

/-- The indices of the locks that the call holds. -/
def HeldI (x : Loc κ) (i : Nat) : Prop :=
  match x.pc with
  | .idle | .hard _ => False
  | .tr none k => i < k
  | .tr (some h) k => i < k ∨ i = h
  | .undo us _ => i ∈ us
  | .fin => i < x.ms.length

def Held (x : Loc κ) (m : κ) : Prop := ∃ i, HeldI x i ∧ x.ms[i]? = some m

def LocOK (x : Loc κ) : Prop :=
  match x.pc with
  | .idle => ∀ ms b r, x.last = some (ms, b, r) → (r = .ok → ∀ m ∈ ms, m ∈ x.pre) ∧ (r ≠ .ok → ∀ m ∈ ms, m ∉ x.pre) ∧ (∀ k, r = .fail k → b = true ∧ k < ms.length)
  | .hard h => h < x.ms.length ∧ x.isTry = false
  | .tr h k => k < x.ms.length ∧ h ≠ some k ∧ (∀ h', h = some h' → h' < x.ms.length) ∧ h.isSome = !x.isTry
  | .undo us n => us.Nodup ∧ (∀ u ∈ us, u < x.ms.length) ∧ (∀ k, n = .again k → k < x.ms.length ∧ x.isTry = false) ∧ (∀ r, n = .ret r → r ≠ .ok ∧ ∀ k, r = .fail k → x.isTry = true ∧ k < x.ms.length)
  | .fin => True

structure Inv (s : St ι κ) : Prop where
  own : ∀ t m, s.owner m = some t ↔ m ∈ (s.l t).pre ∨ Held (s.l t) m
  arg : ∀ t, (s.l t).pc ≠ .idle → (s.l t).ms.Nodup ∧ ∀ m ∈ (s.l t).ms, m ∉ (s.l t).pre
  loc : ∀ t, LocOK (s.l t)

theorem mem_unlockRange {a b i : Nat} : i ∈ unlockRange a b ↔ a ≤ i ∧ i < b := by simp [unlockRange]; tauto

theorem nodup_unlockRange (a b : Nat) : (unlockRange a b).Nodup := List.Nodup.filter _ List.nodup_range

def HB (h : Option Nat) (k i : Nat) : Prop :=
  match h with
  | none => i < k
  | some h => i < k ∨ i = h

/-- The guards give back what the call holds. -/
theorem mem_backout {h : Option Nat} {k i : Nat} (hk : h ≠ some k) : i ∈ backout h k ↔ HB h k i := by
  cases h with
  | none => simp [backout, HB, mem_unlockRange]
  | some h =>
    have : h ≠ k := fun e => hk (by rw [e])
    simp only [backout]
    split
    · simp only [List.mem_append, HB, mem_unlockRange]; omega
    · simp only [List.mem_append, HB, mem_unlockRange]; omega

theorem nodup_backout {h : Option Nat} {k : Nat} : (backout h k).Nodup := by
  cases h with
  | none => exact nodup_unlockRange _ _
  | some h =>
    simp only [backout]
    split
    · rw [List.nodup_append']
      refine ⟨nodup_unlockRange _ _, nodup_unlockRange _ _, ?_⟩
      intro i; simp only [mem_unlockRange]; omega
    · rw [List.nodup_append']
      refine ⟨nodup_unlockRange _ _, nodup_unlockRange _ _, ?_⟩
      intro i; simp only [mem_unlockRange]; omega

theorem nodup_get {l : List κ} (h : l.Nodup) {i j : Nat} {m : κ} (hi : l[i]? = some m) (hj : l[j]? = some m) : i = j := by
  rw [List.getElem?_eq_some_iff] at hi hj
  obtain ⟨h1, e1⟩ := hi
  obtain ⟨h2, e2⟩ := hj
  exact (List.Nodup.getElem_inj_iff h).1 (e1.trans e2.symm)

/-- One step of `t`, which changes the owner of at most one mutex. -/
theorem Inv.upd1 {s s' : St ι κ} (h : Inv s) (t : ι) {x' : Loc κ} (hl : s'.l = upd s.l t x')
    (ho : ∀ m u, u ≠ t → (s'.owner m = some u ↔ s.owner m = some u)) (ho' : ∀ m, s'.owner m = some t ↔ m ∈ x'.pre ∨ Held x' m)
    (ha : x'.pc ≠ .idle → x'.ms.Nodup ∧ ∀ m ∈ x'.ms, m ∉ x'.pre) (hloc : LocOK x') : Inv s' := by
  have ne : ∀ {u}, u ≠ t → s'.l u = s.l u := fun hut => by rw [hl, upd_ne _ _ hut]
  have eq : s'.l t = x' := by rw [hl, upd_self]
  refine ⟨fun u m => ?_, fun u => ?_, fun u => ?_⟩ <;> by_cases hut : u = t
  · subst hut; rw [eq]; exact ho' m
  · rw [ne hut, ho m u hut]; exact h.own u m
  · subst hut; rw [eq]; exact ha
  · rw [ne hut]; exact h.arg u
  · subst hut; rw [eq]; exact hloc
  · rw [ne hut]; exact h.loc u

theorem inv_init : Inv (init : St ι κ) := by
  refine ⟨fun t m => ?_, fun t h => absurd rfl h, fun t => ?_⟩
  · simp [init, Held, HeldI]
  · simp [init, LocOK]

omit [DecidableEq ι] in
theorem upd_owner {o : κ → Option ι} {m m' : κ} {v : Option ι} : upd o m v m' = if m' = m then v else o m' := rfl

/-- A lock is taken. -/
theorem take_inv {s : St ι κ} (h : Inv s) {t : ι} {m : κ} {i : Nat} {p : PC} (hi : (s.l t).ms[i]? = some m) (hf : s.owner m = none) (hid : (s.l t).pc ≠ .idle) (hp : p ≠ .idle)
    (hH : ∀ j, j < (s.l t).ms.length → (HeldI { s.l t with pc := p } j ↔ HeldI (s.l t) j ∨ j = i)) (hloc : LocOK { s.l t with pc := p }) : Inv (setPC (take s t m) t p) := by
  refine h.upd1 t (x' := { s.l t with pc := p }) rfl ?_ ?_ (fun _ => h.arg t hid) hloc
  · intro m' u hu
    simp only [setPC, take, upd_owner]
    split
    · rename_i e; subst e; rw [hf]; simp [Ne.symm hu]
    · rfl
  · intro m'
    simp only [setPC, take, upd_owner]
    have h1 := h.own t m'
    split
    · rename_i e; subst e
      simp only [true_iff]
      right
      have hlt : i < (s.l t).ms.length := by rw [List.getElem?_eq_some_iff] at hi; exact hi.1
      exact ⟨i, (hH i hlt).2 (.inr rfl), hi⟩
    · rename_i hne
      rw [h1]
      simp only [Held]
      constructor
      · rintro (e | ⟨j, hj, e⟩)
        · exact .inl e
        · refine .inr ⟨j, ?_, e⟩
          have hlt : j < (s.l t).ms.length := by rw [List.getElem?_eq_some_iff] at e; exact e.1
          exact (hH j hlt).2 (.inl hj)
      · rintro (e | ⟨j, hj, e⟩)
        · exact .inl e
        · have hlt : j < (s.l t).ms.length := by rw [List.getElem?_eq_some_iff] at e; exact e.1
          rcases (hH j hlt).1 hj with q | q
          · exact .inr ⟨j, q, e⟩
          · subst q; rw [hi] at e; exact absurd (Option.some.inj e).symm hne

/-- Only the position changes. -/
theorem move_inv {s : St ι κ} (h : Inv s) {t : ι} {p : PC} (hid : (s.l t).pc ≠ .idle) (hH : ∀ j, HeldI { s.l t with pc := p } j ↔ HeldI (s.l t) j) (hloc : LocOK { s.l t with pc := p }) :
    Inv (setPC s t p) := by
  refine h.upd1 t (x' := { s.l t with pc := p }) rfl (fun _ _ _ => Iff.rfl) ?_ (fun _ => h.arg t hid) hloc
  intro m
  rw [show (setPC s t p).owner m = s.owner m from rfl, h.own t m]
  simp only [Held, hH]

/-- The call ends. -/
theorem ret_inv {s : St ι κ} (h : Inv s) {t : ι} {r : Res} (hid : (s.l t).pc ≠ .idle) (h1 : r = .ok → ∀ m, Held (s.l t) m ↔ m ∈ (s.l t).ms) (h2 : r ≠ .ok → ∀ m, ¬Held (s.l t) m)
    (h3 : ∀ k, r = .fail k → (s.l t).isTry = true ∧ k < (s.l t).ms.length) : Inv (retStep s t r) := by
  have ha := h.arg t hid
  refine h.upd1 t rfl (fun _ _ _ => Iff.rfl) ?_ (fun e => absurd rfl e) ?_
  · intro m
    rw [show (retStep s t r).owner m = s.owner m from rfl, h.own t m]
    simp only [Held, HeldI, false_and, exists_false, or_false]
    by_cases hr : r = .ok
    · rw [if_pos hr, List.mem_append, ← h1 hr m]; exact or_comm
    · rw [if_neg hr]
      exact ⟨fun e => e.resolve_right (h2 hr m), .inl⟩
  · simp only [LocOK, Option.some.injEq, Prod.mk.injEq]
    rintro ms b r' ⟨rfl, rfl, rfl⟩
    refine ⟨fun hr => ?_, fun hr => ?_, h3⟩
    · rw [if_pos hr]; intro m hm; exact List.mem_append_left _ hm
    · rw [if_neg hr]; exact ha.2

theorem nextPC_ok {x : Loc κ} {h : Option Nat} {k : Nat} (hk : k ≤ x.ms.length) (h1 : ∀ h', h = some h' → h' < x.ms.length) (h2 : h.isSome = !x.isTry) :
    nextPC h k x.ms.length ≠ .idle ∧ LocOK { x with pc := nextPC h k x.ms.length } ∧
    ∀ j, j < x.ms.length → (HeldI { x with pc := nextPC h k x.ms.length } j ↔ (j < k ∨ h = some j)) := by
  unfold nextPC
  simp only
  have hk2 : ∀ j, j < (if h = some k then k + 1 else k) ∨ h = some j ↔ j < k ∨ h = some j := by
    intro j
    split
    · rename_i e; rw [e]; simp only [Option.some.injEq]; omega
    · rfl
  have hne : h ≠ some (if h = some k then k + 1 else k) := by
    split
    · rename_i e; rw [e]; simp
    · assumption
  generalize (if h = some k then k + 1 else k) = k' at hk2 hne ⊢
  split
  · rename_i h3
    refine ⟨by simp, ?_, ?_⟩
    · simp only [LocOK]; exact ⟨h3, hne, h1, h2⟩
    · intro j hj
      rw [← hk2]
      cases h with
      | none => simp [HeldI]
      | some h => simp only [HeldI, Option.some.injEq, eq_comm]
  · rename_i h3
    refine ⟨by simp, trivial, ?_⟩
    intro j hj
    rw [← hk2]
    simp only [HeldI]
    exact ⟨fun _ => .inl (by omega), fun _ => hj⟩

theorem adv_inv {s s' : St ι κ} (h : Inv s) {t : ι} {e : Env} (he : advStep s t e = some s') : Inv s' := by
  have hl := h.loc t
  have hlt : ∀ {i : Nat} {m : κ}, (s.l t).ms[i]? = some m → i < (s.l t).ms.length := by
    intro i m hi; rw [List.getElem?_eq_some_iff] at hi; exact hi.1
  unfold advStep at he
  cases hp : (s.l t).pc with
  | idle => simp [hp] at he
  | hard i =>
    simp only [hp] at he
    have hid : (s.l t).pc ≠ .idle := by rw [hp]; simp
    obtain ⟨m, hm, he⟩ := Option.bind_eq_some_iff.1 he
    simp only [LocOK, hp] at hl
    have hno : ∀ m, ¬Held (s.l t) m := by rintro m ⟨j, hj, _⟩; simp [HeldI, hp] at hj
    cases e with
    | throws =>
      simp only [Option.some.injEq] at he; subst he
      exact ret_inv h hid (by simp) (fun _ => hno) (by simp)
    | spurious => cases he
    | fine =>
      simp only [Option.ite_none_right_eq_some, Option.some.injEq] at he
      obtain ⟨hf, rfl⟩ := he
      obtain ⟨a1, a2, a3⟩ := nextPC_ok (x := s.l t) (h := some i) (k := 0) (Nat.zero_le _) (by rintro _ ⟨⟩; exact hlt hm) (by rw [hl.2]; rfl)
      refine take_inv h hm hf hid a1 ?_ a2
      intro j hj
      rw [a3 j hj]
      simp [HeldI, hp, eq_comm]
  | tr o k =>
    simp only [hp] at he
    have hid : (s.l t).pc ≠ .idle := by rw [hp]; simp
    obtain ⟨m, hm, he⟩ := Option.bind_eq_some_iff.1 he
    simp only [LocOK, hp] at hl
    have hhb : ∀ j, HeldI (s.l t) j ↔ HB o k j := by
      intro j; cases o <;> simp only [HeldI, HB, hp]
    have back : ∀ n : Next, (∀ k', n = .again k' → k' < (s.l t).ms.length ∧ (s.l t).isTry = false) → (∀ r, n = .ret r → r ≠ .ok ∧ ∀ k, r = .fail k → (s.l t).isTry = true ∧ k < (s.l t).ms.length) →
        Inv (setPC s t (.undo (backout o k) n)) := by
      intro n q1 q2
      refine move_inv h hid ?_ ?_
      · intro j
        rw [hhb]
        simp only [HeldI]
        exact mem_backout hl.2.1
      · simp only [LocOK]
        refine ⟨nodup_backout, fun u hu => ?_, q1, q2⟩
        rw [mem_backout hl.2.1] at hu
        have := hl.2.2.1
        cases o with
        | none => simp only [HB] at hu; have := hl.1; omega
        | some h' =>
          simp only [HB] at hu
          have := this h' rfl
          have := hl.1
          omega
    have back2 : Inv (setPC s t (.undo (backout o k) (if o.isSome then .again k else .ret (.fail k)))) := by
      have h4 := hl.2.2.2
      refine back _ ?_ ?_
      · intro k' e
        cases o with
        | none => simp at e
        | some h' =>
          simp at e h4
          subst e; exact ⟨hl.1, h4⟩
      · intro r e
        cases o with
        | none =>
          simp at e h4
          subst e
          refine ⟨by simp, fun k' e => ?_⟩
          simp only [Res.fail.injEq] at e; subst e
          exact ⟨h4, hl.1⟩
        | some h' => simp at e
    cases e with
    | throws =>
      simp only [Option.some.injEq] at he; subst he
      exact back _ (by simp) (by simp)
    | spurious => simp only [Option.some.injEq] at he; subst he; exact back2
    | fine =>
      simp only at he
      split at he
      · rename_i hf
        simp only [Option.some.injEq] at he; subst he
        obtain ⟨a1, a2, a3⟩ := nextPC_ok (x := s.l t) (h := o) (k := k + 1) hl.1 hl.2.2.1 hl.2.2.2
        refine take_inv h hm hf hid a1 ?_ a2
        intro j hj
        rw [a3 j hj, hhb]
        cases o with
        | none => simp [HB]; omega
        | some h' => simp only [HB, Option.some.injEq]; omega
      · simp only [Option.some.injEq] at he; subst he; exact back2
  | undo us n =>
    have hid : (s.l t).pc ≠ .idle := by rw [hp]; simp
    simp only [LocOK, hp] at hl
    cases us with
    | cons u us =>
      simp only [hp, Option.map_eq_some_iff] at he
      obtain ⟨m, hm, rfl⟩ := he
      have ha := h.arg t hid
      have hown : s.owner m = some t := (h.own t m).2 (.inr ⟨u, by simp [HeldI, hp], hm⟩)
      refine h.upd1 t (x' := { s.l t with pc := .undo us n }) rfl ?_ ?_ (fun _ => ha) ?_
      · intro m' v hv
        simp only [setPC, give, upd_owner]
        split
        · rename_i e; subst e; rw [hown]; simp [Ne.symm hv]
        · rfl
      · intro m'
        simp only [setPC, give, upd_owner]
        have hmem : m ∈ (s.l t).ms := List.mem_of_getElem? hm
        have hnd := List.nodup_cons.1 hl.1
        split
        · rename_i e; subst e
          simp only [reduceCtorEq, false_iff, not_or]
          refine ⟨ha.2 m' hmem, ?_⟩
          rintro ⟨j, hj, e⟩
          simp only [HeldI] at hj e
          have := nodup_get ha.1 e hm
          subst this; exact hnd.1 hj
        · rename_i hne
          rw [h.own t m']
          simp only [Held, HeldI, hp, List.mem_cons]
          constructor
          · rintro (q | ⟨j, hj | hj, q⟩)
            · exact .inl q
            · subst hj; rw [hm] at q; exact absurd (Option.some.inj q).symm hne
            · exact .inr ⟨j, hj, q⟩
          · rintro (q | ⟨j, hj, q⟩)
            · exact .inl q
            · exact .inr ⟨j, .inr hj, q⟩
      · simp only [LocOK]
        exact ⟨(List.nodup_cons.1 hl.1).2, fun v hv => hl.2.1 v (List.mem_cons_of_mem _ hv), hl.2.2⟩
    | nil =>
      cases n with
      | again k =>
        simp only [hp, Option.some.injEq] at he; subst he
        refine move_inv h hid ?_ ?_
        · intro j; simp [HeldI, hp]
        · simp only [LocOK]; exact hl.2.2.1 k rfl
      | ret r =>
        simp only [hp, Option.some.injEq] at he; subst he
        have hr := hl.2.2.2 r rfl
        refine ret_inv h hid (fun e => absurd e hr.1) (fun _ m => ?_) hr.2
        rintro ⟨j, hj, _⟩; simp [HeldI, hp] at hj
  | fin =>
    have hid : (s.l t).pc ≠ .idle := by rw [hp]; simp
    simp only [hp, Option.some.injEq] at he; subst he
    refine ret_inv h hid (fun _ m => ?_) (by simp) (by simp)
    simp only [Held, HeldI, hp]
    constructor
    · rintro ⟨j, _, e⟩; exact List.mem_of_getElem? e
    · intro hm
      obtain ⟨j, hj, e⟩ := List.getElem_of_mem hm
      exact ⟨j, hj, by rw [List.getElem?_eq_some_iff]; exact ⟨hj, e⟩⟩

theorem step_inv {s s' : St ι κ} (h : Inv s) {t : ι} {a : Act κ} (he : step s t a = some s') : Inv s' := by
  cases a with
  | adv e => exact adv_inv h he
  | lock ms =>
    simp only [step, Option.ite_none_right_eq_some, Option.some.injEq] at he
    obtain ⟨⟨h1, h2, h3, h4⟩, rfl⟩ := he
    refine h.upd1 t rfl (fun _ _ _ => Iff.rfl) (fun m => ?_) (fun _ => ⟨h2, fun m hm hp => h4 m hm ((h.own t m).2 (.inl hp))⟩) ?_
    · rw [h.own t m]; simp [Held, HeldI, h1]
    · simp only [LocOK]; exact ⟨List.length_pos_iff.2 h3, trivial⟩
  | tryLock ms =>
    simp only [step, Option.ite_none_right_eq_some, Option.some.injEq] at he
    obtain ⟨⟨h1, h2, h3, h4⟩, rfl⟩ := he
    refine h.upd1 t rfl (fun _ _ _ => Iff.rfl) (fun m => ?_) (fun _ => ⟨h2, fun m hm hp => h4 m hm ((h.own t m).2 (.inl hp))⟩) ?_
    · rw [h.own t m]; simp [Held, HeldI, h1]
    · simp only [LocOK]; exact ⟨List.length_pos_iff.2 h3, by simp, by simp, rfl⟩
  | unlock m =>
    simp only [step, Option.ite_none_right_eq_some, Option.some.injEq] at he
    obtain ⟨⟨h1, h2⟩, rfl⟩ := he
    refine h.upd1 t rfl (fun m' u hu => ?_) (fun m' => ?_) (fun e => absurd h1 e) ?_
    · simp only [upd_owner]
      split
      · rename_i e; subst e; rw [h2]; simp [Ne.symm hu]
      · rfl
    · simp only [upd_owner]
      have := h.own t m'
      simp only [Held, HeldI, h1, false_and, exists_false, or_false] at this
      simp only [Held, HeldI, h1, false_and, exists_false, or_false, List.mem_filter, decide_eq_true_eq]
      split
      · rename_i e; simp [e]
      · rename_i e; rw [this]; simp [e]
    · simp only [LocOK, h1]; simp

theorem Reach.inv {s : St ι κ} (h : Reach s) : Inv s := by
  induction h with
  | init => exact inv_init
  | step t a _ he ih => exact step_inv ih he

/-- All or nothing: when the last thing a thread has done is a call of `lock` or `try_lock`, it owns all arguments if the call returned normally (`try_lock`: `-1`), and none of them if
`try_lock` gave an index or an exception left the call. Only `try_lock` gives an index, that of one of its arguments. -/
theorem C48_lock_all_or_none {s : St ι κ} (h : Reach s) {t : ι} {ms : List κ} {b : Bool} {r : Res} (hp : (s.l t).pc = .idle) (hr : (s.l t).last = some (ms, b, r)) :
    (r = .ok → ∀ m ∈ ms, s.owner m = some t) ∧ (r ≠ .ok → ∀ m ∈ ms, s.owner m ≠ some t) ∧ (∀ k, r = .fail k → b = true ∧ k < ms.length) := by
  have hi := h.inv
  have hl := hi.loc t
  simp only [LocOK, hp] at hl
  obtain ⟨h1, h2, h3⟩ := hl ms b r hr
  have ho : ∀ m, s.owner m = some t ↔ m ∈ (s.l t).pre := by
    intro m; rw [hi.own t m]; simp [Held, HeldI, hp]
  exact ⟨fun e m hm => (ho m).2 (h1 e m hm), fun e m hm q => h2 e m hm ((ho m).1 q), h3⟩

/-- The mutex that the thread is blocked on. -/
def blockedOn (x : Loc κ) : Option κ :=
  match x.pc with
  | .hard h => x.ms[h]?
  | _ => none

/-- A thread that waits for a mutex in `lock` holds none of the arguments. -/
theorem C48_lock_waits_empty {s : St ι κ} (h : Reach s) {t : ι} {m : κ} (hb : blockedOn (s.l t) = some m) : m ∈ (s.l t).ms ∧ ∀ m' ∈ (s.l t).ms, s.owner m' ≠ some t := by
  have hi := h.inv
  unfold blockedOn at hb
  cases hp : (s.l t).pc with
  | hard i =>
    simp only [hp] at hb
    refine ⟨List.mem_of_getElem? hb, fun m' hm' e => ?_⟩
    rcases (hi.own t m').1 e with q | ⟨j, hj, _⟩
    · exact (hi.arg t (by rw [hp]; simp)).2 m' hm' q
    · simp [HeldI, hp] at hj
  | idle => simp [hp] at hb
  | tr _ _ => simp [hp] at hb
  | undo _ _ => simp [hp] at hb
  | fin => simp [hp] at hb

/-- No deadlock: when no thread in a call can go on, each of them waits for a mutex whose owner is not in a call, or owned it already before its present call. If no thread
calls `lock` while it owns a mutex, the second does not occur. -/
theorem C48_lock_no_deadlock {s : St ι κ} (h : Reach s) (hs : ∀ t, advStep s t .fine = none) (t : ι) (ht : (s.l t).pc ≠ .idle) :
    ∃ m u, blockedOn (s.l t) = some m ∧ s.owner m = some u ∧ u ≠ t ∧ ((s.l u).pc = .idle ∨ m ∈ (s.l u).pre) := by
  have hi := h.inv
  have blk : ∀ u, (s.l u).pc = .idle ∨ ∃ i, (s.l u).pc = .hard i ∧ ∃ m, (s.l u).ms[i]? = some m ∧ s.owner m ≠ none := by
    intro u
    have h1 := hs u
    have hl := hi.loc u
    cases hp : (s.l u).pc with
    | idle => exact .inl rfl
    | hard i =>
      simp only [LocOK, hp] at hl
      have hm : (s.l u).ms[i]? = some (s.l u).ms[i] := List.getElem?_eq_getElem hl.1
      refine .inr ⟨i, rfl, _, hm, ?_⟩
      simp only [advStep, hp, hm, Option.bind_some] at h1
      intro e
      simp [e] at h1
    | tr o k =>
      simp only [LocOK, hp] at hl
      have hm : (s.l u).ms[k]? = some (s.l u).ms[k] := List.getElem?_eq_getElem hl.1
      simp only [advStep, hp, hm, Option.bind_some] at h1
      split at h1 <;> cases h1
    | undo us n =>
      simp only [LocOK, hp] at hl
      cases us with
      | cons v us =>
        have hm : (s.l u).ms[v]? = some ((s.l u).ms[v]'(hl.2.1 v (by simp))) := List.getElem?_eq_getElem _
        simp [advStep, hp, hm] at h1
      | nil => cases n <;> simp [advStep, hp] at h1
    | fin => simp [advStep, hp] at h1
  rcases blk t with e | ⟨i, hp, m, hm, ho⟩
  · exact absurd e ht
  · obtain ⟨u, hu⟩ := Option.ne_none_iff_exists'.1 ho
    have hb : blockedOn (s.l t) = some m := by simp [blockedOn, hp, hm]
    have hut : u ≠ t := by
      rintro rfl
      obtain ⟨q1, q2⟩ := C48_lock_waits_empty h hb
      exact q2 m q1 hu
    refine ⟨m, u, hb, hu, hut, ?_⟩
    rcases blk u with e | ⟨j, hj, _⟩
    · exact .inl e
    · rcases (hi.own u m).1 hu with q | ⟨k, hk, _⟩
      · exact .inr q
      · simp [HeldI, hj] at hk

/-- A step of a thread takes a mutex only if nobody owns it, and gives back only a mutex the thread owns; in a call, only arguments of the call. -/
theorem C48_lock_frame {s s' : St ι κ} (h : Reach s) {t : ι} {a : Act κ} (he : step s t a = some s') (m : κ) :
    s'.owner m = s.owner m ∨ ((s.owner m = none ∧ s'.owner m = some t ∨ s.owner m = some t ∧ s'.owner m = none) ∧ ((s.l t).pc ≠ .idle → m ∈ (s.l t).ms)) := by
  have hi := h.inv
  cases a with
  | lock ms =>
    simp only [step, Option.ite_none_right_eq_some, Option.some.injEq] at he
    obtain ⟨_, rfl⟩ := he; exact .inl rfl
  | tryLock ms =>
    simp only [step, Option.ite_none_right_eq_some, Option.some.injEq] at he
    obtain ⟨_, rfl⟩ := he; exact .inl rfl
  | unlock m' =>
    simp only [step, Option.ite_none_right_eq_some, Option.some.injEq] at he
    obtain ⟨⟨h1, h2⟩, rfl⟩ := he
    simp only [upd_owner]
    split
    · rename_i e; subst e; exact .inr ⟨.inr ⟨h2, rfl⟩, fun q => absurd h1 q⟩
    · exact .inl rfl
  | adv e =>
    simp only [step] at he
    have tk : ∀ {i : Nat} {m' : κ} {p : PC}, (s.l t).ms[i]? = some m' → s.owner m' = none → (setPC (take s t m') t p).owner m = s.owner m ∨
        ((s.owner m = none ∧ (setPC (take s t m') t p).owner m = some t ∨ s.owner m = some t ∧ (setPC (take s t m') t p).owner m = none) ∧ ((s.l t).pc ≠ .idle → m ∈ (s.l t).ms)) := by
      intro i m' p e1 e2
      simp only [setPC, take, upd_owner]
      split
      · rename_i q; subst q; exact .inr ⟨.inl ⟨e2, rfl⟩, fun _ => List.mem_of_getElem? e1⟩
      · exact .inl rfl
    unfold advStep at he
    cases hp : (s.l t).pc with
    | idle => simp [hp] at he
    | hard i =>
      simp only [hp] at he
      obtain ⟨m', hm, he⟩ := Option.bind_eq_some_iff.1 he
      cases e with
      | throws => simp only [Option.some.injEq] at he; subst he; exact .inl rfl
      | spurious => cases he
      | fine =>
        simp only [Option.ite_none_right_eq_some, Option.some.injEq] at he
        obtain ⟨hf, rfl⟩ := he
        have := tk (p := nextPC (some i) 0 (s.l t).ms.length) hm hf
        rw [hp] at this; exact this
    | tr o k =>
      simp only [hp] at he
      obtain ⟨m', hm, he⟩ := Option.bind_eq_some_iff.1 he
      cases e with
      | throws => simp only [Option.some.injEq] at he; subst he; exact .inl rfl
      | spurious => simp only [Option.some.injEq] at he; subst he; exact .inl rfl
      | fine =>
        simp only at he
        split at he
        · simp only [Option.some.injEq] at he; subst he
          have := tk (p := nextPC o (k + 1) (s.l t).ms.length) hm (by assumption)
          rw [hp] at this; exact this
        · simp only [Option.some.injEq] at he; subst he; exact .inl rfl
    | undo us n =>
      cases us with
      | cons u us =>
        simp only [hp, Option.map_eq_some_iff] at he
        obtain ⟨m', hm, rfl⟩ := he
        have hown : s.owner m' = some t := (hi.own t m').2 (.inr ⟨u, by simp [HeldI, hp], hm⟩)
        simp only [setPC, give, upd_owner]
        split
        · rename_i q; subst q; exact .inr ⟨.inr ⟨hown, rfl⟩, fun _ => List.mem_of_getElem? hm⟩
        · exact .inl rfl
      | nil => cases n <;> (simp only [hp, Option.some.injEq] at he; subst he; exact .inl rfl)
    | fin => simp only [hp, Option.some.injEq] at he; subst he; exact .inl rfl

theorem nextPC_undo (h : Option Nat) (k n : Nat) (us : List Nat) (e : Next) : nextPC h k n ≠ .undo us e := by
  unfold nextPC
  simp only
  generalize (if h = some k then k + 1 else k) = k'
  split <;> simp

/-- The index that `try_lock` gives: when it is decided, the call holds all arguments before it, and the argument with the index is owned by a thread, or its `try_lock` failed without a reason. -/
theorem C48_try_lock_index {s s' : St ι κ} (h : Reach s) {t : ι} {e : Env} {us : List Nat} {j : Nat} (he : advStep s t e = some s') (h0 : ∀ us n, (s.l t).pc ≠ .undo us n)
    (hp : (s'.l t).pc = .undo us (.ret (.fail j))) :
    (s.l t).isTry = true ∧ (∃ m, (s.l t).ms[j]? = some m ∧ (s.owner m ≠ none ∨ e = .spurious)) ∧ ∀ i < j, ∃ m, (s.l t).ms[i]? = some m ∧ s.owner m = some t := by
  have hi := h.inv
  have hl := hi.loc t
  unfold advStep at he
  cases hq : (s.l t).pc with
  | idle => simp [hq] at he
  | hard i =>
    simp only [hq] at he
    obtain ⟨m', hm, he⟩ := Option.bind_eq_some_iff.1 he
    cases e with
    | throws => simp only [Option.some.injEq] at he; subst he; simp [retStep] at hp
    | spurious => cases he
    | fine =>
      simp only [Option.ite_none_right_eq_some, Option.some.injEq] at he
      obtain ⟨_, rfl⟩ := he
      simp only [setPC, take, upd_self] at hp
      exact absurd hp (nextPC_undo _ _ _ _ _)
  | tr o k =>
    simp only [hq] at he
    simp only [LocOK, hq] at hl
    obtain ⟨m', hm, he⟩ := Option.bind_eq_some_iff.1 he
    have fin : (s.owner m' ≠ none ∨ e = .spurious) → PC.undo (backout o k) (if o.isSome then .again k else .ret (.fail k)) = .undo us (.ret (.fail j)) →
        (s.l t).isTry = true ∧ (∃ m, (s.l t).ms[j]? = some m ∧ (s.owner m ≠ none ∨ e = .spurious)) ∧ ∀ i < j, ∃ m, (s.l t).ms[i]? = some m ∧ s.owner m = some t := by
      intro q1 q2
      cases o with
      | some h' => simp at q2
      | none =>
        simp only [Option.isSome_none, Bool.false_eq_true, if_false, PC.undo.injEq, Next.ret.injEq, Res.fail.injEq] at q2
        obtain ⟨_, rfl⟩ := q2
        refine ⟨by simpa using hl.2.2.2, ⟨m', hm, q1⟩, fun i hik => ?_⟩
        have hlt : i < (s.l t).ms.length := Nat.lt_trans hik hl.1
        refine ⟨(s.l t).ms[i], List.getElem?_eq_getElem hlt, ?_⟩
        rw [hi.own]
        exact .inr ⟨i, by simpa [HeldI, hq] using hik, List.getElem?_eq_getElem hlt⟩
    cases e with
    | throws => simp only [Option.some.injEq] at he; subst he; simp [setPC] at hp
    | spurious =>
      simp only [Option.some.injEq] at he; subst he
      simp only [setPC, upd_self] at hp
      exact fin (.inr rfl) hp
    | fine =>
      simp only at he
      split at he
      · simp only [Option.some.injEq] at he; subst he
        simp only [setPC, take, upd_self] at hp
        exact absurd hp (nextPC_undo _ _ _ _ _)
      · rename_i q
        simp only [Option.some.injEq] at he; subst he
        simp only [setPC, upd_self] at hp
        exact fin (.inl q) hp
  | undo us' n => exact absurd hq (h0 us' n)
  | fin => simp only [hq, Option.some.injEq] at he; subst he; simp [retStep] at hp

/-- `n` steps of thread `t` alone, without exceptions and failures without a reason. -/
def solo (t : ι) : Nat → St ι κ → Option (St ι κ)
  | 0, s => some s
  | n + 1, s => (advStep s t .fine).bind (solo t n)

/-- How many steps are left. -/
def left (x : Loc κ) : Nat :=
  match x.pc with
  | .idle => 0
  | .hard _ => x.ms.length + 2
  | .tr _ k => x.ms.length - k + 1
  | .undo us (.again _) => us.length + x.ms.length + 3
  | .undo us (.ret _) => us.length + 1
  | .fin => 1

theorem left_next (h : Option Nat) (k : Nat) (x : Loc κ) (hk : k ≤ x.ms.length) : left { x with pc := nextPC h k x.ms.length } ≤ x.ms.length - k + 1 := by
  unfold nextPC
  simp only
  have hk2 : k ≤ (if h = some k then k + 1 else k) := by split <;> omega
  generalize (if h = some k then k + 1 else k) = k' at hk2 ⊢
  split
  · simp only [left]; omega
  · simp only [left]; omega

/-- `lock` and `try_lock` end: from any point of a call, if nobody else owns an argument, the thread alone gets to the end of the call, in at most `2 n + 3` steps with `n` arguments
(when it has to give back locks first, it gives back at most `n`). `lock` then returns normally, unless an exception is on its way. -/
theorem C48_lock_solo {s : St ι κ} (h : Reach s) {t : ι} (hf : ∀ m ∈ (s.l t).ms, s.owner m = none ∨ s.owner m = some t) (hp : (s.l t).pc ≠ .idle) :
    ∃ n ≤ 2 * (s.l t).ms.length + 3, ∃ s' r, solo t n s = some s' ∧ (s'.l t).pc = .idle ∧ (s'.l t).last = some ((s.l t).ms, (s.l t).isTry, r) ∧
      ((s.l t).isTry = false → (∀ us, (s.l t).pc ≠ .undo us (.ret .threw)) → r = .ok) := by
  have key : ∀ N, ∀ s : St ι κ, Reach s → left (s.l t) ≤ N → (s.l t).pc ≠ .idle → (∀ m ∈ (s.l t).ms, s.owner m = none ∨ s.owner m = some t) →
      ∃ n ≤ N, ∃ s' r, solo t n s = some s' ∧ (s'.l t).pc = .idle ∧ (s'.l t).last = some ((s.l t).ms, (s.l t).isTry, r) ∧
        ((s.l t).isTry = false → (∀ us, (s.l t).pc ≠ .undo us (.ret .threw)) → r = .ok) := by
    intro N
    induction N with
    | zero =>
      intro s _ h0 hp _
      cases hq : (s.l t).pc with
      | idle => exact absurd hq hp
      | hard _ => simp [left, hq] at h0
      | tr _ _ => simp [left, hq] at h0
      | undo us n => cases n <;> simp [left, hq] at h0
      | fin => simp [left, hq] at h0
    | succ N ih =>
      intro s hr h0 hp hf
      have hi := hr.inv
      have hl := hi.loc t
      -- a step to a position in the call
      have go : ∀ s1, advStep s t .fine = some s1 → (s1.l t).pc ≠ .idle → (s1.l t).ms = (s.l t).ms → (s1.l t).isTry = (s.l t).isTry → left (s1.l t) ≤ N →
          ((s.l t).isTry = false → (∀ us, (s.l t).pc ≠ .undo us (.ret .threw)) → ∀ us, (s1.l t).pc ≠ .undo us (.ret .threw)) →
          ∃ n ≤ N + 1, ∃ s' r, solo t n s = some s' ∧ (s'.l t).pc = .idle ∧ (s'.l t).last = some ((s.l t).ms, (s.l t).isTry, r) ∧
            ((s.l t).isTry = false → (∀ us, (s.l t).pc ≠ .undo us (.ret .threw)) → r = .ok) := by
        intro s1 e1 e2 e3 e4 e5 e6
        have hr1 : Reach s1 := .step t (.adv .fine) hr e1
        have hf1 : ∀ m ∈ (s1.l t).ms, s1.owner m = none ∨ s1.owner m = some t := by
          rw [e3]; intro m hm
          rcases C48_lock_frame hr (a := .adv .fine) e1 m with q | ⟨q | q, _⟩
          · rw [q]; exact hf m hm
          · exact .inr q.2
          · exact .inl q.2
        obtain ⟨n, hn, s', r, a1, a2, a3, a4⟩ := ih s1 hr1 e5 e2 hf1
        refine ⟨n + 1, by omega, s', r, by simp [solo, e1, a1], a2, by rw [a3, e3, e4], fun q1 q2 => a4 (by rw [e4]; exact q1) (e6 q1 q2)⟩
      have stop : ∀ r, advStep s t .fine = some (retStep s t r) → ((s.l t).isTry = false → (∀ us, (s.l t).pc ≠ .undo us (.ret .threw)) → r = .ok) →
          ∃ n ≤ N + 1, ∃ s' r, solo t n s = some s' ∧ (s'.l t).pc = .idle ∧ (s'.l t).last = some ((s.l t).ms, (s.l t).isTry, r) ∧
            ((s.l t).isTry = false → (∀ us, (s.l t).pc ≠ .undo us (.ret .threw)) → r = .ok) := by
        intro r e1 e2
        refine ⟨1, by omega, retStep s t r, r, ?_, by simp [retStep], by simp [retStep], e2⟩
        change (advStep s t .fine).bind (solo t 0) = _
        rw [e1]; rfl
      cases hq : (s.l t).pc with
      | idle => exact absurd hq hp
      | hard i =>
        simp only [LocOK, hq] at hl
        have hm : (s.l t).ms[i]? = some (s.l t).ms[i] := List.getElem?_eq_getElem hl.1
        have hfree : s.owner (s.l t).ms[i] = none := by
          rcases hf _ (List.getElem_mem hl.1) with e | e
          · exact e
          · exact absurd e ((C48_lock_waits_empty hr (t := t) (m := (s.l t).ms[i]) (by simp [blockedOn, hq, hm])).2 _ (List.getElem_mem hl.1))
        have e1 : advStep s t .fine = some (setPC (take s t (s.l t).ms[i]) t (nextPC (some i) 0 (s.l t).ms.length)) := by
          simp only [advStep, hq, hm, Option.bind_some, hfree, if_true]
        have hn := nextPC_ok (x := s.l t) (h := some i) (k := 0) (Nat.zero_le _) (by rintro _ ⟨⟩; exact hl.1) (by rw [hl.2]; rfl)
        rw [← hq]
        refine go _ e1 ?_ (by simp [setPC, take]) (by simp [setPC, take]) ?_ ?_
        · simpa [setPC, take] using hn.1
        · have := left_next (some i) 0 (s.l t) (Nat.zero_le _)
          simp only [left, hq] at h0
          simp only [setPC, take, upd_self]; omega
        · intro _ _ us
          simp only [setPC, take, upd_self]
          exact nextPC_undo _ _ _ _ _
      | tr o k =>
        simp only [LocOK, hq] at hl
        have hm : (s.l t).ms[k]? = some (s.l t).ms[k] := List.getElem?_eq_getElem hl.1
        have hfree : s.owner (s.l t).ms[k] = none := by
          rcases hf _ (List.getElem_mem hl.1) with e | e
          · exact e
          · have ha := hi.arg t hp
            rcases (hi.own t _).1 e with q | ⟨j, hj, q⟩
            · exact absurd q (ha.2 _ (List.getElem_mem hl.1))
            · have := nodup_get ha.1 q hm
              subst this
              cases o with
              | none => simp [HeldI, hq] at hj
              | some h' =>
                simp [HeldI, hq] at hj
                exact absurd (by rw [hj]) hl.2.1
        have e1 : advStep s t .fine = some (setPC (take s t (s.l t).ms[k]) t (nextPC o (k + 1) (s.l t).ms.length)) := by
          simp only [advStep, hq, hm, Option.bind_some, hfree, if_true]
        have hn := nextPC_ok (x := s.l t) (h := o) (k := k + 1) hl.1 hl.2.2.1 hl.2.2.2
        rw [← hq]
        refine go _ e1 ?_ (by simp [setPC, take]) (by simp [setPC, take]) ?_ ?_
        · simpa [setPC, take] using hn.1
        · have := left_next o (k + 1) (s.l t) hl.1
          simp only [left, hq] at h0
          have := hl.1
          simp only [setPC, take, upd_self]; omega
        · intro _ _ us
          simp only [setPC, take, upd_self]
          exact nextPC_undo _ _ _ _ _
      | undo us n =>
        simp only [LocOK, hq] at hl
        cases us with
        | cons v us =>
          have hm : (s.l t).ms[v]? = some ((s.l t).ms[v]'(hl.2.1 v (by simp))) := List.getElem?_eq_getElem _
          have e1 : advStep s t .fine = some (setPC (give s ((s.l t).ms[v]'(hl.2.1 v (by simp)))) t (.undo us n)) := by
            simp only [advStep, hq, hm, Option.map_some]
          rw [← hq]
          refine go _ e1 (by simp [setPC, give]) (by simp [setPC, give]) (by simp [setPC, give]) ?_ ?_
          · simp only [left, hq] at h0
            simp only [setPC, give, upd_self, left]
            cases n <;> simp at h0 ⊢ <;> omega
          · intro _ q us'
            simp only [setPC, give, upd_self]
            intro e
            simp only [PC.undo.injEq] at e
            exact q (v :: us) (by rw [hq, e.2])
        | nil =>
          cases n with
          | again k =>
            have e1 : advStep s t .fine = some (setPC s t (.hard k)) := by simp only [advStep, hq]
            rw [← hq]
            refine go _ e1 (by simp [setPC]) (by simp [setPC]) (by simp [setPC]) ?_ ?_
            · simp only [left, hq] at h0
              simp only [setPC, upd_self, left]; simp at h0; omega
            · intro _ _ us; simp [setPC]
          | ret r =>
            have e1 : advStep s t .fine = some (retStep s t r) := by simp only [advStep, hq]
            rw [← hq]
            refine stop r e1 ?_
            intro q1 q2
            have h5 := hl.2.2.2 r rfl
            cases r with
            | ok => rfl
            | fail k => have := (h5.2 k rfl).1; rw [q1] at this; cases this
            | threw => exact absurd hq (q2 [])
      | fin =>
        have e1 : advStep s t .fine = some (retStep s t .ok) := by simp only [advStep, hq]
        rw [← hq]
        exact stop .ok e1 (fun _ _ => rfl)
  refine key _ s h ?_ hp hf
  have hl := h.inv.loc t
  have hlen : ∀ us : List Nat, us.Nodup → (∀ u ∈ us, u < (s.l t).ms.length) → us.length ≤ (s.l t).ms.length := by
    intro us h1 h2
    have h3 : us ⊆ List.range (s.l t).ms.length := fun u hu => List.mem_range.2 (h2 u hu)
    simpa using (h1.subperm h3).length_le
  cases hq : (s.l t).pc with
  | idle => exact absurd hq hp
  | hard _ => simp only [left, hq]; omega
  | tr _ k => simp only [left, hq]; omega
  | undo us n =>
    simp only [LocOK, hq] at hl
    have := hlen us hl.1 hl.2.1
    cases n <;> simp only [left, hq] <;> omega
  | fin => simp only [left, hq]; omega

end STL.Locks.Multi
