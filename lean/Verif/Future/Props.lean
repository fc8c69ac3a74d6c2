import Verif.Future.Inv4

/-!
# `promise`, `packaged_task`, `async(launch::deferred, ..)`, `future`, `shared_future`: what a program can rely on (C47)

`Reach k t0 s`: the state `s` can be reached by any interleaving of the operations of any number of threads, subject to one rule: the provider is not destroyed
while one of its member functions is being executed, nor between a successful call of an `.._at_thread_exit` function and the end of that thread.
-/

namespace STL.Future
open STL STL.Conc

variable {ι : Type} [Fintype ι] [DecidableEq ι]

/-- The state is not used after it was freed, it is freed at most once, and `terminate` is not called. -/
theorem C47_safe {k : Kind} {t0 : ι} {s : St ι} (h : Reach k t0 s) : s.bad = false ∧ s.freed ≤ 1 ∧ s.term = false := by
  have := h.inv.num.freed
  refine ⟨h.inv.bad, ?_, h.inv.term⟩
  split at this <;> omega

/-- The state is freed exactly when nothing refers to it any more: the provider has been destroyed, no thread has a `future` or `shared_future`, and no operation
is in progress. -/
theorem C47_freed {k : Kind} {t0 : ι} {s : St ι} (h : Reach k t0 s) :
    s.freed = 1 ↔ s.prov = false ∧ ∀ u, (s.l u).fut = 0 ∧ (s.l u).sh = 0 ∧ active (s.l u).pc = false := by
  have hi := h.inv
  have h1 := hi.num.refs
  have h2 := hi.num.freed
  constructor
  · intro hf
    rw [hf] at h2
    have hr : s.refs = 0 := by by_contra hh; rw [if_neg hh] at h2; omega
    refine ⟨by cases hp : s.prov <;> simp_all; omega, fun u => ?_⟩
    have h3 := le_tot (fun x => (nums x).h) s.l u
    change _ ≤ (numsTot s.l).h at h3
    simp only [nums] at h3
    refine ⟨by omega, by omega, ?_⟩
    cases ha : active (s.l u).pc with
    | false => rfl
    | true =>
      exfalso
      cases hd : isDel (s.l u).pc with
      | false => exact hi.alive ha hd hr
      | true => have := hi.alive_del hd; omega
  · rintro ⟨hp, hu⟩
    have e1 : (numsTot s.l).h = 0 := tot_eq_zero fun u => by simp [nums, hu u]
    have e2 : (numsTot s.l).d = 0 := tot_eq_zero fun u => by
      have := (hu u).2.2
      cases hpc : (s.l u).pc <;> simp [hpc, active] at this <;> simp [nums, hpc, isDel]
    rw [hp, e1] at h1
    rw [h1, e2] at h2
    simpa using h2

theorem filterMap_one {α β : Type} {f : α → Option β} {l : List α} (h : (l.filterMap f).length ≤ 1) {i j : Nat} {a b : α} (hi : l[i]? = some a) (hj : l[j]? = some b)
    (ha : (f a).isSome = true) (hb : (f b).isSome = true) : i = j := by
  induction l generalizing i j with
  | nil => simp at hi
  | cons x l ih =>
    have key : ∀ (i : Nat) (a : α), l[i]? = some a → (f a).isSome = true → 0 < (l.filterMap f).length := by
      intro i a h1 h2
      obtain ⟨y, hy⟩ := Option.isSome_iff_exists.1 h2
      exact List.length_pos_of_mem (List.mem_filterMap.2 ⟨a, List.mem_of_getElem? h1, hy⟩)
    cases i with
    | zero =>
      cases j with
      | zero => rfl
      | succ j =>
        exfalso
        simp only [List.getElem?_cons_zero, Option.some.injEq] at hi; subst hi
        simp only [List.getElem?_cons_succ] at hj
        have := key j b hj hb
        obtain ⟨y, hy⟩ := Option.isSome_iff_exists.1 ha
        rw [List.filterMap_cons, hy] at h
        simp only [List.length_cons] at h; omega
    | succ i =>
      simp only [List.getElem?_cons_succ] at hi
      cases j with
      | zero =>
        exfalso
        simp only [List.getElem?_cons_zero, Option.some.injEq] at hj; subst hj
        have := key i a hi ha
        obtain ⟨y, hy⟩ := Option.isSome_iff_exists.1 hb
        rw [List.filterMap_cons, hy] at h
        simp only [List.length_cons] at h; omega
      | succ j =>
        simp only [List.getElem?_cons_succ] at hj
        have : (l.filterMap f).length ≤ 1 := by
          rw [List.filterMap_cons] at h
          split at h
          · exact h
          · simp only [List.length_cons] at h; omega
        rw [ih this hi hj]

/-- Of all calls that provide a result, by all threads, at most one succeeds. -/
theorem C47_once {k : Kind} {t0 : ι} {s : St ι} (h : Reach k t0 s) (hk : k ≠ .dfr) {u v : ι} {i j : Nat} {o o' : Op} {r r' : Res}
    (hu : (s.l u).done[i]? = some (o, .okv r)) (hv : (s.l v).done[j]? = some (o', .okv r')) : u = v ∧ i = j := by
  have hi := h.inv
  have hlen : s.log.length ≤ 1 := by rw [hi.len hk]; exact Bool.toNat_le _
  have key : ∀ (w : ι) (n : Nat) (q : Op) (z : Res), (s.l w).done[n]? = some (q, .okv z) → ∃ p, p ∈ s.log ∧ p.1 = w := by
    intro w n q z hw
    have h1 : q ∈ logOf w s.log := by
      rw [hi.log w]
      exact List.mem_append_left _ (List.mem_filterMap.2 ⟨_, List.mem_of_getElem? hw, rfl⟩)
    simp only [logOf, List.mem_map, List.mem_filter] at h1
    obtain ⟨p, ⟨h2, h3⟩, _⟩ := h1
    exact ⟨p, h2, by simpa using h3⟩
  obtain ⟨p, hp, rfl⟩ := key u i o r hu
  obtain ⟨q, hq, rfl⟩ := key v j o' r' hv
  have hpq : p = q := by
    match hlog : s.log, hlen with
    | [], _ => rw [hlog] at hp; cases hp
    | [x], _ => rw [hlog] at hp hq; simp at hp hq; rw [hp, hq]
    | _ :: _ :: _, hlen => simp at hlen
  subst hpq
  refine ⟨rfl, filterMap_one (f := okOp) (l := (s.l p.1).done) ?_ hu hv rfl rfl⟩
  have h1 := hi.log p.1
  have h2 : (logOf p.1 s.log).length ≤ s.log.length := by
    simp only [logOf, List.length_map]; exact List.length_filter_le _ _
  rw [h1, List.length_append] at h2; omega

/-- The thread has successfully called a function that makes the state ready at thread exit. -/
def CalledAtExit (x : Loc) : Prop := ∃ o r, (o, .okv r) ∈ x.done ∧ ((∃ v, o = .set v true) ∨ o = .call true)

theorem regd_iff {x : Loc} (h : regd x = true) : CalledAtExit x := by
  simp only [regd, List.any_eq_true, Bool.and_eq_true] at h
  obtain ⟨⟨o, r⟩, h1, h2, h3⟩ := h
  cases r <;> simp [isOkv] at h3
  refine ⟨o, _, h1, ?_⟩
  cases o <;> simp_all [Op.atExit]

/-- `set_value` and `set_exception` either store their argument, or throw because a result is stored already, or (only in a thread that has called such a function
`.._at_thread_exit` before) because of the deadlock. -/
theorem C47_set {k : Kind} {t0 : ι} {s : St ι} (h : Reach k t0 s) {u : ι} {r : Res} {ex : Bool} {o : Out} (hu : (.set r ex, o) ∈ (s.l u).done) :
    (o = .okv r ∧ s.stored = some r) ∨ (o = .satisfied ∧ s.stored ≠ none) ∨ (o = .deadlock ∧ s.stored ≠ none ∧ CalledAtExit (s.l u)) := by
  have h1 := h.inv.done u _ hu
  cases o <;> simp only [OutOK] at h1
  · obtain ⟨rfl, h2⟩ := h1; exact .inl ⟨rfl, h2⟩
  · exact .inr (.inl ⟨rfl, by rw [← Option.isSome_iff_ne_none]; exact h1⟩)
  · refine .inr (.inr ⟨rfl, ?_, regd_iff h1⟩)
    obtain ⟨o, r, h2, h3⟩ := regd_iff h1
    have h4 := h.inv.done u _ h2
    rcases h3 with ⟨v, rfl⟩ | rfl <;> simp only [OutOK] at h4
    · rw [h4.2]; simp
    · rw [h4.1]; simp

/-- A call of a `packaged_task` that returns normally has called the function, in the same thread, and stored what the function returned or threw. -/
theorem C47_call {k : Kind} {t0 : ι} {s : St ι} (h : Reach k t0 s) {u : ι} {ex : Bool} {o : Out} (hu : (.call ex, o) ∈ (s.l u).done) :
    (∃ r, o = .okv r ∧ s.stored = some r ∧ (u, r) ∈ s.calls) ∨ (o = .satisfied ∧ s.stored ≠ none) ∨ (o = .deadlock ∧ s.stored ≠ none ∧ CalledAtExit (s.l u)) := by
  have h1 := h.inv.done u _ hu
  cases o <;> simp only [OutOK] at h1
  · exact .inl ⟨_, rfl, h1.1, h.invB.done u ex _ hu⟩
  · exact .inr (.inl ⟨rfl, by rw [← Option.isSome_iff_ne_none]; exact h1⟩)
  · refine .inr (.inr ⟨rfl, ?_, regd_iff h1⟩)
    obtain ⟨o, r, h2, h3⟩ := regd_iff h1
    have h4 := h.inv.done u _ h2
    rcases h3 with ⟨v, rfl⟩ | rfl <;> simp only [OutOK] at h4
    · rw [h4.2]; simp
    · rw [h4.1]; simp

/-- `get` gives the stored result, and only when the state is ready. -/
theorem C47_get {k : Kind} {t0 : ι} {s : St ι} (h : Reach k t0 s) {u : ι} {p : Op} {o : Out} (hp : p = .get ∨ p = .sget) (hu : (p, o) ∈ (s.l u).done) :
    (∃ r, o = .res r ∧ s.stored = some r ∧ s.ready = true) ∨ (o = .deadlock ∧ CalledAtExit (s.l u)) := by
  have h1 := h.inv.done u _ hu
  rcases hp with rfl | rfl <;> cases o <;> simp only [OutOK] at h1
  · exact .inl ⟨_, rfl, h1⟩
  · exact .inr ⟨rfl, regd_iff h1⟩
  · exact .inl ⟨_, rfl, h1⟩
  · exact .inr ⟨rfl, regd_iff h1⟩

/-- All calls of `get`, in all threads, give the same result: that of the call that provided it. -/
theorem C47_agree {k : Kind} {t0 : ι} {s : St ι} (h : Reach k t0 s) {u v : ι} {p q : Op} {r r' : Res} (hu : (p, .res r) ∈ (s.l u).done) (hv : (q, .res r') ∈ (s.l v).done ∨ (q, .okv r') ∈ (s.l v).done) :
    r = r' := by
  have h1 := h.inv.done u _ hu
  have e1 : s.stored = some r := by cases p <;> simp only [OutOK] at h1 <;> exact h1.1
  have e2 : s.stored = some r' := by
    rcases hv with hv | hv
    · have h2 := h.inv.done v _ hv
      cases q <;> simp only [OutOK] at h2 <;> exact h2.1
    · have h2 := h.inv.done v _ hv
      cases q <;> simp only [OutOK] at h2
      · obtain ⟨rfl, h2⟩ := h2; exact h2
      · exact h2.1
      · obtain ⟨rfl, h2⟩ := h2; exact h2
  rw [e1] at e2; exact Option.some.inj e2

/-- `wait` returns only when the state is ready; `wait_for` and `wait_until` say `ready` only then, and `deferred` only for a deferred function. -/
theorem C47_wait {k : Kind} {t0 : ι} {s : St ι} (h : Reach k t0 s) {u : ι} {sh : Bool} {o : Out} :
    ((.wait sh, o) ∈ (s.l u).done → (o = .ready ∧ s.ready = true) ∨ (o = .deadlock ∧ CalledAtExit (s.l u))) ∧
    ((.waitFor sh, o) ∈ (s.l u).done → (o = .ready ∧ s.ready = true) ∨ o = .timeout ∨ (o = .deferred ∧ k = .dfr) ∨ (o = .deadlock ∧ CalledAtExit (s.l u))) := by
  constructor
  · intro hu
    have h1 := h.inv.done u _ hu
    cases o <;> simp only [OutOK] at h1
    · exact .inl ⟨rfl, h1⟩
    · exact .inr ⟨rfl, regd_iff h1⟩
  · intro hu
    have h1 := h.inv.done u _ hu
    cases o <;> simp only [OutOK] at h1
    · exact .inl ⟨rfl, h1⟩
    · exact .inr (.inl rfl)
    · exact .inr (.inr (.inl ⟨rfl, h1⟩))
    · exact .inr (.inr (.inr ⟨rfl, regd_iff h1⟩))

theorem step_chg {k : Kind} {s s' : St ι} (h : Inv k s) {t : ι} {a : Act ι} (he : step k s t a = some s') : (∀ r, s.stored = some r → s'.stored = some r) ∧ (s.ready = true → s'.ready = true) := by
  cases a with
  | adv r => exact ⟨(h.chg he).st, (h.chg he).rd⟩
  | start o =>
    simp only [step, Option.ite_none_right_eq_some, Option.some.injEq] at he
    obtain ⟨⟨h1, h2⟩, rfl⟩ := he
    unfold startStep
    simp only
    split <;> exact ⟨fun _ e => e, id⟩
  | exit =>
    simp only [step, Option.ite_none_right_eq_some] at he
    obtain ⟨_, he⟩ := he
    split at he <;> cases he <;> exact ⟨fun _ e => e, id⟩
  | _ =>
    simp only [step, Option.ite_none_right_eq_some, Option.some.injEq] at he
    obtain ⟨_, rfl⟩ := he
    exact ⟨fun _ e => e, id⟩

/-- Once stored, the result never changes; once ready, the state stays ready; a ready state has a result. -/
theorem C47_stable {k : Kind} {t0 : ι} {s s' : St ι} {t : ι} {a : Act ι} (h : Reach k t0 s) (he : step k s t a = some s') :
    (∀ r, s.stored = some r → s'.stored = some r) ∧ (s.ready = true → s'.ready = true) ∧ (s.ready = true → s.stored ≠ none) :=
  ⟨(step_chg h.inv he).1, (step_chg h.inv he).2, fun e => by rw [← Option.isSome_iff_ne_none]; exact h.inv.num.rdy e⟩

/-- The result is `broken_promise` only if the provider was destroyed; and if the provider has been destroyed, there is a result and the state is ready. -/
theorem C47_broken {k : Kind} {t0 : ι} {s : St ι} (h : Reach k t0 s) :
    (s.stored = some .broken → s.prov = false) ∧
    (k ≠ .dfr → s.prov = false → (∀ u, (s.l u).op = .drop → active (s.l u).pc = false) → s.ready = true) := by
  refine ⟨h.invB.brk, fun hk hp hu => ?_⟩
  have hi := h.inv
  have hd : (numsTot s.l).dr = 0 := tot_eq_zero fun u => by
    cases ho : (s.l u).op <;> simp [nums, ho, Op.isDrop]
    exact hu u ho
  have hdp : (numsTot s.l).dp = 0 := tot_eq_zero fun u => by
    cases ho : (s.l u).op <;> simp [nums, ho, Op.isDrop]
    have := hu u ho
    cases hpc : (s.l u).pc <;> simp_all [active, isDropPre]
  have hs : s.stored.isSome = true := by
    by_contra hh
    have := hi.num.brk hk hp (by simpa using hh); omega
  cases hr : s.ready with
  | true => rfl
  | false =>
    exfalso
    have hreg : s.reg.isSome = false := by
      by_contra hh
      have := (hi.num.reg (by simpa [Option.isSome_iff_ne_none] using hh)).2
      rw [hp] at this; cases this
    obtain ⟨u, hu1⟩ := tot_pos (hi.num.str hs hr hreg)
    cases hpc : (s.l u).pc <;> simp [nums, hpc, isRdy] at hu1
    have hl := hi.loc u
    simp only [LocOK, hpc] at hl
    have h1 := hl.1
    have h2 := hi.num.npr hp
    have h3 := le_tot (fun x => (nums x).u) s.l u
    change _ ≤ (numsTot s.l).u at h3
    have h4 := hu u
    cases ho : (s.l u).op <;> simp [ho, hpc, SetOK, nums, isUse, active] at h1 h3 h4 <;> first | omega | exact hk h1.1

/-- A deferred function is called at most once; if the state is ready or a result was given, it has been called exactly once, and its result is the result. -/
theorem C47_deferred {t0 : ι} {s : St ι} (h : Reach .dfr t0 s) :
    s.calls.length ≤ 1 ∧ ∀ r, s.stored = some r → ∃ u, s.calls = [(u, r)] := by
  refine ⟨?_, (h.invB.dfr rfl).2⟩
  rw [(h.invB.dfr rfl).1]
  have := (h.inv.num.dfr rfl).2.1
  have h3 : s.running.toNat ≤ 1 := Bool.toNat_le _
  omega

/-- There is at most one `future`, and none if there is a `shared_future`. -/
theorem C47_unique {k : Kind} {t0 : ι} {s : St ι} (h : Reach k t0 s) :
    (∑ u, (s.l u).fut) ≤ 1 ∧ ∀ u v, 0 < (s.l u).sh → (s.l v).fut = 0 := by
  have h1 := h.inv.num.uf
  constructor
  · have : tot (fun x => x.fut) s.l ≤ (numsTot s.l).uf := tot_mono (f := fun x => x.fut) (g := fun x => (nums x).uf) fun u => by simp [nums]
    exact le_trans this h1
  · intro u v hu
    have h2 := le_tot (fun x => (nums x).sh) s.l u
    change _ ≤ (numsTot s.l).sh at h2
    have h3 := h.inv.num.shf (lt_of_lt_of_le hu h2)
    have h4 := le_tot (fun x => (nums x).uf) s.l v
    change _ ≤ (numsTot s.l).uf at h4
    simp only [nums] at h4; omega

/-- No wake-up is lost. When no thread can go on by itself, every thread in the middle of an operation waits for the provider: either there is no result yet, and the
provider exists and no operation of it is in progress, or a thread that has called a function `.._at_thread_exit` has not ended yet. -/
theorem C47_progress {k : Kind} {t0 : ι} {s : St ι} (h : Reach k t0 s) (hs : ∀ t r, advStep k s t r = none) (t : ι) :
    (s.l t).pc = .idle ∨ (s.l t).pc = .exited ∨
    ((s.l t).op.waits = true ∧ s.ready = false ∧ s.stored = none ∧ k ≠ .dfr ∧ s.prov = true ∧ (s.l t).pc = .wSleep ∧ ∀ u, isUse (s.l u).op = true → active (s.l u).pc = false) ∨
    (s.ready = false ∧ ∃ w, s.reg = some w ∧ (s.l w).pc = .idle) := by
  have hi := h.inv
  have hb := h.invB
  have hxp : ∀ u, (s.l u).pc ≠ .x1 ∧ (s.l u).pc ≠ .x2 ∧ (s.l u).pc ≠ .x3 := by
    intro u
    have h1 := hs u .broken
    refine ⟨?_, ?_, ?_⟩ <;> intro e <;> simp [advStep, e] at h1
  have hxm : s.xm = none := by
    cases hx : s.xm with
    | none => rfl
    | some w =>
      exfalso
      have h2 := hxp w
      rcases hi.xm w hx with e | e | e
      · exact h2.1 e
      · exact h2.2.1 e
      · exact h2.2.2 e
  have hpc : ∀ u, (s.l u).pc = .idle ∨ (s.l u).pc = .exited ∨ (s.l u).pc = .wSleep ∨
      (((∃ r, (s.l u).pc = .sLock r) ∨ (s.l u).pc = .wLock ∨ ∃ b, (s.l u).pc = .wRelock b) ∧ s.own ≠ none ∧ s.own ≠ some u) := by
    intro u
    have h1 := hs u (.val 0)
    have hl := hi.loc u
    have hx := hxp u
    have lk : ∀ r p, s.lock u r p = none → s.own ≠ none ∧ s.own ≠ some u := by
      intro r p e
      unfold St.lock at e
      split at e
      · cases e
      · split at e
        · cases e
        · exact ⟨by assumption, by assumption⟩
    cases hp : (s.l u).pc <;> simp only [hp, advStep, LocOK] at h1 hl hx ⊢
    all_goals first | (simp at h1; done) | (simp at hx; done) | skip
    · simp
    · exfalso
      rcases hl with ⟨ho, _⟩ | ⟨ex, ho⟩ <;> rw [ho] at h1 <;> simp at h1
    · exact .inr (.inr (.inr ⟨.inl ⟨_, rfl⟩, lk _ _ h1⟩))
    · exfalso; rw [hxm] at h1; split at h1 <;> simp at h1
    · exact .inr (.inr (.inr ⟨.inr (.inl (by simp)), lk _ _ h1⟩))
    · exact .inr (.inr (.inr ⟨.inr (.inr ⟨_, rfl⟩), lk _ _ h1⟩))
    · exfalso; (repeat' split at h1) <;> cases h1
    · simp
    · exfalso; split at h1 <;> cases h1
    · simp
  have hown : ∀ w, s.own = some w → s.reg = some w := by
    intro w hw
    refine hi.own_cases hw ?_
    rcases hpc w with e | e | e | ⟨⟨r, e⟩ | e | ⟨b, e⟩, _⟩ <;> rw [e] <;> rfl
  have hregw : ∀ w, s.reg = some w → (s.l w).pc = .idle ∧ s.ready = false := by
    intro w hw
    have ho := (hi.reg w hw).1
    constructor
    · rcases hpc w with e | e | e | ⟨_, _, e⟩
      · exact e
      · have := hi.loc w; simp only [LocOK, e] at this; exact absurd hw this
      · have := hb.lb w; simp only [LB, e] at this; exact absurd hw this.2
      · exact absurd ho e
    · cases hr : s.ready with
      | false => rfl
      | true =>
        exfalso
        have h2 := hxp w
        rcases hb.regx w hw hr with e | e
        · exact h2.2.1 e
        · exact h2.2.2 e
  cases hr : s.reg with
  | some w => exact .inr (.inr (.inr ⟨(hregw w hr).2, w, rfl, (hregw w hr).1⟩))
  | none =>
    have hon : s.own = none := by
      cases ho : s.own with
      | none => rfl
      | some w => have := hown w ho; rw [hr] at this; cases this
    have hpc' : ∀ u, (s.l u).pc = .idle ∨ (s.l u).pc = .exited ∨ (s.l u).pc = .wSleep := by
      intro u
      rcases hpc u with e | e | e | ⟨_, e, _⟩
      · exact .inl e
      · exact .inr (.inl e)
      · exact .inr (.inr e)
      · exact absurd hon e
    rcases hpc' t with e | e | e
    · exact .inl e
    · exact .inr (.inl e)
    · refine .inr (.inr (.inl ?_))
      have none_pos : ∀ f : Loc → Nat, (∀ u, f (s.l u) = 0) → ¬ 0 < tot f s.l := fun f hf h0 => by
        rw [tot_eq_zero hf] at h0; exact absurd h0 (lt_irrefl _)
      have hst : s.stored.isSome = false := by
        by_contra hh
        have hh : s.stored.isSome = true := by simpa [Option.isSome_iff_ne_none] using hh
        cases hrd : s.ready with
        | true =>
          have hz : 0 < (numsTot s.l).z := by
            have h2 := le_tot (fun x => (nums x).z) s.l t
            change _ ≤ (numsTot s.l).z at h2
            simp only [nums, e, isSlp, Bool.toNat_true] at h2; omega
          refine none_pos (fun x => (nums x).n) (fun u => ?_) (hi.num.slp hrd hz)
          rcases hpc' u with e | e | e <;> simp [nums, e, isNtf]
        | false =>
          refine none_pos (fun x => (nums x).r) (fun u => ?_) (hi.num.str hh hrd (by simp [hr]))
          rcases hpc' u with e | e | e <;> simp [nums, e, isRdy]
      have hl := hi.loc t
      simp only [LocOK, e] at hl
      have hlb := hb.lb t
      simp only [LB, e] at hlb
      have hnd : k ≠ .dfr := by
        intro hk
        have h1 := (hi.num.dfr hk).1
        rw [hlb.1 hk, hst] at h1
        refine none_pos (fun x => (nums x).p) (fun u => ?_) ?_
        · rcases hpc' u with e | e | e <;> simp [nums, e, isPre]
        · change 0 < (numsTot s.l).p
          simp at h1; omega
      refine ⟨hl, ?_, by simpa using hst, hnd, ?_, e, fun u hu => ?_⟩
      · cases hrd : s.ready with
        | false => rfl
        | true => have := hi.num.rdy hrd; rw [hst] at this; cases this
      · cases hp : s.prov with
        | true => rfl
        | false =>
          exfalso
          refine none_pos (fun x => (nums x).dp) (fun u => ?_) (hi.num.brk hnd hp hst)
          rcases hpc' u with e | e | e <;> simp [nums, e, isDropPre]
      · rcases hpc' u with e | e | e
        · rw [e]; rfl
        · rw [e]; rfl
        · have := hi.loc u
          simp only [LocOK, e] at this
          cases ho : (s.l u).op <;> simp [ho, isUse, Op.waits] at hu this

end STL.Future
