import Mathlib.Tactic.ClearExcept
import Verif.Future.Inv

/-!
# `future`: every transition keeps the invariant
-/

namespace STL.Future
open STL STL.Conc

variable {ι : Type} [Fintype ι] [DecidableEq ι]

omit [Fintype ι] in
theorem goto_bad {s : St ι} (h : s.bad = false) (hf : s.freed = 0) : (s.bad || decide (0 < s.freed)) = false := by simp [h, hf]

theorem Inv.own_cases {k : Kind} {s : St ι} (h : Inv k s) {t : ι} (ho : s.own = some t) (hc : isCrit (s.l t).pc = false) : s.reg = some t := by
  have h1 := h.num.own
  rw [ho] at h1
  simp only [Option.isSome_some, Bool.toNat_true] at h1
  cases hr : s.reg with
  | some u => have := (h.reg u hr).1; rw [ho] at this; rw [Option.some.inj this]
  | none =>
    rw [hr] at h1
    simp only [Option.isSome_none, Bool.toNat_false, Nat.add_zero] at h1
    have h2 : 0 < tot (fun x => (nums x).c) s.l := by change 0 < (numsTot s.l).c; omega
    obtain ⟨u, hu⟩ := tot_pos h2
    have hu' : isCrit (s.l u).pc = true := by
      by_contra hh
      have hh' : isCrit (s.l u).pc = false := by simpa using hh
      simp [nums, hh'] at hu
    have h3 := h.crit u hu'
    rw [ho] at h3
    rw [Option.some.inj h3] at hc; rw [hc] at hu'; cases hu'

/-- The lock is held by an operation. -/
theorem Inv.no_reg {k : Kind} {s : St ι} (h : Inv k s) {t : ι} (hc : isCrit (s.l t).pc = true) : s.reg = none := by
  obtain ⟨R, h1, _⟩ := split_nums s.l t
  have hn := h.num.own
  rw [h1] at hn
  simp only [Nums.add, nums, hc, Bool.toNat_true] at hn
  cases hr : s.reg with
  | none => rfl
  | some u =>
    rw [hr] at hn
    have : s.own.isSome.toNat ≤ 1 := Bool.toNat_le _
    simp at hn; omega

/-- Two threads are not in the critical section at the same time. -/
theorem Inv.excl {k : Kind} {s : St ι} (h : Inv k s) {t u : ι} (hc : isCrit (s.l t).pc = true) (hu : isCrit (s.l u).pc = true) : u = t := by
  have h1 := h.crit t hc
  have h2 := h.crit u hu
  rw [h1] at h2; exact (Option.some.inj h2).symm

theorem Inv.not_xm {k : Kind} {s : St ι} (h : Inv k s) {t : ι} (hc : active (s.l t).pc = true ∨ (s.l t).pc = .idle) : s.xm ≠ some t := by
  intro hx
  rcases h.xm t hx with e | e | e <;> rw [e] at hc <;> simp [active] at hc

/-- The counts of one step. -/
macro "num" "[" hp:ident,* "]" : tactic => `(tactic| (
  clear * - $[$hp]*
  intro R hRz hR
  obtain ⟨a1, a2, a3, a5, a6, a7, a8, a9, a10, a11, a12, a13, a14, a15, a16, a17, a18⟩ := hR
  simp only [Nums.add, nums, $[$hp:ident],*, active, isDel, isCrit, isRdy, isNtf, isSlp, isPre, isPreRun, isDropPre, isGetPre, Bool.and_true, Bool.and_false, Bool.not_false, Bool.not_true,
    Bool.toNat_true, Bool.toNat_false, Nat.add_zero, Option.isSome_some, Option.isSome_none, Bool.false_and, Bool.true_and, Op.waits, ownsRef, isUse, Op.isDrop, isGet, Bool.or_false, Bool.or_true]
    at a1 a2 a3 a5 a6 a7 a8 a9 a10 a11 a12 a13 a14 a15 a16 a17 a18
  constructor <;> simp only [St.goto, St.ret, St.unlock, Nums.add, nums, $[$hp:ident],*, active, isDel, isCrit, isRdy, isNtf, isSlp, isPre, isPreRun, isDropPre, isGetPre, Bool.and_true, Bool.and_false, Bool.not_false,
    Bool.not_true, Bool.toNat_true, Bool.toNat_false, Nat.add_zero, Option.isSome_some, Option.isSome_none, Bool.false_and, Bool.true_and, Op.waits, ownsRef, isUse, Op.isDrop, isGet, Bool.or_false, Bool.or_true] <;>
    first | assumption | omega | grind | skip))

omit [Fintype ι] in
theorem upd_upd (l : ι → Loc) (t : ι) (x y : Loc) : upd (upd l t x) t y = upd l t y := by
  funext u; by_cases h : u = t
  · subst h; simp
  · simp [upd_ne _ _ h]

omit [Fintype ι] in
theorem ret_l (s : St ι) (t : ι) (p : PC) (o : Out) : ((s.goto t p).ret t o).l = upd s.l t { s.l t with pc := .idle, done := (s.l t).done ++ [((s.l t).op, o)] } := by
  simp [St.ret, St.goto, upd_upd]

theorem done_ret {k : Kind} {a : Option Res} {b : Bool} {x x' : Loc} {o : Out} (hx : x'.done = x.done ++ [(x.op, o)]) (hd : ∀ e ∈ x.done, OutOK k a b (regd x) e.1 e.2)
    (ho : OutOK k a b (regd x) x.op o) : ∀ e ∈ x'.done, OutOK k a b (regd x') e.1 e.2 := by
  have hr : regd x = true → regd x' = true := by
    unfold regd; rw [hx]; intro h; rw [List.any_append, h]; rfl
  intro e he
  rw [hx, List.mem_append] at he
  rcases he with he | he
  · exact (hd e he).mono (fun _ h => h) id hr
  · simp only [List.mem_singleton] at he; subst he
    exact ho.mono (fun _ h => h) id hr

/-- The thread goes to another position. -/
theorem Inv.gotoL {k : Kind} {s s' : St ι} (h : Inv k s) (t : ι) {p : PC} (hl : s'.l = upd s.l t { s.l t with pc := p }) (ha : active (s.l t).pc = true)
    (hN : ∀ R : Nums, R.z ≤ (numsTot s.l).z → NumOK k s (R.add (nums (s.l t))) → NumOK k s' (R.add (nums { s.l t with pc := p })))
    (hbad : s'.bad = false) (hterm : s'.term = s.term)
    (hcrit : isCrit p = true → s'.own = some t) (hown : s'.own = s.own ∨ s.own = none ∨ s.own = some t)
    (h1 : s'.stored = s.stored) (h2 : s'.ready = s.ready) (h3 : s'.reg = s.reg) (h4 : s'.xm = s.xm) (h5 : s'.log = s.log)
    (hregt : s.reg = some t → s'.own = some t) (hloc : LocOK k s t { s.l t with pc := p })
    (hpend : pend (s.l t) = pend { s.l t with pc := p }) : Inv k s' :=
  h.updL t hl hN hbad hterm hcrit hown h1 h2 h3 h4 h5 (fun e => ⟨hregt e, (h.reg t e).2⟩) (h.not_xm (.inl ha)) (fun _ => h.hold t ha) hloc (h.done t) (by rw [hpend])

/-- The operation is over. -/
theorem Inv.retL {k : Kind} {s s' : St ι} (h : Inv k s) (t : ι) {o : Out} (hl : s'.l = upd s.l t { s.l t with pc := .idle, done := (s.l t).done ++ [((s.l t).op, o)] })
    (ha : active (s.l t).pc = true)
    (hN : ∀ R : Nums, R.z ≤ (numsTot s.l).z → NumOK k s (R.add (nums (s.l t))) → NumOK k s' (R.add (nums { s.l t with pc := .idle, done := (s.l t).done ++ [((s.l t).op, o)] })))
    (hbad : s'.bad = false) (hterm : s'.term = s.term) (hown : s'.own = s.own ∨ s.own = none ∨ s.own = some t)
    (h1 : s'.stored = s.stored) (h2 : s'.ready = s.ready) (h3 : s'.reg = s.reg) (h4 : s'.xm = s.xm) (h5 : s'.log = s.log)
    (hregt : s.reg = some t → s'.own = some t) (hout : OutOK k s.stored s.ready (regd (s.l t)) (s.l t).op o)
    (hpend : pend (s.l t) = (okOp ((s.l t).op, o)).toList) : Inv k s' := by
  refine h.updL t hl hN hbad hterm (fun e => by simp [isCrit] at e) hown h1 h2 h3 h4 h5 (fun e => ⟨hregt e, ?_⟩) (h.not_xm (.inl ha)) (fun e => by simp [active] at e) trivial
    (done_ret rfl (h.done t) hout) ?_
  · have := (h.reg t e).2
    unfold regd at *; rw [List.any_append, this]; rfl
  · rw [hpend]
    simp only [pend, List.filterMap_append, List.append_nil]
    cases hq : okOp ((s.l t).op, o) <;> simp [hq]

theorem lockErr_inv {k : Kind} {s : St ι} (h : Inv k s) {t : ι} {r : Res} (hp : (s.l t).pc = .sLock r ∨ (s.l t).pc = .wLock ∨ ∃ b, (s.l t).pc = .wRelock b) (ho : s.own = some t) :
    Inv k (lockErr s t r) := by
  have ha : active (s.l t).pc = true := by rcases hp with hp | hp | ⟨b, hp⟩ <;> rw [hp] <;> rfl
  have hnc : isCrit (s.l t).pc = false := by rcases hp with hp | hp | ⟨b, hp⟩ <;> rw [hp] <;> rfl
  have hndl : isDel (s.l t).pc = false := by rcases hp with hp | hp | ⟨b, hp⟩ <;> rw [hp] <;> rfl
  have hf := h.alive0 (h.alive ha hndl)
  have hreg := h.own_cases ho hnc
  have hrgd := (h.reg t hreg).2
  have hpr := (h.num.reg (by simp [hreg])).2
  have hl := h.loc t
  have hnd : k ≠ .dfr := fun e => by have := (h.num.dfr e).2.2.1; rw [hpr] at this; cases this
  have hpe : pend (s.l t) = [] := by rcases hp with hp | hp | ⟨b, hp⟩ <;> simp [pend, hp]
  unfold lockErr
  rcases hp with hp | hp | ⟨b, hp⟩
  · simp only [LocOK, hp] at hl
    cases hop : (s.l t).op with
    | drop =>
      exfalso
      have h1 := h.num.prv hpr
      have h2 := le_tot (fun x => (nums x).dr) s.l t
      simp only [nums, hop, ha] at h2
      change _ ≤ (numsTot s.l).dr at h2
      rw [h1] at h2; simp [Op.isDrop] at h2
    | set r ex =>
      refine h.retL t (ret_l _ _ _ _) ha ?_ (goto_bad h.bad hf) rfl (.inl rfl) rfl rfl rfl rfl rfl (fun e => ho) (by simpa [hop, OutOK] using hrgd) (by simp [hpe, okOp])
      num [hp, hop]
    | call ex =>
      simp only
      split
      · refine h.retL t (ret_l _ _ _ _) ha ?_ (goto_bad h.bad hf) rfl (.inl rfl) rfl rfl rfl rfl rfl (fun e => ho) (by simpa [hop, OutOK] using hrgd) (by simp [hpe, okOp])
        num [hp, hop]
      · refine h.gotoL t rfl ha ?_ (goto_bad h.bad hf) rfl (fun e => by simp [isCrit] at e) (.inl rfl) rfl rfl rfl rfl rfl (fun e => ho) (by simp [LocOK, hop, SetOK]) (by rw [hpe]; rfl)
        num [hp, hop]
    | dropFut => simp [hop, SetOK] at hl
    | dropSh => simp [hop, SetOK] at hl
    | _ => simp only [hop, SetOK] at hl; exact absurd hl.1 hnd
  · simp only [LocOK, hp] at hl
    cases hop : (s.l t).op with
    | get =>
      refine h.gotoL t rfl ha ?_ (goto_bad h.bad hf) rfl (fun e => by simp [isCrit] at e) (.inl rfl) rfl rfl rfl rfl rfl (fun e => ho) (by simp [LocOK, hop, OutOK, ownsRef]; exact hrgd) (by rw [hpe]; rfl)
      num [hp, hop]
    | sget =>
      refine h.retL t (ret_l _ _ _ _) ha ?_ (goto_bad h.bad hf) rfl (.inl rfl) rfl rfl rfl rfl rfl (fun e => ho) (by simpa [hop, OutOK] using hrgd) (by simp [hpe, okOp])
      num [hp, hop]
    | wait b =>
      refine h.retL t (ret_l _ _ _ _) ha ?_ (goto_bad h.bad hf) rfl (.inl rfl) rfl rfl rfl rfl rfl (fun e => ho) (by simpa [hop, OutOK] using hrgd) (by simp [hpe, okOp])
      num [hp, hop]
    | waitFor b =>
      refine h.retL t (ret_l _ _ _ _) ha ?_ (goto_bad h.bad hf) rfl (.inl rfl) rfl rfl rfl rfl rfl (fun e => ho) (by simpa [hop, OutOK] using hrgd) (by simp [hpe, okOp])
      num [hp, hop]
    | _ => simp [hop, Op.waits] at hl
  · simp only [LocOK, hp] at hl
    cases hop : (s.l t).op with
    | get =>
      refine h.gotoL t rfl ha ?_ (goto_bad h.bad hf) rfl (fun e => by simp [isCrit] at e) (.inl rfl) rfl rfl rfl rfl rfl (fun e => ho) (by simp [LocOK, hop, OutOK, ownsRef]; exact hrgd) (by rw [hpe]; rfl)
      num [hp, hop]
    | sget =>
      refine h.retL t (ret_l _ _ _ _) ha ?_ (goto_bad h.bad hf) rfl (.inl rfl) rfl rfl rfl rfl rfl (fun e => ho) (by simpa [hop, OutOK] using hrgd) (by simp [hpe, okOp])
      num [hp, hop]
    | wait b =>
      refine h.retL t (ret_l _ _ _ _) ha ?_ (goto_bad h.bad hf) rfl (.inl rfl) rfl rfl rfl rfl rfl (fun e => ho) (by simpa [hop, OutOK] using hrgd) (by simp [hpe, okOp])
      num [hp, hop]
    | waitFor b =>
      refine h.retL t (ret_l _ _ _ _) ha ?_ (goto_bad h.bad hf) rfl (.inl rfl) rfl rfl rfl rfl rfl (fun e => ho) (by simpa [hop, OutOK] using hrgd) (by simp [hpe, okOp])
      num [hp, hop]
    | _ => simp [hop, Op.waits] at hl

theorem reg_none_of_own {k : Kind} {s : St ι} (h : Inv k s) (ho : s.own = none) : s.reg = none := by
  cases hr : s.reg with
  | none => rfl
  | some u => have := (h.reg u hr).1; rw [ho] at this; cases this

theorem lock_inv {k : Kind} {s s' : St ι} (h : Inv k s) {t : ι} {r : Res} {p : PC}
    (hp : ((s.l t).pc = .sLock r ∧ p = .sCrit r) ∨ ((s.l t).pc = .wLock ∧ p = .wCrit) ∨ ∃ b, (s.l t).pc = .wRelock b ∧ p = .wLoop b)
    (he : s.lock t r p = some s') : Inv k s' := by
  have ha : active (s.l t).pc = true := by rcases hp with hp | hp | ⟨b, hp⟩ <;> rw [hp.1] <;> rfl
  have hndl : isDel (s.l t).pc = false := by rcases hp with hp | hp | ⟨b, hp⟩ <;> rw [hp.1] <;> rfl
  have hf := h.alive0 (h.alive ha hndl)
  have hl := h.loc t
  unfold St.lock at he
  split at he
  · rename_i ho
    have hrn := reg_none_of_own h ho
    simp only [Option.some.injEq] at he; subst he
    rcases hp with ⟨hp, rfl⟩ | ⟨hp, rfl⟩ | ⟨b, hp, rfl⟩
    · refine h.gotoL t rfl ha ?_ (goto_bad h.bad hf) rfl (fun e => rfl) (.inr (.inl ho)) rfl rfl rfl rfl rfl (fun e => rfl) (by simpa [LocOK, hp] using hl) (by simp [hp, pend])
      num [hp, ho, hrn]
    · refine h.gotoL t rfl ha ?_ (goto_bad h.bad hf) rfl (fun e => rfl) (.inr (.inl ho)) rfl rfl rfl rfl rfl (fun e => rfl) (by simpa [LocOK, hp] using hl) (by simp [hp, pend])
      num [hp, ho, hrn]
    · refine h.gotoL t rfl ha ?_ (goto_bad h.bad hf) rfl (fun e => rfl) (.inr (.inl ho)) rfl rfl rfl rfl rfl (fun e => rfl) (by simpa [LocOK, hp] using hl) (by simp [hp, pend])
      num [hp, ho, hrn]
  · split at he
    · rename_i ho
      simp only [Option.some.injEq] at he; subst he
      refine lockErr_inv h ?_ ho
      rcases hp with hp | hp | ⟨b, hp⟩
      · exact .inl hp.1
      · exact .inr (.inl hp.1)
      · exact .inr (.inr ⟨b, hp.1⟩)
    · cases he


/-- With the lock, a stored result is ready. -/
theorem Inv.ready_of_crit {k : Kind} {s : St ι} (h : Inv k s) {t : ι} (hc : isCrit (s.l t).pc = true) (hr : isRdy (s.l t).pc = false) (hs : s.stored.isSome = true) : s.ready = true := by
  by_contra hn
  have h1 := h.num.str hs (by simpa using hn) (by simp [h.no_reg hc])
  obtain ⟨u, hu⟩ := tot_pos (f := fun x => (nums x).r) h1
  have hu' : isRdy (s.l u).pc = true := by
    by_contra hh
    have hh' : isRdy (s.l u).pc = false := by simpa using hh
    simp [nums, hh'] at hu
  have hcu : isCrit (s.l u).pc = true := by
    cases hp : (s.l u).pc <;> simp [hp, isRdy] at hu' <;> rfl
  have := h.excl hc hcu
  subst this; rw [hr] at hu'; cases hu'

theorem chk_inv {k : Kind} {s s' : St ι} (h : Inv k s) {t : ι} {r : Res} (hp : (s.l t).pc = .chk) (he : advStep k s t r = some s') : Inv k s' := by
  have ha : active (s.l t).pc = true := by rw [hp]; rfl
  have hf := h.alive0 (h.alive ha (by rw [hp]; rfl))
  have hl := h.loc t
  have hpe : pend (s.l t) = [] := by simp [pend, hp]
  have hreg : s.reg = some t → s.own = some t := fun e => (h.reg t e).1
  simp only [LocOK, hp] at hl
  unfold advStep at he
  rw [hp] at he
  simp only at he
  rcases hl with ⟨hop, hk, hs⟩ | ⟨ex, hop⟩
  · rw [hop] at he
    simp only [Option.some.injEq] at he; subst he
    split
    · rename_i hr
      refine h.gotoL t rfl ha ?_ (goto_bad h.bad hf) rfl (fun e => by simp [isCrit] at e) (.inl rfl) rfl rfl rfl rfl rfl hreg ?_ (by rw [hpe]; rfl)
      · have hss := h.num.rdy hr
        num [hp, hop, hss]
      · simp [LocOK, hop, ownsRef, OutOK, h.num.rdy hr]
    · rename_i hr
      refine h.gotoL t rfl ha ?_ (goto_bad h.bad hf) rfl (fun e => by simp [isCrit] at e) (.inl rfl) rfl rfl rfl rfl rfl hreg ?_ (by rw [hpe]; rfl)
      · num [hp, hop]
      · simp [LocOK, hop, SetOK, hk]
        rcases hs with e | e
        · exact e
        · exact absurd e hr
  · rw [hop] at he
    simp only [Option.some.injEq] at he; subst he
    split
    · rename_i hr
      refine h.retL t (ret_l _ _ _ _) ha ?_ (goto_bad h.bad hf) rfl (.inl rfl) rfl rfl rfl rfl rfl hreg (by simp [hop, OutOK, h.num.rdy hr]) (by rw [hpe]; simp [okOp])
      num [hp, hop]
    · cases ex
      · refine h.gotoL t rfl ha ?_ (goto_bad h.bad hf) rfl (fun e => by simp [isCrit] at e) (.inl rfl) rfl rfl rfl rfl rfl hreg (by simp [LocOK, hop]) (by rw [hpe]; rfl)
        num [hp, hop]
      · refine h.gotoL t rfl ha ?_ (goto_bad h.bad hf) rfl (fun e => by simp [isCrit] at e) (.inl rfl) rfl rfl rfl rfl rfl hreg (by simp [LocOK, hop]) (by rw [hpe]; rfl)
        num [hp, hop]

theorem chk2_inv {k : Kind} {s s' : St ι} (h : Inv k s) {t : ι} {r : Res} (hp : (s.l t).pc = .chk2) (he : advStep k s t r = some s') : Inv k s' := by
  have ha : active (s.l t).pc = true := by rw [hp]; rfl
  have hf := h.alive0 (h.alive ha (by rw [hp]; rfl))
  have hl := h.loc t
  have hpe : pend (s.l t) = [] := by simp [pend, hp]
  have hreg : s.reg = some t → s.own = some t := fun e => (h.reg t e).1
  simp only [LocOK, hp] at hl
  obtain ⟨ex, hop⟩ := hl
  unfold advStep at he
  rw [hp] at he
  simp only [Option.some.injEq] at he; subst he
  split
  · rename_i hr
    refine h.retL t (ret_l _ _ _ _) ha ?_ (goto_bad h.bad hf) rfl (.inl rfl) rfl rfl rfl rfl rfl hreg (by simp [hop, OutOK, hr]) (by rw [hpe]; simp [okOp])
    num [hp, hop]
  · refine h.gotoL t rfl ha ?_ (goto_bad h.bad hf) rfl (fun e => by simp [isCrit] at e) (.inl rfl) rfl rfl rfl rfl rfl hreg (by simp [LocOK, hop]) (by rw [hpe]; rfl)
    num [hp, hop]

theorem run_inv {k : Kind} {s s' : St ι} (h : Inv k s) {t : ι} {r : Res} (hp : (s.l t).pc = .run) (he : advStep k s t r = some s') : Inv k s' := by
  have ha : active (s.l t).pc = true := by rw [hp]; rfl
  have hf := h.alive0 (h.alive ha (by rw [hp]; rfl))
  have hl := h.loc t
  have hpe : pend (s.l t) = [] := by simp [pend, hp]
  have hreg : s.reg = some t → s.own = some t := fun e => (h.reg t e).1
  simp only [LocOK, hp] at hl
  unfold advStep at he
  rw [hp] at he
  simp only at he
  split at he
  · cases he
  rename_i hr
  simp only [Option.some.injEq] at he; subst he
  rcases hl with ⟨ex, hop⟩ | ⟨hw, hk⟩
  · refine h.gotoL t rfl ha ?_ (goto_bad h.bad hf) rfl (fun e => by simp [isCrit] at e) (.inl rfl) rfl rfl rfl rfl rfl hreg (by simp [LocOK, hop, SetOK, hr]) (by rw [hpe]; rfl)
    num [hp, hop]
  · refine h.gotoL t rfl ha ?_ (goto_bad h.bad hf) rfl (fun e => by simp [isCrit] at e) (.inl rfl) rfl rfl rfl rfl rfl hreg ?_ (by rw [hpe]; rfl)
    · subst hk
      cases hop : (s.l t).op <;> simp [hop, Op.waits] at hw <;> num [hp, hop]
    · simp only [LocOK]
      cases hop : (s.l t).op <;> simp [hop, Op.waits] at hw <;> simp [SetOK, hk, hr]


/-- The loop test: the state is ready, or the wait times out, or the thread goes to sleep. -/
theorem wLoop_inv {k : Kind} {s s' : St ι} (h : Inv k s) {t : ι} {r : Res} {b : Bool} (hp : (s.l t).pc = .wLoop b) (he : advStep k s t r = some s') : Inv k s' := by
  have ha : active (s.l t).pc = true := by rw [hp]; rfl
  have hf := h.alive0 (h.alive ha (by rw [hp]; rfl))
  have hl := h.loc t
  have hpe : pend (s.l t) = [] := by simp [pend, hp]
  have hc : isCrit (s.l t).pc = true := by rw [hp]; rfl
  have hown := h.crit t hc
  have hrn := h.no_reg hc
  have hreg : ∀ p : Prop, s.reg = some t → p := fun p e => by rw [hrn] at e; cases e
  simp only [LocOK, hp] at hl
  obtain ⟨hw, hb⟩ := hl
  unfold advStep at he
  rw [hp] at he
  simp only at he
  split at he
  · rename_i hr
    have hss := h.num.rdy hr
    obtain ⟨v, hv⟩ := Option.isSome_iff_exists.1 hss
    simp only [Option.some.injEq] at he; subst he
    refine h.gotoL t rfl ha ?_ (goto_bad h.bad hf) rfl (fun e => hown) (.inl rfl) rfl rfl rfl rfl rfl (hreg _) ?_ (by rw [hpe]; rfl)
    · num [hp]
    · refine ⟨hw, ?_⟩
      cases hop : (s.l t).op <;> simp [hop, Op.waits] at hw <;> simp [outOf, OutOK, hr, hv]
  · rename_i hr
    split at he
    · rename_i hbt
      obtain ⟨c, hop⟩ := hb hbt
      simp only [Option.some.injEq] at he; subst he
      refine h.gotoL t rfl ha ?_ (goto_bad h.bad hf) rfl (fun e => hown) (.inl rfl) rfl rfl rfl rfl rfl (hreg _) ⟨hw, by simp [hop, OutOK]⟩ (by rw [hpe]; rfl)
      num [hp]
    · simp only [Option.some.injEq] at he; subst he
      refine h.gotoL t rfl ha ?_ (goto_bad h.bad hf) rfl (fun e => by simp [isCrit] at e) (.inr (.inr hown)) rfl rfl rfl rfl rfl (hreg _) hw (by rw [hpe]; rfl)
      num [hp, hown, hrn, hr]

theorem wUnl_inv {k : Kind} {s s' : St ι} (h : Inv k s) {t : ι} {r : Res} {o : Out} (hp : (s.l t).pc = .wUnl o) (he : advStep k s t r = some s') : Inv k s' := by
  have ha : active (s.l t).pc = true := by rw [hp]; rfl
  have hf := h.alive0 (h.alive ha (by rw [hp]; rfl))
  have hl := h.loc t
  have hpe : pend (s.l t) = [] := by simp [pend, hp]
  have hc : isCrit (s.l t).pc = true := by rw [hp]; rfl
  have hown := h.crit t hc
  have hrn := h.no_reg hc
  have hreg : ∀ p : Prop, s.reg = some t → p := fun p e => by rw [hrn] at e; cases e
  simp only [LocOK, hp] at hl
  obtain ⟨hw, hout⟩ := hl
  unfold advStep at he
  rw [hp] at he
  simp only at he
  have hret : ∀ op, (s.l t).op = op → op.waits = true → op ≠ .get → Inv k ((s.unlock.goto t .idle).ret t o) := by
    intro op hop hw hg
    refine h.retL t (ret_l _ _ _ _) ha ?_ (goto_bad h.bad hf) rfl (.inr (.inr hown)) rfl rfl rfl rfl rfl (hreg _) hout ?_
    · cases op <;> simp [Op.waits] at hw hg <;> num [hp, hop, hown, hrn]
    · rw [hpe]
      rw [hop] at hout ⊢
      cases op <;> simp [Op.waits] at hw <;> cases o <;> simp [OutOK] at hout <;> rfl
  cases hop : (s.l t).op with
  | get =>
    rw [hop] at he
    simp only [Option.some.injEq] at he; subst he
    refine h.gotoL t rfl ha ?_ (goto_bad h.bad hf) rfl (fun e => by simp [isCrit] at e) (.inr (.inr hown)) rfl rfl rfl rfl rfl (hreg _) ⟨by rw [hop]; rfl, hout⟩ ?_
    · num [hp, hop, hown, hrn]
    · rw [hpe]
      rw [hop] at hout
      cases o <;> simp [OutOK] at hout <;> rfl
  | sget => rw [hop] at he; simp only [Option.some.injEq] at he; subst he; exact hret _ hop rfl (by simp)
  | wait b => rw [hop] at he; simp only [Option.some.injEq] at he; subst he; exact hret _ hop rfl (by simp)
  | waitFor b => rw [hop] at he; simp only [Option.some.injEq] at he; subst he; exact hret _ hop rfl (by simp)
  | _ => simp [hop, Op.waits] at hw

theorem wDef_inv {k : Kind} {s s' : St ι} (h : Inv k s) {t : ι} {r : Res} (hp : (s.l t).pc = .wDef) (he : advStep k s t r = some s') : Inv k s' := by
  have ha : active (s.l t).pc = true := by rw [hp]; rfl
  have hf := h.alive0 (h.alive ha (by rw [hp]; rfl))
  have hl := h.loc t
  have hpe : pend (s.l t) = [] := by simp [pend, hp]
  have hc : isCrit (s.l t).pc = true := by rw [hp]; rfl
  have hown := h.crit t hc
  have hrn := h.no_reg hc
  have hreg : ∀ p : Prop, s.reg = some t → p := fun p e => by rw [hrn] at e; cases e
  simp only [LocOK, hp] at hl
  unfold advStep at he
  rw [hp] at he
  simp only [Option.some.injEq] at he; subst he
  refine h.gotoL t rfl ha ?_ (goto_bad h.bad hf) rfl (fun e => by simp [isCrit] at e) (.inr (.inr hown)) rfl rfl rfl rfl rfl (hreg _) (.inr hl) (by rw [hpe]; rfl)
  num [hp, hown, hrn]

/-- `_Maybe_run_deferred_function`; `b`: `_Retrieved` is set as well. -/
theorem maybeRun_inv {k : Kind} {s : St ι} (h : Inv k s) {t : ι} (hp : (s.l t).pc = .wCrit) (b : Bool)
    (hb : b = true → (s.l t).op = .get ∨ (s.l t).op = .sget) (hnw : ∀ c, (s.l t).op ≠ .waitFor c) (hs : b = false → (s.l t).op ≠ .get) :
    Inv k (maybeRun k { s with retrieved := s.retrieved || b } t) := by
  have ha : active (s.l t).pc = true := by rw [hp]; rfl
  have hf := h.alive0 (h.alive ha (by rw [hp]; rfl))
  have hl := h.loc t
  have hpe : pend (s.l t) = [] := by simp [pend, hp]
  have hc : isCrit (s.l t).pc = true := by rw [hp]; rfl
  have hown := h.crit t hc
  have hrn := h.no_reg hc
  have hreg : ∀ p : Prop, s.reg = some t → p := fun p e => by rw [hrn] at e; cases e
  have hh := h.hold t ha
  unfold holdsH at hh
  simp only [LocOK, hp] at hl
  unfold maybeRun
  split
  · rename_i hrun
    refine h.gotoL t rfl ha ?_ (goto_bad h.bad hf) rfl (fun e => hown) (.inl rfl) rfl rfl rfl rfl rfl (hreg _) ⟨hl, by simp⟩ (by rw [hpe]; rfl)
    cases b
    · cases hop : (s.l t).op <;> simp [hop, Op.waits] at hl hs hnw <;> num [hp, hop]
    · rcases hb rfl with hop | hop <;> rw [hop] at hh
      · num [hp, hop]
      · simp only at hh
        num [hp, hop, hh]
  · rename_i hrun
    have hrun' : s.running = false := by simpa using hrun
    split
    · rename_i hk
      subst hk
      refine h.gotoL t rfl ha ?_ (goto_bad h.bad hf) rfl (fun e => hown) (.inl rfl) rfl rfl rfl rfl rfl (hreg _) ⟨hl, rfl⟩ (by rw [hpe]; rfl)
      cases b
      · cases hop : (s.l t).op <;> simp [hop, Op.waits] at hl hs hnw <;> num [hp, hop, hrun']
      · rcases hb rfl with hop | hop <;> rw [hop] at hh
        · num [hp, hop, hrun']
        · simp only at hh
          num [hp, hop, hrun', hh]
    · rename_i hk
      refine h.gotoL t rfl ha ?_ (goto_bad h.bad hf) rfl (fun e => hown) (.inl rfl) rfl rfl rfl rfl rfl (hreg _) ⟨hl, by simp⟩ (by rw [hpe]; rfl)
      cases b
      · cases hop : (s.l t).op <;> simp [hop, Op.waits] at hl hs hnw <;> num [hp, hop, hrun', hk]
      · rcases hb rfl with hop | hop <;> rw [hop] at hh
        · num [hp, hop, hrun', hk]
        · simp only at hh
          num [hp, hop, hrun', hk, hh]

theorem excOf_some {a : Option Res} {r : Res} (h : excOf a = some r) : a = some r := by
  cases a with
  | none => simp [excOf] at h
  | some v => cases v <;> simp [excOf] at h <;> rw [h]

theorem first_inv {k : Kind} {s : St ι} (h : Inv k s) {t : ι} (hp : (s.l t).pc = .wCrit) : Inv k (firstStep k s t) := by
  have ha : active (s.l t).pc = true := by rw [hp]; rfl
  have hf := h.alive0 (h.alive ha (by rw [hp]; rfl))
  have hl := h.loc t
  have hpe : pend (s.l t) = [] := by simp [pend, hp]
  have hc : isCrit (s.l t).pc = true := by rw [hp]; rfl
  have hown := h.crit t hc
  have hrn := h.no_reg hc
  have hreg : ∀ p : Prop, s.reg = some t → p := fun p e => by rw [hrn] at e; cases e
  simp only [LocOK, hp] at hl
  have hexc : ∀ r, excOf s.stored = some r → ((s.l t).op = .get ∨ (s.l t).op = .sget) → Inv k (s.goto t (.wUnl (.res r))) := by
    intro r hr hop
    have hs := excOf_some hr
    have hrd := h.ready_of_crit hc (by rw [hp]; rfl) (by rw [hs]; rfl)
    refine h.gotoL t rfl ha ?_ (goto_bad h.bad hf) rfl (fun e => hown) (.inl rfl) rfl rfl rfl rfl rfl (hreg _) ⟨hl, ?_⟩ (by rw [hpe]; rfl)
    · rcases hop with hop | hop <;> num [hp, hop]
    · rcases hop with hop | hop <;> simp [hop, OutOK, hs, hrd]
  have hmr : ∀ s1 : St ι, s1 = { s with retrieved := s.retrieved || true } → maybeRun k { s with retrieved := true } t = maybeRun k s1 t := by
    intro s1 e; rw [e]; simp
  unfold firstStep
  cases hop : (s.l t).op with
  | waitFor b =>
    simp only
    split
    · rename_i hk
      refine h.gotoL t rfl ha ?_ (goto_bad h.bad hf) rfl (fun e => hown) (.inl rfl) rfl rfl rfl rfl rfl (hreg _) ⟨hl, by simp [hop, OutOK, hk.1]⟩ (by rw [hpe]; rfl)
      num [hp, hop]
    · refine h.gotoL t rfl ha ?_ (goto_bad h.bad hf) rfl (fun e => hown) (.inl rfl) rfl rfl rfl rfl rfl (hreg _) ⟨hl, by simp⟩ (by rw [hpe]; rfl)
      num [hp, hop]
  | get =>
    simp only
    have hnr : s.retrieved = false := by
      by_contra hr
      have h1 := h.num.ret (by simpa using hr)
      have h2 := le_tot (fun x => (nums x).uf) s.l t
      change _ ≤ (numsTot s.l).uf at h2
      rw [h1] at h2
      simp [nums, hp, hop, isGet, isGetPre] at h2
    rw [hnr]
    simp only [Bool.false_eq_true, if_false]
    split
    · rename_i r hr; exact hexc r hr (.inl hop)
    · rw [hmr _ rfl]
      exact maybeRun_inv h hp true (fun _ => .inl hop) (by simp [hop]) (by simp)
  | sget =>
    simp only
    split
    · rename_i r hr; exact hexc r hr (.inr hop)
    · rw [hmr _ rfl]
      exact maybeRun_inv h hp true (fun _ => .inr hop) (by simp [hop]) (by simp)
  | wait b =>
    simp only
    have := maybeRun_inv h hp false (by simp) (by simp [hop]) (by simp [hop])
    simpa using this
  | _ => simp [hop, Op.waits] at hl


theorem rel_inv {k : Kind} {s s' : St ι} (h : Inv k s) {t : ι} {r : Res} {o : Out} (hp : (s.l t).pc = .rel o) (he : advStep k s t r = some s') : Inv k s' := by
  have ha : active (s.l t).pc = true := by rw [hp]; rfl
  have hrf := h.alive ha (by rw [hp]; rfl)
  have hf := h.alive0 hrf
  have hl := h.loc t
  have hreg : s.reg = some t → s.own = some t := fun e => (h.reg t e).1
  simp only [LocOK, hp] at hl
  obtain ⟨ho, hout⟩ := hl
  unfold advStep at he
  rw [hp] at he
  simp only [Option.some.injEq] at he; subst he
  split
  · rename_i h1
    refine h.gotoL t rfl ha ?_ (goto_bad h.bad hf) rfl (fun e => by simp [isCrit] at e) (.inl rfl) rfl rfl rfl rfl rfl hreg ⟨ho, hout⟩ (by simp [pend, hp])
    cases hop : (s.l t).op <;> simp [hop, ownsRef] at ho <;> num [hp, hop, h1, hf]
  · rename_i h1
    refine h.retL t (ret_l _ _ _ _) ha ?_ (goto_bad h.bad hf) rfl (.inl rfl) rfl rfl rfl rfl rfl hreg hout ?_
    · cases hop : (s.l t).op <;> simp [hop, ownsRef] at ho <;> num [hp, hop, h1, hrf, hf]
    · simp only [pend, hp]
      cases o <;> simp [isOkv, okOp]

theorem del_refs {k : Kind} {s : St ι} (h : Inv k s) {t : ι} (hd : isDel (s.l t).pc = true) : s.refs = 0 := by
  obtain ⟨R, h1, _⟩ := split_nums s.l t
  have hn := h.num
  rw [h1] at hn
  have e2 := hn.freed
  simp only [Nums.add, nums, hd] at e2
  by_contra hr
  rw [if_neg hr] at e2; simp at e2

theorem del_inv {k : Kind} {s s' : St ι} (h : Inv k s) {t : ι} {r : Res} {o : Out} (hp : (s.l t).pc = .del o) (he : advStep k s t r = some s') : Inv k s' := by
  have ha : active (s.l t).pc = true := by rw [hp]; rfl
  have hf := h.alive_del (t := t) (by rw [hp]; rfl)
  have hz := del_refs h (t := t) (by rw [hp]; rfl)
  have hl := h.loc t
  have hreg : s.reg = some t → s.own = some t := fun e => (h.reg t e).1
  simp only [LocOK, hp] at hl
  obtain ⟨ho, hout⟩ := hl
  unfold advStep at he
  rw [hp] at he
  simp only [Option.some.injEq] at he; subst he
  have hno : ¬ (s.stored.isSome = true ∧ s.ready = false) := by
    rintro ⟨h1, h2⟩
    have hrn : s.reg.isSome = false := by
      by_contra hc
      have h3 := (h.num.reg (by simpa only [Bool.not_eq_false] using hc)).2
      have h4 := h.num.refs
      rw [hz, h3] at h4; simp at h4; omega
    obtain ⟨u, hu⟩ := tot_pos (f := fun x => (nums x).r) (h.num.str h1 h2 hrn)
    have hu' : isRdy (s.l u).pc = true := by
      by_contra hh
      have hh' : isRdy (s.l u).pc = false := by simpa using hh
      simp [nums, hh'] at hu
    have : ∃ v, (s.l u).pc = .sRdy v := by
      cases hpu : (s.l u).pc <;> simp [hpu, isRdy] at hu'
      exact ⟨_, rfl⟩
    obtain ⟨v, hv⟩ := this
    exact h.alive (t := u) (by rw [hv]; rfl) (by rw [hv]; rfl) hz
  rw [if_neg hno]
  refine h.gotoL t rfl ha ?_ (goto_bad h.bad hf) rfl (fun e => by simp [isCrit] at e) (.inl rfl) rfl rfl rfl rfl rfl hreg ⟨ho, hout⟩ (by simp [pend, hp])
  num [hp]

theorem del3_inv {k : Kind} {s s' : St ι} (h : Inv k s) {t : ι} {r : Res} {o : Out} (hp : (s.l t).pc = .del3 o) (he : advStep k s t r = some s') : Inv k s' := by
  have ha : active (s.l t).pc = true := by rw [hp]; rfl
  have hf := h.alive_del (t := t) (by rw [hp]; rfl)
  have hl := h.loc t
  have hreg : s.reg = some t → s.own = some t := fun e => (h.reg t e).1
  simp only [LocOK, hp] at hl
  obtain ⟨ho, hout⟩ := hl
  unfold advStep at he
  rw [hp] at he
  simp only [Option.some.injEq] at he; subst he
  refine h.retL t (ret_l _ _ _ _) ha ?_ (goto_bad h.bad hf) rfl (.inl rfl) rfl rfl rfl rfl rfl hreg hout ?_
  · cases hop : (s.l t).op <;> simp [hop, ownsRef] at ho <;> num [hp, hop]
  · simp only [pend, hp]
    cases o <;> simp [isOkv, okOp]

theorem sUnl_inv {k : Kind} {s s' : St ι} (h : Inv k s) {t : ι} {r v : Res} {o : Out} (hp : (s.l t).pc = .sUnl v o) (he : advStep k s t r = some s') : Inv k s' := by
  have ha : active (s.l t).pc = true := by rw [hp]; rfl
  have hf := h.alive0 (h.alive ha (by rw [hp]; rfl))
  have hl := h.loc t
  have hc : isCrit (s.l t).pc = true := by rw [hp]; rfl
  have hown := h.crit t hc
  have hrn := h.no_reg hc
  have hreg : ∀ p : Prop, s.reg = some t → p := fun p e => by rw [hrn] at e; cases e
  simp only [LocOK, hp] at hl
  unfold advStep at he
  rw [hp] at he
  simp only [Option.some.injEq] at he; subst he
  unfold afterSet
  have hu : s.unlock.l = s.l := rfl
  rw [hu]
  cases hop : (s.l t).op with
  | set r' ex =>
    have hw : (s.l t).op.waits = false := by rw [hop]; rfl
    rw [hw] at hl
    simp only [Bool.false_eq_true, if_false] at hl
    replace hl := hl.2
    refine h.retL t (ret_l _ _ _ _) ha ?_ (goto_bad h.bad hf) rfl (.inr (.inr hown)) rfl rfl rfl rfl rfl (hreg _) hl ?_
    · num [hp, hop, hown, hrn]
    · simp only [pend, hp, hw]; cases o <;> simp [isOkv, okOp]
  | call ex =>
    have hw : (s.l t).op.waits = false := by rw [hop]; rfl
    rw [hw] at hl
    simp only [Bool.false_eq_true, if_false] at hl
    replace hl := hl.2
    simp only
    split
    · rename_i hs
      refine h.gotoL t rfl ha ?_ (goto_bad h.bad hf) rfl (fun e => by simp [isCrit] at e) (.inr (.inr hown)) rfl rfl rfl rfl rfl (hreg _) (by simp [LocOK, hop, SetOK]) ?_
      · num [hp, hop, hown, hrn]
      · simp [pend, hp, hw, hs.1, isOkv]
    · refine h.retL t (ret_l _ _ _ _) ha ?_ (goto_bad h.bad hf) rfl (.inr (.inr hown)) rfl rfl rfl rfl rfl (hreg _) hl ?_
      · num [hp, hop, hown, hrn]
      · simp only [pend, hp, hw]; cases o <;> simp [isOkv, okOp]
  | drop =>
    have hw : (s.l t).op.waits = false := by rw [hop]; rfl
    rw [hw] at hl
    simp only [Bool.false_eq_true, if_false] at hl
    replace hl := hl.2
    refine h.gotoL t rfl ha ?_ (goto_bad h.bad hf) rfl (fun e => by simp [isCrit] at e) (.inr (.inr hown)) rfl rfl rfl rfl rfl (hreg _) ⟨by rw [hop]; rfl, hl⟩ ?_
    · have hss : s.stored.isSome = true := by
        rw [hop] at hl
        cases o <;> simp [OutOK] at hl
        · simp [hl.2]
        · exact hl
      num [hp, hop, hown, hrn, hss]
    · simp [pend, hp, hw]
  | dropFut => simp [hop, Op.waits, isUse, Op.isDrop] at hl
  | dropSh => simp [hop, Op.waits, isUse, Op.isDrop] at hl
  | _ =>
    have hw : (s.l t).op.waits = true := by rw [hop]; rfl
    rw [hw] at hl
    simp only [if_true] at hl
    refine h.gotoL t rfl ha ?_ (goto_bad h.bad hf) rfl (fun e => by simp [isCrit] at e) (.inr (.inr hown)) rfl rfl rfl rfl rfl (hreg _) ⟨hw, by simp⟩ (by simp [pend, hp, hw])
    num [hp, hop, hown, hrn]


/-- Nobody destroys the provider while another thread is about to store a result. -/
theorem Inv.no_dropper {k : Kind} {s : St ι} (h : Inv k s) {t u : ι} {r : Res} (hut : u ≠ t) (hp : (s.l t).pc = .sCrit r) (hu : (s.l u).op = .drop) (hau : active (s.l u).pc = true)
    (hk : k ≠ .dfr) : False := by
  have hl := h.loc t
  simp only [LocOK, hp] at hl
  have h1 := le_tot (fun x => (nums x).dr) s.l u
  have h2 := le_tot (fun x => (nums x).u) s.l t
  have h3 := le_tot_two (fun x => (nums x).dr) s.l hut
  change _ ≤ (numsTot s.l).dr at h1 h3
  change _ ≤ (numsTot s.l).u at h2
  have h4 := h.num.prv
  have h5 := h.num.npr
  have h6 := h.num.dr
  have hat : active (s.l t).pc = true := by rw [hp]; rfl
  simp only [nums, hu, hau, hat, Op.isDrop] at h1 h2 h3
  cases hop : (s.l t).op with
  | set r' ex =>
    simp only [hop, isUse] at h2
    cases hpr : s.prov <;> simp [hpr] at h1 h2 h4 h5 <;> omega
  | call ex =>
    simp only [hop, isUse] at h2
    cases hpr : s.prov <;> simp [hpr] at h1 h2 h4 h5 <;> omega
  | drop => simp [hop] at h3; omega
  | dropFut => simp [hop, SetOK] at hl
  | dropSh => simp [hop, SetOK] at hl
  | _ => simp only [hop, SetOK] at hl; exact hk hl.1

/-- A result is stored. -/
theorem loc_store {k : Kind} {s s' : St ι} {t u : ι} {r : Res} (h : Inv k s) (hut : u ≠ t) (hp : (s.l t).pc = .sCrit r) (hs : s.stored = none)
    (h2 : s'.ready = s.ready) (h3 : s'.reg = s.reg) (h4 : s'.xm = s.xm) : LocOK k s' u (s.l u) := by
  have hl := h.loc u
  have hc : isCrit (s.l t).pc = true := by rw [hp]; rfl
  have hst : ∀ v, s.stored = some v → s'.stored = some v := by simp [hs]
  have hnc : isCrit (s.l u).pc = false := by
    by_contra hh; exact hut (h.excl hc (by simpa using hh))
  have hdr : (s.l u).op = .drop → active (s.l u).pc = true → k ≠ .dfr → False := fun a b c => h.no_dropper hut hp a b c
  have hset : ∀ v, active (s.l u).pc = true → SetOK k s.stored v (s.l u).op → SetOK k s'.stored v (s.l u).op := by
    intro v hav hv
    cases hop : (s.l u).op with
    | drop => simp only [hop, SetOK] at hv; exact absurd (hdr hop hav hv.2.1) (by simp)
    | _ => simpa [hop, SetOK] using hv
  unfold LocOK at *
  rw [h2, h3, h4]
  cases hpu : (s.l u).pc <;> simp only [hpu] at hl hnc ⊢ <;> (try exact hl) <;> (try simp [isCrit] at hnc)
  · rcases hl with hl | hl
    · exact absurd (hdr hl.1 (by rw [hpu]; rfl) (by rw [hl.2.1]; simp)) (by simp)
    · exact .inr hl
  · exact hset _ (by rw [hpu]; rfl) hl
  · exact ⟨hl.1, hl.2.mono hst id id⟩
  · exact ⟨hl.1, hl.2.mono hst id id⟩
  · exact ⟨hl.1, hl.2.mono hst id id⟩

omit [Fintype ι] in
theorem logOf_append (u t : ι) (lg : List (ι × Op)) (e : Op) : logOf u (lg ++ [(t, e)]) = if u = t then logOf u lg ++ [e] else logOf u lg := by
  unfold logOf
  rw [List.filter_append, List.map_append]
  by_cases h : u = t
  · subst h; simp
  · have h' : ¬ t = u := fun e => h e.symm
    simp [h, h']

theorem SetOK.out {k : Kind} {a : Option Res} {r : Res} {o : Op} (h : SetOK k a r o) : SetOK k none r o := by
  cases o <;> simp_all [SetOK]

theorem crit_inv {k : Kind} {s : St ι} (h : Inv k s) {t : ι} {v : Res} (hp : (s.l t).pc = .sCrit v) : Inv k (critStep k s t v) := by
  have ha : active (s.l t).pc = true := by rw [hp]; rfl
  have hf := h.alive0 (h.alive ha (by rw [hp]; rfl))
  have hl := h.loc t
  have hc : isCrit (s.l t).pc = true := by rw [hp]; rfl
  have hown := h.crit t hc
  have hrn := h.no_reg hc
  have hreg : ∀ p : Prop, s.reg = some t → p := fun p e => by rw [hrn] at e; cases e
  have hpe : pend (s.l t) = [] := by simp [pend, hp]
  simp only [LocOK, hp] at hl
  unfold critStep
  split
  · rename_i hs
    have hsat : ∀ o, (isUse (s.l t).op || (s.l t).op.isDrop) = true → OutOK k s.stored s.ready (regd (s.l t)) (s.l t).op o → isOkv o = false → Inv k (s.goto t (.sUnl v o)) := by
      intro o hu hout hok
      have hw : (s.l t).op.waits = false := by
        cases hop : (s.l t).op <;> simp [hop, isUse, Op.isDrop] at hu <;> rfl
      refine h.gotoL t rfl ha ?_ (goto_bad h.bad hf) rfl (fun e => hown) (.inl rfl) rfl rfl rfl rfl rfl (hreg _) (by simp [LocOK, hw, hu]; exact hout) ?_
      · clear hl; cases hop : (s.l t).op <;> simp [hop, Op.waits] at hw <;> num [hp, hop, hs]
      · rw [hpe]; simp [pend, hw, hok]
    cases hop : (s.l t).op with
    | drop =>
      simp only [hop, SetOK] at hl
      have hk : k ≠ .prom := fun e => by rw [hl.2.2 e] at hs; cases hs
      simp only
      rw [if_neg hk]
      exact hsat _ (by rw [hop]; rfl) (by simp [hop, OutOK, hs]) rfl
    | set r' ex => exact hsat _ (by rw [hop]; rfl) (by simp [hop, OutOK, hs]) rfl
    | call ex => exact hsat _ (by rw [hop]; rfl) (by simp [hop, OutOK, hs]) rfl
    | dropFut => simp [hop, SetOK] at hl
    | dropSh => simp [hop, SetOK] at hl
    | _ =>
      exfalso
      simp only [hop, SetOK] at hl
      have h1 := (h.num.dfr hl.1).1
      have h2 := le_tot (fun x => (nums x).p) s.l t
      change _ ≤ (numsTot s.l).p at h2
      simp [nums, hop, hp, Op.waits, isPre] at h2
      rw [hs] at h1
      have := Bool.toNat_le s.running
      simp at h1; omega
  · rename_i hs
    have hs' : s.stored = none := by simpa using hs
    have hnr : s.ready = false := by
      by_contra hr
      have := h.num.rdy (by simpa using hr)
      rw [hs'] at this; cases this
    refine h.upd1 t (x' := { s.l t with pc := .sRdy v }) rfl ?_ (goto_bad h.bad hf) h.term (fun _ => hown) (.inl rfl) (.inl rfl) (hreg _) (.inl rfl) (fun e => absurd e (h.not_xm (.inl ha)))
      (fun _ => h.hold t ha) ⟨hl.out, rfl, hnr, hrn⟩ (fun u hu => loc_store h hu hp hs' rfl rfl rfl) (by simp [hs']) id ?_ (fun u => ?_) (fun hk => ?_)
    · cases hop : (s.l t).op with
      | dropFut => simp [hop, SetOK] at hl
      | dropSh => simp [hop, SetOK] at hl
      | _ => simp only [hop, SetOK] at hl; num [hp, hop, hs', hnr, hrn, hl]
    · intro e he
      exact (h.done t e he).mono (by simp [hs']) id id
    · cases hw : (s.l t).op.waits
      · simp only [St.goto, hw]
        simp only [Bool.false_eq_true, if_false]
        rw [logOf_append]
        split
        · rename_i hu; subst hu; rw [h.log, hpe]; simp [pend, hw]
        · rfl
      · simp only [St.goto, hw, if_true]
        split
        · rename_i hu; subst hu; rw [h.log, hpe]; simp [pend, hw]
        · rfl
    · have h1 := h.len hk
      have hw : (s.l t).op.waits = false := by
        cases hop : (s.l t).op <;> simp only [hop, SetOK] at hl <;> first | rfl | exact absurd hl.1 hk
      rw [hs'] at h1
      simp only [St.goto, hw]; simpa using h1


/-- `_Ready` is set. -/
theorem loc_ready {k : Kind} {s s' : St ι} {u : ι} (h : Inv k s) (hnr : isRdy (s.l u).pc = false)
    (h1 : s'.stored = s.stored) (h2 : s'.ready = true) (h3 : s'.reg = s.reg) (h4 : s'.xm = s.xm) : LocOK k s' u (s.l u) := by
  have hl := h.loc u
  unfold LocOK at *
  rw [h1, h2, h3, h4]
  cases hpu : (s.l u).pc <;> simp only [hpu] at hl hnr ⊢ <;> (try exact hl) <;> (try simp [isRdy] at hnr)
  · rcases hl with hl | hl
    · exact .inl ⟨hl.1, hl.2.1, .inr trivial⟩
    · exact .inr hl
  · exact ⟨hl.1, hl.2.1, trivial⟩
  · split
    · rename_i hw; rw [hw] at hl; exact ⟨hl.1, trivial⟩
    · rename_i hw
      rw [if_neg hw] at hl
      exact ⟨hl.1, hl.2.mono (fun _ h => h) (fun _ => rfl) id⟩
  · exact ⟨hl.1, hl.2.mono (fun _ h => h) (fun _ => rfl) id⟩
  · exact ⟨hl.1, hl.2.mono (fun _ h => h) (fun _ => rfl) id⟩
  · exact ⟨hl.1, hl.2.mono (fun _ h => h) (fun _ => rfl) id⟩
  · exact ⟨hl.1, hl.2.mono (fun _ h => h) (fun _ => rfl) id⟩
  · exact ⟨hl.1, hl.2.1, trivial⟩
  · exact ⟨hl.1, hl.2.1, trivial⟩

theorem rdy_excl {k : Kind} {s : St ι} (h : Inv k s) {t u : ι} (hc : isCrit (s.l t).pc = true) (hut : u ≠ t) : isCrit (s.l u).pc = false := by
  by_contra hh; exact hut (h.excl hc (by simpa using hh))

theorem isRdy_crit {p : PC} (h : isCrit p = false) : isRdy p = false := by cases p <;> simp_all [isCrit, isRdy]

theorem sRdy_inv {k : Kind} {s s' : St ι} (h : Inv k s) {t : ι} {r v : Res} (hp : (s.l t).pc = .sRdy v) (he : advStep k s t r = some s') : Inv k s' := by
  have ha : active (s.l t).pc = true := by rw [hp]; rfl
  have hf := h.alive0 (h.alive ha (by rw [hp]; rfl))
  have hl := h.loc t
  have hc : isCrit (s.l t).pc = true := by rw [hp]; rfl
  have hown := h.crit t hc
  have hrn := h.no_reg hc
  simp only [LocOK, hp] at hl
  obtain ⟨l1, l2, l3, l4⟩ := hl
  unfold advStep at he
  rw [hp] at he
  simp only at he
  split at he
  · rename_i hex
    split at he
    · rename_i hxm
      simp only [Option.some.injEq] at he; subst he
      have hu : isUse (s.l t).op = true := by cases hop : (s.l t).op <;> simp [hop, Op.atExit] at hex <;> rfl
      have hw : (s.l t).op.waits = false := by cases hop : (s.l t).op <;> simp [hop, Op.atExit] at hex <;> rfl
      have hout : OutOK k s.stored s.ready (regd (s.l t)) (s.l t).op (.okv v) := by
        cases hop : (s.l t).op <;> simp [hop, Op.atExit] at hex <;> simp only [hop, SetOK] at l1
        · exact ⟨l1.1.symm, by rw [l2, l1.1]⟩
        · exact ⟨l2, l1⟩
      refine h.upd1 t (x' := { s.l t with pc := .idle, done := (s.l t).done ++ [((s.l t).op, .okv v)] }) (ret_l _ _ _ _) ?_ (goto_bad h.bad hf) h.term (fun e => by simp [isCrit] at e) (.inl rfl) (.inr (.inr rfl))
        (fun _ => ⟨hown, ?_⟩) (.inl rfl) (fun e => absurd e (h.not_xm (.inl ha))) (fun e => by simp [active] at e) trivial (fun u hu => ?_) (fun _ e => e) id (done_ret rfl (h.done t) hout) (fun u => ?_) h.len
      · have hss : s.stored.isSome = true := by rw [l2]; rfl
        have hprov : s.prov = true := by
          by_contra hc
          have h1 := h.num.npr (by simpa using hc)
          have h2 := le_tot (fun x => (nums x).u) s.l t
          change _ ≤ (numsTot s.l).u at h2
          simp [nums, hu, ha] at h2; omega
        have hnp := h.num.prv hprov
        cases hop : (s.l t).op <;> simp [hop, Op.atExit] at hex <;> num [hp, hop, hrn, hss, hprov, hown]
      · simp [regd, hex, isOkv]
      · have hnc := rdy_excl h hc hu
        have hlu := h.loc u
        unfold LocOK at *
        cases hpu : (s.l u).pc <;> simp only [hpu] at hlu hnc ⊢ <;> (try exact hlu) <;> (try simp [isCrit] at hnc)
        all_goals first
          | (intro e; exact hu (Option.some.inj e).symm)
          | (rw [hrn] at hlu; exact absurd hlu.1 (by simp))
      · split
        · rename_i hu; subst hu
          change logOf u s.log = _
          rw [h.log]; simp [pend, hp, hw, okOp]
        · rfl
    · cases he
  · rename_i hex
    simp only [Option.some.injEq] at he; subst he
    have hss : s.stored.isSome = true := by rw [l2]; rfl
    refine h.upd1 t (x' := { s.l t with pc := .sNtf v }) rfl ?_ (goto_bad h.bad hf) h.term (fun e => hown) (.inl rfl) (.inl rfl) (fun e => by change s.reg = some t at e; rw [hrn] at e; cases e)
      (.inl rfl) (fun e => absurd e (h.not_xm (.inl ha))) (fun e => h.hold t ha) ⟨l1, l2, rfl⟩ (fun u hu => loc_ready h (isRdy_crit (rdy_excl h hc hu)) rfl rfl rfl rfl) (fun _ e => e) (fun _ => rfl)
      (fun e he => (h.done t e he).mono (fun _ h => h) (fun _ => rfl) id) (fun u => ?_) h.len
    · num [hp, hrn, hss]
    · split
      · rename_i hu; subst hu
        change logOf u s.log = _
        rw [h.log]; simp [pend, hp]
      · rfl

/-- `notify_all`. -/
theorem wake_nums (x : Loc) : nums (wake x) = { nums x with z := 0 } := by
  unfold wake
  cases hp : x.pc <;> simp [nums, hp, active, isDel, isCrit, isRdy, isNtf, isSlp, isPre, isPreRun, isDropPre, isGetPre]

theorem wake_tot (l : ι → Loc) : numsTot (fun u => wake (l u)) = { numsTot l with z := 0 } := by
  have hz : tot (fun x => (nums x).z) (fun u => wake (l u)) = 0 := tot_eq_zero fun u => by simp [wake_nums]
  simp only [numsTot, hz]
  simp only [tot, wake_nums]

theorem wake_inv {k : Kind} {s : St ι} (h : Inv k s) : Inv k { s with l := fun u => wake (s.l u) } := by
  have hx : ∀ u, (wake (s.l u)).op = (s.l u).op ∧ (wake (s.l u)).done = (s.l u).done ∧ (wake (s.l u)).sh = (s.l u).sh ∧ (wake (s.l u)).fut = (s.l u).fut := by
    intro u; unfold wake; split <;> simp
  have hpc : ∀ u, (wake (s.l u)).pc = (s.l u).pc ∨ ((s.l u).pc = .wSleep ∧ (wake (s.l u)).pc = .wRelock false) := by
    intro u; unfold wake; split
    · rename_i e; exact .inr ⟨e, rfl⟩
    · exact .inl rfl
  have hrd : ∀ u, regd (wake (s.l u)) = regd (s.l u) := fun u => by simp [regd, (hx u).2.1]
  refine ⟨?_, h.bad, h.term, fun u hu => ?_, fun u hu => ?_, fun u hu => ?_, fun u hu => ?_, fun u => ?_, fun u e he => ?_, fun u => ?_, h.len⟩
  · have hn := h.num
    simp only [wake_tot]
    obtain ⟨a1, a2, a3, a5, a6, a7, a8, a9, a10, a11, a12, a13, a14, a15, a16, a17, a18⟩ := hn
    constructor <;> first | assumption | simp
  · rcases hpc u with e | e
    · exact h.crit u (by simpa only [e] using hu)
    · simp only [e.2] at hu; simp [isCrit] at hu
  · simp only [hrd]; exact h.reg u hu
  · rcases hpc u with e | e
    · simp only [e]; exact h.xm u hu
    · have := h.xm u hu; rw [e.1] at this; simp at this
  · have h1 : active (s.l u).pc = true := by
      rcases hpc u with e | e
      · simpa only [e] using hu
      · rw [e.1]; rfl
    have h2 := h.hold u h1
    unfold holdsH at *
    simp only [(hx u).1, (hx u).2.2]; exact h2
  · have hl := h.loc u
    rcases hpc u with e | e
    · have hw : wake (s.l u) = s.l u := by
        have := hx u
        cases hwu : wake (s.l u); cases hsu : s.l u
        simp_all
      simp only [hw]; exact hl
    · simp only [LocOK, e.1] at hl
      simp only [LocOK, e.2, (hx u).1]; exact ⟨hl, by simp⟩
  · simp only [(hx u).2.1] at he
    simp only [hrd]; exact h.done u e he
  · simp only [(hx u).2.1]
    rw [h.log]
    congr 1
    rcases hpc u with e | e
    · simp only [pend, e, (hx u).1]
    · simp [pend, e.1, e.2]

theorem wake_self {x : Loc} (h : x.pc ≠ .wSleep) : wake x = x := by
  unfold wake; split
  · rename_i e; exact absurd e h
  · rfl

theorem sNtf_inv {k : Kind} {s s' : St ι} (h : Inv k s) {t : ι} {r v : Res} (hp : (s.l t).pc = .sNtf v) (he : advStep k s t r = some s') : Inv k s' := by
  unfold advStep at he
  rw [hp] at he
  simp only [Option.some.injEq] at he; subst he
  have hws := wake_self (x := s.l t) (by rw [hp]; simp)
  have h0 : (numsTot (fun u => wake (s.l u))).z = 0 := by rw [wake_tot]
  replace h := wake_inv h
  replace hp : (({ s with l := fun u => wake (s.l u) } : St ι).l t).pc = .sNtf v := by simp only [hws, hp]
  have hz0 : (numsTot ({ s with l := fun u => wake (s.l u) } : St ι).l).z = 0 := h0
  generalize ({ s with l := fun u => wake (s.l u) } : St ι) = s at h hp hz0 ⊢
  have ha : active (s.l t).pc = true := by rw [hp]; rfl
  have hf := h.alive0 (h.alive ha (by rw [hp]; rfl))
  have hl := h.loc t
  have hc : isCrit (s.l t).pc = true := by rw [hp]; rfl
  have hown := h.crit t hc
  have hrn := h.no_reg hc
  have hreg : ∀ p : Prop, s.reg = some t → p := fun p e => by rw [hrn] at e; cases e
  simp only [LocOK, hp] at hl
  obtain ⟨l1, l2, l3⟩ := hl
  have hss : s.stored.isSome = true := by rw [l2]; rfl
  have hloc : LocOK k s t { s.l t with pc := .sUnl v (.okv v) } := by
    simp only [LocOK]
    split
    · rename_i hw
      refine ⟨?_, l3⟩
      cases hop : (s.l t).op <;> simp [hop, Op.waits] at hw <;> simp only [hop, SetOK] at l1 <;> exact l1.1
    · rename_i hw
      cases hop : (s.l t).op <;> simp [hop, Op.waits] at hw <;> simp only [hop, SetOK] at l1 <;> simp only [isUse, Op.isDrop, OutOK, Bool.or_true, Bool.or_false, Bool.true_or, true_and]
      · exact ⟨l1.1.symm, by rw [l2, l1.1]⟩
      · exact ⟨l2, l1⟩
      · exact ⟨l1.1, by rw [l2, l1.1]⟩
  refine h.gotoL t rfl ha ?_ (goto_bad h.bad hf) rfl (fun e => hown) (.inl rfl) rfl rfl rfl rfl rfl (hreg _) hloc (by simp [pend, hp, isOkv])
  num [hp, hss, hz0]

theorem x1_inv {k : Kind} {s s' : St ι} (h : Inv k s) {t : ι} {r : Res} (hp : (s.l t).pc = .x1) (he : advStep k s t r = some s') : Inv k s' := by
  have hl := h.loc t
  simp only [LocOK, hp] at hl
  obtain ⟨l1, l2⟩ := hl
  have hri : s.reg.isSome = true := by rw [l1]; rfl
  have hf := h.alive_reg hri
  have hss := (h.num.reg hri).1
  have hr2 := h.reg t l1
  unfold advStep at he
  rw [hp] at he
  simp only [Option.some.injEq] at he; subst he
  refine h.upd1 t (x' := { s.l t with pc := .x2 }) rfl ?_ (goto_bad h.bad hf) h.term (fun e => by simp [isCrit] at e) (.inl rfl) (.inl rfl) (fun e => hr2)
    (.inl rfl) (fun e => .inr (.inl rfl)) (fun e => by simp [active] at e) ⟨l1, l2, rfl⟩ (fun u hu => loc_ready h (isRdy_crit ?_) rfl rfl rfl rfl) (fun _ e => e) (fun _ => rfl)
    (fun e he => (h.done t e he).mono (fun _ h => h) (fun _ => rfl) id) (fun u => ?_) h.len
  · num [hp, hss]
  · by_contra hh
    have := h.no_reg (t := u) (by simpa using hh)
    rw [l1] at this; cases this
  · split
    · rename_i hu; subst hu
      change logOf u s.log = _
      rw [h.log]; simp [pend, hp]
    · rfl

theorem x2_inv {k : Kind} {s s' : St ι} (h : Inv k s) {t : ι} {r : Res} (hp : (s.l t).pc = .x2) (he : advStep k s t r = some s') : Inv k s' := by
  unfold advStep at he
  rw [hp] at he
  simp only [Option.some.injEq] at he; subst he
  have hws := wake_self (x := s.l t) (by rw [hp]; simp)
  have h0 : (numsTot (fun u => wake (s.l u))).z = 0 := by rw [wake_tot]
  replace h := wake_inv h
  replace hp : (({ s with l := fun u => wake (s.l u) } : St ι).l t).pc = .x2 := by simp only [hws, hp]
  have hz0 : (numsTot ({ s with l := fun u => wake (s.l u) } : St ι).l).z = 0 := h0
  generalize ({ s with l := fun u => wake (s.l u) } : St ι) = s at h hp hz0 ⊢
  have hl := h.loc t
  simp only [LocOK, hp] at hl
  obtain ⟨l1, l2, l3⟩ := hl
  have hri : s.reg.isSome = true := by rw [l1]; rfl
  have hf := h.alive_reg hri
  have hr2 := h.reg t l1
  refine h.upd1 t (x' := { s.l t with pc := .x3 }) rfl ?_ (goto_bad h.bad hf) h.term (fun e => by simp [isCrit] at e) (.inl rfl) (.inl rfl) (fun e => hr2)
    (.inl rfl) (fun e => .inr (.inr rfl)) (fun e => by simp [active] at e) ⟨l1, l2, l3⟩ (fun u hu => loc_congr (h.loc u) rfl rfl rfl rfl) (fun _ e => e) id
    (h.done t) (fun u => ?_) h.len
  · num [hp, hz0]
  · split
    · rename_i hu; subst hu
      change logOf u s.log = _
      rw [h.log]; simp [pend, hp]
    · rfl

theorem x3_inv {k : Kind} {s s' : St ι} (h : Inv k s) {t : ι} {r : Res} (hp : (s.l t).pc = .x3) (he : advStep k s t r = some s') : Inv k s' := by
  have hl := h.loc t
  simp only [LocOK, hp] at hl
  obtain ⟨l1, l2, l3⟩ := hl
  have hri : s.reg.isSome = true := by rw [l1]; rfl
  have hf := h.alive_reg hri
  have hss := (h.num.reg hri).1
  have hr2 := (h.reg t l1).1
  unfold advStep at he
  rw [hp] at he
  simp only [Option.some.injEq] at he; subst he
  refine h.upd1 t (x' := { s.l t with pc := .exited }) rfl ?_ (goto_bad h.bad hf) h.term (fun e => by simp [isCrit] at e) (.inr (.inr hr2)) (.inr (.inl rfl)) (fun e => by cases e)
    (.inr (.inl rfl)) (fun e => by cases e) (fun e => by simp [active] at e) (fun e => by cases e) (fun u hu => ?_) (fun _ e => e) id (h.done t) (fun u => ?_) h.len
  · num [hp, hss, hri, hr2, l3]
  · have hlu := h.loc u
    unfold LocOK at *
    cases hpu : (s.l u).pc <;> simp only [hpu] at hlu ⊢ <;> (try exact hlu)
    · exact ⟨hlu.1, hlu.2.1, hlu.2.2.1, rfl⟩
    · rw [l1] at hlu; exact absurd (Option.some.inj hlu.1) (Ne.symm hu)
    · rw [l1] at hlu; exact absurd (Option.some.inj hlu.1) (Ne.symm hu)
    · rw [l1] at hlu; exact absurd (Option.some.inj hlu.1) (Ne.symm hu)
    · intro e; cases e
  · split
    · rename_i hu; subst hu
      change logOf u s.log = _
      rw [h.log]; simp [pend, hp]
    · rfl

theorem adv_inv {k : Kind} {s s' : St ι} (h : Inv k s) {t : ι} {r : Res} (he : advStep k s t r = some s') : Inv k s' := by
  cases hp : (s.l t).pc with
  | idle => simp [advStep, hp] at he
  | wSleep => simp [advStep, hp] at he
  | exited => simp [advStep, hp] at he
  | chk => exact chk_inv h hp he
  | chk2 => exact chk2_inv h hp he
  | run => exact run_inv h hp he
  | sLock v => exact lock_inv h (.inl ⟨hp, rfl⟩) (by simpa only [advStep, hp] using he)
  | sCrit v => simp only [advStep, hp, Option.some.injEq] at he; subst he; exact crit_inv h hp
  | sRdy v => exact sRdy_inv h hp he
  | sNtf v => exact sNtf_inv h hp he
  | sUnl v o => exact sUnl_inv h hp he
  | wLock => exact lock_inv h (.inr (.inl ⟨hp, rfl⟩)) (by simpa only [advStep, hp] using he)
  | wCrit => simp only [advStep, hp, Option.some.injEq] at he; subst he; exact first_inv h hp
  | wDef => exact wDef_inv h hp he
  | wRelock b => exact lock_inv h (.inr (.inr ⟨b, hp, rfl⟩)) (by simpa only [advStep, hp] using he)
  | wLoop b => exact wLoop_inv h hp he
  | wUnl o => exact wUnl_inv h hp he
  | rel o => exact rel_inv h hp he
  | del o => exact del_inv h hp he
  | del2 o => have := h.loc t; simp [LocOK, hp] at this
  | del3 o => exact del3_inv h hp he
  | x1 => exact x1_inv h hp he
  | x2 => exact x2_inv h hp he
  | x3 => exact x3_inv h hp he

end STL.Future
