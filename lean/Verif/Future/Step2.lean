import Verif.Future.Step

/-!
# `future`: the other transitions keep the invariant
-/

namespace STL.Future
open STL STL.Conc

variable {ι : Type} [Fintype ι] [DecidableEq ι]

/-- The thread that calls an operation has a reference to the state. -/
theorem Inv.alive_h {k : Kind} {s : St ι} (h : Inv k s) {t : ι} (hc : s.prov = true ∨ 0 < (s.l t).fut ∨ 0 < (s.l t).sh) : s.freed = 0 := by
  apply h.alive0
  have h1 := h.num.refs
  have h2 := le_tot (fun x => (nums x).h) s.l t
  change _ ≤ (numsTot s.l).h at h2
  simp only [nums] at h2
  rcases hc with hc | hc | hc
  · rw [hc] at h1; simp at h1; omega
  · omega
  · omega

/-- A thread between two operations begins one. -/
theorem Inv.startL {k : Kind} {s s' : St ι} (h : Inv k s) (t : ι) {x' : Loc} (hi : (s.l t).pc = .idle) (hl : s'.l = upd s.l t x')
    (hN : ∀ R : Nums, numsTot s.l = R.add (nums (s.l t)) → NumOK k s (R.add (nums (s.l t))) → NumOK k s' (R.add (nums x')))
    (hbad : s'.bad = false) (hterm : s'.term = s.term) (hcrit : isCrit x'.pc = false) (hown : s'.own = s.own)
    (h1 : s'.stored = s.stored) (h2 : s'.ready = s.ready) (h3 : s'.reg = s.reg) (h4 : s'.xm = s.xm) (h5 : s'.log = s.log)
    (hhold : active x'.pc = true → holdsH x') (hloc : LocOK k s t x') (hd : x'.done = (s.l t).done) (hpe : pend x' = []) : Inv k s' := by
  have hr : regd x' = regd (s.l t) := by simp only [regd, hd]
  refine h.updL' t hl (fun R e => hN R e (by rw [← e]; exact h.num)) hbad hterm (fun e => by rw [hcrit] at e; cases e) (.inl hown) h1 h2 h3 h4 h5 (fun e => ?_) (h.not_xm (.inr hi)) hhold hloc ?_ ?_
  · rw [hown, hr]; exact h.reg t e
  · rw [hd, hr]; exact h.done t
  · rw [hd, hpe]; simp [pend, hi]

omit [Fintype ι] in
theorem startStep_eq {k : Kind} {s : St ι} {t : ι} {o : Op} {p : PC} (h : startPC k s.retrieved o = (p, none)) :
    startStep k s t o = { s with prov := s.prov && !o.isDrop, bad := s.bad || decide (0 < s.freed), l := upd s.l t { takes (s.l t) o with op := o, pc := p } } := by
  simp only [startStep, h, St.goto, upd_upd, upd_self]

/-- The provider is not destroyed while another operation of it is in progress, or before the end of a thread that has called a function that makes the state
ready at thread exit. -/
def okAct (s : St ι) : Act ι → Prop
  | .start .drop => (∀ u, isUse (s.l u).op = true → active (s.l u).pc = false) ∧ s.reg = none
  | _ => True

theorem start_inv {k : Kind} {s : St ι} (h : Inv k s) {t : ι} {o : Op} (hok : okAct s (.start o)) (hi : (s.l t).pc = .idle) (hc : canStart k s (s.l t) o = true) :
    Inv k (startStep k s t o) := by
  have hfu : 0 < (s.l t).fut → s.retrieved = false := by
    intro hf
    cases hr : s.retrieved with
    | false => rfl
    | true =>
      have h1 := h.num.ret hr
      have h2 := le_tot (fun x => (nums x).uf) s.l t
      change _ ≤ (numsTot s.l).uf at h2
      simp only [nums] at h2; omega
  cases o with
  | set r ex =>
    simp only [canStart, Bool.and_eq_true, decide_eq_true_eq] at hc
    obtain ⟨⟨c1, c2⟩, c3⟩ := hc
    rw [startStep_eq (p := .sLock r) rfl]
    refine h.startL t hi rfl ?_ (goto_bad h.bad (h.alive_h (t := t) (.inl c1))) rfl rfl rfl rfl rfl rfl rfl rfl (fun _ => trivial) ⟨rfl, c3⟩ rfl rfl
    simp only [takes, Op.isDrop, Bool.not_false, Bool.and_true]
    num [hi, c1, c2]
  | call ex =>
    simp only [canStart, Bool.and_eq_true, decide_eq_true_eq] at hc
    obtain ⟨c1, c2⟩ := hc
    rw [startStep_eq (p := .chk) rfl]
    refine h.startL t hi rfl ?_ (goto_bad h.bad (h.alive_h (t := t) (.inl c1))) rfl rfl rfl rfl rfl rfl rfl rfl (fun _ => trivial) (.inr ⟨ex, rfl⟩) rfl rfl
    simp only [takes, Op.isDrop, Bool.not_false, Bool.and_true]
    num [hi, c1, c2]
  | drop =>
    simp only [canStart] at hc
    obtain ⟨ok1, ok2⟩ := hok
    have hnd : k ≠ .dfr := fun e => by have := (h.num.dfr e).2.2.1; rw [hc] at this; cases this
    have hu0 : (numsTot s.l).u = 0 := by
      by_contra hh
      obtain ⟨u, hu⟩ := tot_pos (Nat.pos_of_ne_zero hh)
      cases h1 : isUse (s.l u).op with
      | false => simp [nums, h1] at hu
      | true => simp [nums, h1, ok1 u h1] at hu
    have hsr : s.stored = none ∨ s.ready = true := by
      cases hst : s.stored with
      | none => exact .inl rfl
      | some v =>
        refine .inr ?_
        cases hr : s.ready with
        | true => rfl
        | false =>
          exfalso
          obtain ⟨u, hu⟩ := tot_pos (h.num.str (by simp [hst]) hr (by simp [ok2]))
          have hur : isRdy (s.l u).pc = true := by
            cases h1 : isRdy (s.l u).pc with
            | false => simp [nums, h1] at hu
            | true => rfl
          cases hpu : (s.l u).pc <;> simp [hpu, isRdy] at hur
          have hlu := h.loc u
          simp only [LocOK, hpu] at hlu
          have hau : active (s.l u).pc = true := by rw [hpu]; rfl
          have h1 := hlu.1
          have h2 : isUse (s.l u).op = false := by
            cases h2 : isUse (s.l u).op with
            | false => rfl
            | true => have := ok1 u h2; rw [hau] at this; cases this
          cases hou : (s.l u).op <;> simp only [hou, SetOK, isUse] at h1 h2 <;> (try cases h2) <;> (try exact hnd h1.1)
          have h3 := h.num.prv hc
          have h4 := le_tot (fun x => (nums x).dr) s.l u
          change _ ≤ (numsTot s.l).dr at h4
          simp [nums, hou, hau, Op.isDrop] at h4; omega
    have hnum : ∀ p, (p = .chk ∨ p = .sLock .broken) → ∀ R : Nums, numsTot s.l = R.add (nums (s.l t)) → NumOK k s (R.add (nums (s.l t))) →
        NumOK k { s with prov := s.prov && !Op.drop.isDrop, bad := s.bad || decide (0 < s.freed), l := upd s.l t { takes (s.l t) .drop with op := .drop, pc := p } }
          (R.add (nums { takes (s.l t) .drop with op := .drop, pc := p })) := by
      intro p hp R hz hn
      have hu : R.u = 0 := by
        rw [hz] at hu0; simp [Nums.add] at hu0; omega
      simp only [takes, Op.isDrop, Bool.not_true, Bool.and_false]
      rcases hp with rfl | rfl
      · clear hz; revert hn; revert hu; revert R; num [hi, hc, hnd, ok2]
      · clear hz; revert hn; revert hu; revert R; num [hi, hc, hnd, ok2]
    by_cases hk : k = .prom
    · rw [startStep_eq (p := .chk) (by simp [startPC, hk])]
      refine h.startL t hi rfl (hnum _ (.inl rfl)) (goto_bad h.bad (h.alive_h (t := t) (.inl hc))) rfl rfl rfl rfl rfl rfl rfl rfl (fun _ => trivial) (.inl ⟨rfl, hk, hsr⟩) rfl rfl
    · rw [startStep_eq (p := .sLock .broken) (by simp [startPC, hk])]
      refine h.startL t hi rfl (hnum _ (.inr rfl)) (goto_bad h.bad (h.alive_h (t := t) (.inl hc))) rfl rfl rfl rfl rfl rfl rfl rfl (fun _ => trivial) ⟨rfl, hnd, fun e => absurd e hk⟩ rfl rfl
  | get =>
    simp only [canStart, decide_eq_true_eq] at hc
    have hr := hfu hc
    rw [startStep_eq (p := .wLock) (by simp [startPC, hr])]
    refine h.startL t hi rfl ?_ (goto_bad h.bad (h.alive_h (.inr (.inl hc)))) rfl rfl rfl rfl rfl rfl rfl rfl (fun _ => trivial) rfl rfl rfl
    simp only [takes, Op.isDrop, Bool.not_false, Bool.and_true]
    num [hi, hc, hr]
  | dropFut =>
    simp only [canStart, decide_eq_true_eq] at hc
    rw [startStep_eq (p := .rel .unit) rfl]
    refine h.startL t hi rfl ?_ (goto_bad h.bad (h.alive_h (.inr (.inl hc)))) rfl rfl rfl rfl rfl rfl rfl rfl (fun _ => trivial) ⟨rfl, trivial⟩ rfl rfl
    simp only [takes, Op.isDrop, Bool.not_false, Bool.and_true]
    num [hi, hc]
  | dropSh =>
    simp only [canStart, decide_eq_true_eq] at hc
    rw [startStep_eq (p := .rel .unit) rfl]
    refine h.startL t hi rfl ?_ (goto_bad h.bad (h.alive_h (.inr (.inr hc)))) rfl rfl rfl rfl rfl rfl rfl rfl (fun _ => trivial) ⟨rfl, trivial⟩ rfl rfl
    simp only [takes, Op.isDrop, Bool.not_false, Bool.and_true]
    num [hi, hc]
  | sget =>
    simp only [canStart, decide_eq_true_eq] at hc
    rw [startStep_eq (p := .wLock) rfl]
    refine h.startL t hi rfl ?_ (goto_bad h.bad (h.alive_h (.inr (.inr hc)))) rfl rfl rfl rfl rfl rfl rfl rfl (fun _ => hc) rfl rfl rfl
    simp only [takes, Op.isDrop, Bool.not_false, Bool.and_true]
    num [hi, hc]
  | wait b =>
    cases b with
    | true =>
      simp only [canStart, decide_eq_true_eq, if_true] at hc
      rw [startStep_eq (p := .wLock) rfl]
      refine h.startL t hi rfl ?_ (goto_bad h.bad (h.alive_h (.inr (.inr hc)))) rfl rfl rfl rfl rfl rfl rfl rfl (fun _ => hc) rfl rfl rfl
      simp only [takes, Op.isDrop, Bool.not_false, Bool.and_true]
      num [hi, hc]
    | false =>
      simp only [canStart, decide_eq_true_eq, Bool.false_eq_true, if_false] at hc
      have hr := hfu hc
      rw [startStep_eq (p := .wLock) (by simp [startPC, hr])]
      refine h.startL t hi rfl ?_ (goto_bad h.bad (h.alive_h (.inr (.inl hc)))) rfl rfl rfl rfl rfl rfl rfl rfl (fun _ => hc) rfl rfl rfl
      simp only [takes, Op.isDrop, Bool.not_false, Bool.and_true]
      num [hi, hc, hr]
  | waitFor b =>
    cases b with
    | true =>
      simp only [canStart, decide_eq_true_eq, if_true] at hc
      rw [startStep_eq (p := .wLock) rfl]
      refine h.startL t hi rfl ?_ (goto_bad h.bad (h.alive_h (.inr (.inr hc)))) rfl rfl rfl rfl rfl rfl rfl rfl (fun _ => hc) rfl rfl rfl
      simp only [takes, Op.isDrop, Bool.not_false, Bool.and_true]
      num [hi, hc]
    | false =>
      simp only [canStart, decide_eq_true_eq, Bool.false_eq_true, if_false] at hc
      have hr := hfu hc
      rw [startStep_eq (p := .wLock) (by simp [startPC, hr])]
      refine h.startL t hi rfl ?_ (goto_bad h.bad (h.alive_h (.inr (.inl hc)))) rfl rfl rfl rfl rfl rfl rfl rfl (fun _ => hc) rfl rfl rfl
      simp only [takes, Op.isDrop, Bool.not_false, Bool.and_true]
      num [hi, hc, hr]

omit [Fintype ι] in
theorem loc_hand {k : Kind} {s s' : St ι} {u : ι} {x x' : Loc} (h : LocOK k s u x) (hp : x'.pc = x.pc) (ho : x'.op = x.op) (hd : x'.done = x.done) (h1 : s'.stored = s.stored)
    (h2 : s'.ready = s.ready) (h3 : s'.reg = s.reg) (h4 : s'.xm = s.xm) : LocOK k s' u x' := by
  have hr : regd x' = regd x := by simp only [regd, hd]
  unfold LocOK at *
  rw [hp, ho, hr, h1, h2, h3, h4]; exact h

/-- A step that changes only who has which objects. -/
theorem Inv.moveL {k : Kind} {s s' : St ι} (h : Inv k s) (hN : NumOK k s' (numsTot s'.l)) (hp : ∀ u, (s'.l u).pc = (s.l u).pc) (ho : ∀ u, (s'.l u).op = (s.l u).op)
    (hd : ∀ u, (s'.l u).done = (s.l u).done) (hh : ∀ u, active (s.l u).pc = true → holdsH (s.l u) → holdsH (s'.l u))
    (hbad : s'.bad = false) (hterm : s'.term = s.term) (hown : s'.own = s.own)
    (h1 : s'.stored = s.stored) (h2 : s'.ready = s.ready) (h3 : s'.reg = s.reg) (h4 : s'.xm = s.xm) (h5 : s'.log = s.log) : Inv k s' := by
  have hr : ∀ u, regd (s'.l u) = regd (s.l u) := fun u => by simp only [regd, hd]
  refine ⟨hN, hbad, by rw [hterm, h.term], fun u => ?_, fun u => ?_, fun u => ?_, fun u ha => ?_, fun u => loc_hand (h.loc u) (hp u) (ho u) (hd u) h1 h2 h3 h4, fun u => ?_, fun u => ?_, ?_⟩
  · rw [hp, hown]; exact h.crit u
  · rw [hown, h3, hr]; exact h.reg u
  · rw [hp, h4]; exact h.xm u
  · rw [hp] at ha; exact hh u ha (h.hold u ha)
  · rw [hd, h1, h2, hr]; exact h.done u
  · rw [h5, hd, h.log u]
    simp only [pend, hp, ho]
  · rw [h5, h1]; exact h.len

theorem holds_more {x x' : Loc} (h : holdsH x) (ho : x'.op = x.op) (h1 : x.fut ≤ x'.fut) (h2 : x.sh ≤ x'.sh) : holdsH x' := by
  unfold holdsH at *
  rw [ho]
  split <;> simp_all <;> omega

/-- One thread gets or gives up objects. -/
theorem Inv.handL {k : Kind} {s s' : St ι} (h : Inv k s) (u : ι) {f g : Nat} (hl : s'.l = upd s.l u { s.l u with fut := f, sh := g })
    (hN : ∀ R : Nums, R.z ≤ (numsTot s.l).z → NumOK k s (R.add (nums (s.l u))) → NumOK k s' (R.add (nums { s.l u with fut := f, sh := g })))
    (hh : (s.l u).pc = .idle ∨ ((s.l u).fut ≤ f ∧ (s.l u).sh ≤ g))
    (hbad : s'.bad = false) (hterm : s'.term = s.term) (hown : s'.own = s.own)
    (h1 : s'.stored = s.stored) (h2 : s'.ready = s.ready) (h3 : s'.reg = s.reg) (h4 : s'.xm = s.xm) (h5 : s'.log = s.log) : Inv k s' := by
  obtain ⟨R, e1, e2⟩ := split_nums s.l u
  refine h.moveL ?_ (fun v => ?_) (fun v => ?_) (fun v => ?_) (fun v ha hv => ?_) hbad hterm hown h1 h2 h3 h4 h5
  · rw [hl, e2]; exact hN R (by rw [e1]; simp [Nums.add]) (by rw [← e1]; exact h.num)
  all_goals rw [hl]; by_cases hv : v = u
  all_goals first | (subst hv; rw [upd_self]) | rw [upd_ne _ _ hv]
  · rcases hh with hh | hh
    · rw [hh] at ha; simp [active] at ha
    · exact holds_more (x := s.l v) (by assumption) rfl hh.1 hh.2
  · assumption

theorem Nums.ext {a b : Nums} (h1 : a.h = b.h) (h2 : a.d = b.d) (h3 : a.c = b.c) (h4 : a.r = b.r) (h5 : a.n = b.n) (h6 : a.z = b.z) (h7 : a.p = b.p) (h8 : a.q = b.q) (h9 : a.u = b.u)
    (h10 : a.dr = b.dr) (h11 : a.dp = b.dp) (h12 : a.uf = b.uf) (h13 : a.sh = b.sh) : a = b := by
  cases a; cases b; simp_all

/-- `a` `future` and `b` `shared_future` objects move from `t` to `u`. -/
def giveL (l : ι → Loc) (t u : ι) (a b : Nat) : ι → Loc :=
  let l1 := upd l t { l t with fut := (l t).fut - a, sh := (l t).sh - b }
  upd l1 u { l1 u with fut := (l1 u).fut + a, sh := (l1 u).sh + b }

theorem give_tot {l : ι → Loc} {t u : ι} {a b : Nat} (ha : a ≤ (l t).fut) (hb : b ≤ (l t).sh) : numsTot (giveL l t u a b) = numsTot l := by
  obtain ⟨R, e1, e2⟩ := split_nums l t
  unfold giveL
  obtain ⟨Q, f1, f2⟩ := split_nums (upd l t { l t with fut := (l t).fut - a, sh := (l t).sh - b }) u
  simp only
  rw [f2, e1]
  rw [e2] at f1
  generalize upd l t { l t with fut := (l t).fut - a, sh := (l t).sh - b } u = y at *
  simp only [Nums.add, nums, Nums.mk.injEq] at f1
  obtain ⟨g1, g2, g3, g4, g5, g6, g7, g8, g9, g10, g11, g12, g13⟩ := f1
  apply Nums.ext <;> simp only [Nums.add, nums] <;> omega

omit [Fintype ι] in
theorem give_cases (l : ι → Loc) (t u : ι) (a b : Nat) (v : ι) : ∃ f g, giveL l t u a b v = { l v with fut := f, sh := g } ∧ (v = t ∨ ((l v).fut ≤ f ∧ (l v).sh ≤ g)) := by
  unfold giveL
  by_cases hvu : v = u
  · subst hvu
    simp only [upd_self]
    by_cases hvt : v = t
    · subst hvt; rw [upd_self]; exact ⟨_, _, rfl, .inl rfl⟩
    · rw [upd_ne _ _ hvt]; exact ⟨_, _, rfl, .inr ⟨by omega, by omega⟩⟩
  · simp only [upd_ne _ _ hvu]
    by_cases hvt : v = t
    · subst hvt; rw [upd_self]; exact ⟨_, _, rfl, .inl rfl⟩
    · rw [upd_ne _ _ hvt]; exact ⟨_, _, rfl, .inr ⟨le_rfl, le_rfl⟩⟩

theorem give_inv {k : Kind} {s s' : St ι} (h : Inv k s) {t u : ι} {a b : Nat} (hi : (s.l t).pc = .idle) (ha : a ≤ (s.l t).fut) (hb : b ≤ (s.l t).sh)
    (hs : s' = { s with l := giveL s.l t u a b }) : Inv k s' := by
  subst hs
  have hcase := give_cases s.l t u a b
  refine h.moveL ?_ (fun v => ?_) (fun v => ?_) (fun v => ?_) (fun v hav hv => ?_) h.bad rfl rfl rfl rfl rfl rfl rfl
  · have := h.num
    simp only [give_tot ha hb]
    exact ⟨this.refs, this.freed, this.own, this.rdy, this.reg, this.str, this.slp, this.dfr, this.ndf, this.prv, this.npr, this.dr, this.brk, this.uf, this.ret, this.shf, this.frd⟩
  all_goals obtain ⟨f, g, e, hc⟩ := hcase v; simp only [e]
  rcases hc with hc | hc
  · subst hc; rw [hi] at hav; simp [active] at hav
  · exact holds_more hv rfl hc.1 hc.2

theorem step_inv {k : Kind} {s s' : St ι} (h : Inv k s) {t : ι} {a : Act ι} (hok : okAct s a) (he : step k s t a = some s') : Inv k s' := by
  cases a with
  | start o =>
    simp only [step, Option.ite_none_right_eq_some, Option.some.injEq] at he
    obtain ⟨⟨h1, h2⟩, rfl⟩ := he
    exact start_inv h hok h1 h2
  | adv r => exact adv_inv h he
  | wakeup tm =>
    simp only [step, Option.ite_none_right_eq_some, Option.some.injEq] at he
    obtain ⟨⟨hp, h2⟩, rfl⟩ := he
    have ha : active (s.l t).pc = true := by rw [hp]; rfl
    have hl := h.loc t
    simp only [LocOK, hp] at hl
    refine h.gotoL t rfl ha ?_ (goto_bad h.bad (h.alive0 (h.alive ha (by rw [hp]; rfl)))) rfl (fun e => by simp [isCrit] at e) (.inl rfl) rfl rfl rfl rfl rfl (fun e => (h.reg t e).1) ⟨hl, h2⟩
      (by simp [pend, hp])
    num [hp]
  | getFuture u =>
    simp only [step, Option.ite_none_right_eq_some, Option.some.injEq] at he
    obtain ⟨⟨hi, hp, hf⟩, rfl⟩ := he
    have hbad := goto_bad h.bad (h.alive_h (t := t) (.inl hp))
    refine h.handL u (f := (s.l u).fut + 1) (g := (s.l u).sh) ?_ ?_ (.inr ⟨by omega, le_rfl⟩) hbad rfl rfl rfl rfl rfl rfl rfl
    · funext v
      simp only [St.goto]
      by_cases hv : v = t
      · subst hv; rw [upd_self]
        by_cases hvu : v = u
        · subst hvu; rw [upd_self]; simp [hi]
        · rw [upd_ne _ _ hvu]
          have : s.l v = { s.l v with pc := .idle } := by rw [← hi]
          exact this.symm
      · rw [upd_ne _ _ hv]
    · num [hp, hf]
  | share =>
    simp only [step, Option.ite_none_right_eq_some, Option.some.injEq] at he
    obtain ⟨⟨hi, hp⟩, rfl⟩ := he
    refine h.handL t rfl ?_ (.inl hi) h.bad rfl rfl rfl rfl rfl rfl rfl
    num [hi, hp]
  | copy =>
    simp only [step, Option.ite_none_right_eq_some, Option.some.injEq] at he
    obtain ⟨⟨hi, hp⟩, rfl⟩ := he
    have hbad := goto_bad h.bad (h.alive_h (.inr (.inr hp)))
    refine h.handL t (f := (s.l t).fut) (g := (s.l t).sh + 1) ?_ ?_ (.inl hi) hbad rfl rfl rfl rfl rfl rfl rfl
    · simp only [St.goto, upd_upd, upd_self, ← hi]
    · num [hi, hp]
  | giveFut u =>
    simp only [step, Option.ite_none_right_eq_some, Option.some.injEq] at he
    obtain ⟨⟨hi, hp⟩, rfl⟩ := he
    exact give_inv (t := t) (u := u) (a := 1) (b := 0) h hi hp (Nat.zero_le _) (by simp [giveL])
  | giveSh u =>
    simp only [step, Option.ite_none_right_eq_some, Option.some.injEq] at he
    obtain ⟨⟨hi, hp⟩, rfl⟩ := he
    exact give_inv (t := t) (u := u) (a := 0) (b := 1) h hi (Nat.zero_le _) hp (by simp [giveL])
  | exit =>
    simp only [step, Option.ite_none_right_eq_some] at he
    obtain ⟨⟨hi, hx⟩, he⟩ := he
    split at he
    · rename_i hr
      simp only [Option.some.injEq] at he; subst he
      refine h.upd1 t (x' := { s.l t with pc := .x1 }) rfl ?_ h.bad h.term (fun e => by simp [isCrit] at e) (.inl rfl) (.inl rfl) (fun e => h.reg t e) (.inr (.inr rfl)) (fun _ => .inl rfl)
        (fun e => by simp [active] at e) ⟨hr, rfl⟩ (fun u hu => ?_) (fun _ e => e) id (h.done t) (fun u => ?_) h.len
      · num [hi, hr]
      · have hlu := h.loc u
        unfold LocOK at *
        cases hpu : (s.l u).pc <;> simp only [hpu] at hlu ⊢ <;> (try exact hlu)
        all_goals rw [hx] at hlu; simp at hlu
      · split
        · rename_i hu; subst hu
          change logOf u s.log = _
          rw [h.log]; simp [pend, hi]
        · rfl
    · rename_i hr
      simp only [Option.some.injEq] at he; subst he
      refine h.startL t hi rfl ?_ h.bad rfl rfl rfl rfl rfl rfl rfl rfl (fun e => by simp [active] at e) hr rfl rfl
      num [hi]

theorem nums_init (k : Kind) (t0 : ι) : numsTot (init k t0).l =
    ⟨(decide (k = .dfr)).toNat, 0, 0, 0, 0, 0, 0, 0, 0, 0, 0, (decide (k = .dfr)).toNat, 0⟩ := by
  obtain ⟨R, e1, e2⟩ := split_nums (fun _ : ι => ({ fut := 0, sh := 0, pc := .idle, op := .drop, done := [] } : Loc)) t0
  have h0 : ∀ f : Loc → Nat, f { fut := 0, sh := 0, pc := .idle, op := .drop, done := [] } = 0 → tot f (fun _ : ι => ({ fut := 0, sh := 0, pc := .idle, op := .drop, done := [] } : Loc)) = 0 :=
    fun f hf => tot_eq_zero fun _ => hf
  have hl : (init k t0).l = upd (fun _ : ι => ({ fut := 0, sh := 0, pc := .idle, op := .drop, done := [] } : Loc)) t0
      { fut := (decide (k = .dfr)).toNat, sh := 0, pc := .idle, op := .drop, done := [] } := by
    funext u
    by_cases hu : u = t0
    · subst hu; rw [upd_self]; by_cases hk : k = .dfr <;> simp [init, hk]
    · rw [upd_ne _ _ hu]; simp [init, hu]
  rw [hl, e2]
  simp only [numsTot, Nums.add, nums, Nums.mk.injEq] at e1
  obtain ⟨g1, g2, g3, g4, g5, g6, g7, g8, g9, g10, g11, g12, g13⟩ := e1
  rw [h0 _ (by rfl)] at g1 g2 g3 g4 g5 g6 g7 g8 g9 g10 g11 g12 g13
  simp only [active, isDel, isCrit, isRdy, isNtf, isSlp, isPre, isPreRun, isDropPre, isGetPre, Op.waits, Op.isDrop, isGet, isUse, ownsRef, Bool.and_false, Bool.false_and, Bool.toNat_false] at *
  apply Nums.ext <;> simp only [Nums.add, nums, active, isDel, isCrit, isRdy, isNtf, isSlp, isPre, isPreRun, isDropPre, isGetPre, Op.waits, Op.isDrop, isGet, isUse, ownsRef, Bool.and_false,
    Bool.false_and, Bool.toNat_false] <;> omega

theorem inv_init (k : Kind) (t0 : ι) : Inv k (init k t0) := by
  refine ⟨?_, rfl, rfl, fun u h => by simp [init, isCrit] at h, fun u h => by simp [init] at h, fun u h => by simp [init] at h, fun u h => by simp [init, active] at h, fun u => trivial,
    fun u e h => by simp [init] at h, fun u => rfl, fun _ => rfl⟩
  rw [nums_init]
  by_cases hk : k = .dfr
  · constructor <;> simp [init, hk]
  · constructor <;> simp [init, hk]

/-- The executions: a new state, then any steps of any threads, with the rule for destruction of the provider. -/
inductive Reach (k : Kind) (t0 : ι) : St ι → Prop
  | init : Reach k t0 (init k t0)
  | step {s s' : St ι} (t : ι) (a : Act ι) : Reach k t0 s → okAct s a → step k s t a = some s' → Reach k t0 s'

theorem Reach.inv {k : Kind} {t0 : ι} {s : St ι} (h : Reach k t0 s) : Inv k s := by
  induction h with
  | init => exact inv_init k t0
  | step t a _ hok he ih => exact step_inv ih hok he

end STL.Future
