import Verif.Locks.Timed

/-!
# `timed_mutex` and `recursive_timed_mutex`: mutual exclusion, counting, no lost wake-up
-/

namespace STL.Locks.Timed
open STL STL.Conc

variable {ι : Type} [Fintype ι] [DecidableEq ι]

def isCrit : PC → Bool
  | .crit | .loop _ | .critT | .unl _ _ => true
  | _ => false

def isNtf : PC → Bool
  | .unl _ true | .ntf _ => true
  | _ => false

def isTest : PC → Bool
  | .reN | .loop _ => true
  | _ => false

structure Nums where
  c : Nat
  z : Nat
  n : Nat
  w : Nat
  k : Nat

def nums (x : Loc) : Nums := ⟨(isCrit x.pc).toNat, (decide (x.pc = .slp ∧ x.op = .lock)).toNat, (isNtf x.pc).toNat, (isTest x.pc).toNat, x.cnt⟩

def Nums.add (a b : Nums) : Nums := ⟨a.c + b.c, a.z + b.z, a.n + b.n, a.w + b.w, a.k + b.k⟩

def numsTot (l : ι → Loc) : Nums :=
  ⟨tot (fun x => (nums x).c) l, tot (fun x => (nums x).z) l, tot (fun x => (nums x).n) l, tot (fun x => (nums x).w) l, tot (fun x => (nums x).k) l⟩

theorem split_nums (l : ι → Loc) (t : ι) : ∃ R : Nums, numsTot l = R.add (nums (l t)) ∧ ∀ x, numsTot (upd l t x) = R.add (nums x) := by
  obtain ⟨r1, a1, b1⟩ := split_tot (fun x => (nums x).c) l t
  obtain ⟨r2, a2, b2⟩ := split_tot (fun x => (nums x).z) l t
  obtain ⟨r3, a3, b3⟩ := split_tot (fun x => (nums x).n) l t
  obtain ⟨r4, a4, b4⟩ := split_tot (fun x => (nums x).w) l t
  obtain ⟨r5, a5, b5⟩ := split_tot (fun x => (nums x).k) l t
  refine ⟨⟨r1, r2, r3, r4, r5⟩, ?_, fun x => ?_⟩
  · simp only [numsTot, Nums.add, a1, a2, a3, a4, a5]
  · simp only [numsTot, Nums.add, b1, b2, b3, b4, b5]

structure NumOK {ι : Type} (rc : Bool) (s : St ι) (N : Nums) : Prop where
  own : s.own.isSome.toNat = N.c
  k : N.k = if rc then s.locked else if s.locked = 0 then 0 else 1
  lost : s.locked = 0 → 0 < N.z → 0 < N.n + N.w
  max : s.locked ≤ uintMax

def LocOK (rc : Bool) (x : Loc) : Prop :=
  match x.pc with
  | .idle => True
  | .acq | .crit => (x.op = .unlock → 0 < x.cnt) ∧ (rc = false → x.op ≠ .unlock → x.cnt = 0)
  | .loop fin => x.cnt = 0 ∧ (x.op = .lock ∨ x.op = .until) ∧ (fin = true → x.op = .until)
  | .slp | .reN => x.cnt = 0 ∧ (x.op = .lock ∨ x.op = .until)
  | .reT | .critT => x.cnt = 0 ∧ x.op = .until
  | .unl o nt => (nt = true → x.op = .unlock) ∧ (x.op = .lock → o ≠ .no) ∧ (x.op = .unlock → o = .yes) ∧ (o = .again → rc = true) ∧ (x.op ≠ .unlock → o = .yes → 0 < x.cnt)
  | .ntf o => o = .yes ∧ x.op = .unlock

structure Inv (rc : Bool) (s : St ι) : Prop where
  num : NumOK rc s (numsTot s.l)
  crit : ∀ u, isCrit (s.l u).pc = true → s.own = some u
  owner : rc = true → ∀ u, 0 < (s.l u).cnt ↔ s.owner = some u
  loc : ∀ u, LocOK rc (s.l u)

/-- One step of thread `t`. -/
theorem Inv.upd1 {rc : Bool} {s s' : St ι} (h : Inv rc s) (t : ι) {x' : Loc} (hl : s'.l = upd s.l t x')
    (hN : ∀ R : Nums, numsTot s.l = R.add (nums (s.l t)) → NumOK rc s (R.add (nums (s.l t))) → NumOK rc s' (R.add (nums x')))
    (hcrit : isCrit x'.pc = true → s'.own = some t) (hown : s'.own = s.own ∨ s.own = none ∨ s.own = some t)
    (howner : rc = true → (0 < x'.cnt ↔ s'.owner = some t) ∧ (s'.owner = s.owner ∨ s.owner = some t ∧ s'.owner = none ∨ s.locked = 0 ∧ s'.owner = some t))
    (hloc : LocOK rc x') : Inv rc s' := by
  obtain ⟨R, h1, h2⟩ := split_nums s.l t
  refine ⟨?_, fun u hu => ?_, fun hr u => ?_, fun u => ?_⟩
  · rw [hl, h2]; exact hN R h1 (by rw [← h1]; exact h.num)
  · rw [hl] at hu
    by_cases hut : u = t
    · subst hut; rw [upd_self] at hu; exact hcrit hu
    · rw [upd_ne _ _ hut] at hu
      have h3 := h.crit u hu
      rcases hown with e | e | e
      · rw [e, h3]
      · rw [h3] at e; cases e
      · rw [h3] at e; exact absurd (Option.some.inj e) hut
  · rw [hl]
    by_cases hut : u = t
    · subst hut; rw [upd_self]; exact (howner hr).1
    · rw [upd_ne _ _ hut]
      have h3 := h.owner hr u
      rcases (howner hr).2 with e | ⟨e, e'⟩ | ⟨e, e'⟩
      · rw [e]; exact h3
      · rw [h3, e, e']
        constructor
        · intro q; exact absurd (Option.some.inj q).symm hut
        · intro q; cases q
      · rw [e']
        constructor
        · intro q
          have h4 := h.num.k
          rw [hr, e] at h4
          have h5 := le_tot (fun x => (nums x).k) s.l u
          change _ ≤ (numsTot s.l).k at h5
          simp [nums] at h4 h5; omega
        · intro q; exact absurd (Option.some.inj q).symm hut
  · rw [hl]
    by_cases hut : u = t
    · subst hut; rw [upd_self]; exact hloc
    · rw [upd_ne _ _ hut]; exact h.loc u

omit [Fintype ι] in
theorem upd_upd (l : ι → Loc) (t : ι) (x y : Loc) : upd (upd l t x) t y = upd l t y := by
  funext u; by_cases h : u = t
  · subst h; simp
  · simp [upd_ne _ _ h]

theorem Inv.cnt_le {rc : Bool} {s : St ι} (h : Inv rc s) (u : ι) : (s.l u).cnt ≤ if rc then s.locked else if s.locked = 0 then 0 else 1 := by
  rw [← h.num.k]; exact le_tot (fun x => (nums x).k) s.l u

macro "num" "[" hp:ident,* "]" : tactic => `(tactic| (
  clear * - $[$hp]*
  intro R hRz hR
  obtain ⟨a1, a2, a3, a4⟩ := hR
  simp only [Nums.add, nums, $[$hp:ident],*, isCrit, isNtf, isTest, Bool.toNat_true, Bool.toNat_false, Nat.add_zero, Option.isSome_some, Option.isSome_none, reduceCtorEq, false_and, decide_false] at a1 a2 a3 a4
  constructor <;> simp only [St.goto, St.ret, St.addCnt, Nums.add, nums, $[$hp:ident],*, isCrit, isNtf, isTest, Bool.toNat_true, Bool.toNat_false, Nat.add_zero, Option.isSome_some, Option.isSome_none,
    reduceCtorEq, false_and, decide_false] <;>
    first | assumption | omega | (unfold uintMax at *; omega) | grind [uintMax] | skip))

theorem inv_init (rc : Bool) : Inv rc (init : St ι) := by
  have h0 : ∀ f : Loc → Nat, f { pc := .idle, op := .lock, cnt := 0, done := [] } = 0 → tot f (init : St ι).l = 0 := fun f hf => tot_eq_zero fun _ => hf
  have e1 : (numsTot (init : St ι).l).c = 0 := h0 (fun x => (nums x).c) rfl
  have e2 : (numsTot (init : St ι).l).z = 0 := h0 (fun x => (nums x).z) rfl
  have e3 : (numsTot (init : St ι).l).k = 0 := h0 (fun x => (nums x).k) rfl
  refine ⟨⟨?_, ?_, fun _ h => ?_, ?_⟩, fun u h => by simp [init, isCrit] at h, fun _ u => by simp [init], fun u => trivial⟩
  · rw [e1]; rfl
  · rw [e3]; simp [init]
  · omega
  · simp [init]

theorem take_inv {rc : Bool} {s : St ι} (h : Inv rc s) {t : ι} (ho : s.own = some t) (hc : isCrit (s.l t).pc = true) (h0 : s.locked = 0) (hop : (s.l t).op ≠ .unlock) :
    Inv rc ((take rc s t).goto t (.unl .yes false)) := by
  have hz : (numsTot s.l).k = 0 := by rw [h.num.k, h0]; simp
  cases rc with
  | true =>
    refine h.upd1 t (x' := { s.l t with pc := .unl .yes false, cnt := 1 }) (by simp [take, St.addCnt, St.goto, upd_upd]) ?_ (fun _ => ho) (.inl rfl) (fun _ => ⟨by simp [take, St.addCnt, St.goto], .inr (.inr ⟨h0, rfl⟩)⟩)
      ⟨by simp, by simp, by simp, by simp, by simp⟩
    simp only [take, St.addCnt, St.goto, if_true]
    intro R hR hn
    have hk : R.k = 0 := by rw [hR] at hz; simp [Nums.add] at hz; omega
    have a1 := hn.own
    simp only [Nums.add, nums, hc] at a1
    exact ⟨by simpa [Nums.add, nums, isCrit] using a1, by simp [Nums.add, nums, hk], by simp, by simp [uintMax]⟩
  | false =>
    refine h.upd1 t (x' := { s.l t with pc := .unl .yes false, cnt := 1 }) (by simp [take, St.addCnt, St.goto, upd_upd]) ?_ (fun _ => ho) (.inl rfl) (fun e => by cases e)
      ⟨by simp, by simp, by simp, by simp, by simp⟩
    simp only [take, St.addCnt, St.goto]
    intro R hR hn
    have hk : R.k = 0 := by rw [hR] at hz; simp [Nums.add] at hz; omega
    have a1 := hn.own
    simp only [Nums.add, nums, hc] at a1
    exact ⟨by simpa [Nums.add, nums, isCrit] using a1, by simp [Nums.add, nums, hk, uintMax], by simp [uintMax], by simp⟩

/-- The owner locks once more. -/
theorem more_inv {rc : Bool} {s : St ι} (h : Inv rc s) {t : ι} (hp : (s.l t).pc = .crit) (ho : s.own = some t) (hw : rc = true ∧ s.owner = some t) (h0 : s.locked < uintMax) :
    Inv rc (({ s with locked := s.locked + 1 }.addCnt t ((s.l t).cnt + 1)).goto t (.unl .yes false)) := by
  obtain ⟨hr, hw⟩ := hw
  subst hr
  refine h.upd1 t (x' := { s.l t with pc := .unl .yes false, cnt := (s.l t).cnt + 1 }) (by simp [St.addCnt, St.goto, upd_upd]) ?_ (fun _ => ho) (.inl rfl)
    (fun _ => ⟨by simp [St.addCnt, St.goto, hw], .inl rfl⟩) ⟨by simp, by simp, by simp, by simp, by simp⟩
  simp only [St.addCnt, St.goto]
  num [hp, h0]

theorem goto_inv {rc : Bool} {s : St ι} (h : Inv rc s) {t : ι} {p : PC} (hc : isCrit (s.l t).pc = true) (hc' : isCrit p = true) (hn' : isNtf p = false) (hn : isNtf (s.l t).pc = false)
    (hw : isTest (s.l t).pc = true → isTest p = true ∨ s.locked ≠ 0) (hz : p ≠ .slp) (hl : LocOK rc { s.l t with pc := p }) : Inv rc (s.goto t p) := by
  have ho := h.crit t hc
  refine h.upd1 t (x' := { s.l t with pc := p }) rfl ?_ (fun _ => ho) (.inl rfl) (fun hr => ⟨h.owner hr t, .inl rfl⟩) hl
  have hsl : (s.l t).pc ≠ .slp := by intro e; rw [e] at hc; simp [isCrit] at hc
  intro R _ hR
  obtain ⟨a1, a2, a3, a4⟩ := hR
  simp only [Nums.add, nums, hc, hn, hsl, false_and, decide_false, Bool.toNat_false, Bool.toNat_true, Nat.add_zero] at a1 a2 a3
  refine ⟨?_, ?_, ?_, a4⟩
  · simpa [Nums.add, nums, St.goto, hc'] using a1
  · exact a2
  · simp only [Nums.add, nums, St.goto, hn', hz, false_and, decide_false, Bool.toNat_false, Nat.add_zero]
    intro e1 e2
    have := a3 e1 e2
    cases hq : isTest (s.l t).pc with
    | false => rw [hq] at this; simp at this; omega
    | true =>
      rcases hw hq with e | e
      · rw [hq] at this; rw [e]; exact this
      · exact absurd e1 e

theorem crit_inv {rc : Bool} {s : St ι} (h : Inv rc s) {t : ι} (hp : (s.l t).pc = .crit) : Inv rc (critStep rc s t) := by
  have hcr : isCrit (s.l t).pc = true := by rw [hp]; rfl
  have ho := h.crit t hcr
  have hl := h.loc t
  simp only [LocOK, hp] at hl
  have hle := h.cnt_le t
  have hmax := h.num.max
  have hnn : isNtf (s.l t).pc = false := by rw [hp]; rfl
  have hnt : isTest (s.l t).pc = false := by rw [hp]; rfl
  have hcnt : ¬(rc = true ∧ s.owner = some t) → (s.l t).op ≠ .unlock → (s.l t).cnt = 0 := by
    intro q1 q2
    cases hr : rc with
    | false => exact hl.2 hr q2
    | true =>
      by_contra hh
      exact q1 ⟨hr, (h.owner hr t).1 (Nat.pos_of_ne_zero hh)⟩
  unfold critStep
  cases hop : (s.l t).op with
  | unlock =>
    have hc := hl.1 hop
    cases rc with
    | true =>
      simp only [if_true] at hle ⊢
      have how := (h.owner rfl t).1 hc
      split
      · rename_i h1
        refine h.upd1 t (x' := { s.l t with pc := .unl .yes true, cnt := (s.l t).cnt - 1 }) (by simp [St.addCnt, St.goto, upd_upd]) ?_ (fun _ => ho) (.inl rfl)
          (fun _ => ⟨by simp [St.addCnt, St.goto]; omega, .inr (.inl ⟨how, rfl⟩)⟩) ⟨by simp [hop], by simp, by simp, by simp, by simp [hop]⟩
        simp only [St.addCnt, St.goto]
        num [hp, hop, h1, hle, hc]
      · rename_i h1
        have hu : ∀ R : Nums, numsTot s.l = R.add (nums (s.l t)) → R.k = 0 := by
          intro R hR
          by_contra hh
          have h2 : 0 < tot (fun x => x.cnt) (upd s.l t { s.l t with cnt := 0 }) := by
            obtain ⟨r, e1, e2⟩ := split_tot (fun x : Loc => x.cnt) s.l t
            rw [e2]
            have e3 : (numsTot s.l).k = R.k + (s.l t).cnt := by rw [hR]; simp [Nums.add, nums]
            change tot (fun x : Loc => x.cnt) s.l = _ at e3
            simp; omega
          obtain ⟨u, hu⟩ := tot_pos h2
          by_cases hut : u = t
          · subst hut; simp at hu
          · rw [upd_ne _ _ hut] at hu
            have h3 := (h.owner rfl u).1 hu
            rw [how] at h3; exact hut (Option.some.inj h3).symm
        refine h.upd1 t (x' := { s.l t with pc := .unl .yes false, cnt := (s.l t).cnt - 1 }) (by simp [St.addCnt, St.goto, upd_upd]) ?_ (fun _ => ho) (.inl rfl)
          (fun _ => ⟨?_, .inl rfl⟩) ⟨by simp [hop], by simp, by simp, by simp, by simp [hop]⟩
        · simp only [St.addCnt, St.goto]
          num [hp, hop, h1, hle, hc]
        · simp only [St.addCnt, St.goto, how, iff_true]
          obtain ⟨R, hR, _⟩ := split_nums s.l t
          have e1 := h.num.k
          rw [hR] at e1
          simp only [Nums.add, hu R hR, nums, if_true] at e1; omega
    | false =>
      simp only [Bool.false_eq_true, if_false] at hle ⊢
      have hk1 : s.locked ≠ 0 := by
        intro e; rw [e] at hle; simp at hle; omega
      refine h.upd1 t (x' := { s.l t with pc := .unl .yes true, cnt := (s.l t).cnt - 1 }) (by simp [St.addCnt, St.goto, upd_upd]) ?_ (fun _ => ho) (.inl rfl)
        (fun e => by cases e) ⟨by simp [hop], by simp, by simp, by simp, by simp [hop]⟩
      simp only [St.addCnt, St.goto]
      num [hp, hop, hc, hk1]
  | tryLock =>
    simp only
    split
    · rename_i h1
      split
      · exact more_inv h hp ho h1 (by assumption)
      · refine goto_inv h hcr rfl rfl hnn (by rw [hnt]; simp) (by simp) ⟨by simp, by simp [hop], by simp [hop], by simp, by simp⟩
    · split
      · refine goto_inv h hcr rfl rfl hnn (by rw [hnt]; simp) (by simp) ⟨by simp, by simp [hop], by simp [hop], by simp, by simp⟩
      · exact take_inv h ho hcr (by omega) (by rw [hop]; simp)
  | lock =>
    simp only
    split
    · rename_i h1
      split
      · exact more_inv h hp ho h1 (by assumption)
      · refine goto_inv h hcr rfl rfl hnn (by rw [hnt]; simp) (by simp) ⟨by simp, by simp, by simp [hop], by simp [h1.1], by simp⟩
    · rename_i h1
      refine goto_inv h hcr rfl rfl hnn (by rw [hnt]; simp) (by simp) ⟨hcnt h1 (by rw [hop]; simp), .inl hop, by simp⟩
  | «until» =>
    simp only
    split
    · rename_i h1
      split
      · exact more_inv h hp ho h1 (by assumption)
      · refine goto_inv h hcr rfl rfl hnn (by rw [hnt]; simp) (by simp) ⟨by simp, by simp [hop], by simp [hop], by simp, by simp⟩
    · rename_i h1
      refine goto_inv h hcr rfl rfl hnn (by rw [hnt]; simp) (by simp) ⟨hcnt h1 (by rw [hop]; simp), .inr hop, by simp⟩

/-- A step to or from a position with the inner mutex. -/
theorem own_inv {rc : Bool} {s s' : St ι} (h : Inv rc s) {t : ι} {x' : Loc} (hl : s'.l = upd s.l t x') (hcnt : x'.cnt = (s.l t).cnt)
    (hlk : s'.locked = s.locked) (how : s'.owner = s.owner) (hown : s'.own = s.own ∨ s.own = none ∨ s.own = some t)
    (hcrit : isCrit x'.pc = true → s'.own = some t)
    (hc : s'.own.isSome.toNat + (isCrit (s.l t).pc).toNat = s.own.isSome.toNat + (isCrit x'.pc).toNat)
    (hlost : s.locked = 0 → x'.pc = .slp → x'.op = .lock → (s.l t).pc = .slp ∧ (s.l t).op = .lock)
    (hnw : s.locked = 0 → 0 < (numsTot s.l).z → 0 < (nums (s.l t)).n + (nums (s.l t)).w → 0 < (nums x').n + (nums x').w ∨ (nums x').z + (numsTot s.l).z ≤ (nums (s.l t)).z ∨
      ((nums (s.l t)).n + (nums (s.l t)).w < (numsTot s.l).n + (numsTot s.l).w))
    (hloc : LocOK rc x') : Inv rc s' := by
  refine h.upd1 t hl ?_ hcrit hown (fun hr => ⟨by rw [hcnt, how]; exact h.owner hr t, .inl how⟩) hloc
  intro R hR hn
  obtain ⟨a1, a2, a3, a4⟩ := hn
  rw [hR] at hnw
  simp only [Nums.add] at a1 a2 a3 hnw
  refine ⟨?_, ?_, ?_, by rw [hlk]; exact a4⟩
  · simp only [Nums.add]
    simp only [nums] at a1 ⊢
    omega
  · rw [hlk, ← a2]; simp only [Nums.add, nums, hcnt]
  · rw [hlk]
    simp only [Nums.add]
    intro e1 e2
    have hz' : (nums x').z ≤ (nums (s.l t)).z := by
      simp only [nums]
      by_cases hq : x'.pc = .slp ∧ x'.op = .lock
      · simp [hq, hlost e1 hq.1 hq.2]
      · simp [hq]
    have := a3 e1 (by omega)
    by_cases hq : 0 < (nums (s.l t)).n + (nums (s.l t)).w
    · rcases hnw e1 (by omega) hq with h1 | h1 | h1
      · omega
      · omega
      · omega
    · omega

theorem wake_inv {rc : Bool} {s : St ι} (h : Inv rc s) {u : ι} (hp : (s.l u).pc = .slp) : Inv rc (wake s u) := by
  have hl := h.loc u
  simp only [LocOK, hp] at hl
  refine own_inv h (x' := { s.l u with pc := .reN }) rfl rfl rfl rfl (.inl rfl) (fun e => by simp [isCrit] at e) (by simp [wake, St.goto, hp, isCrit]) (fun _ e => by simp at e) (fun _ _ e => .inl (by simp [nums, isTest])) hl

theorem step_inv {rc : Bool} {s s' : St ι} (h : Inv rc s) {t : ι} {a : Act ι} (he : step rc s t a = some s') : Inv rc s' := by
  have hl := h.loc t
  cases a with
  | start o =>
    simp only [step, Option.ite_none_right_eq_some, Option.some.injEq] at he
    obtain ⟨⟨h1, h2, h3⟩, rfl⟩ := he
    exact own_inv h (x' := { s.l t with pc := .acq, op := o }) rfl rfl rfl rfl (.inl rfl) (fun e => by simp [isCrit] at e) (by simp [h1, isCrit]) (fun _ e => by simp at e)
      (fun _ _ e => by simp [nums, h1, isNtf, isTest] at e) ⟨h2, h3⟩
  | spur =>
    simp only [step, Option.ite_none_right_eq_some, Option.some.injEq] at he
    obtain ⟨h1, rfl⟩ := he
    exact wake_inv h h1
  | timer =>
    simp only [step, Option.ite_none_right_eq_some, Option.some.injEq] at he
    obtain ⟨⟨h1, h2⟩, rfl⟩ := he
    simp only [LocOK, h1] at hl
    exact own_inv h (x' := { s.l t with pc := .reT }) rfl rfl rfl rfl (.inl rfl) (fun e => by simp [isCrit] at e) (by simp [St.goto, h1, isCrit]) (fun _ e => by simp at e)
      (fun _ _ e => by simp [nums, h1, isNtf, isTest] at e) ⟨hl.1, h2⟩
  | adv b c =>
    simp only [step, advStep] at he
    cases hp : (s.l t).pc with
    | idle => simp [hp] at he
    | slp => simp [hp] at he
    | acq =>
      simp only [hp, Option.ite_none_right_eq_some, Option.some.injEq] at he
      obtain ⟨h1, rfl⟩ := he
      simp only [LocOK, hp] at hl
      exact own_inv h (x' := { s.l t with pc := .crit }) rfl rfl rfl rfl (.inr (.inl h1)) (fun _ => rfl) (by simp [St.goto, hp, h1, isCrit]) (fun _ e => by simp at e)
        (fun _ _ e => by simp [nums, hp, isNtf, isTest] at e) hl
    | crit =>
      simp only [hp, Option.some.injEq] at he
      subst he; exact crit_inv h hp
    | loop fin =>
      simp only [hp, Option.some.injEq] at he
      subst he
      have hcr : isCrit (s.l t).pc = true := by rw [hp]; rfl
      have ho := h.crit t hcr
      simp only [LocOK, hp] at hl
      have hnu : (s.l t).op ≠ .unlock := by rcases hl.2.1 with e | e <;> rw [e] <;> simp
      have hnn : isNtf (s.l t).pc = false := by rw [hp]; rfl
      unfold loopStep
      split
      · exact take_inv h ho hcr (by assumption) hnu
      · rename_i h0
        split
        · rename_i hf
          have := hl.2.2 hf
          exact goto_inv h hcr rfl rfl hnn (fun _ => .inr h0) (by simp) ⟨by simp, by simp [this], by simp [hnu], by simp, by simp⟩
        · split
          · rename_i hop
            exact own_inv h (x' := { s.l t with pc := .slp }) rfl rfl rfl rfl (.inr (.inr ho)) (fun e => by simp [isCrit] at e) (by simp [St.goto, hp, ho, isCrit]) (fun e => absurd e h0)
              (fun e => absurd e h0) ⟨hl.1, .inl hop⟩
          · rename_i hop
            exact goto_inv h hcr rfl rfl hnn (fun _ => .inr h0) (by simp) ⟨hl.1, hl.2.1.resolve_left hop⟩
    | reN =>
      simp only [hp, Option.ite_none_right_eq_some, Option.some.injEq] at he
      obtain ⟨h1, rfl⟩ := he
      simp only [LocOK, hp] at hl
      exact own_inv h (x' := { s.l t with pc := .loop false }) rfl rfl rfl rfl (.inr (.inl h1)) (fun _ => rfl) (by simp [St.goto, hp, h1, isCrit]) (fun _ e => by simp at e)
        (fun _ _ e => .inl (by simp [nums, isTest])) ⟨hl.1, hl.2, by simp⟩
    | reT =>
      simp only [hp, Option.ite_none_right_eq_some, Option.some.injEq] at he
      obtain ⟨h1, rfl⟩ := he
      simp only [LocOK, hp] at hl
      exact own_inv h (x' := { s.l t with pc := .critT }) rfl rfl rfl rfl (.inr (.inl h1)) (fun _ => rfl) (by simp [St.goto, hp, h1, isCrit]) (fun _ e => by simp at e)
        (fun _ _ e => by simp [nums, hp, isNtf, isTest] at e) hl
    | critT =>
      simp only [hp, Option.some.injEq] at he
      subst he
      have hcr : isCrit (s.l t).pc = true := by rw [hp]; rfl
      have ho := h.crit t hcr
      simp only [LocOK, hp] at hl
      split
      · exact goto_inv h hcr rfl rfl (by rw [hp]; rfl) (by rw [hp]; simp [isTest]) (by simp) ⟨hl.1, .inr hl.2, fun _ => hl.2⟩
      · exact own_inv h (x' := { s.l t with pc := .slp }) rfl rfl rfl rfl (.inr (.inr ho)) (fun e => by simp [isCrit] at e) (by simp [St.goto, hp, ho, isCrit]) (fun _ _ e => by simp [hl.2] at e)
          (fun _ _ e => by simp [nums, hp, isNtf, isTest] at e) ⟨hl.1, .inr hl.2⟩
    | unl o nt =>
      simp only [hp, Option.some.injEq] at he
      subst he
      have hcr : isCrit (s.l t).pc = true := by rw [hp]; rfl
      have ho := h.crit t hcr
      simp only [LocOK, hp] at hl
      cases nt with
      | true =>
        have hq := hl.1 rfl
        exact own_inv h (x' := { s.l t with pc := .ntf o }) rfl rfl rfl rfl (.inr (.inr ho)) (fun e => by simp [isCrit] at e)
          (by simp [St.goto, hp, ho, isCrit]) (fun _ e => by simp at e) (fun _ _ e => .inl (by simp [nums, isNtf])) ⟨hl.2.2.1 hq, hq⟩
      | false =>
        simp only [Bool.false_eq_true, if_false]
        exact own_inv h (x' := { s.l t with pc := .idle, done := (s.l t).done ++ [((s.l t).op, o)] }) rfl rfl rfl rfl (.inr (.inr ho)) (fun e => by simp [isCrit] at e)
          (by simp [St.ret, hp, ho, isCrit]) (fun _ e => by simp at e) (fun _ _ e => by simp [nums, hp, isNtf, isTest] at e) trivial
    | ntf o =>
      simp only [hp] at he
      cases hn : notify s c with
      | none => rw [hn] at he; cases he
      | some s1 =>
        rw [hn] at he
        simp only [Option.map_some, Option.some.injEq] at he
        subst he
        have key : Inv rc s1 ∧ (s1.l t).pc = .ntf o ∧ ((numsTot s1.l).z = 0 ∨ ∃ u, u ≠ t ∧ (s1.l u).pc = .reN) := by
          cases c with
          | none =>
            simp only [notify, Option.ite_none_right_eq_some, Option.some.injEq] at hn
            obtain ⟨h1, rfl⟩ := hn
            exact ⟨h, hp, .inl (tot_eq_zero fun u => by simp [nums, h1 u])⟩
          | some u =>
            simp only [notify, Option.ite_none_right_eq_some, Option.some.injEq] at hn
            obtain ⟨h1, rfl⟩ := hn
            have hut : u ≠ t := by rintro rfl; rw [hp] at h1; cases h1
            refine ⟨wake_inv h h1, ?_, .inr ⟨u, hut, by simp [wake, St.goto]⟩⟩
            simp only [wake, St.goto]; rw [upd_ne _ _ (Ne.symm hut)]; exact hp
        obtain ⟨h', hp', hz⟩ := key
        refine own_inv h' (x' := { s1.l t with pc := .idle, done := (s1.l t).done ++ [((s1.l t).op, o)] }) rfl rfl rfl rfl (.inl rfl) (fun e => by simp [isCrit] at e)
          (by simp [St.ret, hp', isCrit]) (fun _ e => by simp at e) (fun _ q1 e => ?_) trivial
        rcases hz with hz | ⟨u, hut, hz⟩
        · omega
        · refine .inr (.inr ?_)
          have h3 := le_tot_two (fun x => (nums x).n + (nums x).w) s1.l hut
          rw [tot_add] at h3
          change _ ≤ (numsTot s1.l).n + (numsTot s1.l).w at h3
          simp [nums, hp', hz, isNtf, isTest] at h3 ⊢; omega

theorem Reach.inv {rc : Bool} {s : St ι} (h : Reach rc s) : Inv rc s := by
  induction h with
  | init => exact inv_init rc
  | step t a _ he ih => exact step_inv ih he

/-- The successful operations of the thread that lock the mutex, less those that unlock it. -/
def locks (d : List (Op × Out)) : Nat := d.countP fun e => decide (e.1 ≠ .unlock ∧ e.2 = .yes)
def unlocks (d : List (Op × Out)) : Nat := d.countP fun e => decide (e.1 = .unlock)

/-- An operation in progress that has taken effect. -/
def pendL (x : Loc) : Nat :=
  match x.pc with
  | .unl .yes _ => if x.op = .unlock then 0 else 1
  | _ => 0

def pendU (x : Loc) : Nat :=
  match x.pc with
  | .unl _ _ | .ntf _ => if x.op = .unlock then 1 else 0
  | _ => 0

def CntOK (x : Loc) : Prop := x.cnt + unlocks x.done + pendU x = locks x.done + pendL x

omit [DecidableEq ι] in
theorem locks_ret (d : List (Op × Out)) (o : Op) (r : Out) : locks (d ++ [(o, r)]) = locks d + if o ≠ .unlock ∧ r = .yes then 1 else 0 := by
  simp only [locks, List.countP_append, List.countP_singleton, decide_eq_true_eq]

omit [DecidableEq ι] in
theorem unlocks_ret (d : List (Op × Out)) (o : Op) (r : Out) : unlocks (d ++ [(o, r)]) = unlocks d + if o = .unlock then 1 else 0 := by
  simp only [unlocks, List.countP_append, List.countP_singleton, decide_eq_true_eq]

theorem step_cnt {rc : Bool} {s s' : St ι} (h : Inv rc s) (hc : ∀ u, CntOK (s.l u)) {t : ι} {a : Act ι} (he : step rc s t a = some s') : ∀ u, CntOK (s'.l u) := by
  have hl := h.loc t
  have hct := hc t
  have up : ∀ {l : ι → Loc} (x' : Loc), (∀ u, CntOK (l u)) → CntOK x' → ∀ u, CntOK (upd l t x' u) := by
    intro l x' h0 hx u
    by_cases hut : u = t
    · subst hut; rw [upd_self]; exact hx
    · rw [upd_ne _ _ hut]; exact h0 u
  have wk : ∀ v, (s.l v).pc = .slp → CntOK { s.l v with pc := .reN } := by
    intro v hv
    have := hc v
    simp only [CntOK, pendL, pendU, hv] at this ⊢; exact this
  cases a with
  | start o =>
    simp only [step, Option.ite_none_right_eq_some, Option.some.injEq] at he
    obtain ⟨⟨h1, h2, h3⟩, rfl⟩ := he
    refine up _ hc ?_
    simp only [CntOK, pendL, pendU, h1] at hct ⊢; exact hct
  | spur =>
    simp only [step, Option.ite_none_right_eq_some, Option.some.injEq] at he
    obtain ⟨h1, rfl⟩ := he
    exact up _ hc (wk t h1)
  | timer =>
    simp only [step, Option.ite_none_right_eq_some, Option.some.injEq] at he
    obtain ⟨⟨h1, h2⟩, rfl⟩ := he
    refine up _ hc ?_
    simp only [CntOK, pendL, pendU, h1] at hct ⊢; exact hct
  | adv b c =>
    simp only [step, advStep] at he
    cases hp : (s.l t).pc with
    | idle => simp [hp] at he
    | slp => simp [hp] at he
    | acq =>
      simp only [hp, Option.ite_none_right_eq_some, Option.some.injEq] at he
      obtain ⟨h1, rfl⟩ := he
      refine up _ hc ?_
      simp only [CntOK, pendL, pendU, hp] at hct ⊢; exact hct
    | reN =>
      simp only [hp, Option.ite_none_right_eq_some, Option.some.injEq] at he
      obtain ⟨h1, rfl⟩ := he
      refine up _ hc ?_
      simp only [CntOK, pendL, pendU, hp] at hct ⊢; exact hct
    | reT =>
      simp only [hp, Option.ite_none_right_eq_some, Option.some.injEq] at he
      obtain ⟨h1, rfl⟩ := he
      refine up _ hc ?_
      simp only [CntOK, pendL, pendU, hp] at hct ⊢; exact hct
    | critT =>
      simp only [hp, Option.some.injEq] at he
      subst he
      split <;> refine up _ hc ?_ <;> simp only [CntOK, pendL, pendU, hp] at hct ⊢ <;> exact hct
    | crit =>
      simp only [hp, Option.some.injEq] at he
      subst he
      have hle := h.cnt_le t
      simp only [LocOK, hp] at hl
      simp only [CntOK, pendL, pendU, hp] at hct
      have hz : s.locked = 0 → (s.l t).cnt = 0 := by intro e; rw [e] at hle; simp at hle; exact hle
      have hu := hl.1
      clear hl
      unfold critStep
      cases hop : (s.l t).op with
      | unlock =>
        have hpos := hu hop
        simp only
        (repeat' split) <;> simp only [St.goto, St.addCnt, upd_upd, upd_self] <;> refine up _ hc ?_ <;> simp only [CntOK, pendL, pendU, hop, if_true] <;> omega
      | tryLock =>
        simp only
        split
        · split <;> simp only [St.goto, St.addCnt, upd_upd, upd_self] <;> refine up _ hc ?_ <;> simp [CntOK, pendL, pendU, hop] <;> omega
        · split
          · simp only [St.goto]; refine up _ hc ?_; simp [CntOK, pendL, pendU, hop]; omega
          · have e0 := hz (by omega)
            cases rc <;> simp only [St.goto, St.addCnt, take, upd_upd, upd_self, if_true, Bool.false_eq_true, if_false] <;> refine up _ hc ?_ <;> simp [CntOK, pendL, pendU, hop] <;> omega
      | lock =>
        simp only
        split
        · split <;> simp only [St.goto, St.addCnt, upd_upd, upd_self] <;> refine up _ hc ?_ <;> simp [CntOK, pendL, pendU, hop] <;> omega
        · simp only [St.goto]; refine up _ hc ?_; simp [CntOK, pendL, pendU]; omega
      | «until» =>
        simp only
        split
        · split <;> simp only [St.goto, St.addCnt, upd_upd, upd_self] <;> refine up _ hc ?_ <;> simp [CntOK, pendL, pendU, hop] <;> omega
        · simp only [St.goto]; refine up _ hc ?_; simp [CntOK, pendL, pendU]; omega
    | loop fin =>
      simp only [hp, Option.some.injEq] at he
      subst he
      simp only [LocOK, hp] at hl
      simp only [CntOK, pendL, pendU, hp] at hct
      have hnu : (s.l t).op ≠ .unlock := by rcases hl.2.1 with e | e <;> rw [e] <;> simp
      have hc0 := hl.1
      unfold loopStep
      split
      · cases rc <;> simp only [St.goto, St.addCnt, take, upd_upd, upd_self, if_true, Bool.false_eq_true, if_false] <;> refine up _ hc ?_ <;>
          simp only [CntOK, pendL, pendU, if_neg hnu] <;> omega
      · split
        · simp only [St.goto]; refine up _ hc ?_; simp only [CntOK, pendL, pendU, if_neg hnu]; omega
        · split <;> simp only [St.goto] <;> refine up _ hc ?_ <;> simp only [CntOK, pendL, pendU] <;> omega
    | unl o nt =>
      simp only [hp, Option.some.injEq] at he
      subst he
      simp only [LocOK, hp] at hl
      simp only [CntOK, pendL, pendU, hp] at hct
      split
      · refine up _ hc ?_
        have hq := hl.1 (by assumption)
        simp only [CntOK, pendL, pendU, hq] at hct ⊢
        cases o <;> simp_all
      · refine up _ hc ?_
        simp only [CntOK, pendL, pendU, locks_ret, unlocks_ret]
        cases o <;> cases hop : (s.l t).op <;> simp_all <;> omega
    | ntf o =>
      simp only [hp] at he
      simp only [LocOK, hp] at hl
      cases hn : notify s c with
      | none => rw [hn] at he; cases he
      | some s1 =>
        rw [hn] at he
        simp only [Option.map_some, Option.some.injEq] at he
        subst he
        have key : (∀ u, CntOK (s1.l u)) ∧ s1.l t = s.l t := by
          cases c with
          | none =>
            simp only [notify, Option.ite_none_right_eq_some, Option.some.injEq] at hn
            obtain ⟨h1, rfl⟩ := hn
            exact ⟨hc, rfl⟩
          | some u =>
            simp only [notify, Option.ite_none_right_eq_some, Option.some.injEq] at hn
            obtain ⟨h1, rfl⟩ := hn
            have hut : u ≠ t := by rintro rfl; rw [hp] at h1; cases h1
            refine ⟨fun v => ?_, by simp only [wake, St.goto]; rw [upd_ne _ _ (Ne.symm hut)]⟩
            simp only [wake, St.goto]
            by_cases hv : v = u
            · subst hv; rw [upd_self]; exact wk v h1
            · rw [upd_ne _ _ hv]; exact hc v
        refine up _ key.1 ?_
        rw [key.2]
        simp only [CntOK, pendL, pendU, hp, locks_ret, unlocks_ret] at hct ⊢
        simp_all; omega

theorem Reach.cnt {rc : Bool} {s : St ι} (h : Reach rc s) : ∀ u, CntOK (s.l u) := by
  induction h with
  | init => intro u; rfl
  | step t a hr he ih => exact step_cnt hr.inv ih he

/-- How often the thread owns the mutex after its completed operations. -/
def owns (x : Loc) : Nat := locks x.done - unlocks x.done

/-- Mutual exclusion: of all threads that are between two operations, only one owns the mutex; `timed_mutex` at most once, `recursive_timed_mutex` at most `UINT_MAX` times. -/
theorem C48_timed_exclusive {rc : Bool} {s : St ι} (h : Reach rc s) {u v : ι} (hu : (s.l u).pc = .idle) (hv : (s.l v).pc = .idle) (h1 : 0 < owns (s.l u)) (h2 : 0 < owns (s.l v)) :
    u = v ∧ owns (s.l u) ≤ (if rc then uintMax else 1) ∧ unlocks (s.l u).done ≤ locks (s.l u).done := by
  have hi := h.inv
  have cu := h.cnt u
  have cv := h.cnt v
  simp only [CntOK, pendL, pendU, hu] at cu
  simp only [CntOK, pendL, pendU, hv] at cv
  have e1 : owns (s.l u) = (s.l u).cnt := by unfold owns; omega
  have e2 : owns (s.l v) = (s.l v).cnt := by unfold owns; omega
  rw [e1] at h1; rw [e2] at h2
  have hle := hi.cnt_le u
  have hm := hi.num.max
  refine ⟨?_, ?_, by omega⟩
  · by_contra hne
    cases rc with
    | true =>
      have a := (hi.owner rfl u).1 h1
      have b := (hi.owner rfl v).1 h2
      rw [a] at b; exact hne (Option.some.inj b)
    | false =>
      have h3 := le_tot_two (fun x => (nums x).k) s.l hne
      change _ ≤ (numsTot s.l).k at h3
      rw [hi.num.k] at h3
      simp only [nums, Bool.false_eq_true, if_false] at h3
      split at h3 <;> omega
  · rw [e1]
    cases rc with
    | true => simp only [if_true] at hle ⊢; omega
    | false =>
      simp only [Bool.false_eq_true, if_false] at hle ⊢
      split at hle <;> omega

theorem other_owner {rc : Bool} {s : St ι} (h : Inv rc s) {t : ι} (h0 : s.locked ≠ 0) (ht : (s.l t).cnt = 0) : ∃ u, u ≠ t ∧ 0 < (s.l u).cnt := by
  have h1 : 0 < (numsTot s.l).k := by
    rw [h.num.k]; split
    · omega
    · simp [h0]
  obtain ⟨u, hu⟩ := tot_pos h1
  refine ⟨u, ?_, hu⟩
  rintro rfl
  simp [nums, ht] at hu

/-- An operation that does not get the mutex had a reason: at the moment of the test another thread owned it, or the thread owned it `UINT_MAX` times already. `lock` throws only then. -/
theorem C48_timed_refused {rc : Bool} {s s' : St ι} (h : Reach rc s) {t : ι} {b : Bool} {c : Option ι} {o : Out} {nt : Bool} (he : advStep rc s t b c = some s') (hn : (s.l t).pc ≠ .unl o nt)
    (hp : (s'.l t).pc = .unl o nt) (ho : o ≠ .yes) :
    (o = .no ∧ (s.l t).op ≠ .lock ∧ ∃ u, u ≠ t ∧ 0 < (s.l u).cnt) ∨ (rc = true ∧ (s.l t).cnt = uintMax ∧ (o = .again ↔ (s.l t).op = .lock)) := by
  have hi := h.inv
  have hl := hi.loc t
  have hmax := hi.num.max
  have full : rc = true → s.owner = some t → ¬ s.locked < uintMax → (s.l t).cnt = uintMax := by
    intro hr hw hlt
    have hk := hi.num.k
    rw [hr] at hk
    simp only [if_true] at hk
    obtain ⟨r, e1, e2⟩ := split_tot (fun x : Loc => x.cnt) s.l t
    have e3 : (numsTot s.l).k = tot (fun x : Loc => x.cnt) s.l := rfl
    have hr0 : r = 0 := by
      by_contra hh
      have h2 : 0 < tot (fun x => x.cnt) (upd s.l t { s.l t with cnt := 0 }) := by rw [e2]; simp; omega
      obtain ⟨u, hu⟩ := tot_pos h2
      by_cases hut : u = t
      · subst hut; simp at hu
      · rw [upd_ne _ _ hut] at hu
        have h3 := (hi.owner hr u).1 hu
        rw [hw] at h3; exact hut (Option.some.inj h3).symm
    omega
  unfold advStep at he
  cases hpc : (s.l t).pc with
  | crit =>
    simp only [hpc, Option.some.injEq] at he
    subst he
    simp only [LocOK, hpc] at hl
    have hcnt : ¬(rc = true ∧ s.owner = some t) → (s.l t).op ≠ .unlock → (s.l t).cnt = 0 := by
      intro q1 q2
      cases hr : rc with
      | false => exact hl.2 hr q2
      | true =>
        by_contra hh
        exact q1 ⟨hr, (hi.owner hr t).1 (Nat.pos_of_ne_zero hh)⟩
    unfold critStep at hp
    cases hop : (s.l t).op with
    | unlock =>
      simp only [hop] at hp
      (repeat' split at hp) <;> simp [St.goto, St.addCnt] at hp <;> exact absurd hp.1.symm ho
    | tryLock =>
      simp only [hop] at hp
      split at hp
      · rename_i h1
        split at hp
        · simp [St.goto, St.addCnt] at hp; exact absurd hp.1.symm ho
        · simp [St.goto] at hp
          exact .inr ⟨h1.1, full h1.1 h1.2 (by assumption), by simp [← hp.1]⟩
      · rename_i h1
        split at hp
        · simp [St.goto] at hp
          exact .inl ⟨hp.1.symm, by simp, other_owner hi (by assumption) (hcnt h1 (by simp [hop]))⟩
        · simp [St.goto, St.addCnt] at hp; exact absurd hp.1.symm ho
    | lock =>
      simp only [hop] at hp
      split at hp
      · rename_i h1
        split at hp
        · simp [St.goto, St.addCnt] at hp; exact absurd hp.1.symm ho
        · simp [St.goto] at hp
          exact .inr ⟨h1.1, full h1.1 h1.2 (by assumption), by simp [← hp.1]⟩
      · simp [St.goto] at hp
    | «until» =>
      simp only [hop] at hp
      split at hp
      · rename_i h1
        split at hp
        · simp [St.goto, St.addCnt] at hp; exact absurd hp.1.symm ho
        · simp [St.goto] at hp
          exact .inr ⟨h1.1, full h1.1 h1.2 (by assumption), by simp [← hp.1]⟩
      · simp [St.goto] at hp
  | loop fin =>
    simp only [hpc, Option.some.injEq] at he
    subst he
    simp only [LocOK, hpc] at hl
    unfold loopStep at hp
    split at hp
    · simp [St.goto] at hp; exact absurd hp.1.symm ho
    · rename_i h0
      split at hp
      · rename_i hf
        simp [St.goto] at hp
        exact .inl ⟨hp.1.symm, by rw [hl.2.2 hf]; simp, other_owner hi h0 hl.1⟩
      · split at hp <;> simp [St.goto] at hp
  | idle => simp [hpc] at he
  | slp => simp [hpc] at he
  | acq =>
    simp only [hpc, Option.ite_none_right_eq_some, Option.some.injEq] at he
    obtain ⟨_, rfl⟩ := he
    simp [St.goto] at hp
  | reN =>
    simp only [hpc, Option.ite_none_right_eq_some, Option.some.injEq] at he
    obtain ⟨_, rfl⟩ := he
    simp [St.goto] at hp
  | reT =>
    simp only [hpc, Option.ite_none_right_eq_some, Option.some.injEq] at he
    obtain ⟨_, rfl⟩ := he
    simp [St.goto] at hp
  | critT =>
    simp only [hpc, Option.some.injEq] at he
    subst he
    split at hp <;> simp [St.goto] at hp
  | unl o' nt' =>
    simp only [hpc, Option.some.injEq] at he
    subst he
    split at hp <;> simp [St.goto, St.ret] at hp
  | ntf o' =>
    simp only [hpc] at he
    cases hn : notify s c with
    | none => rw [hn] at he; cases he
    | some s1 =>
      rw [hn] at he
      simp only [Option.map_some, Option.some.injEq] at he
      subst he
      simp [St.ret] at hp

/-- No wake-up is lost: when no thread can go on (and no timed wait is left, whose timer would end it), a thread in the middle of an operation is asleep in `lock`, and another thread owns the mutex. -/
theorem C48_timed_progress {rc : Bool} {s : St ι} (h : Reach rc s) (hs : ∀ t b c, advStep rc s t b c = none) (ht : ∀ t, step rc s t .timer = none) (t : ι) :
    (s.l t).pc = .idle ∨ ((s.l t).pc = .slp ∧ (s.l t).op = .lock ∧ ∃ u, u ≠ t ∧ 0 < (s.l u).cnt) := by
  have hi := h.inv
  have hnc : ∀ u, isCrit (s.l u).pc = false ∧ (∀ o, (s.l u).pc ≠ .ntf o) := by
    intro u
    have h1 := hs u false none
    constructor
    · cases hp : (s.l u).pc <;> simp [advStep, hp] at h1 <;> rfl
    · intro o hp
      by_cases hz : ∃ v, (s.l v).pc = .slp
      · obtain ⟨v, hv⟩ := hz
        have h2 := hs u false (some v)
        simp [advStep, hp, notify, hv] at h2
      · have hz' : ∀ v, (s.l v).pc ≠ .slp := fun v hv => hz ⟨v, hv⟩
        simp [advStep, hp, notify] at h1
        obtain ⟨v, hv⟩ := h1
        exact hz' v hv
  have hown : s.own = none := by
    have h1 := hi.num.own
    have h2 : (numsTot s.l).c = 0 := tot_eq_zero fun u => by simp [nums, (hnc u).1]
    rw [h2] at h1
    cases ho : s.own with
    | none => rfl
    | some w => rw [ho] at h1; simp at h1
  have hpc : ∀ u, (s.l u).pc = .idle ∨ ((s.l u).pc = .slp ∧ (s.l u).op = .lock) := by
    intro u
    have h1 := hs u false none
    have h2 := hnc u
    have h3 := ht u
    have h4 := hi.loc u
    cases hp : (s.l u).pc <;> simp [advStep, hp, hown, isCrit, step, LocOK] at h1 h2 h3 h4 ⊢
    exact h4.2.resolve_right h3
  rcases hpc t with e | e
  · exact .inl e
  · refine .inr ⟨e.1, e.2, ?_⟩
    have hl := hi.loc t
    simp only [LocOK, e.1] at hl
    refine other_owner hi ?_ hl.1
    intro h0
    have hz : 0 < (numsTot s.l).z := by
      have := le_tot (fun x => (nums x).z) s.l t
      change _ ≤ (numsTot s.l).z at this
      simp [nums, e] at this; omega
    have h5 := hi.num.lost h0 hz
    have h6 : (numsTot s.l).n = 0 := tot_eq_zero fun u => by rcases hpc u with e | e <;> simp [nums, e, isNtf]
    have h7 : (numsTot s.l).w = 0 := tot_eq_zero fun u => by rcases hpc u with e | e <;> simp [nums, e, isTest]
    omega

end STL.Locks.Timed
