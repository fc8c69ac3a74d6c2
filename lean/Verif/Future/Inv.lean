import Verif.Future.Model

/-!
# `future`: the invariant
-/

namespace STL.Future
open STL STL.Conc

/-- An operation is in progress. -/
def active : PC → Bool
  | .idle | .x1 | .x2 | .x3 | .exited => false
  | _ => true

/-- In the destructor of the state. -/
def isDel : PC → Bool
  | .del _ | .del2 _ | .del3 _ => true
  | _ => false

/-- The thread has the lock because of the operation in progress. -/
def isCrit : PC → Bool
  | .sCrit _ | .sRdy _ | .sNtf _ | .sUnl _ _ | .wCrit | .wDef | .wLoop _ | .wUnl _ => true
  | _ => false

def isRdy : PC → Bool
  | .sRdy _ => true
  | _ => false

def isNtf : PC → Bool
  | .sNtf _ | .x2 => true
  | _ => false

def isSlp : PC → Bool
  | .wSleep => true
  | _ => false

/-- The operation has taken over a reference. -/
def ownsRef : Op → Bool
  | .get | .drop | .dropFut | .dropSh => true
  | _ => false

def isUse : Op → Bool
  | .set _ _ | .call _ => true
  | _ => false

def isPre : PC → Bool
  | .wDef | .run | .sLock _ | .sCrit _ => true
  | _ => false

def isPreRun : PC → Bool
  | .wDef | .run => true
  | _ => false

def isDropPre : PC → Bool
  | .chk | .sLock _ | .sCrit _ => true
  | _ => false

def isGetPre : PC → Bool
  | .wLock | .wCrit => true
  | _ => false

def isGet : Op → Bool
  | .get => true
  | _ => false

/-- What is counted. -/
structure Nums where
  h : Nat
  d : Nat
  c : Nat
  r : Nat
  n : Nat
  z : Nat
  p : Nat
  q : Nat
  u : Nat
  dr : Nat
  dp : Nat
  uf : Nat
  sh : Nat

def nums (x : Loc) : Nums where
  h := x.fut + x.sh + (ownsRef x.op && active x.pc && !isDel x.pc).toNat
  d := (isDel x.pc).toNat
  c := (isCrit x.pc).toNat
  r := (isRdy x.pc).toNat
  n := (isNtf x.pc).toNat
  z := (isSlp x.pc).toNat
  p := (x.op.waits && isPre x.pc).toNat
  q := (x.op.waits && isPreRun x.pc).toNat
  u := (isUse x.op && active x.pc).toNat
  dr := (x.op.isDrop && active x.pc).toNat
  dp := (x.op.isDrop && isDropPre x.pc).toNat
  uf := x.fut + (isGet x.op && isGetPre x.pc).toNat
  sh := x.sh

def Nums.add (a b : Nums) : Nums :=
  ⟨a.h + b.h, a.d + b.d, a.c + b.c, a.r + b.r, a.n + b.n, a.z + b.z, a.p + b.p, a.q + b.q, a.u + b.u, a.dr + b.dr, a.dp + b.dp, a.uf + b.uf, a.sh + b.sh⟩

structure NumOK {ι : Type} (k : Kind) (s : St ι) (N : Nums) : Prop where
  refs : s.refs = s.prov.toNat + N.h
  freed : s.freed + N.d = if s.refs = 0 then 1 else 0
  own : s.own.isSome.toNat = N.c + s.reg.isSome.toNat
  rdy : s.ready = true → s.stored.isSome = true
  reg : s.reg.isSome = true → s.stored.isSome = true ∧ s.prov = true
  str : s.stored.isSome = true → s.ready = false → s.reg.isSome = false → 0 < N.r
  slp : s.ready = true → 0 < N.z → 0 < N.n
  dfr : k = .dfr → N.p + s.stored.isSome.toNat = s.running.toNat ∧ s.runs + N.q = s.running.toNat ∧ s.prov = false ∧ N.dr = 0
  ndf : k ≠ .dfr → N.p = 0 ∧ s.runs = 0
  prv : s.prov = true → N.dr = 0
  npr : s.prov = false → N.u = 0
  dr : N.dr ≤ 1
  brk : k ≠ .dfr → s.prov = false → s.stored.isSome = false → 0 < N.dp
  uf : N.uf ≤ 1
  ret : s.retrieved = true → N.uf = 0
  shf : 0 < N.sh → N.uf = 0
  frd : s.frd = false → N.uf = 0 ∧ N.sh = 0 ∧ s.retrieved = false

/-- A result has been stored. -/
def isOkv : Out → Bool
  | .okv _ => true
  | _ => false

/-- The thread has successfully called a function that makes the state ready at thread exit. -/
def regd (x : Loc) : Bool := x.done.any fun e => e.1.atExit && isOkv e.2

/-- What an operation may give; `rg`: the calling thread has called a function that makes the state ready at thread exit. -/
def OutOK (k : Kind) (stored : Option Res) (ready rg : Bool) : Op → Out → Prop
  | .set r _, .okv r' => r' = r ∧ stored = some r
  | .call _, .okv r => stored = some r ∧ r ≠ .broken
  | .set _ _, .satisfied | .call _, .satisfied => stored.isSome = true
  | .drop, .okv r => r = .broken ∧ stored = some .broken
  | .drop, .unit => stored.isSome = true
  | .get, .res r | .sget, .res r => stored = some r ∧ ready = true
  | .wait _, .ready | .waitFor _, .ready => ready = true
  | .waitFor _, .timeout => True
  | .waitFor _, .deferred => k = .dfr
  | .dropFut, .unit | .dropSh, .unit => True
  | .set _ _, .deadlock | .call _, .deadlock | .get, .deadlock | .sget, .deadlock | .wait _, .deadlock | .waitFor _, .deadlock => rg = true
  | _, _ => False

/-- The result that the operation is about to store. -/
def SetOK (k : Kind) (stored : Option Res) (r : Res) : Op → Prop
  | .set r' _ => r' = r ∧ r ≠ .broken
  | .call _ => r ≠ .broken
  | .drop => r = .broken ∧ k ≠ .dfr ∧ (k = .prom → stored = none)
  | .dropFut | .dropSh => False
  | _ => k = .dfr ∧ r ≠ .broken

/-- The thread has what the operation needs. -/
def holdsH (x : Loc) : Prop :=
  match x.op with
  | .sget | .wait true | .waitFor true => 0 < x.sh
  | .wait false | .waitFor false => 0 < x.fut
  | _ => True

def LocOK {ι : Type} (k : Kind) (s : St ι) (u : ι) (x : Loc) : Prop :=
  match x.pc with
  | .idle => True
  | .exited => s.reg ≠ some u
  | .x1 => s.reg = some u ∧ s.xm = some u
  | .x2 | .x3 => s.reg = some u ∧ s.xm = some u ∧ s.ready = true
  | .chk => (x.op = .drop ∧ k = .prom ∧ (s.stored = none ∨ s.ready = true)) ∨ ∃ ex, x.op = .call ex
  | .chk2 => ∃ ex, x.op = .call ex
  | .run => (∃ ex, x.op = .call ex) ∨ (x.op.waits = true ∧ k = .dfr)
  | .sLock r | .sCrit r => SetOK k s.stored r x.op
  | .sRdy r => SetOK k none r x.op ∧ s.stored = some r ∧ s.ready = false ∧ s.reg = none
  | .sNtf r => SetOK k none r x.op ∧ s.stored = some r ∧ s.ready = true
  | .sUnl _ o => if x.op.waits then k = .dfr ∧ s.ready = true else (isUse x.op || x.op.isDrop) = true ∧ OutOK k s.stored s.ready (regd x) x.op o
  | .wLock | .wCrit | .wSleep => x.op.waits = true
  | .wDef => x.op.waits = true ∧ k = .dfr
  | .wRelock b | .wLoop b => x.op.waits = true ∧ (b = true → ∃ c, x.op = .waitFor c)
  | .wUnl o => x.op.waits = true ∧ OutOK k s.stored s.ready (regd x) x.op o
  | .rel o | .del o | .del3 o => ownsRef x.op = true ∧ OutOK k s.stored s.ready (regd x) x.op o
  | .del2 _ => False

/-- The successful provider operations of a thread. -/
def okOp : Op × Out → Option Op
  | (o, .okv _) => some o
  | _ => none

/-- The operation in progress has stored a result. -/
def pend (x : Loc) : List Op :=
  match x.pc with
  | .sRdy _ | .sNtf _ => if x.op.waits then [] else [x.op]
  | .sUnl _ o => if x.op.waits then [] else if isOkv o then [x.op] else []
  | .rel o | .del o | .del2 o | .del3 o => if isOkv o then [x.op] else []
  | _ => []

variable {ι : Type} [Fintype ι] [DecidableEq ι]

def logOf (u : ι) (lg : List (ι × Op)) : List Op := (lg.filter fun e => e.1 = u).map (·.2)

def numsTot (l : ι → Loc) : Nums :=
  ⟨tot (fun x => (nums x).h) l, tot (fun x => (nums x).d) l, tot (fun x => (nums x).c) l, tot (fun x => (nums x).r) l, tot (fun x => (nums x).n) l,
    tot (fun x => (nums x).z) l, tot (fun x => (nums x).p) l, tot (fun x => (nums x).q) l, tot (fun x => (nums x).u) l, tot (fun x => (nums x).dr) l,
    tot (fun x => (nums x).dp) l, tot (fun x => (nums x).uf) l, tot (fun x => (nums x).sh) l⟩

theorem split_nums (l : ι → Loc) (t : ι) : ∃ R : Nums, numsTot l = R.add (nums (l t)) ∧ ∀ x, numsTot (upd l t x) = R.add (nums x) := by
  obtain ⟨r1, a1, b1⟩ := split_tot (fun x => (nums x).h) l t
  obtain ⟨r2, a2, b2⟩ := split_tot (fun x => (nums x).d) l t
  obtain ⟨r3, a3, b3⟩ := split_tot (fun x => (nums x).c) l t
  obtain ⟨r4, a4, b4⟩ := split_tot (fun x => (nums x).r) l t
  obtain ⟨r5, a5, b5⟩ := split_tot (fun x => (nums x).n) l t
  obtain ⟨r6, a6, b6⟩ := split_tot (fun x => (nums x).z) l t
  obtain ⟨r7, a7, b7⟩ := split_tot (fun x => (nums x).p) l t
  obtain ⟨r8, a8, b8⟩ := split_tot (fun x => (nums x).q) l t
  obtain ⟨r9, a9, b9⟩ := split_tot (fun x => (nums x).u) l t
  obtain ⟨r10, a10, b10⟩ := split_tot (fun x => (nums x).dr) l t
  obtain ⟨r11, a11, b11⟩ := split_tot (fun x => (nums x).dp) l t
  obtain ⟨r12, a12, b12⟩ := split_tot (fun x => (nums x).uf) l t
  obtain ⟨r13, a13, b13⟩ := split_tot (fun x => (nums x).sh) l t
  refine ⟨⟨r1, r2, r3, r4, r5, r6, r7, r8, r9, r10, r11, r12, r13⟩, ?_, fun x => ?_⟩
  · simp only [numsTot, Nums.add, a1, a2, a3, a4, a5, a6, a7, a8, a9, a10, a11, a12, a13]
  · simp only [numsTot, Nums.add, b1, b2, b3, b4, b5, b6, b7, b8, b9, b10, b11, b12, b13]

structure Inv (k : Kind) (s : St ι) : Prop where
  num : NumOK k s (numsTot s.l)
  bad : s.bad = false
  term : s.term = false
  crit : ∀ u, isCrit (s.l u).pc = true → s.own = some u
  reg : ∀ u, s.reg = some u → s.own = some u ∧ regd (s.l u) = true
  xm : ∀ u, s.xm = some u → (s.l u).pc = .x1 ∨ (s.l u).pc = .x2 ∨ (s.l u).pc = .x3
  hold : ∀ u, active (s.l u).pc = true → holdsH (s.l u)
  loc : ∀ u, LocOK k s u (s.l u)
  done : ∀ u, ∀ e ∈ (s.l u).done, OutOK k s.stored s.ready (regd (s.l u)) e.1 e.2
  log : ∀ u, logOf u s.log = (s.l u).done.filterMap okOp ++ pend (s.l u)
  len : k ≠ .dfr → s.log.length = s.stored.isSome.toNat

theorem OutOK.mono {k : Kind} {a b : Option Res} {x y g g' : Bool} {o : Op} {r : Out} (h : OutOK k a x g o r) (ha : ∀ r, a = some r → b = some r) (hx : x = true → y = true)
    (hg : g = true → g' = true) : OutOK k b y g' o r := by
  have hs : a.isSome = true → b.isSome = true := by
    intro h1; obtain ⟨r, rfl⟩ := Option.isSome_iff_exists.1 h1; simp [ha r rfl]
  cases o <;> cases r <;> simp only [OutOK] at h ⊢ <;> first | exact h | exact hs h | exact hx h | exact hg h | exact ⟨ha _ h.1, hx h.2⟩ | exact ⟨h.1, ha _ h.2⟩ | exact ⟨ha _ h.1, h.2⟩

/-- One step of thread `t`. -/
theorem Inv.upd1' {k : Kind} {s s' : St ι} (h : Inv k s) (t : ι) {x' : Loc} (hl : s'.l = upd s.l t x')
    (hN : ∀ R : Nums, numsTot s.l = R.add (nums (s.l t)) → NumOK k s' (R.add (nums x')))
    (hbad : s'.bad = false) (hterm : s'.term = false)
    (hcrit : isCrit x'.pc = true → s'.own = some t) (hown : s'.own = s.own ∨ s.own = none ∨ s.own = some t)
    (hreg : s'.reg = s.reg ∨ s'.reg = none ∨ s'.reg = some t) (hregt : s'.reg = some t → s'.own = some t ∧ regd x' = true)
    (hxm : s'.xm = s.xm ∨ s'.xm = none ∨ s'.xm = some t) (hxmt : s'.xm = some t → x'.pc = .x1 ∨ x'.pc = .x2 ∨ x'.pc = .x3)
    (hhold : active x'.pc = true → holdsH x')
    (hloc : LocOK k s' t x') (hoth : ∀ u, u ≠ t → LocOK k s' u (s.l u))
    (hst : ∀ r, s.stored = some r → s'.stored = some r) (hrd : s.ready = true → s'.ready = true)
    (hdone : ∀ e ∈ x'.done, OutOK k s'.stored s'.ready (regd x') e.1 e.2)
    (hlog : ∀ u, logOf u s'.log = if u = t then x'.done.filterMap okOp ++ pend x' else logOf u s.log)
    (hlen : k ≠ .dfr → s'.log.length = s'.stored.isSome.toNat) : Inv k s' := by
  obtain ⟨R, h1, h2⟩ := split_nums s.l t
  refine ⟨?_, hbad, hterm, fun u hu => ?_, fun u hu => ?_, fun u hu => ?_, fun u hu => ?_, fun u => ?_, fun u e he => ?_, fun u => ?_, hlen⟩
  · rw [hl, h2]; exact hN R h1
  · rw [hl] at hu
    by_cases hut : u = t
    · subst hut; rw [upd_self] at hu; exact hcrit hu
    · rw [upd_ne _ _ hut] at hu
      have h3 := h.crit u hu
      rcases hown with e | e | e
      · rw [e, h3]
      · rw [h3] at e; cases e
      · rw [h3] at e; exact absurd (Option.some.inj e) hut
  · rw [hl]
    by_cases hut : u = t
    · subst hut; rw [upd_self]; exact hregt hu
    · rw [upd_ne _ _ hut]
      rcases hreg with e | e | e
      · rw [e] at hu
        have h3 := h.reg u hu
        refine ⟨?_, h3.2⟩
        rcases hown with e | e | e
        · rw [e]; exact h3.1
        · rw [h3.1] at e; cases e
        · rw [h3.1] at e; exact absurd (Option.some.inj e) hut
      · rw [hu] at e; cases e
      · rw [hu] at e; exact absurd (Option.some.inj e) hut
  · rw [hl]
    by_cases hut : u = t
    · subst hut; rw [upd_self]; exact hxmt hu
    · rw [upd_ne _ _ hut]
      rcases hxm with e | e | e
      · rw [e] at hu; exact h.xm u hu
      · rw [hu] at e; cases e
      · rw [hu] at e; exact absurd (Option.some.inj e) hut
  · rw [hl] at hu ⊢
    by_cases hut : u = t
    · subst hut; rw [upd_self] at hu ⊢; exact hhold hu
    · rw [upd_ne _ _ hut] at hu ⊢; exact h.hold u hu
  · rw [hl]
    by_cases hut : u = t
    · subst hut; rw [upd_self]; exact hloc
    · rw [upd_ne _ _ hut]; exact hoth u hut
  · rw [hl] at he ⊢
    by_cases hut : u = t
    · subst hut; rw [upd_self] at he ⊢; exact hdone e he
    · rw [upd_ne _ _ hut] at he ⊢; exact (h.done u e he).mono hst hrd id
  · rw [hl, hlog]
    by_cases hut : u = t
    · subst hut; rw [if_pos rfl, upd_self]
    · rw [if_neg hut, upd_ne _ _ hut]; exact h.log u

/-- One step of thread `t`. -/
theorem Inv.upd1 {k : Kind} {s s' : St ι} (h : Inv k s) (t : ι) {x' : Loc} (hl : s'.l = upd s.l t x')
    (hN : ∀ R : Nums, R.z ≤ (numsTot s.l).z → NumOK k s (R.add (nums (s.l t))) → NumOK k s' (R.add (nums x')))
    (hbad : s'.bad = false) (hterm : s'.term = false)
    (hcrit : isCrit x'.pc = true → s'.own = some t) (hown : s'.own = s.own ∨ s.own = none ∨ s.own = some t)
    (hreg : s'.reg = s.reg ∨ s'.reg = none ∨ s'.reg = some t) (hregt : s'.reg = some t → s'.own = some t ∧ regd x' = true)
    (hxm : s'.xm = s.xm ∨ s'.xm = none ∨ s'.xm = some t) (hxmt : s'.xm = some t → x'.pc = .x1 ∨ x'.pc = .x2 ∨ x'.pc = .x3)
    (hhold : active x'.pc = true → holdsH x')
    (hloc : LocOK k s' t x') (hoth : ∀ u, u ≠ t → LocOK k s' u (s.l u))
    (hst : ∀ r, s.stored = some r → s'.stored = some r) (hrd : s.ready = true → s'.ready = true)
    (hdone : ∀ e ∈ x'.done, OutOK k s'.stored s'.ready (regd x') e.1 e.2)
    (hlog : ∀ u, logOf u s'.log = if u = t then x'.done.filterMap okOp ++ pend x' else logOf u s.log)
    (hlen : k ≠ .dfr → s'.log.length = s'.stored.isSome.toNat) : Inv k s' :=
  h.upd1' t hl (fun R e => hN R (by rw [e]; simp [Nums.add]) (by rw [← e]; exact h.num)) hbad hterm hcrit hown hreg hregt hxm hxmt hhold hloc hoth hst hrd hdone hlog hlen

omit [Fintype ι] [DecidableEq ι] in
theorem loc_congr {k : Kind} {s s' : St ι} {u : ι} {x : Loc} (h : LocOK k s u x) (h1 : s'.stored = s.stored) (h2 : s'.ready = s.ready) (h3 : s'.reg = s.reg) (h4 : s'.xm = s.xm) :
    LocOK k s' u x := by
  unfold LocOK at *
  rw [h1, h2, h3, h4]; exact h

/-- A step that changes nothing that is used in `LocOK`. -/
theorem Inv.updL' {k : Kind} {s s' : St ι} (h : Inv k s) (t : ι) {x' : Loc} (hl : s'.l = upd s.l t x')
    (hN : ∀ R : Nums, numsTot s.l = R.add (nums (s.l t)) → NumOK k s' (R.add (nums x')))
    (hbad : s'.bad = false) (hterm : s'.term = s.term)
    (hcrit : isCrit x'.pc = true → s'.own = some t) (hown : s'.own = s.own ∨ s.own = none ∨ s.own = some t)
    (h1 : s'.stored = s.stored) (h2 : s'.ready = s.ready) (h3 : s'.reg = s.reg) (h4 : s'.xm = s.xm) (h5 : s'.log = s.log)
    (hregt : s.reg = some t → s'.own = some t ∧ regd x' = true)
    (hxmt : s.xm ≠ some t)
    (hhold : active x'.pc = true → holdsH x')
    (hloc : LocOK k s t x')
    (hdone : ∀ e ∈ x'.done, OutOK k s.stored s.ready (regd x') e.1 e.2)
    (hlog : (s.l t).done.filterMap okOp ++ pend (s.l t) = x'.done.filterMap okOp ++ pend x') : Inv k s' := by
  refine h.upd1' t hl hN hbad (by rw [hterm, h.term]) hcrit hown (.inl h3) (by rw [h3]; exact hregt) (.inl h4) (by rw [h4]; exact fun e => absurd e hxmt) hhold (loc_congr hloc h1 h2 h3 h4)
    (fun u _ => loc_congr (h.loc u) h1 h2 h3 h4) (by rw [h1]; exact fun _ h => h) (by rw [h2]; exact fun h => h) (by rw [h1, h2]; exact hdone) (fun u => ?_) (fun hk => by rw [h5, h1]; exact h.len hk)
  rw [h5]
  split
  · rename_i hu; subst hu; rw [← hlog]; exact h.log u
  · rfl

/-- A step that changes nothing that is used in `LocOK`. -/
theorem Inv.updL {k : Kind} {s s' : St ι} (h : Inv k s) (t : ι) {x' : Loc} (hl : s'.l = upd s.l t x')
    (hN : ∀ R : Nums, R.z ≤ (numsTot s.l).z → NumOK k s (R.add (nums (s.l t))) → NumOK k s' (R.add (nums x')))
    (hbad : s'.bad = false) (hterm : s'.term = s.term)
    (hcrit : isCrit x'.pc = true → s'.own = some t) (hown : s'.own = s.own ∨ s.own = none ∨ s.own = some t)
    (h1 : s'.stored = s.stored) (h2 : s'.ready = s.ready) (h3 : s'.reg = s.reg) (h4 : s'.xm = s.xm) (h5 : s'.log = s.log)
    (hregt : s.reg = some t → s'.own = some t ∧ regd x' = true)
    (hxmt : s.xm ≠ some t)
    (hhold : active x'.pc = true → holdsH x')
    (hloc : LocOK k s t x')
    (hdone : ∀ e ∈ x'.done, OutOK k s.stored s.ready (regd x') e.1 e.2)
    (hlog : (s.l t).done.filterMap okOp ++ pend (s.l t) = x'.done.filterMap okOp ++ pend x') : Inv k s' :=
  h.updL' t hl (fun R e => hN R (by rw [e]; simp [Nums.add]) (by rw [← e]; exact h.num)) hbad hterm hcrit hown h1 h2 h3 h4 h5 hregt hxmt hhold hloc hdone hlog

/-- The memory of the state is still there when an operation uses it. -/
theorem Inv.alive {k : Kind} {s : St ι} (h : Inv k s) {t : ι} (ha : active (s.l t).pc = true) (hd : isDel (s.l t).pc = false) : s.refs ≠ 0 := by
  obtain ⟨R, h1, _⟩ := split_nums s.l t
  have hn := h.num
  rw [h1] at hn
  have hh := h.hold t ha
  have e1 := hn.refs
  have e3 := hn.npr
  simp only [Nums.add, nums, ha, hd] at e1 e3
  unfold holdsH at hh
  cases ho : (s.l t).op with
  | set r ex => cases hp : s.prov <;> simp [hp, ho, isUse] at e1 e3; omega
  | call ex => cases hp : s.prov <;> simp [hp, ho, isUse] at e1 e3; omega
  | wait b => cases b <;> simp [ho] at hh e1 <;> omega
  | waitFor b => cases b <;> simp [ho] at hh e1 <;> omega
  | sget => simp [ho] at hh e1; omega
  | _ => simp [ho, ownsRef] at e1; omega

theorem Inv.alive0 {k : Kind} {s : St ι} (h : Inv k s) (hr : s.refs ≠ 0) : s.freed = 0 := by
  have e2 := h.num.freed
  rw [if_neg hr] at e2; omega

/-- In the destructor. -/
theorem Inv.alive_del {k : Kind} {s : St ι} (h : Inv k s) {t : ι} (hd : isDel (s.l t).pc = true) : s.freed = 0 := by
  obtain ⟨R, h1, _⟩ := split_nums s.l t
  have hn := h.num
  rw [h1] at hn
  have e2 := hn.freed
  simp only [Nums.add, nums, hd] at e2
  simp at e2
  split at e2 <;> omega

theorem Inv.alive_reg {k : Kind} {s : St ι} (h : Inv k s) (hd : s.reg.isSome = true) : s.freed = 0 := by
  have e1 := h.num.refs
  have e2 := h.num.freed
  have e3 := (h.num.reg hd).2
  rw [e3] at e1; simp at e1
  rw [if_neg (by omega)] at e2; omega

end STL.Future
