import Verif.AtomicSp.Model

/-!
# `atomic<shared_ptr<T>>`: specification and invariant
-/

namespace STL.AtomicSp
open STL STL.Conc

namespace Spec

/-- The sequential specification: the value after an operation that returns `ret` on an atomic object with value `cur`; `none` if it cannot return that. -/
def apply (cur : Val) : Op → Ret → Option Val
  | .store v, .unit => some v
  | .load, .val w => if w = cur then some cur else none
  | .xchg v, .val w => if w = cur then some v else none
  | .cas e d, .yes => if cur = e then some d else none
  | .cas e _, .no w => if cur ≠ e ∧ w = cur then some cur else none
  | .wait old, .unit => if cur ≠ old then some cur else none
  | _, _ => none

/-- The value after a sequence of operations; `none` if it is not a possible history. -/
def replay {ι : Type} (v : Val) (h : List (ι × Op × Ret)) : Option Val := h.foldlM (fun v e => apply v e.2.1 e.2.2) v

/-- The operations of one thread in a history. -/
def ops {ι : Type} [DecidableEq ι] (u : ι) (h : List (ι × Op × Ret)) : List (Op × Ret) := (h.filter fun e => e.1 = u).map (·.2)

end Spec
open Spec

/-- 1 if `a` is the block `r`. -/
def ind (r a : Nat) : Nat := if a = r then 1 else 0

/-- References to `r` among the arguments. -/
def argCnt (r : Nat) : Op → Nat
  | .store v | .xchg v | .wait v => ind r v.r
  | .load => 0
  | .cas e d => ind r e.r + ind r d.r

/-- References to `r` taken in the critical section. -/
def incCnt (r : Nat) (c : Cs) : Op → Nat
  | .load => ind r c.rep
  | .cas _ _ => if c.ok then 0 else ind r c.rep
  | _ => 0

/-- References to `r` after the lock has been released. -/
def finCnt (r : Nat) (c : Cs) : Op → Nat
  | .store _ | .load | .xchg _ => ind r c.rep
  | .cas e d => if c.ok then ind r e.r + ind r c.rep else ind r e.r + ind r d.r + ind r c.rep
  | .wait o => ind r o.r

/-- References to `r` of the operation in progress. -/
def opCnt (r : Nat) (o : Op) : PC → Nat
  | .idle => 0
  | .unl c => argCnt r o + incCnt r c o
  | .ntf c | .fin c => finCnt r c o
  | .fin2 c => match o with
    | .cas _ d => ind r d.r + ind r c.rep
    | _ => 0
  | _ => argCnt r o

/-- References to `r` of one thread. -/
def cnt (r : Nat) (x : Loc) : Nat := (x.hs.map (·.r)).count r + opCnt r x.op x.pc

/-- The thread holds the lock. -/
def isCrit (x : Loc) : Nat :=
  match x.pc with
  | .c1 _ | .c2 _ | .c3 _ | .unl _ => 1
  | _ => 0

def argsAl : Op → Prop
  | .store v | .xchg v | .wait v => v.r % 4 = 0
  | .load => True
  | .cas e d => e.r % 4 = 0 ∧ d.r % 4 = 0

def okOK : Op → Cs → Prop
  | .cas e _, c => c.ok = decide (c.q = e.p ∧ c.rep = e.r)
  | .wait e, c => c.ok = decide (c.q = e.p ∧ c.rep = e.r)
  | _, _ => True

def isCas : Op → Prop
  | .cas _ _ => True
  | _ => False

def isWait : Op → Prop
  | .wait _ => True
  | _ => False

def LocOK (m : Mem) (reg : Val) (x : Loc) : Prop :=
  match x.pc with
  | .idle | .lLoad => True
  | .lTry rep => rep % 4 ≤ 2
  | .lWait rep | .lSlp rep | .lAsleep rep => rep % 4 = 2
  | .c1 rep => rep = addr m.word ∧ m.ptr = reg.p
  | .c2 c => c.rep = addr m.word ∧ m.ptr = reg.p ∧ c.q = reg.p ∧ okOK x.op c ∧ ¬ isWait x.op
  | .c3 c => c.rep = addr m.word ∧ m.ptr = reg.p ∧ c.q = reg.p ∧ okOK x.op c ∧ isCas x.op
  | .unl c => c.rep = addr m.word ∧ c.q = reg.p ∧ m.ptr = (newReg x.op c reg).p ∧ okOK x.op c
  | .ntf c | .fin c => c.rep % 4 = 0
  | .fin2 c => c.rep % 4 = 0 ∧ isCas x.op ∧ c.ok = false
  | .pSlp | .pAsleep => isWait x.op

/-- The event of an operation that has taken effect but has not returned. -/
def pend (x : Loc) : List (Op × Ret) :=
  match x.pc with
  | .ntf c | .fin c => if logs x.op c then [(x.op, retOf x.op c)] else []
  | .fin2 c => [(x.op, retOf x.op c)]
  | _ => []

/-- The atomic object holds a reference to `r`. -/
def holds (r : Nat) (m : Mem) : Nat := if m.gone = false ∧ addr m.word = r then 1 else 0

/-- The lock is taken. -/
def lk (m : Mem) : Nat := if m.word % 4 = 0 then 0 else 1

def LogOK {ι : Type} [DecidableEq ι] (v0 : Val) (s : St ι) : Prop := replay v0 s.log = some s.reg ∧ ∀ u, ops u s.log = (s.l u).done ++ pend (s.l u)

variable {ι : Type} [Fintype ι] [DecidableEq ι]

structure Inv (v0 : Val) (s : St ι) : Prop where
  cn : ∀ r, r ≠ 0 → s.m.uses r = tot (cnt r) s.l + holds r s.m
  life : ∀ r, s.m.ctor r = s.m.dtor r + (if s.m.uses r = 0 then 0 else 1)
  bad : s.m.bad = false
  bits : s.m.word % 4 ≤ 2
  cr : tot isCrit s.l = lk s.m
  rg : s.reg.r = addr s.m.word
  pt : s.m.word % 4 = 0 → s.m.ptr = s.reg.p
  loc : ∀ u, LocOK s.m s.reg (s.l u)
  al : ∀ u, (∀ v ∈ (s.l u).hs, v.r % 4 = 0) ∧ argsAl (s.l u).op
  sl : ∀ u rep, (s.l u).pc = .lAsleep rep → s.m.word % 4 = 2 ∨ ∃ n c, (s.l n).pc = .ntf c
  gn : s.m.gone = true → ∀ u, (s.l u).pc = .idle
  lg : LogOK v0 s

theorem addr_mod (w : Nat) : addr w % 4 = 0 := by unfold addr; omega

omit [Fintype ι] in
theorem loc_other {m m' : Mem} {reg reg' : Val} {x : Loc} (h : LocOK m reg x) (hs : (addr m'.word = addr m.word ∧ m'.ptr = m.ptr ∧ reg' = reg) ∨ isCrit x = 0) : LocOK m' reg' x := by
  unfold LocOK at *
  rcases hs with ⟨h1, h2, h3⟩ | h0
  · subst h3; rw [h1, h2]; exact h
  · unfold isCrit at h0
    cases hp : x.pc <;> rw [hp] at h h0 <;> simp_all

/-- One step of thread `t`. -/
theorem Inv.upd1 {v0 : Val} {s : St ι} (h : Inv v0 s) (t : ι) {m' : Mem} {reg' : Val} {log' : List (ι × Op × Ret)} {x' : Loc}
    (hcn : ∀ r, r ≠ 0 → m'.uses r + cnt r (s.l t) + holds r s.m = s.m.uses r + cnt r x' + holds r m')
    (hlife : ∀ r, m'.ctor r = m'.dtor r + (if m'.uses r = 0 then 0 else 1))
    (hbad : m'.bad = false) (hbits : m'.word % 4 ≤ 2)
    (hcr : isCrit x' + lk s.m = isCrit (s.l t) + lk m')
    (hrg : reg'.r = addr m'.word) (hpt : m'.word % 4 = 0 → m'.ptr = reg'.p)
    (hoth : (addr m'.word = addr s.m.word ∧ m'.ptr = s.m.ptr ∧ reg' = s.reg) ∨ isCrit (s.l t) = 1)
    (hloc : LocOK m' reg' x') (hal : (∀ v ∈ x'.hs, v.r % 4 = 0) ∧ argsAl x'.op)
    (hsl : ∀ rep, x'.pc = .lAsleep rep → m'.word % 4 = 2)
    (hsl2 : s.m.word % 4 = 2 → m'.word % 4 = 2 ∨ ∃ c, x'.pc = .ntf c)
    (hnt : ∀ c, (s.l t).pc ≠ .ntf c)
    (hgn : m'.gone = true → x'.pc = .idle ∧ ∀ u, (s.l u).pc = .idle)
    (hlog : replay v0 log' = some reg')
    (hev : ∀ u, ops u log' = if u = t then x'.done ++ pend x' else ops u s.log) : Inv v0 ⟨m', reg', log', upd s.l t x'⟩ := by
  refine ⟨fun r hr => ?_, hlife, hbad, hbits, ?_, hrg, hpt, fun u => ?_, fun u => ?_, fun u rep hu => ?_, fun hg u => ?_, hlog, fun u => ?_⟩
  · obtain ⟨k, h1, h2⟩ := split_tot (cnt r) s.l t
    have h3 := h.cn r hr
    have h4 := hcn r hr
    simp only [h2]; omega
  · obtain ⟨k, h1, h2⟩ := split_tot isCrit s.l t
    have h3 := h.cr
    simp only [h2]; omega
  · by_cases hu : u = t
    · subst hu; simp only [upd_self]; exact hloc
    · simp only [upd_ne _ _ hu]
      refine loc_other (h.loc u) ?_
      rcases hoth with h1 | h1
      · exact .inl h1
      · right
        have := le_tot_two isCrit s.l hu
        have h3 := h.cr
        unfold lk at h3
        split at h3 <;> omega
  · by_cases hu : u = t
    · subst hu; simp only [upd_self]; exact hal
    · simp only [upd_ne _ _ hu]; exact h.al u
  · by_cases hut : u = t
    · subst hut; simp only [upd_self] at hu; exact .inl (hsl rep hu)
    · simp only [upd_ne _ _ hut] at hu
      rcases h.sl u rep hu with h1 | ⟨n, c, h1⟩
      · rcases hsl2 h1 with h2 | ⟨c, h2⟩
        · exact .inl h2
        · exact .inr ⟨t, c, by simp only [upd_self]; exact h2⟩
      · refine .inr ⟨n, c, ?_⟩
        have : n ≠ t := by rintro rfl; exact hnt c h1
        simp only [upd_ne _ _ this]; exact h1
  · by_cases hu : u = t
    · subst hu; simp only [upd_self]; exact (hgn hg).1
    · simp only [upd_ne _ _ hu]; exact (hgn hg).2 u
  · have h1 := hev u
    by_cases hu : u = t
    · subst hu; rw [if_pos rfl] at h1; simp only [upd_self]; exact h1
    · rw [if_neg hu] at h1; simp only [upd_ne _ _ hu]; rw [h1]; exact h.lg.2 u

/-- One step of thread `t` that changes only its local state. -/
theorem Inv.updL {v0 : Val} {s : St ι} (h : Inv v0 s) (t : ι) {x' : Loc}
    (hcn : ∀ r, r ≠ 0 → cnt r (s.l t) = cnt r x') (hcr : isCrit x' = isCrit (s.l t))
    (hloc : LocOK s.m s.reg x') (hal : (∀ v ∈ x'.hs, v.r % 4 = 0) ∧ argsAl x'.op)
    (hsl : ∀ rep, x'.pc = .lAsleep rep → s.m.word % 4 = 2)
    (hnt : ∀ c, (s.l t).pc ≠ .ntf c)
    (hgn : s.m.gone = true → x'.pc = .idle)
    (hev : (s.l t).done ++ pend (s.l t) = x'.done ++ pend x') : Inv v0 { s with l := upd s.l t x' } := by
  refine h.upd1 t (fun r hr => ?_) h.life h.bad h.bits (by omega) h.rg h.pt (.inl ⟨rfl, rfl, rfl⟩) hloc hal hsl (fun h => .inl h) hnt (fun hg => ⟨hgn hg, h.gn hg⟩) h.lg.1 fun u => ?_
  · have := hcn r hr; omega
  · split
    · rename_i hu; subst hu; rw [h.lg.2, hev]
    · rfl

/-- The reference count of something that is referred to. -/
theorem Inv.uses_pos {v0 : Val} {s : St ι} (h : Inv v0 s) {t : ι} {r : Nat} (hr : r ≠ 0) (hc : 0 < cnt r (s.l t)) : 0 < s.m.uses r := by
  have := h.cn r hr
  have := le_tot (cnt r) s.l t
  omega

theorem incref_eq {m : Mem} {r : Nat} (hb : m.bad = false) (hu : r ≠ 0 → 0 < m.uses r) :
    m.incref r = { m with uses := fun x => m.uses x + if r ≠ 0 ∧ x = r then 1 else 0 } := by
  unfold Mem.incref
  split
  · rename_i h; subst h; simp
  · rename_i h
    have := hu h
    have h0 : m.uses r ≠ 0 := by omega
    have e : fset m.uses r (m.uses r + 1) = fun x => m.uses x + if r ≠ 0 ∧ x = r then 1 else 0 := by
      funext x; unfold fset; by_cases hx : x = r
      · subst hx; simp [h]
      · simp [hx]
    rw [e, hb]; simp [h0, h, hb]

theorem decref_eq {m : Mem} {r : Nat} (hb : m.bad = false) (hu : r ≠ 0 → 0 < m.uses r) :
    m.decref r = { m with uses := fun x => m.uses x - if r ≠ 0 ∧ x = r then 1 else 0, dtor := fun x => m.dtor x + if r ≠ 0 ∧ x = r ∧ m.uses r = 1 then 1 else 0 } := by
  unfold Mem.decref
  split
  · rename_i h; subst h; simp
  · rename_i h
    have := hu h
    have h0 : m.uses r ≠ 0 := by omega
    have e : fset m.uses r (m.uses r - 1) = fun x => m.uses x - if r ≠ 0 ∧ x = r then 1 else 0 := by
      funext x; unfold fset; by_cases hx : x = r
      · subst hx; simp [h]
      · simp [hx]
    have e2 : (if m.uses r = 1 then fset m.dtor r (m.dtor r + 1) else m.dtor) = fun x => m.dtor x + if r ≠ 0 ∧ x = r ∧ m.uses r = 1 then 1 else 0 := by
      funext x; unfold fset
      by_cases h1 : m.uses r = 1
      · by_cases hx : x = r
        · subst hx; simp [h, h1]
        · simp [hx, h1]
      · simp [h1]
    rw [e, e2, hb]; simp [h0, h, hb]

theorem life_inc {c d u a r : Nat} (h : c = d + (if u = 0 then 0 else 1)) (hu : a ≠ 0 → r = a → 0 < u) : c = d + (if u + (if a ≠ 0 ∧ r = a then 1 else 0) = 0 then 0 else 1) := by
  by_cases har : a ≠ 0 ∧ r = a
  · have := hu har.1 har.2
    rw [if_neg (by omega)] at h
    rw [if_pos har, if_neg (by omega)]; exact h
  · rw [if_neg har]; exact h

theorem life_dec {c a r : Nat} {d u : Nat → Nat} (h : c = d r + (if u r = 0 then 0 else 1)) (hu : a ≠ 0 → 0 < u a) :
    c = (d r + (if a ≠ 0 ∧ r = a ∧ u a = 1 then 1 else 0)) + (if u r - (if a ≠ 0 ∧ r = a then 1 else 0) = 0 then 0 else 1) := by
  by_cases har : a ≠ 0 ∧ r = a
  · obtain ⟨h1, rfl⟩ := har
    have := hu h1
    rw [if_neg (by omega)] at h
    by_cases h2 : u r = 1
    · simp [h1, h2]; exact h
    · have h3 : ¬ u r - 1 = 0 := by omega
      simp [h1, h2, h3]; exact h
  · have : ¬ (a ≠ 0 ∧ r = a ∧ u a = 1) := fun ⟨x, y, _⟩ => har ⟨x, y⟩
    simp only [har, this, if_false]; simpa using h

/-- A step that also takes a reference. -/
theorem Inv.updInc {v0 : Val} {s : St ι} (h : Inv v0 s) (t : ι) {x' : Loc} {a : Nat} (ha : a ≠ 0 → 0 < s.m.uses a)
    (hcn : ∀ r, r ≠ 0 → cnt r (s.l t) + ind r a = cnt r x') (hcr : isCrit x' = isCrit (s.l t))
    (hloc : LocOK s.m s.reg x') (hal : (∀ v ∈ x'.hs, v.r % 4 = 0) ∧ argsAl x'.op)
    (hsl : ∀ rep, x'.pc ≠ .lAsleep rep)
    (hnt : ∀ c, (s.l t).pc ≠ .ntf c)
    (hgn : s.m.gone = true → x'.pc = .idle)
    (hev : (s.l t).done ++ pend (s.l t) = x'.done ++ pend x') : Inv v0 { s with m := s.m.incref a, l := upd s.l t x' } := by
  rw [incref_eq h.bad ha]
  refine h.upd1 t (fun r hr => ?_) (fun r => ?_) h.bad h.bits (by change _ = _ + lk s.m; omega) h.rg h.pt (.inl ⟨rfl, rfl, rfl⟩) hloc hal (fun rep hh => absurd hh (hsl rep)) (fun h => .inl h) hnt (fun hg => ⟨hgn hg, h.gn hg⟩) h.lg.1 fun u => ?_
  · have := hcn r hr
    change _ = _ + holds r s.m
    simp only [ind] at this ⊢
    by_cases har : a = r
    · subst har; simp [hr] at this ⊢; omega
    · have : ¬ r = a := fun e => har e.symm
      simp [har, this] at *; omega
  · exact life_inc (h.life r) fun h1 h2 => h2 ▸ ha h1
  · split
    · rename_i hu; subst hu; rw [h.lg.2, hev]
    · rfl

/-- A step that also gives a reference up. -/
theorem Inv.updDec {v0 : Val} {s : St ι} (h : Inv v0 s) (t : ι) {x' : Loc} {a : Nat}
    (hcn : ∀ r, r ≠ 0 → cnt r (s.l t) = cnt r x' + ind r a) (hcr : isCrit x' = isCrit (s.l t))
    (hloc : LocOK s.m s.reg x') (hal : (∀ v ∈ x'.hs, v.r % 4 = 0) ∧ argsAl x'.op)
    (hsl : ∀ rep, x'.pc ≠ .lAsleep rep)
    (hnt : ∀ c, (s.l t).pc ≠ .ntf c)
    (hgn : s.m.gone = true → x'.pc = .idle)
    (hev : (s.l t).done ++ pend (s.l t) = x'.done ++ pend x') : Inv v0 { s with m := s.m.decref a, l := upd s.l t x' } := by
  have ha : a ≠ 0 → 0 < s.m.uses a := fun h0 => h.uses_pos (t := t) h0 (by have := hcn a h0; simp [ind] at this; omega)
  rw [decref_eq h.bad ha]
  refine h.upd1 t (fun r hr => ?_) (fun r => ?_) h.bad h.bits (by change _ = _ + lk s.m; omega) h.rg h.pt (.inl ⟨rfl, rfl, rfl⟩) hloc hal (fun rep hh => absurd hh (hsl rep)) (fun h => .inl h) hnt (fun hg => ⟨hgn hg, h.gn hg⟩) h.lg.1 fun u => ?_
  · have := hcn r hr
    change _ = _ + holds r s.m
    simp only [ind] at this ⊢
    by_cases har : a = r
    · subst har; have := ha hr; simp [hr] at *; omega
    · have : ¬ r = a := fun e => har e.symm
      simp [har, this] at *; omega
  · exact life_dec (h.life r) ha
  · split
    · rename_i hu; subst hu; rw [h.lg.2, hev]
    · rfl

theorem inv_init (v : Val) (hv : v.r % 4 = 0) : Inv v (init v : St ι) := by
  have hc : ∀ r, tot (cnt r) (init v : St ι).l = 0 := fun r => tot_eq_zero fun t => by simp [init, cnt, opCnt]
  have ha : addr v.r = v.r := by unfold addr; omega
  refine ⟨fun r hr => ?_, fun r => ?_, rfl, by simp [init]; omega, ?_, by simp [init, ha], fun _ => rfl, fun u => by simp [LocOK, init], fun u => by simp [init, argsAl], fun u rep h => by simp [init] at h,
    fun h => by simp [init] at h, rfl, fun u => rfl⟩
  · rw [hc]
    simp only [init, holds, fset, ha]
    by_cases h : r = v.r
    · subst h; simp [hr]
    · simp [h, Ne.symm h]
  · simp only [init, fset]
    split <;> simp
  · rw [tot_eq_zero fun t => by simp [init, isCrit]]; simp [lk, init, hv]

end STL.AtomicSp
