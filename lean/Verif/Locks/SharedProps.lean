import Verif.Locks.Shared

/-!
# `shared_timed_mutex`: exclusion, counting, writers before readers, no lost wake-up
-/

namespace STL.Locks.Shared
open STL STL.Conc

variable {ι : Type} [Fintype ι] [DecidableEq ι]

@[grind] def isCrit : PC → Bool
  | .crit | .wTest _ | .wClk | .rTest _ | .rClk | .unl _ _ => true
  | _ => false

@[grind] def isR : PC → Bool
  | .rTest _ | .rSlp | .rN | .rT | .rClk => true
  | _ => false

@[grind] def claims (x : Loc) : Bool := decide (x.hold = .excl) || isR x.pc

@[grind] def nAll : PC → Bool
  | .unl _ .wAll | .ntf _ .wAll => true
  | _ => false

@[grind] def nOne : PC → Bool
  | .unl _ .rOne | .ntf _ .rOne => true
  | _ => false

/-- What a thread that owned `h` owns after the operation with that result. -/
def after (h : Hold) : Op → Bool → Hold
  | .unlock, _ => .non
  | .unlockSh, _ => .non
  | _, false => h
  | .lock, true => .excl
  | .tryLock, true => .excl
  | .lockUntil, true => .excl
  | .lockSh, true => .shar
  | .trySh, true => .shar
  | .shUntil, true => .shar

/-- What a thread owns after its completed operations. -/
def holdOf (d : List (Op × Bool)) : Hold := d.foldl (fun h e => after h e.1 e.2) .non

def DoneOK (x : Loc) : Prop :=
  match x.pc with
  | .unl o _ | .ntf o _ => x.hold = after (holdOf x.done) x.op o ∧ holdOf x.done = x.op.needs
  | _ => x.hold = holdOf x.done

@[grind] def LocOK (x : Loc) : Prop :=
  match x.pc with
  | .idle => True
  | .acq | .crit => x.hold = x.op.needs
  | .wTest fin => x.hold = .non ∧ (x.op = .lock ∨ x.op = .lockUntil ∨ x.op = .lockSh ∨ x.op = .shUntil) ∧ (fin = true → x.op = .lockUntil ∨ x.op = .shUntil)
  | .wSlp | .wN => x.hold = .non ∧ (x.op = .lock ∨ x.op = .lockUntil ∨ x.op = .lockSh ∨ x.op = .shUntil)
  | .wT | .wClk => x.hold = .non ∧ (x.op = .lockUntil ∨ x.op = .shUntil)
  | .rTest fin => x.hold = .non ∧ (x.op = .lock ∨ x.op = .lockUntil) ∧ (fin = true → x.op = .lockUntil)
  | .rSlp | .rN => x.hold = .non ∧ (x.op = .lock ∨ x.op = .lockUntil)
  | .rT | .rClk => x.hold = .non ∧ x.op = .lockUntil
  | .unl o n => (x.op = .lock ∨ x.op = .lockSh ∨ x.op = .unlock ∨ x.op = .unlockSh → o = true)
  | .ntf o n => n ≠ .non ∧ (x.op = .lock ∨ x.op = .lockSh ∨ x.op = .unlock ∨ x.op = .unlockSh → o = true)

def shar (x : Loc) : Nat := if x.hold = .shar then 1 else 0

structure Inv (M : Nat) (s : St ι) : Prop where
  own : ∀ u, isCrit (s.l u).pc = true ↔ s.own = some u
  claim : ∀ u, claims (s.l u) = true ↔ s.wr = some u
  wri : s.writing = s.wr.isSome
  rd : tot shar s.l = s.readers
  ex : ∀ u, (s.l u).hold = .excl → s.readers = 0
  max : s.readers ≤ M
  lw : s.writing = false → ∀ u, (s.l u).pc = .wSlp → ((s.l u).op = .lock ∨ (s.l u).op = .lockSh ∧ s.readers < M) → ∃ v, nAll (s.l v).pc = true
  lr : s.readers = 0 → ∀ u, (s.l u).pc = .rSlp → (s.l u).op = .lock → ∃ v, nOne (s.l v).pc = true
  loc : ∀ u, LocOK (s.l u)

theorem inv_init (M : Nat) : Inv M (init : St ι) := by
  refine ⟨fun u => by simp [init, isCrit], fun u => by simp [init, claims, isR], rfl, tot_eq_zero fun u => rfl, fun u h => rfl, Nat.zero_le _, fun _ u h => by simp [init] at h,
    fun _ u h => by simp [init] at h, fun u => trivial⟩

/-- One step of thread `t`. -/
theorem Inv.upd1 {M : Nat} {s s' : St ι} (h : Inv M s) (t : ι) {x' : Loc} (hl : s'.l = upd s.l t x')
    (hown : (isCrit x'.pc = true ↔ s'.own = some t) ∧ (s'.own = s.own ∨ (s.own = none ∨ s.own = some t) ∧ (s'.own = none ∨ s'.own = some t)))
    (hwr : (claims x' = true ↔ s'.wr = some t) ∧ (s'.wr = s.wr ∨ (s.wr = none ∨ s.wr = some t) ∧ (s'.wr = none ∨ s'.wr = some t)))
    (hwri : s'.writing = s'.wr.isSome)
    (hrd : s'.readers + shar (s.l t) = s.readers + shar x')
    (hex : s'.readers ≤ s.readers ∧ (x'.hold = .excl → s'.readers = 0) ∨ s.wr = none ∧ x'.hold ≠ .excl)
    (hmax : s'.readers ≤ M)
    (hlw : s'.writing = false → s.writing = true ∨ (s'.readers < M ∧ s.readers = M) ∨ nAll (s.l t).pc = true → nAll x'.pc = true ∨ ∀ u, u ≠ t → (s.l u).pc ≠ .wSlp)
    (hlw' : s'.writing = false → x'.pc = .wSlp → (x'.op = .lock ∨ x'.op = .lockSh ∧ s'.readers < M) → False)
    (hlr : s'.readers = 0 → 0 < s.readers ∨ nOne (s.l t).pc = true → nOne x'.pc = true ∨ ∀ u, u ≠ t → (s.l u).pc ≠ .rSlp)
    (hlr' : s'.readers = 0 → x'.pc = .rSlp → x'.op = .lock → False)
    (hloc : LocOK x') : Inv M s' := by
  have ne : ∀ {u}, u ≠ t → s'.l u = s.l u := fun hut => by rw [hl, upd_ne _ _ hut]
  have eq : s'.l t = x' := by rw [hl, upd_self]
  have hm := h.max
  constructor
  · intro u
    have := h.own u
    by_cases hut : u = t
    · subst hut; rw [eq]; exact hown.1
    · rw [ne hut]; grind
  · intro u
    have := h.claim u
    by_cases hut : u = t
    · subst hut; rw [eq]; exact hwr.1
    · rw [ne hut]; grind
  · exact hwri
  · have h1 := tot_upd shar s.l t x'
    have h2 := h.rd
    rw [hl]; omega
  · intro u hu
    by_cases hut : u = t
    · subst hut; rw [eq] at hu
      rcases hex with e | e
      · exact e.2 hu
      · exact absurd hu e.2
    · rw [ne hut] at hu
      have h1 := h.ex u hu
      rcases hex with e | e
      · omega
      · have h2 := (h.claim u).1 (by simp [claims, hu])
        rw [e.1] at h2; cases h2
  · exact hmax
  · intro h0 u hu ho
    by_cases hut : u = t
    · subst hut; rw [eq] at hu ho; exact (hlw' h0 hu ho).elim
    · rw [ne hut] at hu ho
      by_cases hq : s.writing = true ∨ (s'.readers < M ∧ s.readers = M) ∨ nAll (s.l t).pc = true
      · rcases hlw h0 hq with e | e
        · exact ⟨t, by rw [eq]; exact e⟩
        · exact absurd hu (e u hut)
      · obtain ⟨v, hv⟩ := h.lw (by grind) u hu (by grind)
        have hvt : v ≠ t := by rintro rfl; grind
        exact ⟨v, by rw [ne hvt]; exact hv⟩
  · intro h0 u hu ho
    by_cases hut : u = t
    · subst hut; rw [eq] at hu ho; exact (hlr' h0 hu ho).elim
    · rw [ne hut] at hu ho
      by_cases hq : 0 < s.readers ∨ nOne (s.l t).pc = true
      · rcases hlr h0 hq with e | e
        · exact ⟨t, by rw [eq]; exact e⟩
        · exact absurd hu (e u hut)
      · obtain ⟨v, hv⟩ := h.lr (by omega) u hu ho
        have hvt : v ≠ t := by rintro rfl; grind
        exact ⟨v, by rw [ne hvt]; exact hv⟩
  · intro u
    by_cases hut : u = t
    · subst hut; rw [eq]; exact hloc
    · rw [ne hut]; exact h.loc u

/-- A step that changes only the position and the inner mutex. -/
theorem Inv.move {M : Nat} {s s' : St ι} (h : Inv M s) (t : ι) {p : PC} (hl : s'.l = upd s.l t { s.l t with pc := p })
    (hr : s'.readers = s.readers) (hw : s'.writing = s.writing) (hv : s'.wr = s.wr)
    (hown : (isCrit p = true ↔ s'.own = some t) ∧ (s'.own = s.own ∨ (s.own = none ∨ s.own = some t) ∧ (s'.own = none ∨ s'.own = some t)))
    (hR : isR p = isR (s.l t).pc) (hA : nAll (s.l t).pc = true → nAll p = true) (hO : nOne (s.l t).pc = true → nOne p = true)
    (hlw' : s.writing = false → p = .wSlp → ((s.l t).op = .lock ∨ (s.l t).op = .lockSh ∧ s.readers < M) → False)
    (hlr' : s.readers = 0 → p = .rSlp → (s.l t).op = .lock → False)
    (hloc : LocOK { s.l t with pc := p }) : Inv M s' := by
  have hc := h.claim t
  refine h.upd1 t hl hown ⟨?_, .inl hv⟩ (by rw [hw, hv]; exact h.wri) (by rw [hr]; rfl) (.inl ⟨by omega, fun e => by rw [hr]; exact h.ex t e⟩) (by rw [hr]; exact h.max) ?_ ?_ ?_ ?_ hloc
  · rw [hv, ← hc]; simp only [claims, hR]
  · intro h0 h1
    rw [hw] at h0; rw [hr] at h1
    rcases h1 with e | e | e
    · rw [h0] at e; cases e
    · omega
    · exact .inl (hA e)
  · rw [hw, hr]; exact hlw'
  · intro h0 h1
    rw [hr] at h0
    rcases h1 with e | e
    · omega
    · exact .inl (hO e)
  · rw [hr]; exact hlr'

theorem crit_inv {M : Nat} {s : St ι} (h : Inv M s) {t : ι} (hp : (s.l t).pc = .crit) : Inv M (critStep M s t) := by
  have ho : s.own = some t := (h.own t).1 (by rw [hp]; rfl)
  have hl := h.loc t
  have hc := h.claim t
  have hwri := h.wri
  have hmax := h.max
  simp only [LocOK, hp] at hl
  unfold critStep
  cases hop : (s.l t).op with
  | tryLock =>
    simp only
    have hh : (s.l t).hold = .non := by rw [hl, hop]; rfl
    split
    · refine h.move t rfl rfl rfl rfl ⟨by simp [St.goto, isCrit, ho], .inl rfl⟩ (by simp [hp, isR]) (by simp [hp, nAll]) (by simp [hp, nOne]) (by simp) (by simp) (by simp [LocOK, hop])
    · rename_i h1
      simp only [not_or, Bool.not_eq_true, not_lt] at h1
      have hw : s.wr = none := by rw [h1.1] at hwri; cases hq : s.wr <;> simp [hq] at hwri ⊢
      refine h.upd1 t (x' := { s.l t with pc := .unl true .non, hold := .excl }) rfl ⟨by simp [St.gotoH, isCrit, ho], .inl rfl⟩ ⟨by simp [claims, St.gotoH], .inr ⟨.inl hw, .inr rfl⟩⟩ rfl
        (by simp [St.gotoH, shar, hh]) (.inl ⟨Nat.le_refl _, fun _ => by simp [St.gotoH]; omega⟩) hmax (by simp [St.gotoH]) (by simp) ?_ (by simp) (by simp [LocOK])
      intro e1 e2; simp [hp, nOne, St.gotoH] at e1 e2; omega
  | unlock =>
    simp only
    have hh : (s.l t).hold = .excl := by rw [hl, hop]; rfl
    have hw : s.wr = some t := hc.1 (by simp [claims, hh])
    have h0 := h.ex t hh
    refine h.upd1 t (x' := { s.l t with pc := .unl true .wAll, hold := .non }) rfl ⟨by simp [St.gotoH, isCrit, ho], .inl rfl⟩ ⟨by simp [claims, isR, St.gotoH], .inr ⟨.inr hw, .inl rfl⟩⟩ rfl
        (by simp [St.gotoH, shar, hh]) (.inl ⟨Nat.le_refl _, fun e => by simp at e⟩) hmax (fun _ _ => .inl rfl) (by simp) ?_ (by simp) (by simp [LocOK])
    intro e1 e2; simp [hp, nOne, St.gotoH] at e1 e2; omega
  | trySh =>
    simp only
    have hh : (s.l t).hold = .non := by rw [hl, hop]; rfl
    split
    · refine h.move t rfl rfl rfl rfl ⟨by simp [St.goto, isCrit, ho], .inl rfl⟩ (by simp [hp, isR]) (by simp [hp, nAll]) (by simp [hp, nOne]) (by simp) (by simp) (by simp [LocOK, hop])
    · rename_i h1
      simp only [not_or, Bool.not_eq_true] at h1
      have hw : s.wr = none := by rw [h1.1] at hwri; cases hq : s.wr <;> simp [hq] at hwri ⊢
      refine h.upd1 t (x' := { s.l t with pc := .unl true .non, hold := .shar }) rfl ⟨by simp [St.gotoH, isCrit, ho], .inl rfl⟩ ⟨by simp [claims, isR, St.gotoH, hw], .inl rfl⟩ hwri
        (by simp [St.gotoH, shar, hh]) (.inr ⟨hw, by simp⟩) (by simp [St.gotoH]; omega) ?_ (by simp) (by simp [St.gotoH]) (by simp) (by simp [LocOK])
      intro e1 e2; simp [hp, nAll, St.gotoH, h1.1] at e1 e2; omega
  | unlockSh =>
    simp only
    have hh : (s.l t).hold = .shar := by rw [hl, hop]; rfl
    have hpos : 0 < s.readers := by
      have := le_tot shar s.l t
      rw [h.rd] at this; simp [shar, hh] at this; omega
    refine h.upd1 t (x' := { s.l t with
        pc := .unl true (if s.writing = true ∧ s.readers - 1 = 0 then .rOne else if s.writing = false ∧ s.readers - 1 = M - 1 then .wAll else .non), hold := .non }) rfl
        ⟨by simp [St.gotoH, isCrit, ho], .inl rfl⟩ ⟨?_, .inl rfl⟩ hwri (by simp [St.gotoH, shar, hh]; omega) (.inl ⟨by simp [St.gotoH], by simp⟩) (by simp [St.gotoH]; omega) ?_ (by simp) ?_ (by simp) (by simp [LocOK])
    · have : ¬(s.wr = some t) := fun e => by have := hc.2 e; simp [claims, hh, hp, isR] at this
      simp [claims, isR, St.gotoH, this]
    · intro e1 e2
      simp only [St.gotoH] at e1 e2
      left
      have h3 : ¬(s.writing = true ∧ s.readers - 1 = 0) := by rw [e1]; simp
      have h4 : s.readers - 1 = M - 1 := by
        rcases e2 with e | e | e
        · rw [e1] at e; cases e
        · omega
        · rw [hp] at e; cases e
      simp [nAll, e1, h4]
    · intro e1 e2
      simp only [St.gotoH] at e1
      by_cases hw : s.writing = true
      · left; rw [if_pos ⟨hw, e1⟩]; rfl
      · right
        intro u _ hu
        have h4 := (h.claim u).1 (by simp [claims, isR, hu])
        rw [hwri, h4] at hw; simp at hw
  | lock =>
    refine h.move t rfl rfl rfl rfl ⟨by simp [St.goto, isCrit, ho], .inl rfl⟩ (by simp [hp, isR]) (by simp [hp, nAll]) (by simp [hp, nOne]) (by simp) (by simp) (by simp [LocOK, hop, hl, Op.needs])
  | lockUntil =>
    refine h.move t rfl rfl rfl rfl ⟨by simp [St.goto, isCrit, ho], .inl rfl⟩ (by simp [hp, isR]) (by simp [hp, nAll]) (by simp [hp, nOne]) (by simp) (by simp) (by simp [LocOK, hop, hl, Op.needs])
  | lockSh =>
    refine h.move t rfl rfl rfl rfl ⟨by simp [St.goto, isCrit, ho], .inl rfl⟩ (by simp [hp, isR]) (by simp [hp, nAll]) (by simp [hp, nOne]) (by simp) (by simp) (by simp [LocOK, hop, hl, Op.needs])
  | shUntil =>
    refine h.move t rfl rfl rfl rfl ⟨by simp [St.goto, isCrit, ho], .inl rfl⟩ (by simp [hp, isR]) (by simp [hp, nAll]) (by simp [hp, nOne]) (by simp) (by simp) (by simp [LocOK, hop, hl, Op.needs])

theorem wTest_inv {M : Nat} {s : St ι} (h : Inv M s) {t : ι} {fin : Bool} (hp : (s.l t).pc = .wTest fin) : Inv M (wTestStep M s t fin) := by
  have ho : s.own = some t := (h.own t).1 (by rw [hp]; rfl)
  have hl := h.loc t
  have hwri := h.wri
  have hmax := h.max
  simp only [LocOK, hp] at hl
  obtain ⟨hh, hop, hfin⟩ := hl
  unfold wTestStep
  simp only [decide_eq_true_eq]
  split
  · rename_i h1
    have hw : s.wr = none := by have := h1.1; rw [hwri] at this; cases hq : s.wr <;> simp [hq] at this ⊢
    split
    · rename_i h2
      have h3 := h1.2 h2
      refine h.upd1 t (x' := { s.l t with pc := .unl true .non, hold := .shar }) rfl ⟨by simp [St.gotoH, isCrit, ho], .inl rfl⟩ ⟨by simp [claims, isR, St.gotoH, hw], .inl rfl⟩ hwri
        (by simp [St.gotoH, shar, hh]) (.inr ⟨hw, by simp⟩) (by simp [St.gotoH]; omega) ?_ (by simp) (by simp [St.gotoH]) (by simp) (by simp [LocOK])
      intro e1 e2; simp [hp, nAll, St.gotoH, h1.1] at e1 e2; omega
    · rename_i h2
      refine h.upd1 t (x' := { s.l t with pc := .rTest false }) rfl ⟨by simp [St.goto, isCrit, ho], .inl rfl⟩ ⟨by simp [claims, isR, St.goto], .inr ⟨.inl hw, .inr rfl⟩⟩ rfl
        (by simp [St.goto, shar, hh]) (.inl ⟨Nat.le_refl _, by simp [hh]⟩) hmax (by simp [St.goto]) (by simp) ?_ (by simp) (by simp only [LocOK, hh]; grind)
      intro e1 e2; simp [hp, nOne, St.goto] at e1 e2; omega
  · rename_i h1
    split
    · refine h.move t rfl rfl rfl rfl ⟨by simp [St.goto, isCrit, ho], .inl rfl⟩ (by simp [hp, isR]) (by simp [hp, nAll]) (by simp [hp, nOne]) (by simp) (by simp) (by simp only [LocOK]; grind)
    · split
      · refine h.move t rfl rfl rfl rfl ⟨by simp [St.goto, isCrit, ho], .inl rfl⟩ (by simp [hp, isR]) (by simp [hp, nAll]) (by simp [hp, nOne]) (by simp) (by simp) (by simp only [LocOK]; grind)
      · refine h.move t rfl rfl rfl rfl ⟨by simp [St.goto, isCrit], .inr ⟨.inr ho, .inl rfl⟩⟩ (by simp [hp, isR]) (by simp [hp, nAll]) (by simp [hp, nOne]) ?_ (by simp) (by simp only [LocOK]; grind)
        intro e1 _ e3
        refine h1 ⟨e1, fun e => ?_⟩
        rcases e3 with e3 | ⟨e3, e4⟩
        · rw [e3] at e; simp at e
        · omega

theorem rTest_inv {M : Nat} {s : St ι} (h : Inv M s) {t : ι} {fin : Bool} (hp : (s.l t).pc = .rTest fin) : Inv M (rTestStep s t fin) := by
  have ho : s.own = some t := (h.own t).1 (by rw [hp]; rfl)
  have hl := h.loc t
  have hwri := h.wri
  have hmax := h.max
  have hw : s.wr = some t := (h.claim t).1 (by simp [claims, hp, isR])
  simp only [LocOK, hp] at hl
  obtain ⟨hh, hop, hfin⟩ := hl
  unfold rTestStep
  split
  · rename_i h1
    refine h.upd1 t (x' := { s.l t with pc := .unl true .non, hold := .excl }) rfl ⟨by simp [St.gotoH, isCrit, ho], .inl rfl⟩ ⟨by simp [claims, St.gotoH, hw], .inl rfl⟩ hwri
        (by simp [St.gotoH, shar, hh]) (.inl ⟨Nat.le_refl _, fun _ => h1⟩) hmax ?_ (by simp) ?_ (by simp) (by simp [LocOK])
    · intro e1 _; simp [St.gotoH, hwri, hw] at e1
    · intro e1 e2; simp [hp, nOne, St.gotoH] at e1 e2; omega
  · split
    · refine h.upd1 t (x' := { s.l t with pc := .unl false .wAll }) rfl ⟨by simp [St.goto, isCrit, ho], .inl rfl⟩ ⟨by simp [claims, isR, hh, St.goto], .inr ⟨.inr hw, .inl rfl⟩⟩ rfl
        (by simp [St.goto, shar, hh]) (.inl ⟨Nat.le_refl _, by simp [hh]⟩) hmax (fun _ _ => .inl rfl) (by simp) ?_ (by simp) (by simp only [LocOK]; grind)
      intro e1 e2; simp [hp, nOne, St.goto] at e1 e2; omega
    · split
      · refine h.move t rfl rfl rfl rfl ⟨by simp [St.goto, isCrit, ho], .inl rfl⟩ (by simp [hp, isR]) (by simp [hp, nAll]) (by simp [hp, nOne]) (by simp) (by simp) (by simp only [LocOK]; grind)
      · refine h.move t rfl rfl rfl rfl ⟨by simp [St.goto, isCrit], .inr ⟨.inr ho, .inl rfl⟩⟩ (by simp [hp, isR]) (by simp [hp, nAll]) (by simp [hp, nOne]) (by simp) ?_ (by simp only [LocOK]; grind)
        intro e1; contradiction

theorem wakeAll_inv {M : Nat} {s : St ι} (h : Inv M s) : Inv M (wakeAll s) ∧ ∀ u, ((wakeAll s).l u).pc ≠ .wSlp := by
  have hns : ∀ u, ((wakeAll s).l u).pc ≠ .wSlp := by
    intro u; simp only [wakeAll]; split <;> simp_all
  have hq : ∀ u, (wakeAll s).l u = s.l u ∨ (s.l u).pc = .wSlp ∧ (wakeAll s).l u = { s.l u with pc := .wN } := by
    intro u; simp only [wakeAll]; split <;> simp_all
  refine ⟨⟨?_, ?_, h.wri, ?_, ?_, h.max, ?_, ?_, ?_⟩, hns⟩
  · intro u
    have := h.own u
    rcases hq u with e | ⟨e1, e⟩
    · rw [e]; exact this
    · rw [e]; simp only [isCrit, e1] at this ⊢; exact this
  · intro u
    have := h.claim u
    rcases hq u with e | ⟨e1, e⟩
    · rw [e]; exact this
    · rw [e]; simp only [claims, isR, e1] at this ⊢; exact this
  · have := h.rd
    rw [show (wakeAll s).readers = s.readers from rfl, ← this]
    unfold tot
    refine Finset.sum_congr rfl fun u _ => ?_
    rcases hq u with e | ⟨e1, e⟩
    · rw [e]
    · rw [e]; rfl
  · intro u hu
    have := h.ex u
    rcases hq u with e | ⟨e1, e⟩
    · rw [e] at hu; exact this hu
    · rw [e] at hu; exact this hu
  · intro _ u hu; exact absurd hu (hns u)
  · intro h0 u hu ho
    rcases hq u with e | ⟨e1, e⟩
    · rw [e] at hu ho
      obtain ⟨v, hv⟩ := h.lr h0 u hu ho
      rcases hq v with e' | ⟨e1', e'⟩
      · exact ⟨v, by rw [e']; exact hv⟩
      · rw [e1'] at hv; cases hv
    · rw [e] at hu; cases hu
  · intro u
    have := h.loc u
    rcases hq u with e | ⟨e1, e⟩
    · rw [e]; exact this
    · rw [e]; simp only [LocOK, e1] at this ⊢; exact this

theorem ret_inv {M : Nat} {s : St ι} (h : Inv M s) {t : ι} {o : Bool} (hc : isCrit (s.l t).pc = false) (hR : isR (s.l t).pc = false)
    (hA : nAll (s.l t).pc = true → ∀ u, u ≠ t → (s.l u).pc ≠ .wSlp) (hO : nOne (s.l t).pc = true → ∀ u, u ≠ t → (s.l u).pc ≠ .rSlp) : Inv M (s.ret t o) := by
  have h1 := h.own t
  have h2 := h.claim t
  have h3 := h.ex t
  refine h.upd1 t (x' := { s.l t with pc := .idle, done := (s.l t).done ++ [((s.l t).op, o)] }) rfl ⟨?_, .inl rfl⟩ ⟨?_, .inl rfl⟩ h.wri rfl (.inl ⟨Nat.le_refl _, h3⟩) h.max ?_ (by simp) ?_ (by simp) trivial
  · rw [hc] at h1; simpa [isCrit, St.ret] using h1
  · simp only [claims, hR] at h2; simpa [claims, isR, St.ret] using h2
  · intro e1 e2
    simp only [St.ret] at e1 e2
    rcases e2 with e | e | e
    · rw [e1] at e; cases e
    · omega
    · exact .inr (hA e)
  · intro e1 e2
    simp only [St.ret] at e1 e2
    rcases e2 with e | e
    · omega
    · exact .inr (hO e)

theorem step_inv {M : Nat} {s s' : St ι} (h : Inv M s) {t : ι} {a : Act ι} (he : step M s t a = some s') : Inv M s' := by
  have hl := h.loc t
  have how := h.own t
  cases a with
  | start o =>
    simp only [step, Option.ite_none_right_eq_some, Option.some.injEq] at he
    obtain ⟨⟨h1, h2⟩, rfl⟩ := he
    have h3 := h.claim t
    rw [h1] at how
    refine h.upd1 t (x' := { s.l t with pc := .acq, op := o }) rfl ⟨how, .inl rfl⟩ ⟨?_, .inl rfl⟩ h.wri rfl (.inl ⟨Nat.le_refl _, h.ex t⟩) h.max ?_ (by simp) ?_ (by simp) (by simp only [LocOK]; exact h2)
    · simpa [claims, isR, h1] using h3
    · intro e1 e2
      rcases e2 with e | e | e
      · simp only at e1; rw [e1] at e; cases e
      · simp only at e; omega
      · simp [h1, nAll] at e
    · intro e1 e2
      rcases e2 with e | e
      · simp only at e1; omega
      · simp [h1, nOne] at e
  | spur =>
    simp only [step] at he
    split at he
    · rename_i h1
      simp only [Option.some.injEq] at he; subst he
      rw [h1] at how
      simp only [LocOK, h1] at hl
      exact h.move t rfl rfl rfl rfl ⟨how, .inl rfl⟩ (by simp [h1, isR]) (by simp [h1, nAll]) (by simp [h1, nOne]) (by simp) (by simp) (by simp only [LocOK]; exact hl)
    · simp only [Option.ite_none_right_eq_some, Option.some.injEq] at he
      obtain ⟨h1, rfl⟩ := he
      rw [h1] at how
      simp only [LocOK, h1] at hl
      exact h.move t rfl rfl rfl rfl ⟨how, .inl rfl⟩ (by simp [h1, isR]) (by simp [h1, nAll]) (by simp [h1, nOne]) (by simp) (by simp) (by simp only [LocOK]; exact hl)
  | timer =>
    simp only [step] at he
    split at he
    · rename_i h1
      simp only [Option.some.injEq] at he; subst he
      obtain ⟨h1, h2⟩ := h1
      rw [h1] at how
      simp only [LocOK, h1] at hl
      exact h.move t rfl rfl rfl rfl ⟨how, .inl rfl⟩ (by simp [h1, isR]) (by simp [h1, nAll]) (by simp [h1, nOne]) (by simp) (by simp) (by simp only [LocOK]; exact ⟨hl.1, h2⟩)
    · simp only [Option.ite_none_right_eq_some, Option.some.injEq] at he
      obtain ⟨⟨h1, h2⟩, rfl⟩ := he
      rw [h1] at how
      simp only [LocOK, h1] at hl
      exact h.move t rfl rfl rfl rfl ⟨how, .inl rfl⟩ (by simp [h1, isR]) (by simp [h1, nAll]) (by simp [h1, nOne]) (by simp) (by simp) (by simp only [LocOK]; exact ⟨hl.1, h2⟩)
  | adv b c =>
    simp only [step, advStep] at he
    cases hp : (s.l t).pc with
    | idle => simp [hp] at he
    | wSlp => simp [hp] at he
    | rSlp => simp [hp] at he
    | acq =>
      simp only [hp, Option.ite_none_right_eq_some, Option.some.injEq] at he
      obtain ⟨h1, rfl⟩ := he
      simp only [LocOK, hp] at hl
      exact h.move t rfl rfl rfl rfl ⟨by simp [isCrit, St.goto], .inr ⟨.inl h1, .inr rfl⟩⟩ (by simp [hp, isR]) (by simp [hp, nAll]) (by simp [hp, nOne]) (by simp) (by simp) (by simp only [LocOK]; exact hl)
    | crit =>
      simp only [hp, Option.some.injEq] at he; subst he
      exact crit_inv h hp
    | wTest fin =>
      simp only [hp, Option.some.injEq] at he; subst he
      exact wTest_inv h hp
    | rTest fin =>
      simp only [hp, Option.some.injEq] at he; subst he
      exact rTest_inv h hp
    | wN =>
      simp only [hp, Option.ite_none_right_eq_some, Option.some.injEq] at he
      obtain ⟨h1, rfl⟩ := he
      simp only [LocOK, hp] at hl
      exact h.move t rfl rfl rfl rfl ⟨by simp [isCrit, St.goto], .inr ⟨.inl h1, .inr rfl⟩⟩ (by simp [hp, isR]) (by simp [hp, nAll]) (by simp [hp, nOne]) (by simp) (by simp) (by simp only [LocOK]; exact ⟨hl.1, hl.2, by simp⟩)
    | rN =>
      simp only [hp, Option.ite_none_right_eq_some, Option.some.injEq] at he
      obtain ⟨h1, rfl⟩ := he
      simp only [LocOK, hp] at hl
      exact h.move t rfl rfl rfl rfl ⟨by simp [isCrit, St.goto], .inr ⟨.inl h1, .inr rfl⟩⟩ (by simp [hp, isR]) (by simp [hp, nAll]) (by simp [hp, nOne]) (by simp) (by simp) (by simp only [LocOK]; exact ⟨hl.1, hl.2, by simp⟩)
    | wT =>
      simp only [hp, Option.ite_none_right_eq_some, Option.some.injEq] at he
      obtain ⟨h1, rfl⟩ := he
      simp only [LocOK, hp] at hl
      exact h.move t rfl rfl rfl rfl ⟨by simp [isCrit, St.goto], .inr ⟨.inl h1, .inr rfl⟩⟩ (by simp [hp, isR]) (by simp [hp, nAll]) (by simp [hp, nOne]) (by simp) (by simp) (by simp only [LocOK]; exact hl)
    | rT =>
      simp only [hp, Option.ite_none_right_eq_some, Option.some.injEq] at he
      obtain ⟨h1, rfl⟩ := he
      simp only [LocOK, hp] at hl
      exact h.move t rfl rfl rfl rfl ⟨by simp [isCrit, St.goto], .inr ⟨.inl h1, .inr rfl⟩⟩ (by simp [hp, isR]) (by simp [hp, nAll]) (by simp [hp, nOne]) (by simp) (by simp) (by simp only [LocOK]; exact hl)
    | wClk =>
      simp only [hp, Option.some.injEq] at he; subst he
      have ho := how.1 (by rw [hp]; rfl)
      simp only [LocOK, hp] at hl
      split
      · refine h.move t rfl rfl rfl rfl ⟨by simp [isCrit, St.goto, ho], .inl rfl⟩ (by simp [hp, isR]) (by simp [hp, nAll]) (by simp [hp, nOne]) (by simp) (by simp) (by simp only [LocOK]; grind)
      · refine h.move t rfl rfl rfl rfl ⟨by simp [isCrit, St.goto], .inr ⟨.inr ho, .inl rfl⟩⟩ (by simp [hp, isR]) (by simp [hp, nAll]) (by simp [hp, nOne]) ?_ (by simp) (by simp only [LocOK]; grind)
        intro _ _ e; rcases hl.2 with e' | e' <;> rw [e'] at e <;> simp at e
    | rClk =>
      simp only [hp, Option.some.injEq] at he; subst he
      have ho := how.1 (by rw [hp]; rfl)
      simp only [LocOK, hp] at hl
      split
      · refine h.move t rfl rfl rfl rfl ⟨by simp [isCrit, St.goto, ho], .inl rfl⟩ (by simp [hp, isR]) (by simp [hp, nAll]) (by simp [hp, nOne]) (by simp) (by simp) (by simp only [LocOK]; grind)
      · refine h.move t rfl rfl rfl rfl ⟨by simp [isCrit, St.goto], .inr ⟨.inr ho, .inl rfl⟩⟩ (by simp [hp, isR]) (by simp [hp, nAll]) (by simp [hp, nOne]) (by simp) ?_ (by simp only [LocOK]; grind)
        intro _ _ e; rw [hl.2] at e; simp at e
    | unl o n =>
      simp only [hp, Option.some.injEq] at he; subst he
      have ho := how.1 (by rw [hp]; rfl)
      simp only [LocOK, hp] at hl
      have hmv : Inv M ({ s with own := none }.goto t (.ntf o (if n = Ntf.non then Ntf.wAll else n))) := by
        refine h.move t rfl rfl rfl rfl ⟨by simp [isCrit, St.goto], .inr ⟨.inr ho, .inl rfl⟩⟩ (by simp [hp, isR]) ?_ ?_ (by simp) (by simp) ?_
        · cases n <;> simp [hp, nAll]
        · cases n <;> simp [hp, nOne]
        · cases n <;> simpa [LocOK] using hl
      split
      · rename_i hn
        have h2 := h.claim t
        refine h.upd1 t (x' := { s.l t with pc := .idle, done := (s.l t).done ++ [((s.l t).op, o)] }) rfl ⟨by simp [isCrit, St.ret], .inr ⟨.inr ho, .inl rfl⟩⟩ ⟨?_, .inl rfl⟩ h.wri rfl
          (.inl ⟨Nat.le_refl _, h.ex t⟩) h.max ?_ (by simp) ?_ (by simp) trivial
        · simpa [claims, isR, hp, St.ret] using h2
        · intro e1 e2
          simp only [St.ret] at e1 e2
          rcases e2 with e | e | e
          · rw [e1] at e; cases e
          · omega
          · simp [hp, hn, nAll] at e
        · intro e1 e2
          simp only [St.ret] at e1 e2
          rcases e2 with e | e
          · omega
          · simp [hp, hn, nOne] at e
      · rename_i hn; rw [if_neg hn] at hmv; exact hmv
    | ntf o n =>
      cases n with
      | non => simp [LocOK, hp] at hl
      | wAll =>
        simp only [hp, Option.some.injEq] at he; subst he
        obtain ⟨h1, h2⟩ := wakeAll_inv h
        have e : (wakeAll s).l t = s.l t := by simp [wakeAll, hp]
        exact ret_inv h1 (by rw [e, hp]; rfl) (by rw [e, hp]; rfl) (fun _ u _ => h2 u) (fun q => by rw [e, hp] at q; cases q)
      | rOne =>
        simp only [hp] at he
        cases c with
        | none =>
          simp only [wakeOne] at he
          split at he
          · rename_i h1
            simp only [Option.map_some, Option.some.injEq] at he; subst he
            exact ret_inv h (by rw [hp]; rfl) (by rw [hp]; rfl) (fun q => by rw [hp] at q; cases q) (fun _ u _ => h1 u)
          · simp at he
        | some u =>
          simp only [wakeOne] at he
          split at he
          · rename_i h1
            simp only [Option.map_some, Option.some.injEq] at he; subst he
            have hut : u ≠ t := by rintro rfl; rw [hp] at h1; cases h1
            have hlu := h.loc u
            have hou := h.own u
            rw [h1] at hou
            simp only [LocOK, h1] at hlu
            have h2 : Inv M (s.goto u .rN) := h.move u rfl rfl rfl rfl ⟨hou, .inl rfl⟩ (by simp [h1, isR]) (by simp [h1, nAll]) (by simp [h1, nOne]) (by simp) (by simp) (by simp only [LocOK]; exact hlu)
            have e : (s.goto u .rN).l t = s.l t := by simp [St.goto, upd_ne _ _ (Ne.symm hut)]
            refine ret_inv h2 (by rw [e, hp]; rfl) (by rw [e, hp]; rfl) (fun q => by rw [e, hp] at q; cases q) (fun _ v _ hv => ?_)
            have a1 := (h2.claim v).1 (by simp [claims, isR, hv])
            have a2 := (h2.claim u).1 (by simp [claims, isR, St.goto])
            rw [a1] at a2
            have := Option.some.inj a2
            subst this
            simp [St.goto] at hv
          · simp at he

theorem Reach.inv {M : Nat} {s : St ι} (h : Reach M s) : Inv M s := by
  induction h with
  | init => exact inv_init M
  | step t a _ he ih => exact step_inv ih he

omit [Fintype ι] [DecidableEq ι] in
theorem holdOf_ret (d : List (Op × Bool)) (o : Op) (r : Bool) : holdOf (d ++ [(o, r)]) = after (holdOf d) o r := by simp [holdOf]

theorem step_done {M : Nat} {s s' : St ι} (h : Inv M s) (hd : ∀ u, DoneOK (s.l u)) {t : ι} {a : Act ι} (he : step M s t a = some s') : ∀ u, DoneOK (s'.l u) := by
  have hl := h.loc t
  have hdt := hd t
  have up : ∀ {l : ι → Loc} (x' : Loc), (∀ u, DoneOK (l u)) → DoneOK x' → ∀ u, DoneOK (upd l t x' u) := by
    intro l x' h0 hx u
    by_cases hut : u = t
    · subst hut; rw [upd_self]; exact hx
    · rw [upd_ne _ _ hut]; exact h0 u
  cases a with
  | start o =>
    simp only [step, Option.ite_none_right_eq_some, Option.some.injEq] at he
    obtain ⟨⟨h1, h2⟩, rfl⟩ := he
    refine up _ hd ?_
    simp only [DoneOK, h1] at hdt ⊢; exact hdt
  | spur =>
    simp only [step] at he
    split at he
    · rename_i h1
      simp only [Option.some.injEq] at he; subst he
      refine up _ hd ?_
      simp only [DoneOK, h1] at hdt ⊢; exact hdt
    · simp only [Option.ite_none_right_eq_some, Option.some.injEq] at he
      obtain ⟨h1, rfl⟩ := he
      refine up _ hd ?_
      simp only [DoneOK, h1] at hdt ⊢; exact hdt
  | timer =>
    simp only [step] at he
    split at he
    · rename_i h1
      simp only [Option.some.injEq] at he; subst he
      refine up _ hd ?_
      simp only [DoneOK, h1.1] at hdt ⊢; exact hdt
    · simp only [Option.ite_none_right_eq_some, Option.some.injEq] at he
      obtain ⟨⟨h1, h2⟩, rfl⟩ := he
      refine up _ hd ?_
      simp only [DoneOK, h1] at hdt ⊢; exact hdt
  | adv b c =>
    simp only [step, advStep] at he
    cases hp : (s.l t).pc with
    | idle => simp [hp] at he
    | wSlp => simp [hp] at he
    | rSlp => simp [hp] at he
    | acq | wN | rN | wT | rT =>
      simp only [hp, Option.ite_none_right_eq_some, Option.some.injEq] at he
      obtain ⟨h1, rfl⟩ := he
      refine up _ hd ?_
      simp only [DoneOK, hp] at hdt ⊢; exact hdt
    | wClk | rClk =>
      simp only [hp, Option.some.injEq] at he; subst he
      split <;> refine up _ hd ?_ <;> simp only [DoneOK, hp] at hdt ⊢ <;> exact hdt
    | crit =>
      simp only [hp, Option.some.injEq] at he; subst he
      simp only [LocOK, hp] at hl
      simp only [DoneOK, hp] at hdt
      unfold critStep
      cases hop : (s.l t).op <;> simp only <;> (try split) <;> refine up _ hd ?_ <;> simp only [DoneOK] <;> rw [← hdt] <;> simp [after, hl, hop, Op.needs]
    | wTest fin =>
      simp only [hp, Option.some.injEq] at he; subst he
      simp only [LocOK, hp] at hl
      simp only [DoneOK, hp] at hdt
      unfold wTestStep
      simp only [decide_eq_true_eq]
      (repeat' split) <;> refine up _ hd ?_ <;> simp only [DoneOK] <;> rw [← hdt] <;> rcases hl.2.1 with e | e | e | e <;> simp_all [after, Op.needs]
    | rTest fin =>
      simp only [hp, Option.some.injEq] at he; subst he
      simp only [LocOK, hp] at hl
      simp only [DoneOK, hp] at hdt
      unfold rTestStep
      (repeat' split) <;> refine up _ hd ?_ <;> simp only [DoneOK] <;> rw [← hdt] <;> rcases hl.2.1 with e | e <;> simp_all [after, Op.needs]
    | unl o n =>
      simp only [hp, Option.some.injEq] at he; subst he
      simp only [DoneOK, hp] at hdt
      split
      · refine up _ hd ?_
        simp only [DoneOK, holdOf_ret]; exact hdt.1
      · refine up _ hd ?_
        simp only [DoneOK]; exact hdt
    | ntf o n =>
      simp only [DoneOK, hp] at hdt
      cases n with
      | non =>
        simp only [hp, Option.some.injEq] at he; subst he
        refine up _ hd ?_
        simp only [DoneOK, holdOf_ret]; exact hdt.1
      | wAll =>
        simp only [hp, Option.some.injEq] at he; subst he
        refine up _ ?_ ?_
        · intro u
          have := hd u
          simp only [wakeAll]
          split
          · rename_i e; simp only [DoneOK, e] at this ⊢; exact this
          · exact this
        · have e : (wakeAll s).l t = s.l t := by simp [wakeAll, hp]
          rw [e]
          simp only [DoneOK, holdOf_ret]; exact hdt.1
      | rOne =>
        simp only [hp] at he
        cases c with
        | none =>
          simp only [wakeOne] at he
          split at he
          · simp only [Option.map_some, Option.some.injEq] at he; subst he
            refine up _ hd ?_
            simp only [DoneOK, holdOf_ret]; exact hdt.1
          · simp at he
        | some u =>
          simp only [wakeOne] at he
          split at he
          · rename_i h1
            simp only [Option.map_some, Option.some.injEq] at he; subst he
            have hut : u ≠ t := by rintro rfl; rw [hp] at h1; cases h1
            refine up _ ?_ ?_
            · intro v
              have := hd v
              by_cases hv : v = u
              · subst hv; simp only [St.goto, upd_self]
                simp only [DoneOK, h1] at this ⊢; exact this
              · simp only [St.goto, upd_ne _ _ hv]; exact this
            · have e : (s.goto u .rN).l t = s.l t := by simp [St.goto, upd_ne _ _ (Ne.symm hut)]
              rw [e]
              simp only [DoneOK, holdOf_ret]; exact hdt.1
          · simp at he

theorem Reach.done {M : Nat} {s : St ι} (h : Reach M s) : ∀ u, DoneOK (s.l u) := by
  induction h with
  | init => intro u; rfl
  | step t a hr he ih => exact step_done hr.inv ih he

/-- A thread between two operations owns what its completed operations say. -/
theorem Reach.hold_eq {M : Nat} {s : St ι} (h : Reach M s) {u : ι} (hu : (s.l u).pc = .idle) : (s.l u).hold = holdOf (s.l u).done := by
  have := h.done u
  simpa only [DoneOK, hu] using this

/-- Exclusion: when a thread owns the mutex exclusively, no other thread owns it, exclusively or shared; and never do more than `_Max_readers` threads share it. -/
theorem C48_shared_exclusive {M : Nat} {s : St ι} (h : Reach M s) :
    (∀ u v, (s.l u).pc = .idle → (s.l v).pc = .idle → holdOf (s.l u).done = .excl → holdOf (s.l v).done ≠ .non → u = v) ∧
    (Finset.univ.filter fun u => (s.l u).pc = .idle ∧ holdOf (s.l u).done = .shar).card ≤ M := by
  have hi := h.inv
  refine ⟨fun u v hu hv h1 h2 => ?_, ?_⟩
  · rw [← h.hold_eq hu] at h1; rw [← h.hold_eq hv] at h2
    have a1 := (hi.claim u).1 (by simp [claims, h1])
    cases h3 : (s.l v).hold with
    | non => exact absurd h3 h2
    | excl =>
      have a2 := (hi.claim v).1 (by simp [claims, h3])
      rw [a1] at a2; exact Option.some.inj a2
    | shar =>
      have a2 := hi.ex u h1
      have a3 := le_tot shar s.l v
      rw [hi.rd, a2] at a3
      simp [shar, h3] at a3
  · refine Nat.le_trans ?_ hi.max
    rw [← hi.rd, Finset.card_filter]
    refine Finset.sum_le_sum fun u _ => ?_
    split
    · rename_i e
      rw [← h.hold_eq e.1] at e
      simp [shar, e.2]
    · exact Nat.zero_le _

/-- `false` comes only from `try_lock`, `try_lock_shared` and the timed operations, and has a reason: at the moment of the test another thread owned the mutex or waited for it
as a writer; for shared ownership, exclusively, or it waited as a writer, or `_Max_readers` threads shared it. -/
theorem C48_shared_refused {M : Nat} {s s' : St ι} (h : Reach M s) {t : ι} {b : Bool} {c : Option ι} {n : Ntf} (he : advStep M s t b c = some s') (hn : (s.l t).pc ≠ .unl false n)
    (hp : (s'.l t).pc = .unl false n) :
    (((s.l t).op = .tryLock ∨ (s.l t).op = .lockUntil) ∧ ∃ u, u ≠ t ∧ ((s.l u).hold ≠ .non ∨ isR (s.l u).pc = true)) ∨
    (((s.l t).op = .trySh ∨ (s.l t).op = .shUntil) ∧ ((∃ u, u ≠ t ∧ ((s.l u).hold = .excl ∨ isR (s.l u).pc = true)) ∨ (Finset.univ.filter fun u => (s.l u).hold = .shar).card = M)) := by
  have hi := h.inv
  have hl := hi.loc t
  have hwr : s.writing = true → (s.l t).hold ≠ .excl → isR (s.l t).pc = false → ∃ u, u ≠ t ∧ ((s.l u).hold = .excl ∨ isR (s.l u).pc = true) := by
    intro h1 h2 h3
    have h4 := hi.wri
    rw [h1] at h4
    obtain ⟨u, hu⟩ := Option.isSome_iff_exists.1 h4.symm
    have h5 := (hi.claim u).2 hu
    refine ⟨u, ?_, by simpa [claims] using h5⟩
    rintro rfl
    simp [claims, h2, h3] at h5
  have hrd : 0 < s.readers → (s.l t).hold ≠ .shar → ∃ u, u ≠ t ∧ (s.l u).hold = .shar := by
    intro h1 h2
    rw [← hi.rd] at h1
    obtain ⟨u, hu⟩ := tot_pos h1
    have h3 : (s.l u).hold = .shar := by by_contra hh; simp [shar, hh] at hu
    exact ⟨u, by rintro rfl; exact h2 h3, h3⟩
  have hcard : (Finset.univ.filter fun u => (s.l u).hold = .shar).card = s.readers := by
    rw [← hi.rd, Finset.card_filter]; rfl
  unfold advStep at he
  cases hpc : (s.l t).pc with
  | idle => simp [hpc] at he
  | wSlp => simp [hpc] at he
  | rSlp => simp [hpc] at he
  | acq | wN | rN | wT | rT =>
    simp only [hpc, Option.ite_none_right_eq_some, Option.some.injEq] at he
    obtain ⟨h1, rfl⟩ := he
    simp [St.goto] at hp
  | wClk | rClk =>
    simp only [hpc, Option.some.injEq] at he; subst he
    split at hp <;> simp [St.goto] at hp
  | crit =>
    simp only [hpc, Option.some.injEq] at he; subst he
    simp only [LocOK, hpc] at hl
    unfold critStep at hp
    cases hop : (s.l t).op with
    | tryLock =>
      simp only [hop] at hp
      have hh : (s.l t).hold = .non := by rw [hl, hop]; rfl
      split at hp
      · rename_i h1
        refine .inl ⟨.inl rfl, ?_⟩
        rcases h1 with h1 | h1
        · obtain ⟨u, e1, e2⟩ := hwr h1 (by simp [hh]) (by simp [hpc, isR])
          exact ⟨u, e1, e2.imp (fun e => by simp [e]) id⟩
        · obtain ⟨u, e1, e2⟩ := hrd h1 (by simp [hh])
          exact ⟨u, e1, .inl (by simp [e2])⟩
      · simp [St.gotoH] at hp
    | trySh =>
      simp only [hop] at hp
      have hh : (s.l t).hold = .non := by rw [hl, hop]; rfl
      split at hp
      · rename_i h1
        refine .inr ⟨.inl rfl, ?_⟩
        rcases h1 with h1 | h1
        · exact .inl (hwr h1 (by simp [hh]) (by simp [hpc, isR]))
        · exact .inr (by rw [hcard, h1])
      · simp [St.gotoH] at hp
    | unlock => simp [hop, St.gotoH] at hp
    | unlockSh => simp [hop, St.gotoH] at hp
    | lock => simp [hop, St.goto] at hp
    | lockUntil => simp [hop, St.goto] at hp
    | lockSh => simp [hop, St.goto] at hp
    | shUntil => simp [hop, St.goto] at hp
  | wTest fin =>
    simp only [hpc, Option.some.injEq] at he; subst he
    simp only [LocOK, hpc] at hl
    unfold wTestStep at hp
    simp only [decide_eq_true_eq] at hp
    split at hp
    · split at hp <;> simp [St.goto, St.gotoH] at hp
    · rename_i h1
      split at hp
      · rename_i hf
        rcases hl.2.2 hf with e | e
        · refine .inl ⟨.inr e, ?_⟩
          have h2 : s.writing = true := by
            cases hq : s.writing with
            | true => rfl
            | false => exact absurd ⟨hq, fun q => by rw [e] at q; simp at q⟩ h1
          obtain ⟨u, e1, e2⟩ := hwr h2 (by simp [hl.1]) (by simp [hpc, isR])
          exact ⟨u, e1, e2.imp (fun e => by simp [e]) id⟩
        · refine .inr ⟨.inr e, ?_⟩
          by_cases h2 : s.writing = true
          · exact .inl (hwr h2 (by simp [hl.1]) (by simp [hpc, isR]))
          · refine .inr ?_
            rw [hcard]
            by_contra hh
            exact h1 ⟨by simpa using h2, fun _ => hh⟩
      · split at hp <;> simp [St.goto] at hp
  | rTest fin =>
    simp only [hpc, Option.some.injEq] at he; subst he
    simp only [LocOK, hpc] at hl
    unfold rTestStep at hp
    split at hp
    · simp [St.gotoH] at hp
    · rename_i h1
      split at hp
      · rename_i hf
        refine .inl ⟨.inr (hl.2.2 hf), ?_⟩
        obtain ⟨u, e1, e2⟩ := hrd (Nat.pos_of_ne_zero h1) (by simp [hl.1])
        exact ⟨u, e1, .inl (by simp [e2])⟩
      · split at hp <;> simp [St.goto] at hp
  | unl o' n' =>
    simp only [hpc, Option.some.injEq] at he; subst he
    split at hp <;> simp [St.goto, St.ret] at hp
  | ntf o' n' =>
    cases n' with
    | non => simp only [hpc, Option.some.injEq] at he; subst he; simp [St.ret] at hp
    | wAll => simp only [hpc, Option.some.injEq] at he; subst he; simp [St.ret] at hp
    | rOne =>
      simp only [hpc] at he
      cases hq : wakeOne s c with
      | none => rw [hq] at he; cases he
      | some s1 => rw [hq] at he; simp only [Option.map_some, Option.some.injEq] at he; subst he; simp [St.ret] at hp

theorem hold_adv {M : Nat} {s s' : St ι} {t u : ι} {a : Act ι} (he : step M s t a = some s') (h1 : (s'.l u).hold = .shar) (h2 : (s.l u).hold ≠ .shar) :
    s.writing = false := by
  have ne : ∀ {l : ι → Loc} {x' : Loc}, (upd l t x' u).hold = .shar → (l u).hold ≠ .shar → u = t := by
    intro l x' e1 e2
    by_contra hh
    rw [upd_ne _ _ hh] at e1; exact e2 e1
  cases a with
  | start o =>
    simp only [step, Option.ite_none_right_eq_some, Option.some.injEq] at he
    obtain ⟨_, rfl⟩ := he
    obtain rfl := ne h1 h2
    simp at h1; exact absurd h1 h2
  | spur =>
    simp only [step] at he
    (repeat' split at he) <;> simp only [Option.some.injEq, reduceCtorEq] at he <;> subst he <;> obtain rfl := ne h1 h2 <;> simp [St.goto] at h1 <;> exact absurd h1 h2
  | timer =>
    simp only [step] at he
    (repeat' split at he) <;> simp only [Option.some.injEq, reduceCtorEq] at he <;> subst he <;> obtain rfl := ne h1 h2 <;> simp [St.goto] at h1 <;> exact absurd h1 h2
  | adv b c =>
    simp only [step, advStep] at he
    cases hp : (s.l t).pc with
    | idle => simp [hp] at he
    | wSlp => simp [hp] at he
    | rSlp => simp [hp] at he
    | acq | wN | rN | wT | rT =>
      simp only [hp, Option.ite_none_right_eq_some, Option.some.injEq] at he
      obtain ⟨_, rfl⟩ := he
      obtain rfl := ne h1 h2
      simp [St.goto] at h1; exact absurd h1 h2
    | wClk | rClk =>
      simp only [hp, Option.some.injEq] at he; subst he
      split at h1 <;> obtain rfl := ne h1 h2 <;> simp [St.goto] at h1 <;> exact absurd h1 h2
    | crit =>
      simp only [hp, Option.some.injEq] at he; subst he
      unfold critStep at h1
      cases hop : (s.l t).op <;> simp only [hop] at h1 <;> (try split at h1) <;> obtain rfl := ne h1 h2 <;> simp [St.goto, St.gotoH] at h1 <;> first | exact absurd h1 h2 | grind
    | wTest fin =>
      simp only [hp, Option.some.injEq] at he; subst he
      unfold wTestStep at h1
      simp only [decide_eq_true_eq] at h1
      (repeat' split at h1) <;> obtain rfl := ne h1 h2 <;> simp [St.goto, St.gotoH] at h1 <;> first | exact absurd h1 h2 | grind
    | rTest fin =>
      simp only [hp, Option.some.injEq] at he; subst he
      unfold rTestStep at h1
      (repeat' split at h1) <;> obtain rfl := ne h1 h2 <;> simp [St.goto, St.gotoH] at h1 <;> first | exact absurd h1 h2 | grind
    | unl o n =>
      simp only [hp, Option.some.injEq] at he; subst he
      split at h1 <;> obtain rfl := ne h1 h2 <;> simp [St.goto, St.ret] at h1 <;> exact absurd h1 h2
    | ntf o n =>
      have hwa : ∀ v, ((wakeAll s).l v).hold = (s.l v).hold := by intro v; simp only [wakeAll]; split <;> rfl
      cases n with
      | non =>
        simp only [hp, Option.some.injEq] at he; subst he
        obtain rfl := ne h1 h2
        simp [St.ret] at h1; exact absurd h1 h2
      | wAll =>
        simp only [hp, Option.some.injEq] at he; subst he
        have h3 : ((wakeAll s).l u).hold ≠ .shar := by rw [hwa]; exact h2
        obtain rfl := ne h1 h3
        simp [St.ret] at h1; exact absurd h1 h3
      | rOne =>
        simp only [hp] at he
        cases hq : wakeOne s c with
        | none => rw [hq] at he; cases he
        | some s1 =>
          rw [hq] at he; simp only [Option.map_some, Option.some.injEq] at he; subst he
          have h3 : (s1.l u).hold ≠ .shar := by
            cases c with
            | none =>
              simp only [wakeOne, Option.ite_none_right_eq_some, Option.some.injEq] at hq
              rw [← hq.2]; exact h2
            | some v =>
              simp only [wakeOne, Option.ite_none_right_eq_some, Option.some.injEq] at hq
              rw [← hq.2]
              simp only [St.goto]
              by_cases hv : u = v
              · subst hv; simpa using h2
              · rw [upd_ne _ _ hv]; exact h2
          obtain rfl := ne h1 h3
          simp [St.ret] at h1; exact absurd h1 h3

/-- Writers come before new readers: while a writer owns the mutex or waits for the readers to go, no thread gets shared ownership. -/
theorem C48_shared_writer_first {M : Nat} {s s' : St ι} (h : Reach M s) {t u w : ι} {a : Act ι} (he : step M s t a = some s') (hw : (s.l w).hold = .excl ∨ isR (s.l w).pc = true)
    (hu : (s'.l u).hold = .shar) : (s.l u).hold = .shar := by
  by_contra h2
  have h3 := hold_adv he hu h2
  have h4 := (h.inv.claim w).1 (by rcases hw with e | e <;> simp [claims, e])
  rw [h.inv.wri, h4] at h3
  simp at h3

/-- No wake-up is lost: when no thread can go on (and no timed wait is left, whose timer would end it), each thread in the middle of an operation is asleep, and some thread between two operations owns the mutex. -/
theorem C48_shared_progress {M : Nat} {s : St ι} (h : Reach M s) (hM : 0 < M) (hs : ∀ t b c, advStep M s t b c = none) (ht : ∀ t, step M s t .timer = none) (t : ι) :
    (s.l t).pc = .idle ∨ (((s.l t).pc = .wSlp ∧ ((s.l t).op = .lock ∨ (s.l t).op = .lockSh) ∨ (s.l t).pc = .rSlp ∧ (s.l t).op = .lock) ∧
      ∃ u, u ≠ t ∧ (s.l u).pc = .idle ∧ holdOf (s.l u).done ≠ .non) := by
  have hi := h.inv
  have hnc : ∀ u, isCrit (s.l u).pc = false ∧ ∀ o n, (s.l u).pc ≠ .ntf o n := by
    intro u
    have h1 := hs u false none
    constructor
    · cases hp : (s.l u).pc <;> simp [advStep, hp] at h1 <;> rfl
    · intro o n hp
      cases n with
      | non => simp [advStep, hp] at h1
      | wAll => simp [advStep, hp] at h1
      | rOne =>
        by_cases hz : ∃ v, (s.l v).pc = .rSlp
        · obtain ⟨v, hv⟩ := hz
          have h2 := hs u false (some v)
          simp [advStep, hp, wakeOne, hv] at h2
        · have hz' : ∀ v, (s.l v).pc ≠ .rSlp := fun v hv => hz ⟨v, hv⟩
          simp [advStep, hp, wakeOne] at h1
          obtain ⟨v, hv⟩ := h1
          exact hz' v hv
  have hown : s.own = none := by
    cases ho : s.own with
    | none => rfl
    | some w => have := (hi.own w).2 ho; rw [(hnc w).1] at this; cases this
  have hpc : ∀ u, (s.l u).pc = .idle ∨ ((s.l u).pc = .wSlp ∧ ((s.l u).op = .lock ∨ (s.l u).op = .lockSh)) ∨ ((s.l u).pc = .rSlp ∧ (s.l u).op = .lock) := by
    intro u
    have h1 := hs u false none
    have h2 := hnc u
    have h3 := ht u
    have h4 := hi.loc u
    cases hp : (s.l u).pc <;> simp [advStep, hp, hown, isCrit, step, LocOK] at h1 h2 h3 h4 ⊢ <;> grind
  have hna : ∀ u, nAll (s.l u).pc = false ∧ nOne (s.l u).pc = false := by
    intro u; rcases hpc u with e | e | e <;> simp [e, nAll, nOne]
  have hloc := hi.loc
  -- a sharer is idle
  have hsh : 0 < s.readers → ∃ u, (s.l u).pc = .idle ∧ (s.l u).hold = .shar := by
    intro h1
    rw [← hi.rd] at h1
    obtain ⟨u, hu⟩ := tot_pos h1
    have h3 : (s.l u).hold = .shar := by by_contra hh; simp [shar, hh] at hu
    refine ⟨u, ?_, h3⟩
    rcases hpc u with e | e | e
    · exact e
    · have := hloc u; simp only [LocOK, e.1] at this; rw [this.1] at h3; cases h3
    · have := hloc u; simp only [LocOK, e.1] at this; rw [this.1] at h3; cases h3
  have hwrt : s.writing = true → ∃ u, (s.l u).pc = .idle ∧ (s.l u).hold ≠ .non := by
    intro h1
    rw [hi.wri] at h1
    obtain ⟨u, hu⟩ := Option.isSome_iff_exists.1 h1
    have h2 := (hi.claim u).2 hu
    rcases hpc u with e | e | e
    · exact ⟨u, e, by simp [claims, e, isR] at h2; simp [h2]⟩
    · have := hloc u; simp only [LocOK, e.1] at this; simp [claims, e, isR, this.1] at h2
    · have h3 : 0 < s.readers := by
        rcases Nat.eq_zero_or_pos s.readers with h0 | h0
        · obtain ⟨v, hv⟩ := hi.lr h0 u e.1 e.2
          rw [(hna v).2] at hv; cases hv
        · exact h0
      obtain ⟨v, e1, e2⟩ := hsh h3
      exact ⟨v, e1, by simp [e2]⟩
  have fin : (∃ u, (s.l u).pc = .idle ∧ (s.l u).hold ≠ .non) → (s.l t).pc ≠ .idle → ∃ u, u ≠ t ∧ (s.l u).pc = .idle ∧ holdOf (s.l u).done ≠ .non := by
    rintro ⟨u, e1, e2⟩ h2
    exact ⟨u, by rintro rfl; exact h2 e1, e1, by rw [← h.hold_eq e1]; exact e2⟩
  rcases hpc t with e | e | e
  · exact .inl e
  · refine .inr ⟨.inl e, fin ?_ (by simp [e.1])⟩
    by_cases h1 : s.writing = true
    · exact hwrt h1
    · have h1' : s.writing = false := by simpa using h1
      by_cases h2 : 0 < s.readers
      · obtain ⟨u, e1, e2⟩ := hsh h2
        exact ⟨u, e1, by simp [e2]⟩
      · obtain ⟨v, hv⟩ := hi.lw h1' t e.1 (by rcases e.2 with q | q <;> grind)
        rw [(hna v).1] at hv; cases hv
  · refine .inr ⟨.inr e, fin (hwrt ?_) (by simp [e.1])⟩
    have := (hi.claim t).1 (by simp [claims, e.1, isR])
    rw [hi.wri, this]; rfl

end STL.Locks.Shared
