import Verif.Par.FindProps

/-! # C39, continued: iterators that do not fit an atomic; `all_of` and its relatives -/

namespace STL.Par
open STL STL.Conc Spec

namespace Find.B
variable {ι : Type} [DecidableEq ι] [Fintype ι]

/-- The first match of chunk `c`. -/
def fm (n k : Nat) (pred : Nat → Bool) (c : Nat) : Nat := firstMatch pred (off n k c) (off n k (c + 1) - off n k c)

/-- What a thread that still matters for position `x` looks like. -/
def cov (n k : Nat) (x : Nat) : PC → Prop
  | .scan _ a b => a ≤ x ∧ x < b
  | .cas c _ _ => off n k c ≤ x
  | _ => False

/-- About to publish chunk `c`. -/
def pend (c : Nat) : PC → Prop
  | .lock c' _ => c' = c
  | .load c' _ => c' = c
  | .write c' _ => c' = c
  | _ => False

def isWrite : PC → Prop
  | .write _ _ => True
  | _ => False

def isDone : PC → Nat
  | .done => 1
  | _ => 0

/-- Holds the mutex. -/
def holding : PC → Nat
  | .load _ _ => 1
  | .write _ _ => 1
  | .unlock => 1
  | _ => 0

theorem isDone_le (p : PC) : isDone p ≤ 1 := by cases p <;> simp [isDone]

def chunkOk (n k : Nat) (pred : Nat → Bool) (s : Shared) (c loc : Nat) : Prop := c < min s.consumed k ∧ loc = fm n k pred c ∧ loc < off n k (c + 1)

def pcOk (n k : Nat) (pred : Nat → Bool) (s : Shared) : PC → Prop
  | .scan c a b => c < min s.consumed k ∧ a = off n k c ∧ b = off n k (c + 1)
  | .cas c loc exp => chunkOk n k pred s c loc ∧ c ≤ exp
  | .lock c loc => chunkOk n k pred s c loc
  | .load c loc => chunkOk n k pred s c loc
  | .write c loc => chunkOk n k pred s c loc
  | .done => k ≤ s.consumed ∨ s.selected ≠ active
  | .unlock => s.selected ≠ active
  | .crash => False
  | _ => True

structure Inv (n k : Nat) (pred : Nat → Bool) (σ : State ι) : Prop where
  sel : σ.s.selected = active ∨ (σ.s.selected < min σ.s.consumed k ∧ fm n k pred σ.s.selected < off n k (σ.s.selected + 1))
  best : ∀ x, x < off n k (min σ.s.consumed k) → pred x = true → (σ.s.selected ≠ active ∧ off n k σ.s.selected ≤ x) ∨ ∃ t, cov n k x (σ.l t)
  pub : σ.s.selected ≠ active → (σ.s.result = fm n k pred σ.s.selected ∧ ∀ t, ¬ isWrite (σ.l t)) ∨ ∃ t, pend σ.s.selected (σ.l t)
  none : σ.s.selected = active → σ.s.result = n ∧ ∀ t c, ¬ pend c (σ.l t)
  pcs : ∀ t, pcOk n k pred σ.s (σ.l t)
  mutex : tot holding σ.l = if σ.s.locked then 1 else 0
  bound : σ.s.consumed ≤ k + tot isDone σ.l

theorem inv_init (n k : Nat) (pred : Nat → Bool) : Inv n k pred (init (ι := ι) n) := by
  refine ⟨Or.inl rfl, ?_, fun h => absurd rfl h, fun _ => ⟨rfl, fun t c h => h⟩, fun t => trivial, ?_, by simp [init]⟩
  · intro x hx
    simp [init, off] at hx
  · exact tot_eq_zero fun t => rfl

theorem pcOk_mono {n k : Nat} {pred : Nat → Bool} {s s' : Shared} (h1 : s.consumed ≤ s'.consumed) (h2 : s.selected ≠ active → s'.selected ≠ active) {p : PC} (h : pcOk n k pred s p) : pcOk n k pred s' p := by
  cases p with
  | scan c a b => exact ⟨by have := h.1; omega, h.2⟩
  | cas c loc exp => obtain ⟨⟨u, v⟩, w⟩ := h; exact ⟨⟨by omega, v⟩, w⟩
  | lock c loc => obtain ⟨u, v⟩ := h; exact ⟨by omega, v⟩
  | load c loc => obtain ⟨u, v⟩ := h; exact ⟨by omega, v⟩
  | write c loc => obtain ⟨u, v⟩ := h; exact ⟨by omega, v⟩
  | done => rcases h with h | h
            · exact Or.inl (by omega)
            · exact Or.inr (h2 h)
  | crash => exact h
  | unlock => exact h2 h
  | _ => trivial

/-- A step that changes neither the shared state nor what the thread stands for. -/
theorem inv_quiet {n k : Nat} {pred : Nat → Bool} {σ : State ι} {t : ι} {p : PC} (I : Inv n k pred σ)
    (hc : ∀ x, x < off n k (min σ.s.consumed k) → pred x = true → cov n k x (σ.l t) → (σ.s.selected ≠ active ∧ off n k σ.s.selected ≤ x) ∨ cov n k x p)
    (hp : ∀ c, pend c (σ.l t) → c = σ.s.selected → pend c p) (hp' : ∀ c, σ.s.selected = active → ¬ pend c p) (hw : isWrite p → pend σ.s.selected p)
    (ho : pcOk n k pred σ.s p) (hh : holding p = holding (σ.l t)) (hd : isDone (σ.l t) ≤ isDone p) : Inv n k pred ⟨σ.s, upd σ.l t p⟩ := by
  obtain ⟨rD, hD1, hD2⟩ := split_tot isDone σ.l t
  obtain ⟨rH, hH1, hH2⟩ := split_tot holding σ.l t
  refine ⟨I.sel, fun x hx hpx => ?_, fun hs => ?_, fun hs => ?_, upd_all I.pcs ho, ?_, ?_⟩
  · rcases I.best x hx hpx with hb | hb
    · exact Or.inl hb
    · exact upd_ex _ hb (hc x hx hpx)
  · rcases I.pub hs with ⟨h1, h2⟩ | h
    · by_cases hwp : isWrite p
      · exact Or.inr ⟨t, by dsimp only; rw [upd_self]; exact hw hwp⟩
      · exact Or.inl ⟨h1, upd_all (P := fun q => ¬ isWrite q) h2 hwp⟩
    · exact upd_ex _ h fun h => Or.inr (hp _ h rfl)
  · obtain ⟨h1, h2⟩ := I.none hs
    refine ⟨h1, fun u c => upd_all (P := fun q => ¬ pend c q) (fun u => h2 u c) (hp' c hs) u⟩
  · have := I.mutex
    dsimp only; rw [hH2, hh, ← hH1]; exact this
  · have := I.bound
    dsimp only; rw [hD2]; rw [hD1] at this; omega

set_option maxHeartbeats 1600000 in
theorem inv_step {n k : Nat} {pred : Nat → Bool} (hk : 1 ≤ k) (hn : k ≤ n) (hB : n < 2 ^ 63) (hT : k + Fintype.card ι < 2 ^ 64) {σ σ' : State ι} {t : ι} {a : Act}
    (I : Inv n k pred σ) (h : step (team n k) pred σ t a = some σ') : Inv n k pred σ' := by
  have C := off_cut hk hn
  have hle := C.le (show min σ.s.consumed k ≤ k by omega)
  have hact : active = 2 ^ 64 - 1 := rfl
  norm_num at hact
  unfold step at h
  rw [Option.map_eq_some_iff] at h
  obtain ⟨⟨s', p'⟩, hs, rfl⟩ := h
  obtain ⟨rD, hD1, hD2⟩ := split_tot isDone σ.l t
  obtain ⟨rH, hH1, hH2⟩ := split_tot holding σ.l t
  have sel := I.sel
  have best := I.best
  have pub := I.pub
  have pcs := I.pcs
  have bound := I.bound
  have mutex := I.mutex
  have pt := pcs t
  have fail : ∀ c loc exp, σ.l t = .cas c loc exp → chunkOk n k pred σ.s c loc → Inv n k pred ⟨σ.s, upd σ.l t (failed σ.s c loc)⟩ := by
    intro c loc exp hpc hck
    have hcc := hck.1
    unfold failed
    by_cases hg : c > σ.s.selected
    · rw [if_pos hg]
      apply inv_quiet I
      · intro x hx hp hcv
        rw [hpc] at hcv
        have h1 : off n k c ≤ x := hcv
        have h2 := C.mono (show σ.s.selected ≤ c by omega) (show c ≤ k by omega)
        exact Or.inl ⟨by omega, by omega⟩
      · intro c' h; rw [hpc] at h; exact h.elim
      · intro c' _ h; exact h
      · intro h; exact h.elim
      · exact Or.inr (by omega)
      · rw [hpc]; rfl
      · rw [hpc]; exact Nat.zero_le _
    · rw [if_neg hg]
      apply inv_quiet I
      · intro x hx hp hcv
        rw [hpc] at hcv
        exact Or.inr hcv
      · intro c' h; rw [hpc] at h; exact h.elim
      · intro c' _ h; exact h
      · intro h; exact h.elim
      · exact ⟨hck, by omega⟩
      · rw [hpc]; rfl
      · rw [hpc]; exact Nat.zero_le _
  cases hpc : σ.l t with
  | idle =>
    rw [hpc] at hs
    cases a with
    | spur => simp [stepL] at hs
    | adv =>
      simp only [stepL, Option.some.injEq, Prod.mk.injEq] at hs
      obtain ⟨rfl, rfl⟩ := hs
      apply inv_quiet I
      · intro x hx hp hcv; rw [hpc] at hcv; exact hcv.elim
      · intro c' h; rw [hpc] at h; exact h.elim
      · intro c' _ h; exact h
      · intro h; exact h.elim
      · trivial
      · rw [hpc]; rfl
      · rw [hpc]; exact Nat.zero_le _
  | check =>
    rw [hpc] at hs
    cases a with
    | spur => simp [stepL] at hs
    | adv =>
      simp only [stepL, Option.some.injEq, Prod.mk.injEq] at hs
      obtain ⟨rfl, rfl⟩ := hs
      by_cases hr : σ.s.selected ≠ active
      · rw [if_pos hr]
        apply inv_quiet I
        · intro x hx hp hcv; rw [hpc] at hcv; exact hcv.elim
        · intro c' h; rw [hpc] at h; exact h.elim
        · intro c' _ h; exact h
        · intro h; exact h.elim
        · exact Or.inr hr
        · rw [hpc]; rfl
        · rw [hpc]; exact Nat.zero_le _
      · rw [if_neg hr]
        apply inv_quiet I
        · intro x hx hp hcv; rw [hpc] at hcv; exact hcv.elim
        · intro c' h; rw [hpc] at h; exact h.elim
        · intro c' _ h; exact h
        · intro h; exact h.elim
        · trivial
        · rw [hpc]; rfl
        · rw [hpc]; exact Nat.zero_le _
  | take =>
    rw [hpc] at hs hD1 hH1
    cases a with
    | spur => simp [stepL] at hs
    | adv =>
      simp only [stepL, nextChunk_ok hk hn hB, Option.some.injEq, Prod.mk.injEq] at hs
      obtain ⟨rfl, hp⟩ := hs
      have hlt : tot isDone σ.l + 1 ≤ Fintype.card ι := by
        have h1 : tot isDone (upd σ.l t .done) ≤ Fintype.card ι := Find.A.tot_le_card isDone_le _
        rw [hD2] at h1
        rw [hD1]
        simpa [isDone] using h1
      have hc : (nextKey (team n k) σ.s.consumed).2 = σ.s.consumed + 1 := by
        show (σ.s.consumed + 1) % 2 ^ 64 = _
        exact Nat.mod_eq_of_lt (by omega)
      rw [hc]
      have hpcs : ∀ u, pcOk n k pred { σ.s with consumed := σ.s.consumed + 1 } (σ.l u) := fun u => pcOk_mono (s := σ.s) (s' := { σ.s with consumed := σ.s.consumed + 1 }) (by dsimp only; omega) (fun h => h) (pcs u)
      have hsel : σ.s.selected = active ∨ (σ.s.selected < min (σ.s.consumed + 1) k ∧ fm n k pred σ.s.selected < off n k (σ.s.selected + 1)) := by
        rcases sel with h | ⟨h, h'⟩
        · exact Or.inl h
        · exact Or.inr ⟨by omega, h'⟩
      by_cases hck : σ.s.consumed < k
      · rw [if_pos hck] at hp
        dsimp only at hp
        subst hp
        refine ⟨hsel, fun x hx hp => ?_, fun hse => ?_, fun hse => ?_, upd_all hpcs ⟨by dsimp only; omega, rfl, rfl⟩, ?_, ?_⟩
        · by_cases hx' : x < off n k (min σ.s.consumed k)
          · rcases best x hx' hp with hb | hb
            · exact Or.inl hb
            · exact upd_ex _ hb fun hc => by rw [hpc] at hc; exact hc.elim
          · refine Or.inr ⟨t, ?_⟩
            dsimp only at hx ⊢
            rw [upd_self]
            rw [show min σ.s.consumed k = σ.s.consumed by omega] at hx'
            rw [show min (σ.s.consumed + 1) k = σ.s.consumed + 1 by omega] at hx
            exact ⟨by omega, hx⟩
        · rcases pub hse with ⟨h1, h2⟩ | h
          · exact Or.inl ⟨h1, upd_all (P := fun q => ¬ isWrite q) h2 (fun h => h)⟩
          · exact upd_ex _ h fun h => by rw [hpc] at h; exact h.elim
        · obtain ⟨h1, h2⟩ := I.none hse
          exact ⟨h1, fun u c => upd_all (P := fun q => ¬ pend c q) (fun u => h2 u c) (by intro h; exact h) u⟩
        · dsimp only; rw [hH2]; rw [hH1] at mutex; exact mutex
        · dsimp only; rw [hD2]; rw [hD1] at bound; simp only [isDone] at bound ⊢; omega
      · rw [if_neg hck] at hp
        dsimp only at hp
        subst hp
        refine ⟨hsel, fun x hx hp => ?_, fun hse => ?_, fun hse => ?_, upd_all hpcs (Or.inl (by dsimp only; omega)), ?_, ?_⟩
        · dsimp only at hx
          rw [show min (σ.s.consumed + 1) k = min σ.s.consumed k by omega] at hx
          rcases best x hx hp with hb | hb
          · exact Or.inl hb
          · exact upd_ex _ hb fun hc => by rw [hpc] at hc; exact hc.elim
        · rcases pub hse with ⟨h1, h2⟩ | h
          · exact Or.inl ⟨h1, upd_all (P := fun q => ¬ isWrite q) h2 (fun h => h)⟩
          · exact upd_ex _ h fun h => by rw [hpc] at h; exact h.elim
        · obtain ⟨h1, h2⟩ := I.none hse
          exact ⟨h1, fun u c => upd_all (P := fun q => ¬ pend c q) (fun u => h2 u c) (by intro h; exact h) u⟩
        · dsimp only; rw [hH2]; rw [hH1] at mutex; exact mutex
        · dsimp only; rw [hD2]; rw [hD1] at bound; simp only [isDone] at bound ⊢; omega
  | scan c a' b =>
    rw [hpc] at hs pt
    cases a with
    | spur => simp [stepL] at hs
    | adv =>
      simp only [stepL, Option.some.injEq, Prod.mk.injEq] at hs
      obtain ⟨rfl, rfl⟩ := hs
      obtain ⟨hc, rfl, rfl⟩ := pt
      have hst := C.step c (by omega)
      have hmc := C.mono (show c + 1 ≤ min σ.s.consumed k by omega) (by omega)
      obtain ⟨f1, f2, f3, f4⟩ := firstMatch_spec pred (off n k (c + 1) - off n k c) (off n k c)
      by_cases he : firstMatch pred (off n k c) (off n k (c + 1) - off n k c) = off n k (c + 1)
      · rw [if_pos he]
        apply inv_quiet I
        · intro x hx hp hcv
          rw [hpc] at hcv
          have h2 : x < off n k (c + 1) := hcv.2
          have := f3 x hcv.1 (by omega)
          rw [this] at hp; exact absurd hp (by simp)
        · intro c' h; rw [hpc] at h; exact h.elim
        · intro c' _ h; exact h
        · intro h; exact h.elim
        · trivial
        · rw [hpc]; rfl
        · rw [hpc]; exact Nat.zero_le _
      · rw [if_neg he]
        apply inv_quiet I
        · intro x hx hp hcv
          rw [hpc] at hcv
          exact Or.inr hcv.1
        · intro c' h; rw [hpc] at h; exact h.elim
        · intro c' _ h; exact h
        · intro h; exact h.elim
        · exact ⟨⟨hc, rfl, by omega⟩, by omega⟩
        · rw [hpc]; rfl
        · rw [hpc]; exact Nat.zero_le _
  | cas c loc exp =>
    rw [hpc] at hs pt hD1 hH1
    obtain ⟨p1, p2⟩ := pt
    cases a with
    | spur =>
      simp only [stepL, Option.some.injEq, Prod.mk.injEq] at hs
      obtain ⟨rfl, rfl⟩ := hs
      exact fail c loc exp hpc p1
    | adv =>
      unfold stepL at hs
      dsimp only at hs
      by_cases he : σ.s.selected = exp
      · rw [if_pos he] at hs
        simp only [Option.some.injEq, Prod.mk.injEq] at hs
        obtain ⟨rfl, rfl⟩ := hs
        obtain ⟨q1, q2, q3⟩ := p1
        have hca : c ≠ active := by omega
        have hpcs : ∀ u, pcOk n k pred { σ.s with selected := c } (σ.l u) := fun u => pcOk_mono (s := σ.s) (s' := { σ.s with selected := c }) (Nat.le_refl _) (fun _ => hca) (pcs u)
        refine ⟨Or.inr ⟨q1, q2 ▸ q3⟩, fun x hx hp => ?_, fun _ => Or.inr ⟨t, by dsimp only; rw [upd_self]; rfl⟩, fun hse => absurd hse hca, upd_all hpcs ⟨q1, q2, q3⟩, ?_, ?_⟩
        · rcases best x hx hp with ⟨hb1, hb2⟩ | hb
          · refine Or.inl ⟨hca, ?_⟩
            have : σ.s.selected < min σ.s.consumed k := by
              rcases sel with h | h
              · exact absurd h hb1
              · exact h.1
            have := C.mono (show c ≤ σ.s.selected by omega) (by omega)
            dsimp only; omega
          · exact upd_ex _ hb fun hcv => by rw [hpc] at hcv; exact Or.inl ⟨hca, hcv⟩
        · dsimp only; rw [hH2]; rw [hH1] at mutex; exact mutex
        · dsimp only; rw [hD2]; rw [hD1] at bound; simpa [isDone] using bound
      · rw [if_neg he] at hs
        simp only [Option.some.injEq, Prod.mk.injEq] at hs
        obtain ⟨rfl, rfl⟩ := hs
        exact fail c loc exp hpc p1
  | lock c loc =>
    rw [hpc] at hs pt hD1 hH1
    cases a with
    | spur => simp [stepL] at hs
    | adv =>
      unfold stepL at hs
      dsimp only at hs
      by_cases hl : σ.s.locked = true
      · rw [if_pos hl] at hs; exact absurd hs (by simp)
      · rw [if_neg hl] at hs
        simp only [Option.some.injEq, Prod.mk.injEq] at hs
        obtain ⟨rfl, rfl⟩ := hs
        have hpcs : ∀ u, pcOk n k pred { σ.s with locked := true } (σ.l u) := fun u => pcOk_mono (s := σ.s) (Nat.le_refl _) (fun h => h) (pcs u)
        refine ⟨sel, fun x hx hp => ?_, fun hse => ?_, fun hse => ?_, upd_all hpcs pt, ?_, ?_⟩
        · rcases best x hx hp with hb | hb
          · exact Or.inl hb
          · exact upd_ex _ hb fun hcv => by rw [hpc] at hcv; exact hcv.elim
        · rcases pub hse with ⟨h1, h2⟩ | h
          · exact Or.inl ⟨h1, upd_all (P := fun q => ¬ isWrite q) h2 (fun h => h)⟩
          · exact upd_ex _ h fun h => by rw [hpc] at h; exact Or.inr h
        · have := (I.none hse).2 t c
          rw [hpc] at this
          exact absurd rfl this
        · dsimp only; rw [hH2]; rw [hH1] at mutex
          rw [if_neg hl] at mutex
          have e1 : holding (PC.lock c loc) = 0 := rfl
          have e2 : holding (PC.load c loc) = 1 := rfl
          rw [if_pos rfl]; omega
        · dsimp only; rw [hD2]; rw [hD1] at bound; simpa [isDone] using bound
  | load c loc =>
    rw [hpc] at hs pt
    cases a with
    | spur => simp [stepL] at hs
    | adv =>
      simp only [stepL, Option.some.injEq, Prod.mk.injEq] at hs
      obtain ⟨rfl, rfl⟩ := hs
      have hnl : σ.s.selected ≠ active := by
        intro hse
        have := (I.none hse).2 t c
        rw [hpc] at this
        exact this rfl
      by_cases he : σ.s.selected = c
      · rw [if_pos he]
        apply inv_quiet I
        · intro x hx hp hcv; rw [hpc] at hcv; exact hcv.elim
        · intro c' h; rw [hpc] at h; exact fun _ => h
        · intro c' hse h
          have := (I.none hse).2 t c
          rw [hpc] at this
          exact this rfl
        · intro _; exact he.symm
        · exact pt
        · rw [hpc]; rfl
        · rw [hpc]; exact Nat.zero_le _
      · rw [if_neg he]
        apply inv_quiet I
        · intro x hx hp hcv; rw [hpc] at hcv; exact hcv.elim
        · intro c' h h'; rw [hpc] at h; exact absurd (h'.symm.trans h.symm) he
        · intro c' _ h; exact h
        · intro h; exact h.elim
        · exact hnl
        · rw [hpc]; rfl
        · rw [hpc]; exact Nat.zero_le _
  | write c loc =>
    rw [hpc] at hs pt hD1 hH1
    cases a with
    | spur => simp [stepL] at hs
    | adv =>
      simp only [stepL, Option.some.injEq, Prod.mk.injEq] at hs
      obtain ⟨rfl, rfl⟩ := hs
      have hnl : σ.s.selected ≠ active := by
        intro hse
        have := (I.none hse).2 t c
        rw [hpc] at this
        exact this rfl
      have hpcs : ∀ u, pcOk n k pred { σ.s with result := loc } (σ.l u) := fun u => pcOk_mono (s := σ.s) (Nat.le_refl _) (fun h => h) (pcs u)
      refine ⟨sel, fun x hx hp => ?_, fun hse => ?_, fun hse => ?_, upd_all hpcs hnl, ?_, ?_⟩
      · rcases best x hx hp with hb | hb
        · exact Or.inl hb
        · exact upd_ex _ hb fun hcv => by rw [hpc] at hcv; exact hcv.elim
      · by_cases he : c = σ.s.selected
        · refine Or.inl ⟨?_, ?_⟩
          · dsimp only; rw [← he]; exact pt.2.1
          · intro u hu
            by_cases e : u = t
            · subst e; dsimp only at hu; rw [upd_self] at hu; exact hu
            · dsimp only at hu; rw [upd_ne _ _ e] at hu
              have h2 := le_tot_two holding σ.l e
              have h3 : holding (σ.l u) = 1 := by
                generalize σ.l u = q at hu
                cases q <;> first | rfl | exact hu.elim
              have h4 : holding (σ.l t) = 1 := by rw [hpc]; rfl
              split at mutex <;> omega
        · rcases pub hse with ⟨h1, h2⟩ | h
          · exact absurd trivial (by have := h2 t; rw [hpc] at this; exact this)
          · exact upd_ex _ h fun h => by rw [hpc] at h; exact absurd h he
      · have := (I.none hse).2 t c
        rw [hpc] at this
        exact absurd rfl this
      · dsimp only; rw [hH2]; rw [hH1] at mutex; exact mutex
      · dsimp only; rw [hD2]; rw [hD1] at bound; simpa [isDone] using bound
  | unlock =>
    rw [hpc] at hs pt hD1 hH1
    cases a with
    | spur => simp [stepL] at hs
    | adv =>
      simp only [stepL, Option.some.injEq, Prod.mk.injEq] at hs
      obtain ⟨rfl, rfl⟩ := hs
      have hpcs : ∀ u, pcOk n k pred { σ.s with locked := false } (σ.l u) := fun u => pcOk_mono (s := σ.s) (Nat.le_refl _) (fun h => h) (pcs u)
      refine ⟨sel, fun x hx hp => ?_, fun hse => ?_, fun hse => absurd hse pt, upd_all hpcs (Or.inr pt), ?_, ?_⟩
      · rcases best x hx hp with hb | hb
        · exact Or.inl hb
        · exact upd_ex _ hb fun hcv => by rw [hpc] at hcv; exact hcv.elim
      · rcases pub hse with ⟨h1, h2⟩ | h
        · exact Or.inl ⟨h1, upd_all (P := fun q => ¬ isWrite q) h2 (fun h => h)⟩
        · exact upd_ex _ h fun h => by rw [hpc] at h; exact h.elim
      · dsimp only; rw [hH2]; rw [hH1] at mutex
        have e1 : holding PC.unlock = 1 := rfl
        have e2 : holding PC.done = 0 := rfl
        have e3 : (if false = true then 1 else 0 : Nat) = 0 := rfl
        rw [e3]
        split at mutex <;> omega
      · dsimp only; rw [hD2]; rw [hD1] at bound; simp only [isDone] at bound ⊢; omega
  | done => rw [hpc] at hs; cases a <;> simp [stepL] at hs
  | crash => rw [hpc] at hs; cases a <;> simp [stepL] at hs

theorem inv {n k : Nat} {pred : Nat → Bool} (hk : 1 ≤ k) (hn : k ≤ n) (hB : n < 2 ^ 63) (hT : k + Fintype.card ι < 2 ^ 64) {σ : State ι} (h : Reach (team n k) pred n σ) : Inv n k pred σ := by
  induction h with
  | init => exact inv_init n k pred
  | step _ hs ih => exact inv_step hk hn hB hT ih hs

/-- **C39**: parallel `find`, `find_if` and `find_if_not` with other iterators: any number of threads, any interleaving.
When the algorithm returns, its result is the first match; nothing undefined happens, the mutex is never held by two threads, and unless every started thread is done, some thread can go on. -/
theorem C39_find_chunk {n k : Nat} {pred : Nat → Bool} (hk : 1 ≤ k) (hn : k ≤ n) (hB : n < 2 ^ 63) (hT : k + Fintype.card ι < 2 ^ 64) {T : Team} (hm : mkTeam n k = .ok T)
    {σ : State ι} (h : Reach T pred n σ) :
    (∀ caller, Finished caller σ → FirstMatch pred n σ.s.result) ∧ (∀ t, σ.l t ≠ .crash) ∧
    (∀ t u c c' loc loc', σ.l t = .write c loc → σ.l u = .write c' loc' → t = u) ∧
    ∀ t, σ.l t ≠ .idle → σ.l t ≠ .done → ∃ u σ', σ.l u ≠ .idle ∧ step T pred σ u .adv = some σ' := by
  rw [mkTeam_ok hk hn hB] at hm
  simp only [Except.ok.injEq] at hm
  subst hm
  have I := inv hk hn hB hT h
  have C := off_cut hk hn
  have hle := C.le (show min σ.s.consumed k ≤ k by omega)
  have hnc : ∀ t, σ.l t ≠ .crash := fun t ht => by have := I.pcs t; rw [ht] at this; exact this
  refine ⟨?_, hnc, ?_, ?_⟩
  · rintro caller ⟨hc, hall⟩
    have hd := I.pcs caller
    rw [hc] at hd
    by_cases hse : σ.s.selected = active
    · have hn' := (I.none hse).1
      rw [hn']
      refine ⟨Nat.le_refl n, fun x hx => ?_, fun h => by omega⟩
      have hkc : k ≤ σ.s.consumed := by
        rcases hd with h | h
        · exact h
        · exact absurd hse h
      cases hp : pred x with
      | false => rfl
      | true =>
        exfalso
        rcases I.best x (by rw [show min σ.s.consumed k = k by omega, C.last]; exact hx) hp with h | ⟨t, ht⟩
        · exact h.1 hse
        · rcases hall t with h | h <;> rw [h] at ht <;> exact ht.elim
    · obtain ⟨s1, s2⟩ : σ.s.selected < min σ.s.consumed k ∧ fm n k pred σ.s.selected < off n k (σ.s.selected + 1) := by
        rcases I.sel with h | h
        · exact absurd h hse
        · exact h
      have hr : σ.s.result = fm n k pred σ.s.selected := by
        rcases I.pub hse with h | ⟨t, ht⟩
        · exact h.1
        · rcases hall t with h | h <;> rw [h] at ht <;> exact ht.elim
      obtain ⟨f1, f2, f3, f4⟩ := firstMatch_spec pred (off n k (σ.s.selected + 1) - off n k σ.s.selected) (off n k σ.s.selected)
      have hst := C.step σ.s.selected (by omega)
      have hmc := C.mono (show σ.s.selected + 1 ≤ min σ.s.consumed k by omega) (by omega)
      rw [hr]
      unfold fm at s2 ⊢
      refine ⟨by omega, fun x hx => ?_, fun _ => f4 (by omega)⟩
      by_cases hx' : off n k σ.s.selected ≤ x
      · exact f3 x hx' hx
      · cases hp : pred x with
        | false => rfl
        | true =>
          exfalso
          rcases I.best x (by omega) hp with h | ⟨t, ht⟩
          · exact hx' h.2
          · rcases hall t with h | h <;> rw [h] at ht <;> exact ht.elim
  · intro t u c c' loc loc' ht hu
    by_contra hne
    have h2 := le_tot_two holding σ.l hne
    rw [ht, hu, I.mutex] at h2
    simp only [holding] at h2
    split at h2 <;> omega
  · intro t hti ht
    have hc := hnc t
    have en : ∀ u, (stepL (team n k) pred σ.s (σ.l u) .adv).isSome = true → ∃ σ', step (team n k) pred σ u .adv = some σ' := by
      intro u hu
      obtain ⟨r, hr⟩ := Option.isSome_iff_exists.1 hu
      exact ⟨_, by unfold step; rw [hr]; rfl⟩
    have self : (stepL (team n k) pred σ.s (σ.l t) .adv).isSome = true → ∃ u σ', σ.l u ≠ .idle ∧ step (team n k) pred σ u .adv = some σ' := by
      intro h
      obtain ⟨σ', h'⟩ := en t h
      exact ⟨t, σ', hti, h'⟩
    cases hp : σ.l t with
    | lock c loc =>
      by_cases hl : σ.s.locked = true
      · -- whoever holds the mutex can go on
        have hm := I.mutex
        rw [if_pos hl] at hm
        obtain ⟨u, hu⟩ := tot_pos (f := holding) (l := σ.l) (by omega)
        have hs : (stepL (team n k) pred σ.s (σ.l u) .adv).isSome = true := by
          cases hq : σ.l u with
          | load c loc => rfl
          | write c loc => rfl
          | unlock => rfl
          | _ => rw [hq] at hu; simp [holding] at hu
        obtain ⟨σ', h'⟩ := en u hs
        exact ⟨u, σ', fun e => by rw [e] at hu; simp [holding] at hu, h'⟩
      · apply self
        rw [hp]
        unfold stepL
        dsimp only
        rw [if_neg hl]
        rfl
    | cas c loc exp =>
      apply self
      rw [hp]
      unfold stepL
      dsimp only
      split <;> rfl
    | done => exact absurd hp ht
    | crash => exact absurd hp hc
    | _ => exact self (by rw [hp]; rfl)

end Find.B

namespace AllOf
variable {ι : Type} [DecidableEq ι] [Fintype ι]

def cov (x : Nat) : PC → Prop
  | .scan a b => a ≤ x ∧ x < b
  | .cancel => True
  | _ => False

def isDone : PC → Nat
  | .done => 1
  | _ => 0

theorem isDone_le (p : PC) : isDone p ≤ 1 := by cases p <;> simp [isDone]

def pcOk (n k : Nat) (bad : Nat → Bool) (s : Shared) : PC → Prop
  | .scan a b => a ≤ b ∧ b ≤ n
  | .cancel => ∃ x, x < n ∧ bad x = true
  | .done => k ≤ s.consumed ∨ s.canceled = true
  | .crash => False
  | _ => True

structure Inv (n k : Nat) (bad : Nat → Bool) (σ : State ι) : Prop where
  sound : σ.s.canceled = true → ∃ x, x < n ∧ bad x = true
  comp : ∀ x, x < off n k (min σ.s.consumed k) → bad x = true → σ.s.canceled = true ∨ ∃ t, cov x (σ.l t)
  pcs : ∀ t, pcOk n k bad σ.s (σ.l t)
  bound : σ.s.consumed ≤ k + tot isDone σ.l

set_option maxHeartbeats 1600000 in
theorem inv_step {n k : Nat} {bad : Nat → Bool} (hk : 1 ≤ k) (hn : k ≤ n) (hB : n < 2 ^ 63) (hT : k + Fintype.card ι < 2 ^ 64) {σ σ' : State ι} {t : ι}
    (I : Inv n k bad σ) (h : step (team n k) bad σ t = some σ') : Inv n k bad σ' := by
  have C := off_cut hk hn
  unfold step at h
  rw [Option.map_eq_some_iff] at h
  obtain ⟨⟨s', p'⟩, hs, rfl⟩ := h
  obtain ⟨rD, hD1, hD2⟩ := split_tot isDone σ.l t
  have sound := I.sound
  have comp := I.comp
  have pcs := I.pcs
  have bound := I.bound
  have pt := pcs t
  cases hpc : σ.l t with
  | idle =>
    rw [hpc] at hs hD1
    simp only [stepL, Option.some.injEq, Prod.mk.injEq] at hs
    obtain ⟨rfl, rfl⟩ := hs
    refine ⟨sound, fun x hx hp => ?_, upd_all pcs trivial, ?_⟩
    · rcases comp x hx hp with hb | hb
      · exact Or.inl hb
      · exact upd_ex _ hb fun hc => by rw [hpc] at hc; exact hc.elim
    · dsimp only; rw [hD2]; rw [hD1] at bound; simpa [isDone] using bound
  | check =>
    rw [hpc] at hs hD1
    simp only [stepL, Option.some.injEq, Prod.mk.injEq] at hs
    obtain ⟨rfl, rfl⟩ := hs
    refine ⟨sound, fun x hx hp => ?_, upd_all pcs ?_, ?_⟩
    · rcases comp x hx hp with hb | hb
      · exact Or.inl hb
      · exact upd_ex _ hb fun hc => by rw [hpc] at hc; exact hc.elim
    · by_cases hr : σ.s.canceled = true
      · rw [if_pos hr]; exact Or.inr hr
      · rw [if_neg hr]; trivial
    · dsimp only; rw [hD2]; rw [hD1] at bound
      have : isDone PC.check = 0 := rfl
      omega
  | take =>
    rw [hpc] at hs hD1
    simp only [stepL, nextChunk_ok hk hn hB, Option.some.injEq, Prod.mk.injEq] at hs
    obtain ⟨rfl, hp⟩ := hs
    have hlt : tot isDone σ.l + 1 ≤ Fintype.card ι := by
      have h1 : tot isDone (upd σ.l t .done) ≤ Fintype.card ι := Find.A.tot_le_card isDone_le _
      rw [hD2] at h1
      rw [hD1]
      simpa [isDone] using h1
    have hc : (nextKey (team n k) σ.s.consumed).2 = σ.s.consumed + 1 := by
      show (σ.s.consumed + 1) % 2 ^ 64 = _
      exact Nat.mod_eq_of_lt (by omega)
    rw [hc]
    have hpcs : ∀ u, pcOk n k bad ⟨σ.s.consumed + 1, σ.s.canceled⟩ (σ.l u) := by
      intro u
      have := pcs u
      generalize σ.l u = q at this
      cases q with
      | done => rcases this with h | h
                · exact Or.inl (by dsimp only; omega)
                · exact Or.inr h
      | crash => exact this
      | scan a b => exact this
      | cancel => exact this
      | _ => trivial
    by_cases hck : σ.s.consumed < k
    · rw [if_pos hck] at hp
      dsimp only at hp
      subst hp
      have hst := C.step _ hck
      refine ⟨sound, fun x hx hp => ?_, upd_all hpcs ⟨by omega, C.le (by omega)⟩, ?_⟩
      · by_cases hx' : x < off n k (min σ.s.consumed k)
        · rcases comp x hx' hp with hb | hb
          · exact Or.inl hb
          · exact upd_ex _ hb fun hc => by rw [hpc] at hc; exact hc.elim
        · refine Or.inr ⟨t, ?_⟩
          dsimp only at hx ⊢
          rw [upd_self]
          rw [show min σ.s.consumed k = σ.s.consumed by omega] at hx'
          rw [show min (σ.s.consumed + 1) k = σ.s.consumed + 1 by omega] at hx
          exact ⟨by omega, hx⟩
      · dsimp only; rw [hD2]; rw [hD1] at bound; simp only [isDone] at bound ⊢; omega
    · rw [if_neg hck] at hp
      dsimp only at hp
      subst hp
      refine ⟨sound, fun x hx hp => ?_, upd_all hpcs (Or.inl (by dsimp only; omega)), ?_⟩
      · dsimp only at hx
        rw [show min (σ.s.consumed + 1) k = min σ.s.consumed k by omega] at hx
        rcases comp x hx hp with hb | hb
        · exact Or.inl hb
        · exact upd_ex _ hb fun hc => by rw [hpc] at hc; exact hc.elim
      · dsimp only; rw [hD2]; rw [hD1] at bound; simp only [isDone] at bound ⊢; omega
  | scan a b =>
    rw [hpc] at hs pt hD1
    simp only [stepL, Option.some.injEq, Prod.mk.injEq] at hs
    obtain ⟨rfl, rfl⟩ := hs
    obtain ⟨p1, p2⟩ := pt
    obtain ⟨f1, f2, f3, f4⟩ := firstMatch_spec bad (b - a) a
    generalize firstMatch bad a (b - a) = fm at f1 f2 f3 f4
    by_cases he : fm = b
    · rw [if_pos he]
      refine ⟨sound, fun x hx hp => ?_, upd_all pcs trivial, ?_⟩
      · rcases comp x hx hp with hb | hb
        · exact Or.inl hb
        · refine upd_ex _ hb fun hc => ?_
          rw [hpc] at hc
          have h2 : x < b := hc.2
          have := f3 x hc.1 (by omega)
          rw [this] at hp; exact absurd hp (by simp)
      · dsimp only; rw [hD2]; rw [hD1] at bound; simpa [isDone] using bound
    · rw [if_neg he]
      refine ⟨sound, fun x hx hp => ?_, upd_all pcs ⟨fm, by omega, f4 (by omega)⟩, ?_⟩
      · rcases comp x hx hp with hb | hb
        · exact Or.inl hb
        · exact upd_ex _ hb fun hc => Or.inr trivial
      · dsimp only; rw [hD2]; rw [hD1] at bound; simpa [isDone] using bound
  | cancel =>
    rw [hpc] at hs pt hD1
    simp only [stepL, Option.some.injEq, Prod.mk.injEq] at hs
    obtain ⟨rfl, rfl⟩ := hs
    refine ⟨fun _ => pt, fun x hx hp => Or.inl rfl, upd_all ?_ (Or.inr rfl), ?_⟩
    · intro u
      have := pcs u
      generalize σ.l u = q at this
      cases q with
      | done => exact Or.inr rfl
      | crash => exact this
      | scan a b => exact this
      | cancel => exact this
      | _ => trivial
    · dsimp only; rw [hD2]; rw [hD1] at bound; simp only [isDone] at bound ⊢; omega
  | done => rw [hpc] at hs; simp [stepL] at hs
  | crash => rw [hpc] at hs; simp [stepL] at hs

theorem inv {n k : Nat} {bad : Nat → Bool} (hk : 1 ≤ k) (hn : k ≤ n) (hB : n < 2 ^ 63) (hT : k + Fintype.card ι < 2 ^ 64) {σ : State ι} (h : Reach (team n k) bad σ) : Inv n k bad σ := by
  induction h with
  | init =>
    refine ⟨fun h => by simp [init] at h, fun x hx => by simp [init, off] at hx, fun t => trivial, by simp [init]⟩
  | step _ hs ih => exact inv_step hk hn hB hT ih hs

/-- **C39**: parallel `all_of`, `any_of`, `none_of`: any number of threads, any interleaving. `bad x` is what makes the answer `false` for `all_of` (`!pred x`) and `none_of` (`pred x`);
`any_of` returns the negation of `none_of`. -/
theorem C39_all_of {n k : Nat} {bad : Nat → Bool} (hk : 1 ≤ k) (hn : k ≤ n) (hB : n < 2 ^ 63) (hT : k + Fintype.card ι < 2 ^ 64) {T : Team} (hm : mkTeam n k = .ok T)
    {σ : State ι} (h : Reach T bad σ) :
    (∀ caller, Finished caller σ → (result σ = true ↔ ∀ x, x < n → bad x = false)) ∧ (∀ t, σ.l t ≠ .crash) ∧ ∀ t, σ.l t ≠ .done → ∃ σ', step T bad σ t = some σ' := by
  rw [mkTeam_ok hk hn hB] at hm
  simp only [Except.ok.injEq] at hm
  subst hm
  have I := inv hk hn hB hT h
  have C := off_cut hk hn
  have hnc : ∀ t, σ.l t ≠ .crash := fun t ht => by have := I.pcs t; rw [ht] at this; exact this
  refine ⟨?_, hnc, ?_⟩
  · rintro caller ⟨hc, hall⟩
    have hd := I.pcs caller
    rw [hc] at hd
    unfold result
    cases hcan : σ.s.canceled with
    | true =>
      obtain ⟨x, hx, hb⟩ := I.sound hcan
      simp only [Bool.not_true, Bool.false_eq_true, false_iff]
      intro h
      rw [h x hx] at hb
      exact absurd hb (by simp)
    | false =>
      simp only [Bool.not_false, true_iff]
      intro x hx
      have hkc : k ≤ σ.s.consumed := by
        rcases hd with h | h
        · exact h
        · rw [hcan] at h; exact absurd h (by simp)
      cases hp : bad x with
      | false => rfl
      | true =>
        exfalso
        rcases I.comp x (by rw [show min σ.s.consumed k = k by omega, C.last]; exact hx) hp with h | ⟨t, ht⟩
        · rw [hcan] at h; exact absurd h (by simp)
        · rcases hall t with h | h <;> rw [h] at ht <;> exact ht.elim
  · intro t ht
    have hc := hnc t
    unfold step
    cases hp : σ.l t with
    | done => exact absurd hp ht
    | crash => exact absurd hp hc
    | _ => exact ⟨_, rfl⟩

end AllOf
end STL.Par
