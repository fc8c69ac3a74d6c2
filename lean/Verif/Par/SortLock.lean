import Verif.Par.SortProps

/-!
# C42: the lock of a queue
-/

namespace STL.Par.PSort
open STL.Conc

variable {ι α : Type} [DecidableEq ι]

theorem release_lock {d d' : Dq ι} {g : Nat} (h : release d g = .ok d') : d'.lock = d.lock := by
  unfold release at h
  simp only [] at h
  split at h
  · cases h; rfl
  · cases h

/-- What a step of an owner does to the lock. -/
theorem ownStep_lock {e : Env} {me : ι} {d d' : Dq ι} {x x' : Th α} (h : ownStep e me d x = .ok (d', x')) :
    (d'.lock = some me ∧ x'.pc = .gxchg ∧ x'.id = x.id) ∨ d'.lock = none ∨ (d'.lock = d.lock ∧ x.pc = .gxchg ∧ x'.pc = .gunlock ∧ x'.id = x.id) ∨
      (d'.lock = d.lock ∧ x.pc ≠ .gxchg ∧ x.pc ≠ .gunlock) := by
  unfold ownStep at h
  cases hp : x.pc <;> rw [hp] at h <;> simp only [] at h
  case glock =>
    split at h <;> cases h
    · exact .inl ⟨rfl, rfl, rfl⟩
    · exact .inr (.inr (.inr ⟨rfl, by simp, by simp⟩))
  case gxchg => cases h; exact .inr (.inr (.inl ⟨rfl, rfl, rfl, rfl⟩))
  case gunlock => cases h; exact .inr (.inl rfl)
  case grel =>
    cases hr : release d x.g with
    | error e => rw [hr] at h; cases h
    | ok d1 =>
      rw [hr] at h; cases h
      exact .inr (.inr (.inr ⟨release_lock hr, by simp, by simp⟩))
  case pop2 =>
    split at h
    · cases h; exact .inr (.inr (.inr ⟨rfl, by simp, by simp⟩))
    · cases h
      refine .inr (.inr (.inr ⟨?_, by simp, by simp⟩))
      split <;> rfl
  case grow =>
    split at h
    · split at h <;> cases h <;> exact .inr (.inr (.inr ⟨rfl, by simp, by simp⟩))
    · cases h
  case pop4 =>
    split at h <;> cases h <;> exact .inr (.inr (.inr ⟨rfl, by simp, by simp⟩))
  all_goals first
    | (cases h; done)
    | (cases h; exact .inr (.inr (.inr ⟨rfl, by simp, by simp⟩)))
    | (split at h
       · cases h; exact .inr (.inr (.inr ⟨rfl, by simp, by simp⟩))
       · cases h)

/-- What a step of a thief does to the lock. -/
theorem thiefStep_lock {me : ι} {d d' : Dq ι} {x x' : Th α} (h : thiefStep me d x = .ok (d', x')) :
    (d'.lock = some me ∧ x'.pc = .s3 ∧ x'.idx = x.idx) ∨ d'.lock = none ∨ (d'.lock = d.lock ∧ ((x.pc = .s3 ∧ x'.pc = .s4) ∨ (x.pc = .s4 ∧ x'.pc = .s5)) ∧ x'.idx = x.idx) ∨
      (d'.lock = d.lock ∧ x.pc ≠ .s3 ∧ x.pc ≠ .s4 ∧ x.pc ≠ .s5) := by
  unfold thiefStep at h
  cases hp : x.pc <;> rw [hp] at h <;> simp only [] at h
  case s2 =>
    split at h <;> cases h
    · exact .inl ⟨rfl, rfl, rfl⟩
    · exact .inr (.inr (.inr ⟨rfl, by simp, by simp, by simp⟩))
  case s3 => cases h; exact .inr (.inr (.inl ⟨rfl, .inl ⟨rfl, rfl⟩, rfl⟩))
  case s4 =>
    split at h
    · cases h; exact .inr (.inr (.inl ⟨rfl, .inr ⟨rfl, rfl⟩, rfl⟩))
    · cases h
  case s5 => cases h; exact .inr (.inl rfl)
  case s9 =>
    cases hr : release d x.g with
    | error e => rw [hr] at h; cases h
    | ok d1 =>
      rw [hr] at h; cases h
      exact .inr (.inr (.inr ⟨release_lock hr, by simp, by simp, by simp⟩))
  case s10 =>
    split at h <;> cases h <;> exact .inr (.inr (.inr ⟨rfl, by simp, by simp, by simp⟩))
  all_goals first
    | (cases h; done)
    | (cases h; exact .inr (.inr (.inr ⟨rfl, by simp, by simp, by simp⟩)))
    | (split at h
       · cases h; exact .inr (.inr (.inr ⟨rfl, by simp, by simp, by simp⟩))
       · cases h)

/-- Who holds the lock of queue `k` is in one of the two critical sections of that queue. -/
def InCs (k : Nat) (x : Th α) : Prop := ((x.pc = .gxchg ∨ x.pc = .gunlock) ∧ x.id = k) ∨ ((x.pc = .s3 ∨ x.pc = .s4 ∨ x.pc = .s5) ∧ x.idx = k)

def LockOk (s : St ι α) : Prop := ∀ k u, (s.q k).lock = some u → InCs k (s.l u)

theorem LockOk.step {lt : α → α → Bool} {n T : Nat} {main : ι} {e : Env} {s s' : St ι α} {t : ι} (h : LockOk s) (hs : step lt n T main e s t = .ok s') : LockOk s' := by
  unfold PSort.step at hs
  cases hk : kind (s.l t).pc with
  | own =>
    rw [hk] at hs
    simp only [] at hs
    split at hs
    · cases hr : ownStep e t (s.q (s.l t).id) (s.l t) with
      | error e => rw [hr] at hs; cases hs
      | ok r =>
        obtain ⟨d', x'⟩ := r
        rw [hr] at hs
        cases hs
        intro k u hu
        simp only [] at hu ⊢
        by_cases hkk : k = (s.l t).id
        · subst hkk
          rw [upd_self] at hu
          by_cases hut : u = t
          · subst hut; rw [upd_self]
            rcases ownStep_lock hr with ⟨_, h2, h3⟩ | h1 | ⟨_, _, h2, h3⟩ | ⟨h1, h2, h3⟩
            · exact .inl ⟨.inl h2, h3⟩
            · rw [h1] at hu; cases hu
            · exact .inl ⟨.inr h2, h3⟩
            · rw [h1] at hu
              rcases h _ u hu with ⟨h4 | h4, _⟩ | ⟨h4 | h4 | h4, _⟩
              · exact absurd h4 h2
              · exact absurd h4 h3
              all_goals rw [h4] at hk; cases hk
          · rw [upd_ne _ _ hut]
            rcases ownStep_lock hr with ⟨h1, _⟩ | h1 | ⟨h1, _⟩ | ⟨h1, _⟩ <;> rw [h1] at hu
            · exact absurd (Option.some.inj hu).symm hut
            · cases hu
            · exact h _ u hu
            · exact h _ u hu
        · rw [upd_ne _ _ hkk] at hu
          by_cases hut : u = t
          · subst hut
            rcases h _ u hu with ⟨h4 , h5⟩ | ⟨h4 | h4 | h4, _⟩
            · exact absurd h5.symm hkk
            all_goals rw [h4] at hk; cases hk
          · rw [upd_ne _ _ hut]; exact h _ u hu
    · cases hs
  | thief =>
    rw [hk] at hs
    simp only [] at hs
    split at hs
    · cases hr : thiefStep t (s.q (s.l t).idx) (s.l t) with
      | error e => rw [hr] at hs; cases hs
      | ok r =>
        obtain ⟨d', x'⟩ := r
        rw [hr] at hs
        cases hs
        intro k u hu
        simp only [] at hu ⊢
        by_cases hkk : k = (s.l t).idx
        · subst hkk
          rw [upd_self] at hu
          by_cases hut : u = t
          · subst hut; rw [upd_self]
            rcases thiefStep_lock hr with ⟨_, h2, h3⟩ | h1 | ⟨_, h2, h3⟩ | ⟨h1, h2, h3, h4⟩
            · exact .inr ⟨.inl h2, h3⟩
            · rw [h1] at hu; cases hu
            · rcases h2 with ⟨_, h2⟩ | ⟨_, h2⟩
              · exact .inr ⟨.inr (.inl h2), h3⟩
              · exact .inr ⟨.inr (.inr h2), h3⟩
            · rw [h1] at hu
              rcases h _ u hu with ⟨h5 | h5, _⟩ | ⟨h5 | h5 | h5, _⟩
              · rw [h5] at hk; cases hk
              · rw [h5] at hk; cases hk
              all_goals contradiction
          · rw [upd_ne _ _ hut]
            rcases thiefStep_lock hr with ⟨h1, _⟩ | h1 | ⟨h1, _⟩ | ⟨h1, _⟩ <;> rw [h1] at hu
            · exact absurd (Option.some.inj hu).symm hut
            · cases hu
            · exact h _ u hu
            · exact h _ u hu
        · rw [upd_ne _ _ hkk] at hu
          by_cases hut : u = t
          · subst hut
            rcases h _ u hu with ⟨h4 | h4, _⟩ | ⟨_, h5⟩
            · rw [h4] at hk; cases hk
            · rw [h4] at hk; cases hk
            · exact absurd h5.symm hkk
          · rw [upd_ne _ _ hut]; exact h _ u hu
    · cases hs
  | team =>
    rw [hk] at hs
    simp only [] at hs
    cases hr : teamStep lt n T (decide (t = main)) e s.tm (s.l t) with
    | error e => rw [hr] at hs; cases hs
    | ok r =>
      obtain ⟨tm', x'⟩ := r
      rw [hr] at hs
      cases hs
      intro k u hu
      simp only [] at hu ⊢
      by_cases hut : u = t
      · subst hut
        rcases h _ u hu with ⟨h4 | h4, _⟩ | ⟨h4 | h4 | h4, _⟩ <;> rw [h4] at hk <;> cases hk
      · rw [upd_ne _ _ hut]; exact h _ u hu
  | stop =>
    rw [hk] at hs
    cases hs
    exact h

theorem reach_lock {lt : α → α → Bool} {T : Nat} {main : ι} {xs : List α} {o : Option (St ι α)} (h : Reach lt T main xs o) : ∀ s, o = some s → LockOk s := by
  induction h with
  | init junk =>
    intro s hs
    cases hs
    intro k u hu
    cases hu
  | @step s0 e t _ ih =>
    intro s hs
    cases hr : PSort.step lt xs.length T main e s0 t with
    | error e => rw [hr] at hs; cases hs
    | ok s1 =>
      rw [hr] at hs
      cases hs
      exact (ih s0 rfl).step hr

/-- **C42, nobody waits for long.** The thread that holds the lock of a queue gives it back within three steps of its own, none of which waits for anything, whatever the other threads have done. -/
theorem C42_unlock [Fintype ι] {lt : α → α → Bool} (hlt : SWO lt) {T : Nat} (hT : Fintype.card ι ≤ T) {main : ι} {xs : List α} {s : St ι α} (h : Reach lt T main xs (some s)) {k : Nat} {u : ι}
    (hu : (s.q k).lock = some u) (e : Env) : ∃ m ≤ 3, ∃ s', run lt T main xs e (List.replicate m u) s = some s' ∧ (s'.q k).lock = none := by
  have one : ∀ s : St ι α, Reach lt T main xs (some s) → ∃ s', PSort.step lt xs.length T main e s u = .ok s' ∧ Reach lt T main xs (some s') := by
    intro s h
    obtain ⟨s0, e0, h1, h2⟩ := reach_inv hlt hT h
    cases e0
    obtain ⟨s', e1, _⟩ := Inv.step hlt hT h1 h2 e u
    refine ⟨s', e1, ?_⟩
    have := Reach.step e u h
    rw [e1] at this
    exact this
  -- the last step
  have last : ∀ s : St ι α, Reach lt T main xs (some s) → (((s.l u).pc = .gunlock ∧ (s.l u).id = k) ∨ ((s.l u).pc = .s5 ∧ (s.l u).idx = k)) →
      ∃ s', run lt T main xs e (List.replicate 1 u) s = some s' ∧ (s'.q k).lock = none := by
    intro s h hp
    obtain ⟨s', e1, h'⟩ := one s h
    refine ⟨s', by simp only [List.replicate, run]; rw [e1], ?_⟩
    unfold PSort.step at e1
    rcases hp with ⟨hp, hk⟩ | ⟨hp, hk⟩
    · rw [hp] at e1
      simp only [kind] at e1
      split at e1
      · unfold ownStep at e1
        rw [hp] at e1
        cases e1
        simp only []
        rw [hk, upd_self]
      · cases e1
    · rw [hp] at e1
      simp only [kind] at e1
      split at e1
      · unfold thiefStep at e1
        rw [hp] at e1
        cases e1
        simp only []
        rw [hk, upd_self]
      · cases e1
  have mid : ∀ s : St ι α, Reach lt T main xs (some s) → (((s.l u).pc = .gxchg ∧ (s.l u).id = k) ∨ ((s.l u).pc = .s4 ∧ (s.l u).idx = k)) →
      ∃ s', run lt T main xs e (List.replicate 2 u) s = some s' ∧ (s'.q k).lock = none := by
    intro s h hp
    obtain ⟨s1, e1, h'⟩ := one s h
    have hp1 : ((s1.l u).pc = .gunlock ∧ (s1.l u).id = k) ∨ ((s1.l u).pc = .s5 ∧ (s1.l u).idx = k) := by
      unfold PSort.step at e1
      rcases hp with ⟨hp, hk⟩ | ⟨hp, hk⟩
      · rw [hp] at e1
        simp only [kind] at e1
        split at e1
        · unfold ownStep at e1
          rw [hp] at e1
          cases e1
          simp only [upd_self]
          exact .inl ⟨trivial, hk⟩
        · cases e1
      · rw [hp] at e1
        simp only [kind] at e1
        split at e1
        · unfold thiefStep at e1
          rw [hp] at e1
          simp only [] at e1
          split at e1
          · cases e1
            simp only [upd_self]
            exact .inr ⟨trivial, hk⟩
          · cases e1
        · cases e1
    obtain ⟨s2, e2, h2⟩ := last s1 h' hp1
    refine ⟨s2, ?_, h2⟩
    show run lt T main xs e (u :: List.replicate 1 u) s = some s2
    rw [run, e1]
    exact e2
  rcases reach_lock h s rfl k u hu with ⟨hp | hp, hk⟩ | ⟨hp | hp | hp, hk⟩
  · exact ⟨2, by omega, mid s h (.inl ⟨hp, hk⟩)⟩
  · exact ⟨1, by omega, last s h (.inl ⟨hp, hk⟩)⟩
  · obtain ⟨s1, e1, h'⟩ := one s h
    have hp1 : (s1.l u).pc = .s4 ∧ (s1.l u).idx = k := by
      unfold PSort.step at e1
      rw [hp] at e1
      simp only [kind] at e1
      split at e1
      · unfold thiefStep at e1
        rw [hp] at e1
        cases e1
        simp only [upd_self]
        exact ⟨trivial, hk⟩
      · cases e1
    obtain ⟨s2, e2, h2⟩ := mid s1 h' (.inr hp1)
    refine ⟨3, by omega, s2, ?_, h2⟩
    show run lt T main xs e (u :: List.replicate 2 u) s = some s2
    rw [run, e1]
    exact e2
  · exact ⟨2, by omega, mid s h (.inr ⟨hp, hk⟩)⟩
  · exact ⟨1, by omega, last s h (.inr ⟨hp, hk⟩)⟩

/-- The lock of queue 0 is held by a thief while the owner works. -/
example : ∃ s, Reach exLt 2 (0 : Fin 2) exXs (some s) ∧ (s.q 0).lock = some 1 ∧ (s.l 0).pc = .busy := by
  obtain ⟨s, h1, h2⟩ := exists_of (o := exRun (List.replicate 13 0 ++ List.replicate 10 1)) (f := fun s => decide ((s.q 0).lock = some 1 ∧ (s.l 0).pc = .busy)) (by decide +kernel)
  exact ⟨s, exReach h1, of_decide_eq_true h2⟩

end STL.Par.PSort
