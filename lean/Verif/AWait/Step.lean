import Verif.AWait.Inv

/-!
# The invariant of the wait table is preserved
-/

namespace STL.AWait
open STL.Conc

variable {ι : Type} [DecidableEq ι]

theorem upd_or {l : ι → Th ι} {t : ι} {x : Th ι} (u : ι) (h : u ≠ t) : upd l t x u = l u ∨ upd l t x u = wake (l u) := .inl (upd_ne _ _ h)

/-- A step that changes the thread only. -/
theorem Inv.loc {s : St ι} (h : Inv s) (t : ι) {x' : Th ι} {val' : Nat → Nat} (e : Nat) (he : inT (s.l t).pc = true → entryOf (s.l t).a = e) (he' : inT x'.pc = true → entryOf x'.a = e)
    (hc : crit x'.pc = crit (s.l t).pc) (hk : linked x'.pc = linked (s.l t).pc) (hx : hasCtx x'.pc = true → hasCtx (s.l t).pc = true) (ha : linked x'.pc = true ∨ hasCtx x'.pc = true → x'.a = (s.l t).a)
    (hs : crit x'.pc = true → ShapeOf s.mem e (s.ord e) (some (t, (s.l t).pc)) → ShapeOf s.mem e (s.ord e) (some (t, x'.pc)))
    (hn : Noti { s with val := val', l := upd s.l t x' } t) (hz : x'.pc = .asleep → (s.l t).pc = .asleep) : Inv { s with val := val', l := upd s.l t x' } := by
  refine h.frame t e he (by simp only [upd_self]; exact he') upd_or (fun _ _ => rfl) (fun _ _ => rfl) (fun _ _ _ _ => rfl) (fun _ _ => ⟨rfl, rfl⟩) (fun u => ?_) (fun u => ?_) ?_ (h.nodup e) ?_ hn fun n hn hcn hen =>
      ⟨rfl, fun hte => ?_⟩
  · simp only []
    rw [h.lockI]
    by_cases hu : u = t
    · subst hu; rw [upd_self, hc]
      constructor
      · rintro ⟨h1, _⟩; exact ⟨h1, he' (by unfold inT; rw [hc, h1]; rfl)⟩
      · rintro ⟨h1, _⟩; exact ⟨h1, he (by unfold inT; rw [h1]; rfl)⟩
    · rw [upd_ne _ _ hu]
  · simp only []
    rw [h.memI]
    by_cases hu : u = t
    · subst hu; rw [upd_self, hk]
      constructor
      · rintro ⟨h1, _⟩; exact ⟨h1, he' (by unfold inT; rw [hk, h1]; simp)⟩
      · rintro ⟨h1, _⟩; exact ⟨h1, he (by unfold inT; rw [h1]; simp)⟩
    · rw [upd_ne _ _ hu]
  · simp only [upd_self]
    intro hx'
    obtain ⟨h1, h2⟩ := h.ctxI t (hx hx')
    exact ⟨h1, by rw [ha (.inr hx')]; exact h2⟩
  · have hsh := h.shape e
    unfold Shape at hsh ⊢
    simp only []
    cases hw : s.lock e with
    | none => rw [hw] at hsh; exact hsh
    | some w =>
      rw [hw] at hsh
      simp only [Option.map_some] at hsh ⊢
      by_cases hwt : w = t
      · subst hwt
        rw [upd_self]
        exact hs (by rw [hc]; exact ((h.lockI e w).1 hw).1) hsh
      · rw [upd_ne _ _ hwt]; exact hsh
  · simp only [upd_self]
    have := (h.memI e t).1 hte
    exact ⟨ha (.inl (by rw [hk]; exact this.1)), hz⟩

/-- A lock is acquired. -/
theorem Inv.acq {s : St ι} (h : Inv s) (t : ι) {pc' : Pc} (hc : crit (s.l t).pc = false) (hc' : crit pc' = true) (hk : linked pc' = linked (s.l t).pc) (hx : hasCtx pc' = hasCtx (s.l t).pc)
    (hs : ∀ m e (L : List ι), RU m e L → ShapeOf m e L (some (t, pc'))) (hn1 : pc' ≠ .nTest) (hn2 : pc' ≠ .nWake) (hn3 : pc' ≠ .nNext) (hn4 : pc' ≠ .nUnlock) :
    Inv (acquire s t (entryOf (s.l t).a) pc') := by
  unfold acquire
  split
  · rename_i hl
    have hnc : ∀ u, crit (s.l u).pc = true → entryOf (s.l u).a ≠ entryOf (s.l t).a := by
      intro u hu hee
      have := (h.lockI (entryOf (s.l t).a) u).2 ⟨hu, hee⟩
      rw [hl] at this; cases this
    refine h.frame t (entryOf (s.l t).a) (fun _ => rfl) (fun _ => by simp only [upd_self]) upd_or (fun e' hee => ?_) (fun _ _ => rfl) (fun _ _ _ _ => rfl) (fun _ _ => ⟨rfl, rfl⟩) (fun u => ?_) (fun u => ?_) ?_
      (h.nodup _) ?_ ?_ fun n hn hcn hen => absurd hen (hnc n hcn)
    · simp only []; rw [upd_ne _ _ hee]
    · simp only [upd_self]
      by_cases hu : u = t
      · subst hu; rw [upd_self]; simp [hc']
      · rw [upd_ne _ _ hu]
        constructor
        · intro hh; exact absurd (Option.some.inj hh).symm hu
        · rintro ⟨h1, h2⟩; exact absurd h2 (hnc u h1)
    · simp only []
      rw [h.memI]
      by_cases hu : u = t
      · subst hu; rw [upd_self]; simp only [hk]
      · rw [upd_ne _ _ hu]
    · simp only [upd_self]
      intro hx'
      exact h.ctxI t (by rw [← hx]; exact hx')
    · have hsh := h.shape (entryOf (s.l t).a)
      unfold Shape at hsh ⊢
      rw [hl] at hsh
      simp only [upd_self, Option.map_some]
      exact hs _ _ _ hsh
    · refine noti_trivial ?_ ?_ ?_ ?_ <;> simp only [upd_self] <;> assumption
  · exact h

/-- A lock is released. -/
theorem Inv.rel {s : St ι} (h : Inv s) (t : ι) {pc' : Pc} (hc : crit (s.l t).pc = true) (hc' : crit pc' = false) (hk : linked pc' = linked (s.l t).pc) (hx : hasCtx pc' = true → hasCtx (s.l t).pc = true)
    (hs : ∀ m e (L : List ι), ShapeOf m e L (some (t, (s.l t).pc)) → RU m e L) : Inv (releaseTo s t (entryOf (s.l t).a) pc') := by
  have hlt : s.lock (entryOf (s.l t).a) = some t := (h.lockI _ t).2 ⟨hc, rfl⟩
  unfold releaseTo
  refine h.frame t (entryOf (s.l t).a) (fun _ => rfl) (fun _ => by simp only [upd_self]) upd_or (fun e' hee => ?_) (fun _ _ => rfl) (fun _ _ _ _ => rfl) (fun _ _ => ⟨rfl, rfl⟩) (fun u => ?_) (fun u => ?_) ?_
      (h.nodup _) ?_ ?_ fun n hn hcn hen => ?_
  · simp only []; rw [upd_ne _ _ hee]
  · simp only [upd_self]
    by_cases hu : u = t
    · subst hu; rw [upd_self]; simp [hc']
    · rw [upd_ne _ _ hu]
      constructor
      · intro hh; cases hh
      · intro hh
        have := (h.lockI _ u).2 hh
        rw [hlt] at this
        exact absurd (Option.some.inj this).symm hu
  · simp only []
    rw [h.memI]
    by_cases hu : u = t
    · subst hu; rw [upd_self]; simp only [hk]
    · rw [upd_ne _ _ hu]
  · simp only [upd_self]
    intro hx'
    exact h.ctxI t (hx hx')
  · have hsh := h.shape (entryOf (s.l t).a)
    unfold Shape at hsh ⊢
    rw [hlt] at hsh
    simp only [upd_self, Option.map_none]
    exact hs _ _ _ hsh
  · refine noti_trivial ?_ ?_ ?_ ?_ <;> simp only [upd_self] <;> intro hp <;> rw [hp] at hc' <;> cases hc'
  · have := (h.lockI _ n).2 ⟨hcn, hen⟩
    rw [hlt] at this
    exact absurd (Option.some.inj this).symm hn

/-- The holder of the lock changes the list. -/
theorem Inv.edit {s : St ι} (h : Inv s) (t : ι) {pc' : Pc} {m' : Ptr ι → Ctx ι} {L' : List ι} (hc : crit (s.l t).pc = true) (hc' : crit pc' = true)
    (hmem : ∀ p, p ≠ .head (entryOf (s.l t).a) → p ≠ .ctx t → (∀ u ∈ s.ord (entryOf (s.l t).a), p ≠ .ctx u) → m' p = s.mem p)
    (hlive : ∀ p, p ≠ .ctx t → (m' p).live = (s.mem p).live ∧ (m' p).storage = (s.mem p).storage)
    (hL : ∀ u, u ≠ t → (u ∈ L' ↔ u ∈ s.ord (entryOf (s.l t).a))) (hLt : t ∈ L' ↔ linked pc' = true) (hnd : L'.Nodup)
    (hx : hasCtx pc' = true → (m' (.ctx t)).live = true ∧ (m' (.ctx t)).storage = some (s.l t).a)
    (hs : ShapeOf m' (entryOf (s.l t).a) L' (some (t, pc'))) (hn1 : pc' ≠ .nTest) (hn2 : pc' ≠ .nWake) (hn3 : pc' ≠ .nNext) (hn4 : pc' ≠ .nUnlock) :
    Inv { s with mem := m', l := upd s.l t { s.l t with pc := pc' }, ord := upd s.ord (entryOf (s.l t).a) L' } := by
  have hlt : s.lock (entryOf (s.l t).a) = some t := (h.lockI _ t).2 ⟨hc, rfl⟩
  refine h.frame t (entryOf (s.l t).a) (fun _ => rfl) (fun _ => by simp only [upd_self]) upd_or (fun _ _ => rfl) (fun e' hee => ?_) hmem hlive (fun u => ?_) (fun u => ?_) ?_ ?_ ?_ ?_ fun n hn hcn hen => ?_
  · simp only []; rw [upd_ne _ _ hee]
  · simp only []
    rw [hlt]
    by_cases hu : u = t
    · subst hu; rw [upd_self]; simp [hc']
    · rw [upd_ne _ _ hu, ← h.lockI, hlt]
  · simp only [upd_self]
    by_cases hu : u = t
    · subst hu; rw [upd_self, hLt]; simp
    · rw [upd_ne _ _ hu, hL u hu, h.memI]
  · simp only [upd_self]; exact hx
  · simp only [upd_self]; exact hnd
  · unfold Shape
    simp only [hlt, upd_self, Option.map_some]
    exact hs
  · refine noti_trivial ?_ ?_ ?_ ?_ <;> simp only [upd_self] <;> assumption
  · have := (h.lockI _ n).2 ⟨hcn, hen⟩
    rw [hlt] at this
    exact absurd (Option.some.inj this).symm hn

end STL.AWait
