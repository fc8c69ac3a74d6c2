import Verif.AWait.Ring

/-!
# The invariant of the wait table
-/

namespace STL.AWait
open STL.Conc

variable {ι : Type} [DecidableEq ι]

/-- The thread holds the lock of its entry. -/
def crit : Pc → Bool
  | .wInit | .wLink0 | .wLink1 | .wLink2 | .cmp | .wSleep | .wUnlink0 | .wUnlink1 | .wUnlock | .nHead | .nTest | .nWake | .nNext | .nUnlock => true
  | _ => false

/-- The context of the thread is in the list. -/
def linked : Pc → Bool
  | .cmp | .wSleep | .asleep | .wRelock | .wUnlink0 | .wUnlink1 => true
  | _ => false

/-- The thread has a context. -/
def hasCtx : Pc → Bool
  | .wLink1 | .wLink2 | .cmp | .wSleep | .asleep | .wRelock | .wUnlink0 | .wUnlink1 => true
  | _ => false

def nxt (m : Ptr ι → Ctx ι) (p : Ptr ι) : Option (Ptr ι) := (m p).next
def prv (m : Ptr ι → Ctx ι) (p : Ptr ι) : Option (Ptr ι) := (m p).prev

/-- The list of an entry. -/
def Ring (m : Ptr ι → Ctx ι) (e : Nat) (L : List ι) : Prop :=
  path (nxt m) (.head e) (L.map .ctx) (.head e) ∧ path (prv m) (.head e) (L.reverse.map .ctx) (.head e)

/-- A list or one that has not been initialised yet. -/
def RU (m : Ptr ι → Ctx ι) (e : Nat) (L : List ι) : Prop := Ring m e L ∨ (nxt m (.head e) = none ∧ L = [])

/-- The list of an entry while a thread holds the lock. -/
def ShapeOf (m : Ptr ι → Ctx ι) (e : Nat) (L : List ι) : Option (ι × Pc) → Prop
  | some (_, .wLink0) => Ring m e L
  | some (h, .wLink1) => Ring m e L ∧ nxt m (.ctx h) = some (.head e) ∧ prv m (.ctx h) = prv m (.head e)
  | some (h, .wLink2) => path (nxt m) (.head e) ((L ++ [h]).map .ctx) (.head e) ∧ path (prv m) (.head e) (L.reverse.map .ctx) (.head e) ∧ nxt m (.ctx h) = some (.head e) ∧
      prv m (.ctx h) = prv m (.head e)
  | some (h, .wUnlink1) => ∃ A B, L = A ++ h :: B ∧ path (nxt m) (.head e) (L.map .ctx) (.head e) ∧ path (prv m) (.head e) ((A ++ B).reverse.map .ctx) (.head e) ∧
      prv m (.ctx h) = some (lastOf (.head e) (A.map .ctx))
  | _ => RU m e L

def Shape (s : St ι) (e : Nat) : Prop := ShapeOf s.mem e (s.ord e) ((s.lock e).map fun h => (h, (s.l h).pc))

/-- The first context of a rest of the list. -/
def firstOf (e : Nat) : List ι → Ptr ι
  | [] => .head e
  | u :: _ => .ctx u

/-- What the loop of a notification has done with the beginning of the list. -/
def Done (s : St ι) (n : ι) (A : List ι) : Prop :=
  if (s.l n).all = true then ∀ u ∈ A, (s.l u).a = (s.l n).a → (s.l u).pc ≠ .asleep else ∀ u ∈ A, (s.l u).a ≠ (s.l n).a

/-- What a notification has done when it ends. -/
def Fin (s : St ι) (n : ι) : Prop :=
  if (s.l n).all = true then ∀ u ∈ s.ord (entryOf (s.l n).a), (s.l u).a = (s.l n).a → (s.l u).pc ≠ .asleep
  else (∀ u ∈ s.ord (entryOf (s.l n).a), (s.l u).a ≠ (s.l n).a) ∨ ∃ u ∈ s.ord (entryOf (s.l n).a), (s.l u).a = (s.l n).a ∧ (s.l u).pc ≠ .asleep

def Noti (s : St ι) (n : ι) : Prop :=
  match (s.l n).pc with
  | .nTest => ∃ A B, s.ord (entryOf (s.l n).a) = A ++ B ∧ (s.l n).cur = some (firstOf (entryOf (s.l n).a) B) ∧ Done s n A
  | .nWake => ∃ A u B, s.ord (entryOf (s.l n).a) = A ++ u :: B ∧ (s.l n).cur = some (.ctx u) ∧ Done s n A ∧ (s.l u).a = (s.l n).a
  | .nNext => ∃ A u B, s.ord (entryOf (s.l n).a) = A ++ u :: B ∧ (s.l n).cur = some (.ctx u) ∧ Done s n (A ++ [u])
  | .nUnlock => Fin s n
  | _ => True

structure Inv (s : St ι) : Prop where
  lockI : ∀ e u, s.lock e = some u ↔ crit (s.l u).pc = true ∧ entryOf (s.l u).a = e
  memI : ∀ e u, u ∈ s.ord e ↔ linked (s.l u).pc = true ∧ entryOf (s.l u).a = e
  ctxI : ∀ u, hasCtx (s.l u).pc = true → (s.mem (.ctx u)).live = true ∧ (s.mem (.ctx u)).storage = some (s.l u).a
  headI : ∀ e, (s.mem (.head e)).live = true
  nodup : ∀ e, (s.ord e).Nodup
  shape : ∀ e, Shape s e
  noti : ∀ n, Noti s n

omit [DecidableEq ι] in
theorem ring_congr {m m' : Ptr ι → Ctx ι} {e : Nat} {L : List ι} (h : Ring m e L) (hh : m' (.head e) = m (.head e)) (hL : ∀ u ∈ L, m' (.ctx u) = m (.ctx u)) : Ring m' e L := by
  constructor
  · refine path_congr h.1 (by unfold nxt; rw [hh]) fun x hx => ?_
    obtain ⟨u, hu, rfl⟩ := List.mem_map.1 hx
    unfold nxt; rw [hL u hu]
  · refine path_congr h.2 (by unfold prv; rw [hh]) fun x hx => ?_
    obtain ⟨u, hu, rfl⟩ := List.mem_map.1 hx
    unfold prv; rw [hL u (List.mem_reverse.1 hu)]

omit [DecidableEq ι] in
theorem shape_congr {m m' : Ptr ι → Ctx ι} {e : Nat} {L : List ι} {o : Option (ι × Pc)} (h : ShapeOf m e L o) (hh : m' (.head e) = m (.head e)) (hL : ∀ u ∈ L, m' (.ctx u) = m (.ctx u))
    (ho : ∀ p, o = some p → m' (.ctx p.1) = m (.ctx p.1)) : ShapeOf m' e L o := by
  have hRU : RU m e L → RU m' e L := by
    rintro (h | h)
    · exact .inl (ring_congr h hh hL)
    · exact .inr ⟨by unfold nxt; rw [hh]; exact h.1, h.2⟩
  have hnx : ∀ (K : List ι), (∀ u ∈ K, m' (.ctx u) = m (.ctx u)) → path (nxt m) (.head e) (K.map .ctx) (.head e) → path (nxt m') (.head e) (K.map .ctx) (.head e) := by
    intro K hK hp
    refine path_congr hp (by unfold nxt; rw [hh]) fun x hx => ?_
    obtain ⟨u, hu, rfl⟩ := List.mem_map.1 hx
    unfold nxt; rw [hK u hu]
  have hpv : ∀ (K : List ι), (∀ u ∈ K, m' (.ctx u) = m (.ctx u)) → path (prv m) (.head e) (K.map .ctx) (.head e) → path (prv m') (.head e) (K.map .ctx) (.head e) := by
    intro K hK hp
    refine path_congr hp (by unfold prv; rw [hh]) fun x hx => ?_
    obtain ⟨u, hu, rfl⟩ := List.mem_map.1 hx
    unfold prv; rw [hK u hu]
  rcases o with _ | ⟨h0, p⟩
  · exact hRU h
  · have hc := ho _ rfl
    simp only [] at hc
    cases p
    case wLink0 => exact ring_congr h hh hL
    case wLink1 =>
      obtain ⟨h1, h2, h3⟩ := h
      exact ⟨ring_congr h1 hh hL, by unfold nxt at *; rw [hc]; exact h2, by unfold prv at *; rw [hc, hh]; exact h3⟩
    case wLink2 =>
      obtain ⟨h1, h2, h3, h4⟩ := h
      refine ⟨hnx _ ?_ h1, hpv _ ?_ h2, by unfold nxt at *; rw [hc]; exact h3, by unfold prv at *; rw [hc, hh]; exact h4⟩
      · intro u hu
        rcases List.mem_append.1 hu with hu | hu
        · exact hL u hu
        · rw [List.mem_singleton] at hu; subst hu; exact hc
      · intro u hu; exact hL u (List.mem_reverse.1 hu)
    case wUnlink1 =>
      obtain ⟨A, B, h1, h2, h3, h4⟩ := h
      refine ⟨A, B, h1, hnx _ hL h2, hpv _ ?_ h3, by unfold prv at *; rw [hc]; exact h4⟩
      intro u hu
      refine hL u ?_
      rw [h1]
      rw [List.mem_reverse] at hu
      rcases List.mem_append.1 hu with hu | hu
      · exact List.mem_append_left _ hu
      · exact List.mem_append_right _ (List.mem_cons_of_mem _ hu)
    all_goals exact hRU h

omit [DecidableEq ι] in
theorem noti_congr {s s' : St ι} {n : ι} (h : Noti s n) (hn : s'.l n = s.l n) (ho : crit (s.l n).pc = true → s'.ord (entryOf (s.l n).a) = s.ord (entryOf (s.l n).a))
    (hu : crit (s.l n).pc = true → ∀ u ∈ s.ord (entryOf (s.l n).a), (s'.l u).a = (s.l u).a ∧ ((s'.l u).pc = .asleep → (s.l u).pc = .asleep)) : Noti s' n := by
  have hD : crit (s.l n).pc = true → ∀ A, (∀ u ∈ A, u ∈ s.ord (entryOf (s.l n).a)) → Done s n A → Done s' n A := by
    intro hc A hA hd
    unfold Done at hd ⊢
    rw [hn]
    split
    · rename_i ha
      rw [if_pos ha] at hd
      intro u hu' he hp
      obtain ⟨h1, h2⟩ := hu hc u (hA u hu')
      exact hd u hu' (h1 ▸ he) (h2 hp)
    · rename_i ha
      rw [if_neg ha] at hd
      intro u hu'
      rw [(hu hc u (hA u hu')).1]
      exact hd u hu'
  unfold Noti at h ⊢
  rw [hn]
  cases hp : (s.l n).pc <;> rw [hp] at h hD ho hu <;> simp only [] at h ⊢
  case nTest =>
    obtain ⟨A, B, h1, h2, h3⟩ := h
    exact ⟨A, B, by rw [ho rfl]; exact h1, h2, hD rfl A (fun u hu => by rw [h1]; exact List.mem_append_left _ hu) h3⟩
  case nWake =>
    obtain ⟨A, u, B, h1, h2, h3, h4⟩ := h
    exact ⟨A, u, B, by rw [ho rfl]; exact h1, h2, hD rfl A (fun u hu => by rw [h1]; exact List.mem_append_left _ hu) h3, by rw [(hu rfl u (by rw [h1]; simp)).1]; exact h4⟩
  case nNext =>
    obtain ⟨A, u, B, h1, h2, h3⟩ := h
    refine ⟨A, u, B, by rw [ho rfl]; exact h1, h2, hD rfl _ (fun v hv => ?_) h3⟩
    rw [h1]
    rcases List.mem_append.1 hv with hv | hv
    · exact List.mem_append_left _ hv
    · rw [List.mem_singleton] at hv; subst hv; simp
  case nUnlock =>
    unfold Fin at h ⊢
    rw [hn, ho rfl]
    split
    · rename_i ha
      rw [if_pos ha] at h
      intro u hu' he hq
      obtain ⟨h1, h2⟩ := hu rfl u hu'
      exact h u hu' (h1 ▸ he) (h2 hq)
    · rename_i ha
      rw [if_neg ha] at h
      rcases h with h | ⟨u, h1, h2, h3⟩
      · exact .inl fun u hu' => by rw [(hu rfl u hu').1]; exact h u hu'
      · obtain ⟨h4, h5⟩ := hu rfl u h1
        exact .inr ⟨u, h1, by rw [h4]; exact h2, fun hc => h3 (h5 hc)⟩

omit [DecidableEq ι] in
theorem wake_a (x : Th ι) : (wake x).a = x.a := by unfold wake; split <;> rfl
omit [DecidableEq ι] in
theorem wake_crit (x : Th ι) : crit (wake x).pc = crit x.pc := by unfold wake; split <;> simp_all [crit]
omit [DecidableEq ι] in
theorem wake_linked (x : Th ι) : linked (wake x).pc = linked x.pc := by unfold wake; split <;> simp_all [linked]
omit [DecidableEq ι] in
theorem wake_ctx (x : Th ι) : hasCtx (wake x).pc = hasCtx x.pc := by unfold wake; split <;> simp_all [hasCtx]
omit [DecidableEq ι] in
theorem wake_of_crit {x : Th ι} (h : crit x.pc = true) : wake x = x := by
  unfold wake; split
  · rename_i hp; rw [hp] at h; cases h
  · rfl
omit [DecidableEq ι] in
theorem wake_ne (x : Th ι) : (wake x).pc ≠ .asleep := by
  unfold wake; split
  · simp
  · assumption

def inT (p : Pc) : Bool := crit p || linked p || hasCtx p

omit [DecidableEq ι] in
theorem noti_trivial {s : St ι} {n : ι} (h1 : (s.l n).pc ≠ .nTest) (h2 : (s.l n).pc ≠ .nWake) (h3 : (s.l n).pc ≠ .nNext) (h4 : (s.l n).pc ≠ .nUnlock) : Noti s n := by
  unfold Noti
  split <;> first | contradiction | trivial

/-- A step of thread `t` that concerns entry `e` only. -/
theorem Inv.frame {s s' : St ι} (h : Inv s) (t : ι) (e : Nat) (he : inT (s.l t).pc = true → entryOf (s.l t).a = e) (he' : inT (s'.l t).pc = true → entryOf (s'.l t).a = e)
    (hl : ∀ u, u ≠ t → s'.l u = s.l u ∨ s'.l u = wake (s.l u)) (hlock : ∀ e', e' ≠ e → s'.lock e' = s.lock e') (hord : ∀ e', e' ≠ e → s'.ord e' = s.ord e')
    (hmem : ∀ p, p ≠ .head e → p ≠ .ctx t → (∀ u ∈ s.ord e, p ≠ .ctx u) → s'.mem p = s.mem p)
    (hlive : ∀ p, p ≠ .ctx t → (s'.mem p).live = (s.mem p).live ∧ (s'.mem p).storage = (s.mem p).storage)
    (lockE : ∀ u, s'.lock e = some u ↔ crit (s'.l u).pc = true ∧ entryOf (s'.l u).a = e)
    (memE : ∀ u, u ∈ s'.ord e ↔ linked (s'.l u).pc = true ∧ entryOf (s'.l u).a = e)
    (ctxT : hasCtx (s'.l t).pc = true → (s'.mem (.ctx t)).live = true ∧ (s'.mem (.ctx t)).storage = some (s'.l t).a)
    (nodupE : (s'.ord e).Nodup) (shapeE : Shape s' e) (notiT : Noti s' t)
    (notiO : ∀ n, n ≠ t → crit (s.l n).pc = true → entryOf (s.l n).a = e → s'.ord e = s.ord e ∧
      (t ∈ s.ord e → (s'.l t).a = (s.l t).a ∧ ((s'.l t).pc = .asleep → (s.l t).pc = .asleep))) : Inv s' := by
  have la : ∀ u, u ≠ t → (s'.l u).a = (s.l u).a := fun u hu => by rcases hl u hu with h | h <;> rw [h]; rw [wake_a]
  have lc : ∀ u, u ≠ t → crit (s'.l u).pc = crit (s.l u).pc := fun u hu => by rcases hl u hu with h | h <;> rw [h]; rw [wake_crit]
  have ll : ∀ u, u ≠ t → linked (s'.l u).pc = linked (s.l u).pc := fun u hu => by rcases hl u hu with h | h <;> rw [h]; rw [wake_linked]
  have lx : ∀ u, u ≠ t → hasCtx (s'.l u).pc = hasCtx (s.l u).pc := fun u hu => by rcases hl u hu with h | h <;> rw [h]; rw [wake_ctx]
  have ls : ∀ u, u ≠ t → crit (s.l u).pc = true → s'.l u = s.l u := fun u hu hc => by
    rcases hl u hu with h | h
    · exact h
    · rw [h, wake_of_crit hc]
  have lz : ∀ u, u ≠ t → (s'.l u).pc = .asleep → (s.l u).pc = .asleep := fun u hu hc => by
    rcases hl u hu with h | h
    · rw [← h]; exact hc
    · rw [h] at hc; exact absurd hc (wake_ne _)
  constructor
  · intro e' u
    by_cases hee : e' = e
    · subst hee; exact lockE u
    · rw [hlock e' hee, h.lockI]
      by_cases hu : u = t
      · subst hu
        constructor
        · rintro ⟨h1, h2⟩
          exact absurd (h2.symm.trans (he (by unfold inT; rw [h1]; rfl))) hee
        · rintro ⟨h1, h2⟩
          exact absurd (h2.symm.trans (he' (by unfold inT; rw [h1]; rfl))) hee
      · rw [la u hu, lc u hu]
  · intro e' u
    by_cases hee : e' = e
    · subst hee; exact memE u
    · rw [hord e' hee, h.memI]
      by_cases hu : u = t
      · subst hu
        constructor
        · rintro ⟨h1, h2⟩
          exact absurd (h2.symm.trans (he (by unfold inT; rw [h1]; simp))) hee
        · rintro ⟨h1, h2⟩
          exact absurd (h2.symm.trans (he' (by unfold inT; rw [h1]; simp))) hee
      · rw [la u hu, ll u hu]
  · intro u hu
    by_cases hut : u = t
    · subst hut; exact ctxT hu
    · rw [lx u hut] at hu
      obtain ⟨h1, h2⟩ := h.ctxI u hu
      obtain ⟨h3, h4⟩ := hlive (.ctx u) (by intro hc; injection hc with hc; exact hut hc)
      rw [h3, h4, la u hut]
      exact ⟨h1, h2⟩
  · intro e'
    rw [(hlive (.head e') (by simp)).1]
    exact h.headI e'
  · intro e'
    by_cases hee : e' = e
    · subst hee; exact nodupE
    · rw [hord e' hee]; exact h.nodup e'
  · intro e'
    by_cases hee : e' = e
    · subst hee; exact shapeE
    · have hno : ∀ u, u ≠ t → u ∉ s.ord e → s'.mem (.ctx u) = s.mem (.ctx u) := by
        intro u hu hue
        refine hmem _ (by simp) (by intro hc; injection hc with hc; exact hu hc) fun w hw hc => ?_
        injection hc with hc
        subst hc
        exact hue hw
      have hsh := h.shape e'
      unfold Shape at hsh ⊢
      rw [hlock e' hee, hord e' hee]
      have hht : ∀ w, s.lock e' = some w → w ≠ t ∧ crit (s.l w).pc = true ∧ entryOf (s.l w).a = e' := by
        intro w hw
        have hw' := (h.lockI e' w).1 hw
        refine ⟨?_, hw'⟩
        rintro rfl
        exact hee (hw'.2.symm.trans (he (by unfold inT; rw [hw'.1]; rfl)))
      have ho : (s.lock e').map (fun w => (w, (s'.l w).pc)) = (s.lock e').map (fun w => (w, (s.l w).pc)) := by
        cases hw : s.lock e' with
        | none => rfl
        | some w =>
          obtain ⟨h1, h2, _⟩ := hht w hw
          simp only [Option.map_some]
          rw [ls w h1 h2]
      rw [ho]
      refine shape_congr hsh (hmem _ (by intro hc; injection hc with hc; exact hee hc) (by simp) (by simp)) (fun u hu => ?_) fun p hp => ?_
      · have hu' := (h.memI e' u).1 hu
        refine hno u ?_ fun hc => ?_
        · rintro rfl
          exact hee (hu'.2.symm.trans (he (by unfold inT; rw [hu'.1]; simp)))
        · exact hee (hu'.2.symm.trans ((h.memI e u).1 hc).2)
      · cases hw : s.lock e' with
        | none => rw [hw] at hp; cases hp
        | some w =>
          rw [hw] at hp
          simp only [Option.map_some, Option.some.injEq] at hp
          subst hp
          obtain ⟨h1, h2, h3⟩ := hht w hw
          simp only []
          refine hno w h1 fun hc => ?_
          exact hee (h3.symm.trans ((h.memI e w).1 hc).2)
  · intro n
    by_cases hn : n = t
    · subst hn; exact notiT
    · by_cases hc : crit (s.l n).pc = true
      · refine noti_congr (h.noti n) (ls n hn hc) (fun _ => ?_) fun _ u hu => ?_
        · by_cases hee : entryOf (s.l n).a = e
          · rw [hee]; exact (notiO n hn hc hee).1
          · exact hord _ hee
        · by_cases hut : u = t
          · subst hut
            have hu' := (h.memI _ u).1 hu
            have hee : entryOf (s.l n).a = e := hu'.2.symm.trans (he (by unfold inT; rw [hu'.1]; simp))
            rw [hee] at hu
            exact (notiO n hn hc hee).2 hu
          · exact ⟨la u hut, lz u hut⟩
      · have : crit (s'.l n).pc = false := by rw [lc n hn]; simpa using hc
        refine noti_trivial ?_ ?_ ?_ ?_ <;> intro hp <;> rw [hp] at this <;> cases this

end STL.AWait
