import Verif.Par.SortDeque2
import Verif.Par.SortMem

/-!
# The team: deques, owners and thieves together
-/

namespace STL.Par.PSort
open STL.Conc

variable {ι α : Type} [DecidableEq ι] [Fintype ι]

theorem split_sum {L M : Type} [AddCommMonoid M] (f : L → M) (l : ι → L) (t : ι) : ∃ r, ∑ u, f (l u) = r + f (l t) ∧ ∀ x, ∑ u, f (upd l t x u) = r + f x := by
  refine ⟨∑ u ∈ Finset.univ.erase t, f (l u), ?_, fun x => ?_⟩
  · rw [add_comm, Finset.add_sum_erase _ (fun u => f (l u)) (Finset.mem_univ t)]
  · rw [← Finset.add_sum_erase _ _ (Finset.mem_univ t), upd_self, add_comm]
    congr 1
    refine Finset.sum_congr rfl fun u hu => ?_
    rw [upd_ne _ _ (Finset.ne_of_mem_erase hu)]

theorem split_range {L M : Type} [AddCommMonoid M] (f : L → M) (q : Nat → L) {k T : Nat} (hk : k < T) :
    ∃ r, ∑ i ∈ Finset.range T, f (q i) = r + f (q k) ∧ ∀ x, ∑ i ∈ Finset.range T, f (upd q k x i) = r + f x := by
  refine ⟨∑ i ∈ (Finset.range T).erase k, f (q i), ?_, fun x => ?_⟩
  · rw [add_comm, Finset.add_sum_erase _ (fun u => f (q u)) (Finset.mem_range.2 hk)]
  · rw [← Finset.add_sum_erase _ _ (Finset.mem_range.2 hk), upd_self, add_comm]
    congr 1
    refine Finset.sum_congr rfl fun u hu => ?_
    rw [upd_ne _ _ (Finset.ne_of_mem_erase hu)]

/-- The thread is a member of the team (a callback that has seen `_Done` never leaves it). -/
def hasId (p : Pc) : Bool := p ≠ .idle && p ≠ .join

/-- References of a thread to buffers of deque `k`. -/
def hold (k : Nat) (x : Th α) (g : Nat) : Nat := (if x.id = k then holdOwn x g else 0) + if x.idx = k then holdThief x g else 0

structure Inv1 (T : Nat) (s : St ι α) : Prop where
  idLt : ∀ u, hasId (s.l u).pc → (s.l u).id < T
  idInj : ∀ u v, hasId (s.l u).pc → hasId (s.l v).pc → (s.l u).id = (s.l v).id → u = v
  av : ∀ i, s.tm.avail i = true ↔ i < T ∧ ∀ u, hasId (s.l u).pc → (s.l u).id ≠ i
  used : s.tm.used < T
  own : ∀ u, hasId (s.l u).pc → OC (s.q (s.l u).id) u (s.l u)
  noown : ∀ k, (∀ u, hasId (s.l u).pc → (s.l u).id ≠ k) → (s.q k).lb = (s.q k).bottom
  thief : ∀ u, kind (s.l u).pc = .thief → TC (s.q (s.l u).idx) u (s.l u) ∧ (s.l u).idx < T ∧ (s.l u).idx ≠ (s.l u).id ∧ (s.l u).hi ≤ T
  loop : ∀ u, (s.l u).pc = .steal2 → (s.l u).idx < T ∧ (s.l u).hi ≤ T
  dq : ∀ k, DQ (s.q k)
  rc : ∀ k, RC (s.q k) (fun g => ∑ u, hold k (s.l u) g)

theorem holdOwn_zero {x : Th α} (h : kind x.pc ≠ .own) (g : Nat) : holdOwn x g = 0 := by
  unfold holdOwn
  split <;> simp_all [kind]

theorem holdThief_zero {x : Th α} (h : kind x.pc ≠ .thief) (g : Nat) : holdThief x g = 0 := by
  unfold holdThief
  split <;> simp_all [kind]

theorem OC_plain {d : Dq ι} {u : ι} {x : Th α} (h : kind x.pc ≠ .own ∨ x.pc = .push0 ∨ x.pc = .pop0) : OC d u x ↔ d.lb = d.bottom := by
  unfold OC
  split <;> simp_all [kind]

theorem hasId_own {p : Pc} (h : kind p = .own) : hasId p = true := by cases p <;> simp_all [kind, hasId]
theorem hasId_thief {p : Pc} (h : kind p = .thief) : hasId p = true := by cases p <;> simp_all [kind, hasId]

/-- A step of an owner. -/
theorem Inv1.own_step {T : Nat} {s : St ι α} (h : Inv1 T s) (e : Env) (t : ι) (hk : kind (s.l t).pc = .own) :
    ∃ d' x' r, ownStep e t (s.q (s.l t).id) (s.l t) = .ok (d', x') ∧ OwnOk (s.q (s.l t).id) t (s.l t) r d' x' ∧
      Inv1 T { s with q := upd s.q (s.l t).id d', l := upd s.l t x' } := by
  have ht : hasId (s.l t).pc = true := hasId_own hk
  have hs : ∀ k g, ∃ r, ∑ u, hold k (s.l u) g = r + hold k (s.l t) g ∧ ∀ x, ∑ u, hold k (upd s.l t x u) g = r + hold k x g := fun k g =>
    split_sum (fun x => hold k x g) s.l t
  choose r hr1 hr2 using hs
  have hhold : ∀ g, hold (s.l t).id (s.l t) g = holdOwn (s.l t) g := fun g => by
    unfold hold
    rw [if_pos rfl, holdThief_zero (by rw [hk]; decide)]; simp
  have hrc := h.rc (s.l t).id
  simp only [hr1, hhold] at hrc
  obtain ⟨d', x', e1, ok⟩ := PSort.own_step e t _ _ hk (h.dq _) (h.own t ht) _ hrc
  have hx' : hasId x'.pc = true := by
    rcases ok.pc with h | h | h | h
    · exact hasId_own h
    all_goals rw [h]; rfl
  have hx'k : kind x'.pc ≠ .thief := by
    rcases ok.pc with h | h | h | h <;> rw [h] <;> simp [kind]
  refine ⟨d', x', _, e1, ok, ?_⟩
  have hid : ∀ u, (upd s.l t x' u).id = (s.l u).id := by
    intro u
    by_cases hu : u = t
    · subst hu; rw [upd_self, ok.id]
    · rw [upd_ne _ _ hu]
  have hhas : ∀ u, hasId (upd s.l t x' u).pc = hasId (s.l u).pc := by
    intro u
    by_cases hu : u = t
    · subst hu; rw [upd_self, hx', ht]
    · rw [upd_ne _ _ hu]
  constructor
  · simp only [hid, hhas]; exact h.idLt
  · simp only [hid, hhas]; exact h.idInj
  · simp only [hid, hhas]; exact h.av
  · exact h.used
  · intro u hu
    simp only [hid, hhas] at hu ⊢
    by_cases hut : u = t
    · subst hut; rw [upd_self, upd_self]; exact ok.oc
    · rw [upd_ne _ _ hut]
      rw [upd_ne _ _ (fun he => hut (h.idInj u t hu ht he))]
      exact h.own u hu
  · intro k hk'
    simp only [hid, hhas] at hk' ⊢
    rw [upd_ne _ _ (Ne.symm (hk' t ht))]
    exact h.noown k hk'
  · intro u hu
    simp only [] at hu ⊢
    by_cases hut : u = t
    · subst hut; rw [upd_self] at hu; exact absurd hu hx'k
    · rw [upd_ne _ _ hut] at hu ⊢
      obtain ⟨h1, h2, h3, h4⟩ := h.thief u hu
      refine ⟨?_, h2, h3, h4⟩
      by_cases hix : (s.l u).idx = (s.l t).id
      · rw [hix, upd_self]
        rw [hix] at h1
        exact ok.tc u hut _ h1
      · rw [upd_ne _ _ hix]; exact h1
  · intro u hu
    simp only [] at hu ⊢
    by_cases hut : u = t
    · subst hut; rw [upd_self] at hu
      rcases ok.pc with h | h | h | h <;> rw [hu] at h <;> simp [kind] at h
    · rw [upd_ne _ _ hut] at hu ⊢
      exact h.loop u hu
  · intro k
    simp only []
    by_cases hkk : k = (s.l t).id
    · rw [hkk, upd_self]; exact ok.dq
    · rw [upd_ne _ _ hkk]; exact h.dq k
  · intro k
    simp only [hr2]
    by_cases hkk : k = (s.l t).id
    · subst hkk
      rw [upd_self]
      have : ∀ g, hold (s.l t).id x' g = holdOwn x' g := fun g => by
        unfold hold
        rw [if_pos ok.id, holdThief_zero hx'k]; simp
      simp only [this]
      exact ok.rc
    · rw [upd_ne _ _ hkk]
      refine (h.rc k).of (fun _ => rfl) (fun _ => rfl) rfl rfl fun g => ?_
      rw [hr1]
      congr 1
      unfold hold
      rw [if_neg (by rw [ok.id]; exact Ne.symm hkk), if_neg (Ne.symm hkk), holdThief_zero hx'k, holdThief_zero (by rw [hk]; decide)]
      simp

/-- A step of a thief. -/
theorem Inv1.thief_step {T : Nat} {s : St ι α} (h : Inv1 T s) (t : ι) (hk : kind (s.l t).pc = .thief) :
    ∃ d' x' r, thiefStep t (s.q (s.l t).idx) (s.l t) = .ok (d', x') ∧ ThiefOk (s.q (s.l t).idx) t (s.l t) r d' x' ∧
      Inv1 T { s with q := upd s.q (s.l t).idx d', l := upd s.l t x' } := by
  have ht : hasId (s.l t).pc = true := hasId_thief hk
  have hs : ∀ k g, ∃ r, ∑ u, hold k (s.l u) g = r + hold k (s.l t) g ∧ ∀ x, ∑ u, hold k (upd s.l t x u) g = r + hold k x g := fun k g =>
    split_sum (fun x => hold k x g) s.l t
  choose r hr1 hr2 using hs
  obtain ⟨t1, t2, t3, t4⟩ := h.thief t hk
  have hhold : ∀ g, hold (s.l t).idx (s.l t) g = holdThief (s.l t) g := fun g => by
    unfold hold
    rw [if_pos rfl, holdOwn_zero (by rw [hk]; decide)]; simp
  have hrc := h.rc (s.l t).idx
  simp only [hr1, hhold] at hrc
  obtain ⟨d', x', e1, ok⟩ := PSort.thief_step t _ _ hk (h.dq _) t1 _ hrc
  have hx' : hasId x'.pc = true := by
    rcases ok.pc with h | h | h
    · exact hasId_thief h
    all_goals rw [h]; rfl
  have hx'k : kind x'.pc ≠ .own := by
    rcases ok.pc with h | h | h <;> rw [h] <;> simp [kind]
  refine ⟨d', x', _, e1, ok, ?_⟩
  have hid : ∀ u, (upd s.l t x' u).id = (s.l u).id := by
    intro u
    by_cases hu : u = t
    · subst hu; rw [upd_self, ok.id]
    · rw [upd_ne _ _ hu]
  have hhas : ∀ u, hasId (upd s.l t x' u).pc = hasId (s.l u).pc := by
    intro u
    by_cases hu : u = t
    · subst hu; rw [upd_self, hx', ht]
    · rw [upd_ne _ _ hu]
  constructor
  · simp only [hid, hhas]; exact h.idLt
  · simp only [hid, hhas]; exact h.idInj
  · simp only [hid, hhas]; exact h.av
  · exact h.used
  · intro u hu
    simp only [hid, hhas] at hu ⊢
    by_cases hut : u = t
    · subst hut
      rw [upd_self, upd_ne _ _ (Ne.symm t3), OC_plain (.inl hx'k)]
      exact (OC_plain (.inl (by rw [hk]; decide))).1 (h.own u ht)
    · rw [upd_ne _ _ hut]
      have ho := h.own u hu
      by_cases hix : (s.l u).id = (s.l t).idx
      · rw [hix, upd_self]
        rw [hix] at ho
        exact ok.oc u hut _ ho
      · rw [upd_ne _ _ hix]; exact ho
  · intro k hk'
    simp only [hid, hhas] at hk' ⊢
    have := h.noown k hk'
    by_cases hix : k = (s.l t).idx
    · subst hix
      rw [upd_self, ok.bot.1, ok.bot.2]; exact this
    · rw [upd_ne _ _ hix]; exact this
  · intro u hu
    simp only [] at hu ⊢
    by_cases hut : u = t
    · subst hut; rw [upd_self, ok.ix.1, ok.ix.2, ok.id, upd_self]
      exact ⟨ok.tc, t2, t3, t4⟩
    · rw [upd_ne _ _ hut] at hu ⊢
      obtain ⟨h1, h2, h3, h4⟩ := h.thief u hu
      refine ⟨?_, h2, h3, h4⟩
      by_cases hix : (s.l u).idx = (s.l t).idx
      · rw [hix, upd_self]
        rw [hix] at h1
        exact ok.tcs u hut _ h1
      · rw [upd_ne _ _ hix]; exact h1
  · intro u hu
    simp only [] at hu ⊢
    by_cases hut : u = t
    · subst hut; rw [upd_self, ok.ix.1, ok.ix.2]
      exact ⟨t2, t4⟩
    · rw [upd_ne _ _ hut] at hu ⊢
      exact h.loop u hu
  · intro k
    simp only []
    by_cases hkk : k = (s.l t).idx
    · rw [hkk, upd_self]; exact ok.dq
    · rw [upd_ne _ _ hkk]; exact h.dq k
  · intro k
    simp only [hr2]
    by_cases hkk : k = (s.l t).idx
    · subst hkk
      rw [upd_self]
      have : ∀ g, hold (s.l t).idx x' g = holdThief x' g := fun g => by
        unfold hold
        rw [if_pos ok.ix.1, holdOwn_zero hx'k]; simp
      simp only [this]
      exact ok.rc
    · rw [upd_ne _ _ hkk]
      refine (h.rc k).of (fun _ => rfl) (fun _ => rfl) rfl rfl fun g => ?_
      rw [hr1]
      congr 1
      unfold hold
      rw [if_neg (c := x'.idx = k) (by rw [ok.ix.1]; exact Ne.symm hkk), if_neg (c := (s.l t).idx = k) (Ne.symm hkk), holdOwn_zero hx'k, holdOwn_zero (x := s.l t) (by rw [hk]; decide)]
      simp

/-- A step of a member of the team that stays one and touches no deque. -/
theorem Inv1.team_keep {T : Nat} {s : St ι α} (h : Inv1 T s) (t : ι) {tm' : Team α} {x' : Th α} (ha : tm'.avail = s.tm.avail) (hu : tm'.used < T)
    (ht : hasId (s.l t).pc = true) (hx' : hasId x'.pc = true) (hid' : x'.id = (s.l t).id) (hk : kind (s.l t).pc = .team)
    (hk' : kind x'.pc ≠ .own ∨ x'.pc = .push0 ∨ x'.pc = .pop0) (hth : kind x'.pc = .thief → x'.pc = .s0 ∧ x'.idx < T ∧ x'.idx ≠ x'.id ∧ x'.hi ≤ T)
    (hl : x'.pc = .steal2 → x'.idx < T ∧ x'.hi ≤ T) : Inv1 T { s with tm := tm', l := upd s.l t x' } := by
  have hid : ∀ u, (upd s.l t x' u).id = (s.l u).id := by
    intro u
    by_cases hu : u = t
    · subst hu; rw [upd_self, hid']
    · rw [upd_ne _ _ hu]
  have hhas : ∀ u, hasId (upd s.l t x' u).pc = hasId (s.l u).pc := by
    intro u
    by_cases hu : u = t
    · subst hu; rw [upd_self, hx', ht]
    · rw [upd_ne _ _ hu]
  constructor
  · simp only [hid, hhas]; exact h.idLt
  · simp only [hid, hhas]; exact h.idInj
  · simp only [hid, hhas, ha]; exact h.av
  · exact hu
  · intro u hu
    simp only [hid, hhas] at hu ⊢
    by_cases hut : u = t
    · subst hut
      rw [upd_self, OC_plain hk']
      exact (OC_plain (.inl (by rw [hk]; decide))).1 (h.own u ht)
    · rw [upd_ne _ _ hut]
      exact h.own u hu
  · intro k hk'
    simp only [hid, hhas] at hk' ⊢
    exact h.noown k hk'
  · intro u hu
    simp only [] at hu ⊢
    by_cases hut : u = t
    · subst hut; rw [upd_self] at hu ⊢
      obtain ⟨h1, h2⟩ := hth hu
      refine ⟨?_, h2⟩
      unfold TC; rw [h1]; trivial
    · rw [upd_ne _ _ hut] at hu ⊢
      exact h.thief u hu
  · intro u hu
    simp only [] at hu ⊢
    by_cases hut : u = t
    · subst hut; rw [upd_self] at hu ⊢
      exact hl hu
    · rw [upd_ne _ _ hut] at hu ⊢
      exact h.loop u hu
  · exact h.dq
  · intro k
    refine (h.rc k).of (fun _ => rfl) (fun _ => rfl) rfl rfl fun g => Finset.sum_congr rfl fun u _ => ?_
    simp only []
    by_cases hut : u = t
    · subst hut
      rw [upd_self]
      unfold hold
      rw [holdOwn_zero (x := s.l u) (by rw [hk]; decide), holdThief_zero (x := s.l u) (by rw [hk]; decide)]
      have e1 : holdOwn x' g = 0 := by
        rcases hk' with h | h | h
        · exact holdOwn_zero h g
        all_goals unfold holdOwn; rw [h]
      have e2 : holdThief x' g = 0 := by
        by_cases hkt : kind x'.pc = .thief
        · unfold holdThief; rw [(hth hkt).1]
        · exact holdThief_zero hkt g
      rw [e1, e2]
      simp
    · rw [upd_ne _ _ hut]

/-- A step of a thread that is not in the team and does not become a member. -/
theorem Inv1.team_out {T : Nat} {s : St ι α} (h : Inv1 T s) (t : ι) {x' : Th α} (ht : hasId (s.l t).pc = false) (hx' : hasId x'.pc = false) :
    Inv1 T { s with l := upd s.l t x' } := by
  have hpc : ∀ p, hasId p = false → p = .idle ∨ p = .join := by intro p; cases p <;> simp [hasId]
  have kk : ∀ p, hasId p = false → kind p = .team := by
    intro p hp
    rcases hpc p hp with h | h <;> rw [h] <;> rfl
  have hhas : ∀ u, hasId (upd s.l t x' u).pc = hasId (s.l u).pc := by
    intro u
    by_cases hu : u = t
    · subst hu; rw [upd_self, hx', ht]
    · rw [upd_ne _ _ hu]
  have hne : ∀ u, hasId (s.l u).pc = true → u ≠ t := by
    intro u hu e
    subst e
    rw [ht] at hu; cases hu
  constructor
  · intro u hu
    simp only [hhas] at hu ⊢
    rw [upd_ne _ _ (hne u hu)]; exact h.idLt u hu
  · intro u v hu hv
    simp only [hhas] at hu hv ⊢
    rw [upd_ne _ _ (hne u hu), upd_ne _ _ (hne v hv)]; exact h.idInj u v hu hv
  · intro i
    simp only [hhas]
    rw [h.av]
    refine and_congr_right fun _ => forall_congr' fun u => forall_congr' fun hu => ?_
    rw [upd_ne _ _ (hne u hu)]
  · exact h.used
  · intro u hu
    simp only [hhas] at hu ⊢
    rw [upd_ne _ _ (hne u hu)]; exact h.own u hu
  · intro k hk
    simp only [hhas] at hk ⊢
    refine h.noown k fun u hu => ?_
    have := hk u hu
    rw [upd_ne _ _ (hne u hu)] at this
    exact this
  · intro u hu
    simp only [] at hu ⊢
    by_cases hut : u = t
    · subst hut; rw [upd_self, kk _ hx'] at hu; cases hu
    · rw [upd_ne _ _ hut] at hu ⊢
      exact h.thief u hu
  · intro u hu
    simp only [] at hu ⊢
    by_cases hut : u = t
    · subst hut; rw [upd_self] at hu; rw [hu] at hx'; cases hx'
    · rw [upd_ne _ _ hut] at hu ⊢
      exact h.loop u hu
  · exact h.dq
  · intro k
    refine (h.rc k).of (fun _ => rfl) (fun _ => rfl) rfl rfl fun g => Finset.sum_congr rfl fun u _ => ?_
    simp only []
    by_cases hut : u = t
    · subst hut
      rw [upd_self]
      unfold hold
      rw [holdOwn_zero (x := s.l u) (by rw [kk _ ht]; decide), holdThief_zero (x := s.l u) (by rw [kk _ ht]; decide),
        holdOwn_zero (x := x') (by rw [kk _ hx']; decide), holdThief_zero (x := x') (by rw [kk _ hx']; decide)]
      simp
    · rw [upd_ne _ _ hut]

/-- `_Join_team` finds a number. -/
theorem Inv1.join_some {T : Nat} (hT : Fintype.card ι ≤ T) {s : St ι α} (h : Inv1 T s) (t : ι) (ht : hasId (s.l t).pc = false) :
    ∃ i, (List.range T).find? s.tm.avail = some i ∧ s.tm.avail i = true := by
  cases hf : (List.range T).find? s.tm.avail with
  | some i => exact ⟨i, rfl, List.find?_some hf⟩
  | none =>
    exfalso
    rw [List.find?_eq_none] at hf
    have hex : ∀ i : Fin T, ∃ u, u ≠ t ∧ hasId (s.l u).pc = true ∧ (s.l u).id = i.1 := by
      intro i
      have := hf i.1 (List.mem_range.2 i.2)
      rw [h.av] at this
      push Not at this
      obtain ⟨u, hu, he⟩ := this i.2
      refine ⟨u, ?_, hu, he⟩
      rintro rfl
      rw [ht] at hu; cases hu
    choose f hf1 hf2 hf3 using hex
    have hinj : Function.Injective f := by
      intro i j hij
      have := hf3 i
      rw [hij, hf3 j] at this
      exact Fin.ext this.symm
    have h1 : (Finset.univ.image f).card = T := by
      rw [Finset.card_image_of_injective _ hinj]; simp
    have h2 : (Finset.univ.image f) ⊆ Finset.univ.erase t := by
      intro u hu
      obtain ⟨i, _, rfl⟩ := Finset.mem_image.1 hu
      exact Finset.mem_erase.2 ⟨hf1 i, Finset.mem_univ _⟩
    have h3 := Finset.card_le_card h2
    rw [Finset.card_erase_of_mem (Finset.mem_univ t), Finset.card_univ, h1] at h3
    have : 0 < Fintype.card ι := Fintype.card_pos_iff.2 ⟨t⟩
    omega

/-- `_Join_team`. -/
theorem Inv1.team_join {T : Nat} {s : St ι α} (h : Inv1 T s) (t : ι) {i : Nat} (ht : (s.l t).pc = .join) (hi : s.tm.avail i = true) {x' : Th α}
    (hx' : x'.pc = .high) (hid : x'.id = i) :
    Inv1 T { s with tm := { s.tm with avail := upd s.tm.avail i false }, l := upd s.l t x' } := by
  obtain ⟨i1, i2⟩ := (h.av i).1 hi
  have htn : hasId (s.l t).pc = false := by rw [ht]; rfl
  have hne : ∀ u, hasId (s.l u).pc = true → u ≠ t := by
    intro u hu e
    subst e
    rw [htn] at hu; cases hu
  have hxh : hasId x'.pc = true := by rw [hx']; rfl
  constructor
  · intro u hu
    simp only [] at hu ⊢
    by_cases hut : u = t
    · subst hut; rw [upd_self, hid]; exact i1
    · rw [upd_ne _ _ hut] at hu ⊢; exact h.idLt u hu
  · intro u v hu hv huv
    simp only [] at hu hv huv
    by_cases hut : u = t
    · by_cases hvt : v = t
      · rw [hut, hvt]
      · rw [hut, upd_self, hid] at huv
        rw [upd_ne _ _ hvt] at hv huv
        exact absurd huv.symm (i2 v hv)
    · rw [upd_ne _ _ hut] at hu huv
      by_cases hvt : v = t
      · rw [hvt, upd_self, hid] at huv
        exact absurd huv (i2 u hu)
      · rw [upd_ne _ _ hvt] at hv huv
        exact h.idInj u v hu hv huv
  · intro k
    simp only []
    by_cases hk : k = i
    · subst hk
      rw [upd_self]
      refine ⟨fun h => (by cases h), fun hh => ?_⟩
      exfalso
      refine hh.2 t ?_ ?_
      · rw [upd_self]; exact hxh
      · rw [upd_self]; exact hid
    · rw [upd_ne _ _ hk, h.av]
      refine and_congr_right fun _ => ⟨fun hh u hu => ?_, fun hh u hu => ?_⟩
      · by_cases hut : u = t
        · subst hut; rw [upd_self, hid]; exact Ne.symm hk
        · rw [upd_ne _ _ hut] at hu ⊢; exact hh u hu
      · have := hh u (by rw [upd_ne _ _ (hne u hu)]; exact hu)
        rw [upd_ne _ _ (hne u hu)] at this
        exact this
  · exact h.used
  · intro u hu
    simp only [] at hu ⊢
    by_cases hut : u = t
    · subst hut; rw [upd_self, hid, OC_plain (.inl (by rw [hx']; decide))]
      exact h.noown i i2
    · rw [upd_ne _ _ hut] at hu ⊢; exact h.own u hu
  · intro k hk
    simp only [] at hk ⊢
    refine h.noown k fun u hu => ?_
    have := hk u (by rw [upd_ne _ _ (hne u hu)]; exact hu)
    rw [upd_ne _ _ (hne u hu)] at this
    exact this
  · intro u hu
    simp only [] at hu ⊢
    by_cases hut : u = t
    · subst hut; rw [upd_self, hx'] at hu; cases hu
    · rw [upd_ne _ _ hut] at hu ⊢
      exact h.thief u hu
  · intro u hu
    simp only [] at hu ⊢
    by_cases hut : u = t
    · subst hut; rw [upd_self, hx'] at hu; cases hu
    · rw [upd_ne _ _ hut] at hu ⊢
      exact h.loop u hu
  · exact h.dq
  · intro k
    refine (h.rc k).of (fun _ => rfl) (fun _ => rfl) rfl rfl fun g => Finset.sum_congr rfl fun u _ => ?_
    simp only []
    by_cases hut : u = t
    · subst hut
      rw [upd_self]
      unfold hold holdOwn holdThief
      rw [hx', ht]
      simp
    · rw [upd_ne _ _ hut]

/-- `_Leave_team`. -/
theorem Inv1.team_leave {T : Nat} {s : St ι α} (h : Inv1 T s) (t : ι) (ht : (s.l t).pc = .leave) {x' : Th α}
    (hx' : x'.pc = .idle) : Inv1 T { s with tm := { s.tm with avail := upd s.tm.avail (s.l t).id true }, l := upd s.l t x' } := by
  have hth : hasId (s.l t).pc = true := by rw [ht]; rfl
  have hxh : hasId x'.pc = false := by rw [hx']; rfl
  have hne : ∀ u, hasId (upd s.l t x' u).pc = true → u ≠ t := by
    intro u hu e
    subst e
    rw [upd_self, hxh] at hu; cases hu
  constructor
  · intro u hu
    have hut := hne u hu
    simp only [] at hu ⊢
    rw [upd_ne _ _ hut] at hu ⊢; exact h.idLt u hu
  · intro u v hu hv huv
    have hut := hne u hu
    have hvt := hne v hv
    simp only [] at hu hv huv
    rw [upd_ne _ _ hut] at hu huv
    rw [upd_ne _ _ hvt] at hv huv
    exact h.idInj u v hu hv huv
  · intro k
    simp only []
    by_cases hk : k = (s.l t).id
    · subst hk
      rw [upd_self]
      refine ⟨fun _ => ⟨h.idLt t hth, fun u hu he => ?_⟩, fun _ => rfl⟩
      have hut := hne u hu
      rw [upd_ne _ _ hut] at hu he
      exact hut (h.idInj u t hu hth he)
    · rw [upd_ne _ _ hk, h.av]
      refine and_congr_right fun _ => ⟨fun hh u hu => ?_, fun hh u hu => ?_⟩
      · have hut := hne u hu
        rw [upd_ne _ _ hut] at hu ⊢; exact hh u hu
      · by_cases hut : u = t
        · subst hut; exact Ne.symm hk
        · have := hh u (by rw [upd_ne _ _ hut]; exact hu)
          rw [upd_ne _ _ hut] at this
          exact this
  · exact h.used
  · intro u hu
    have hut := hne u hu
    simp only [] at hu ⊢
    rw [upd_ne _ _ hut] at hu ⊢; exact h.own u hu
  · intro k hk
    simp only [] at hk ⊢
    by_cases hkt : k = (s.l t).id
    · subst hkt
      exact (OC_plain (.inl (by rw [ht]; decide))).1 (h.own t hth)
    · refine h.noown k fun u hu => ?_
      by_cases hut : u = t
      · subst hut; exact Ne.symm hkt
      · have := hk u (by rw [upd_ne _ _ hut]; exact hu)
        rw [upd_ne _ _ hut] at this
        exact this
  · intro u hu
    simp only [] at hu ⊢
    by_cases hut : u = t
    · subst hut; rw [upd_self, hx'] at hu; cases hu
    · rw [upd_ne _ _ hut] at hu ⊢
      exact h.thief u hu
  · intro u hu
    simp only [] at hu ⊢
    by_cases hut : u = t
    · subst hut; rw [upd_self, hx'] at hu; cases hu
    · rw [upd_ne _ _ hut] at hu ⊢
      exact h.loop u hu
  · exact h.dq
  · intro k
    refine (h.rc k).of (fun _ => rfl) (fun _ => rfl) rfl rfl fun g => Finset.sum_congr rfl fun u _ => ?_
    simp only []
    by_cases hut : u = t
    · subst hut
      rw [upd_self]
      unfold hold holdOwn holdThief
      rw [hx', ht]
      simp
    · rw [upd_ne _ _ hut]

end STL.Par.PSort
