import Verif.Par.SortDeque

namespace STL.Par.PSort
open STL.Conc

variable {ι α : Type} [DecidableEq ι]

theorem TC_of {d d' : Dq ι} {u : ι} {y : Th α} (h1 : d.top ≤ d'.top)
    (h2 : d'.top = d.top → d.top < d.lb → d.top < d'.lb ∧ d'.items d.top = d.items d.top ∧ ∀ g < d.nseg, (d'.segs g).at d.top = (d.segs g).at d.top)
    (h3 : d.nseg ≤ d'.nseg) (h4 : d.lock = some u → d'.lock = some u ∧ d'.cur = d.cur) (h : TC d u y) : TC d' u y := by
  unfold TC at h ⊢
  split at h <;> first | trivial | grind

theorem OC_of {d d' : Dq ι} {u : ι} {y : Th α} (h1 : d.top ≤ d'.top) (h2 : d'.bottom = d.bottom) (h3 : d'.lb = d.lb) (h4 : d'.items = d.items) (h5 : d'.cur = d.cur)
    (h6 : d'.nseg = d.nseg) (h7 : ∀ g, (d'.segs g).log = (d.segs g).log) (h8 : ∀ g i, (d'.segs g).at i = (d.segs g).at i)
    (h9 : d.lock = some u → d'.lock = some u) (h : OC d u y) : OC d' u y := by
  unfold OC at h ⊢
  split at h <;> simp only [h2, h3, h4, h5, h6, h7, h8] <;> grind

/-- `_Release` of a buffer to which the thread has a reference. -/
theorem release_spec {d : Dq ι} {r : Nat → Nat} {g : Nat} (hr : RC d (fun k => r k + if g = k then 1 else 0)) :
    ∃ s', release d g = .ok { d with segs := upd d.segs g s' } ∧ s'.log = (d.segs g).log ∧ s'.data = (d.segs g).data ∧
      RC { d with segs := upd d.segs g s' } r := by
  have h1 := hr.eq g
  have h2 := hr.live g
  simp only [if_true] at h1
  have h3 : 0 < (d.segs g).rc := by omega
  unfold release
  simp only []
  rw [if_pos ⟨by rw [h2]; simpa using h3, h3⟩]
  refine ⟨_, rfl, rfl, rfl, ?_⟩
  constructor
  · intro k
    by_cases hk : k = g
    · subst hk
      simp only [upd_self]
      omega
    · simp only [upd_ne _ _ hk]
      have := hr.eq k
      rw [if_neg (Ne.symm hk)] at this
      simpa using this
  · intro k
    by_cases hk : k = g
    · subst hk
      simp only [upd_self, decide_eq_decide]
      omega
    · simp only [upd_ne _ _ hk]
      exact hr.live k
  · intro k
    by_cases hk : k = g
    · subst hk
      simp only [upd_self]
      intro _
      exact hr.lt k h3
    · simp only [upd_ne _ _ hk]
      exact hr.lt k

theorem RC.cur_live {d : Dq ι} {H : Nat → Nat} (hr : RC d H) : (d.segs d.cur).live = true := by
  have := hr.eq d.cur
  rw [if_pos rfl] at this
  rw [hr.live, this]
  simp

/-- RC is about counts only. -/
theorem RC.of {d d' : Dq ι} {H H' : Nat → Nat} (hr : RC d H) (h1 : ∀ g, (d'.segs g).rc = (d.segs g).rc) (h2 : ∀ g, (d'.segs g).live = (d.segs g).live)
    (h3 : d'.cur = d.cur) (h4 : d'.nseg = d.nseg) (h5 : ∀ g, H' g = H g) : RC d' H' := by
  refine ⟨fun g => ?_, fun g => ?_, fun g => ?_⟩
  · rw [h1, h3, h5]; exact hr.eq g
  · rw [h1, h2]; exact hr.live g
  · rw [h1, h4]; exact hr.lt g

/-- What a step of the owner does. -/
structure OwnOk (d : Dq ι) (me : ι) (x : Th α) (r : Nat → Nat) (d' : Dq ι) (x' : Th α) : Prop where
  dq : DQ d'
  oc : OC d' me x'
  tc : ∀ u, u ≠ me → ∀ y : Th α, TC d u y → TC d' u y
  rc : RC d' (fun g => r g + holdOwn x' g)
  cons : queued d' + held x' = queued d + held x
  id : x'.id = x.id
  wc : x'.wc = x.wc
  pc : kind x'.pc = .own ∨ x'.pc = .serial ∨ x'.pc = .work ∨ x'.pc = .steal0
  mono : d.top ≤ d'.top

theorem put_DQ {d : Dq ι} (hd : DQ d) {b : Nat} (v : Item) (hb : d.lb = b) (hroom : b - d.top < 2 ^ (d.segs d.cur).log) :
    DQ { d with segs := upd d.segs d.cur ((d.segs d.cur).put b v) } ∧ ∀ i, d.top ≤ i → i < d.lb → ((d.segs d.cur).put b v).at i = (d.segs d.cur).at i := by
  have key : ∀ i, d.top ≤ i → i < d.lb → ((d.segs d.cur).put b v).at i = (d.segs d.cur).at i := fun i h1 h2 =>
    put_at_ne _ _ (slot_ne (by omega) (by omega))
  refine ⟨⟨hd.top_le, ?_, ?_, hd.small, hd.cur_lt, hd.bot⟩, key⟩
  · simp only [upd_self, put_log]; exact hd.room
  · intro i h1 h2
    simp only [upd_self]
    rw [key i h1 h2]; exact hd.cont i h1 h2

theorem put_TC {d : Dq ι} {u : ι} {y : Th α} {b : Nat} (v : Item) (hb : d.lb = b) (hroom : b - d.top < 2 ^ (d.segs d.cur).log) (h : TC d u y) :
    TC { d with segs := upd d.segs d.cur ((d.segs d.cur).put b v) } u y := by
  refine TC_of (d := d) (Nat.le_refl _) ?_ (Nat.le_refl _) (fun h => ⟨h, rfl⟩) h
  intro _ hlt
  refine ⟨hlt, rfl, fun g hg => ?_⟩
  simp only []
  by_cases hk : g = d.cur
  · subst hk
    rw [upd_self]
    exact put_at_ne _ _ (slot_ne (by omega) (by omega))
  · rw [upd_ne _ _ hk]

theorem put_RC {d : Dq ι} {H H' : Nat → Nat} {b : Nat} (v : Item) (hr : RC d H) (h : ∀ g, H' g = H g) :
    RC { d with segs := upd d.segs d.cur ((d.segs d.cur).put b v) } H' := by
  refine hr.of (fun g => ?_) (fun g => ?_) rfl rfl h
  · simp only []
    by_cases hk : g = d.cur
    · subst hk; rw [upd_self, put_rc]
    · rw [upd_ne _ _ hk]
  · simp only []
    by_cases hk : g = d.cur
    · subst hk; rw [upd_self, put_live]
    · rw [upd_ne _ _ hk]

theorem own_step (e : Env) (me : ι) (d : Dq ι) (x : Th α) (hk : kind x.pc = .own) (hd : DQ d) (ho : OC d me x) (r : Nat → Nat)
    (hr : RC d (fun g => r g + holdOwn x g)) : ∃ d' x', ownStep e me d x = .ok (d', x') ∧ OwnOk d me x r d' x' := by
  have hlive := hr.cur_live
  obtain ⟨pc, id, wc, wi, rf, b, t, g, idx, hi, snap, gi⟩ := x
  cases pc <;> simp only [kind, reduceCtorEq] at hk <;> simp only [OC] at ho <;> simp only [holdOwn] at hr <;> unfold ownStep <;> simp only [hlive, if_true]
  case push0 =>
    split
    · exact ⟨_, _, rfl, hd, ho, fun _ _ _ h => h, hr, rfl, rfl, rfl, .inr (.inl rfl), Nat.le_refl _⟩
    · rename_i h
      refine ⟨_, _, rfl, hd, ⟨ho, rfl, ?_⟩, fun _ _ _ h => h, hr, rfl, rfl, rfl, .inl rfl, Nat.le_refl _⟩
      have := hd.small
      simp only [] at *
      omega
  case push1 =>
    obtain ⟨o1, o2, o3⟩ := ho
    have h1 := hd.top_le
    have h2 := hd.room
    have e1 : szSub b d.top = b - d.top := by unfold szSub; omega
    rw [e1]
    split
    · exact ⟨_, _, rfl, hd, ⟨o1, o2, o3, Nat.le_refl _, by simp only []; omega⟩, fun _ _ _ h => h, hr, rfl, rfl, rfl, .inl rfl, Nat.le_refl _⟩
    · exact ⟨_, _, rfl, hd, ⟨o1, o2, o3, by simp only []; omega⟩, fun _ _ _ h => h, hr, rfl, rfl, rfl, .inl rfl, Nat.le_refl _⟩
  case grow =>
    obtain ⟨o1, o2, o3, o4, o5⟩ := ho
    unfold allocSeg
    split
    · exact ⟨_, _, rfl, hd, o1, fun _ _ _ h => h, hr, rfl, rfl, rfl, .inr (.inl rfl), Nat.le_refl _⟩
    · rename_i new hnew
      obtain ⟨n1, n2, n3⟩ : new.log = (d.segs d.cur).log + 1 ∧ new.rc = 1 ∧ new.live = true := by
        split at hnew
        · cases hnew
        · split at hnew
          · cases hnew
          · cases hnew; exact ⟨rfl, rfl, rfl⟩
      have hpow : 2 ^ new.log = 2 * 2 ^ (d.segs d.cur).log := by rw [n1, Nat.pow_succ, Nat.mul_comm]
      have hpos : 0 < 2 ^ (d.segs d.cur).log := Nat.two_pow_pos _
      obtain ⟨g1, g2, g3, _, g5⟩ := growLoop_spec (d.segs d.cur) (b - t) t new (by omega)
      have hcn : d.cur ≠ d.nseg := Nat.ne_of_lt hd.cur_lt
      have h1 := hd.top_le
      have hfresh : (d.segs d.nseg).rc = 0 := by
        have := hr.lt d.nseg
        omega
      have hfr := hr.eq d.nseg
      rw [if_neg (Ne.symm hcn), hfresh] at hfr
      refine ⟨_, _, rfl, ⟨hd.top_le, ?_, ?_, hd.small, Nat.lt_succ_of_lt hd.cur_lt, hd.bot⟩, ?_, ?_, ?_, rfl, rfl, rfl, .inl rfl, Nat.le_refl _⟩
      · simp only [upd_ne _ _ hcn]; exact hd.room
      · simp only [upd_ne _ _ hcn]; exact hd.cont
      · simp only [OC, upd_self]
        refine ⟨o1, o2, o3, Nat.lt_succ_self _, by rw [g1]; omega, Ne.symm hcn, fun i hi1 hi2 => ?_⟩
        rw [g5 i (by omega) (by omega)]
        exact hd.cont i hi1 hi2
      · intro u hu y hy
        refine TC_of (d := d) (Nat.le_refl _) ?_ (Nat.le_succ _) (fun h => ⟨h, rfl⟩) hy
        intro _ hlt
        refine ⟨hlt, rfl, fun k hk => ?_⟩
        simp only []
        rw [upd_ne _ _ (Nat.ne_of_lt hk)]
      · simp only [holdOwn]
        constructor
        · intro k
          simp only []
          by_cases hk : k = d.nseg
          · subst hk
            rw [upd_self, g2, n2, if_pos rfl, if_neg (Ne.symm hcn)]
            omega
          · rw [upd_ne _ _ hk, if_neg (Ne.symm hk)]
            have := hr.eq k
            simpa using this
        · intro k
          simp only []
          by_cases hk : k = d.nseg
          · subst hk
            simp only [upd_self, g2, n2, g3, n3]; rfl
          · simp only [upd_ne _ _ hk]; exact hr.live k
        · intro k
          simp only []
          by_cases hk : k = d.nseg
          · subst hk
            intro _; exact Nat.lt_succ_self _
          · rw [upd_ne _ _ hk]
            intro h
            exact Nat.lt_succ_of_lt (hr.lt k h)
  case glock =>
    obtain ⟨o1, o2, o3, o4, o5, o6, o7⟩ := ho
    split
    · rename_i hl
      refine ⟨_, _, rfl, ⟨hd.1, hd.2, hd.3, hd.4, hd.5, hd.6⟩, ⟨o1, o2, o3, o4, o5, o6, o7, rfl⟩, ?_, ⟨hr.1, hr.2, hr.3⟩, rfl, rfl, rfl, .inl rfl, Nat.le_refl _⟩
      intro u hu y hy
      refine TC_of (d := d) (Nat.le_refl _) (fun _ h => ⟨h, rfl, fun _ _ => rfl⟩) (Nat.le_refl _) (fun h => ?_) hy
      rw [hl] at h; cases h
    · exact ⟨_, _, rfl, hd, ⟨o1, o2, o3, o4, o5, o6, o7⟩, fun _ _ _ h => h, hr, rfl, rfl, rfl, .inl rfl, Nat.le_refl _⟩
  case gxchg =>
    obtain ⟨o1, o2, o3, o4, o5, o6, o7, o8⟩ := ho
    refine ⟨_, _, rfl, ⟨hd.top_le, ?_, o7, hd.small, o4, hd.bot⟩, ⟨o1, o2, o3, o5, Ne.symm o6, o8⟩, ?_, ?_, rfl, rfl, rfl, .inl rfl, Nat.le_refl _⟩
    · simp only [] at *; omega
    · intro u hu y hy
      refine TC_of (d := d) (Nat.le_refl _) (fun _ h => ⟨h, rfl, fun _ _ => rfl⟩) (Nat.le_refl _) (fun h => ?_) hy
      rw [o8] at h; cases h; exact absurd rfl hu
    · refine ⟨fun k => ?_, hr.live, hr.lt⟩
      have := hr.eq k
      simp only [holdOwn] at *
      by_cases hk : k = g
      · subst hk
        rw [if_pos rfl, if_neg o6] at this
        rw [if_neg (Ne.symm o6), if_pos rfl]
        omega
      · by_cases hk2 : k = d.cur
        · subst hk2
          rw [if_neg (Ne.symm hk), if_pos rfl] at this
          rw [if_pos rfl, if_neg hk]
          omega
        · rw [if_neg (Ne.symm hk), if_neg hk2] at this
          rw [if_neg (Ne.symm hk2), if_neg hk]
          omega
  case gunlock =>
    obtain ⟨o1, o2, o3, o4, o5, o6⟩ := ho
    refine ⟨_, _, rfl, ⟨hd.1, hd.2, hd.3, hd.4, hd.5, hd.6⟩, ⟨o1, o2, o3, o4, o5⟩, ?_, ⟨hr.1, hr.2, hr.3⟩, rfl, rfl, rfl, .inl rfl, Nat.le_refl _⟩
    intro u hu y hy
    refine TC_of (d := d) (Nat.le_refl _) (fun _ h => ⟨h, rfl, fun _ _ => rfl⟩) (Nat.le_refl _) (fun h => ?_) hy
    rw [o6] at h; cases h; exact absurd rfl hu
  case grel =>
    obtain ⟨o1, o2, o3, o4, o5⟩ := ho
    obtain ⟨s', e1, e2, e3, e4⟩ := release_spec hr
    simp only [e1, R.ok_bind]
    have hat : ∀ k i, ((upd d.segs g s' k)).at i = (d.segs k).at i := by
      intro k i
      by_cases hk : k = g
      · subst hk; rw [upd_self]; unfold Seg.at; rw [e2, e3]
      · rw [upd_ne _ _ hk]
    have hcur : upd d.segs g s' d.cur = d.segs d.cur := upd_ne _ _ (Ne.symm o5)
    refine ⟨_, _, rfl, ⟨hd.top_le, ?_, ?_, hd.small, hd.cur_lt, hd.bot⟩, ⟨o1, o2, o3, ?_⟩, ?_, e4, rfl, rfl, rfl, .inl rfl, Nat.le_refl _⟩
    · simp only [hcur]; exact hd.room
    · simp only [hcur]; exact hd.cont
    · simp only [hcur]; exact o4
    · intro u hu y hy
      exact TC_of (d := d) (Nat.le_refl _) (fun _ h => ⟨h, rfl, fun _ _ => hat _ _⟩) (Nat.le_refl _) (fun h => ⟨h, rfl⟩) hy
  case wr0 =>
    obtain ⟨o1, o2, o3, o4⟩ := ho
    refine ⟨_, _, rfl, (put_DQ hd _ (o1.trans o2.symm) o4).1, ⟨o1, o2, o3, ?_, ?_⟩, fun u hu y hy => put_TC _ (o1.trans o2.symm) o4 hy, put_RC _ hr fun _ => rfl, rfl, rfl, rfl, .inl rfl, Nat.le_refl _⟩
    · simp only [upd_self, put_log]; exact o4
    · simp only [upd_self, put_at_self]
  case wr1 =>
    obtain ⟨o1, o2, o3, o4, o5⟩ := ho
    refine ⟨_, _, rfl, (put_DQ hd _ (o1.trans o2.symm) o4).1, ⟨o1, o2, o3, ?_, ?_, ?_⟩, fun u hu y hy => put_TC _ (o1.trans o2.symm) o4 hy, put_RC _ hr fun _ => rfl, rfl, rfl, rfl, .inl rfl, Nat.le_refl _⟩
    · simp only [upd_self, put_log]; exact o4
    · simp only [upd_self, put_at_self]; exact o5
    · simp only [upd_self, put_at_self]
  case wr2 =>
    obtain ⟨o1, o2, o3, o4, o5, o6⟩ := ho
    refine ⟨_, _, rfl, (put_DQ hd _ (o1.trans o2.symm) o4).1, ⟨o1, o2, o3, ?_, ?_⟩, fun u hu y hy => put_TC _ (o1.trans o2.symm) o4 hy, put_RC _ hr fun _ => rfl, rfl, rfl, rfl, .inl rfl, Nat.le_refl _⟩
    · simp only [upd_self, put_log]; exact o4
    · simp only [upd_self, put_at_self]
      rw [o5, o6]
  case pushSt =>
    obtain ⟨o1, o2, o3, o4, o5⟩ := ho
    have h1 := hd.top_le
    have hlb : d.lb = b := o1.trans o2.symm
    refine ⟨_, _, rfl, ⟨by simp only []; omega, by simp only []; omega, ?_, by simp only []; omega, hd.cur_lt, Nat.le_refl _⟩, rfl, ?_, hr.of (fun _ => rfl) (fun _ => rfl) rfl rfl fun _ => rfl, ?_, rfl, rfl, .inr (.inr (.inl rfl)), Nat.le_refl _⟩
    · intro i hi1 hi2
      simp only [] at *
      by_cases hi : i = b
      · subst hi; rw [upd_self]; exact o5
      · rw [upd_ne _ _ hi]; exact hd.cont i hi1 (by omega)
    · intro u hu y hy
      refine TC_of (d := d) (Nat.le_refl _) (fun _ h => ⟨?_, ?_, fun _ _ => rfl⟩) (Nat.le_refl _) (fun h => ⟨h, rfl⟩) hy
      · simp only []; omega
      · simp only []; exact upd_ne _ _ (by omega)
    · simp only [queued, held]
      rw [← hlb, Finset.sum_Ico_succ_top (by omega), upd_self, hlb]
      have : ∑ i ∈ Finset.Ico d.top b, ({upd d.items b rf i} : Multiset Item) = ∑ i ∈ Finset.Ico d.top b, {d.items i} := by
        refine Finset.sum_congr rfl fun i hi => ?_
        rw [upd_ne _ _ (Nat.ne_of_lt (Finset.mem_Ico.1 hi).2)]
      rw [this, add_assoc, add_comm ({rf} : Multiset Item) {wi}]
  case pop0 =>
    split
    · exact ⟨_, _, rfl, hd, ho, fun _ _ _ h => h, hr, rfl, rfl, rfl, .inr (.inr (.inr rfl)), Nat.le_refl _⟩
    · refine ⟨_, _, rfl, hd, ⟨?_, ?_⟩, fun _ _ _ h => h, hr, rfl, rfl, rfl, .inl rfl, Nat.le_refl _⟩ <;> simp only [] <;> omega
  case pop1 =>
    exact ⟨_, _, rfl, ⟨hd.1, hd.2, hd.3, hd.4, hd.5, by simp only []; omega⟩, ⟨rfl, ho.2⟩,
      fun u hu y hy => TC_of (d := d) (Nat.le_refl _) (fun _ h => ⟨h, rfl, fun _ _ => rfl⟩) (Nat.le_refl _) (fun h => ⟨h, rfl⟩) hy, ⟨hr.1, hr.2, hr.3⟩, rfl, rfl, rfl, .inl rfl, Nat.le_refl _⟩
  case pop2 =>
    obtain ⟨o1, o2⟩ := ho
    have h1 := hd.top_le
    have h2 := hd.room
    have h4 := hd.small
    split
    · refine ⟨_, _, rfl, hd, ?_, fun _ _ _ h => h, hr, rfl, rfl, rfl, .inl rfl, Nat.le_refl _⟩
      simp only [OC]; omega
    · split
      · refine ⟨_, _, rfl, ⟨by simp only []; omega, by simp only []; omega, fun i hi1 hi2 => hd.cont i hi1 (by simp only [] at *; omega), by simp only []; omega, hd.cur_lt, Nat.le_of_eq o1⟩,
          ⟨o1, hd.cont b (by omega) (by omega), .inl ⟨by simp only []; omega, rfl⟩⟩, ?_, ⟨hr.1, hr.2, hr.3⟩, ?_, rfl, rfl, .inl rfl, Nat.le_refl _⟩
        · intro u hu y hy
          refine TC_of (d := d) (Nat.le_refl _) (fun _ h => ⟨?_, rfl, fun _ _ => rfl⟩) (Nat.le_refl _) (fun h => ⟨h, rfl⟩) hy
          simp only []; omega
        · simp only [queued, held, o2]
          rw [if_pos (by assumption), Finset.sum_Ico_succ_top (by omega)]
          simp
      · refine ⟨_, _, rfl, hd, ⟨o1, hd.cont b (by omega) (by omega), .inr ⟨?_, ?_, o2, rfl⟩⟩, fun _ _ _ h => h, hr, ?_, rfl, rfl, .inl rfl, Nat.le_refl _⟩
        · simp only []; omega
        · simp only []; omega
        · simp only [held]
          rw [if_neg (by assumption)]
  case pop3 =>
    obtain ⟨o1, o2, o3⟩ := ho
    rcases o3 with ⟨o3, o4⟩ | ⟨o3, o4, o5, o6⟩
    · rw [if_pos o3]
      refine ⟨_, _, rfl, hd, ?_, fun _ _ _ h => h, hr, ?_, rfl, rfl, .inr (.inr (.inl rfl)), Nat.le_refl _⟩
      · simp only [OC]; omega
      · simp only [held]; rw [if_pos o3, o2]
    · rw [if_neg (by omega)]
      refine ⟨_, _, rfl, hd, ⟨o1, o3, o4, o5, ?_⟩, fun _ _ _ h => h, hr, ?_, rfl, rfl, .inl rfl, Nat.le_refl _⟩
      · simp only []; rw [o2, o6]
      · simp only [held]; rw [if_neg (by omega)]
  case pop4 =>
    obtain ⟨o1, o2, o3, o4, o5⟩ := ho
    have h1 := hd.top_le
    split
    · rename_i h
      refine ⟨_, _, rfl, ⟨by simp only []; omega, ?_, fun i hi1 hi2 => by simp only [] at *; omega, hd.small, hd.cur_lt, hd.bot⟩, ⟨by simp only []; omega, by simp only []; omega⟩, ?_,
        ⟨hr.1, hr.2, hr.3⟩, ?_, rfl, rfl, .inl rfl, by simp only []; omega⟩
      · have := hd.room
        simp only []
        omega
      · intro u hu y hy
        refine TC_of (d := d) (by simp only []; omega) (fun h => ?_) (Nat.le_refl _) (fun h => ⟨h, rfl⟩) hy
        simp only [] at h; omega
      · simp only [queued, held, o4, h, o2, Finset.Ico_self, Finset.sum_empty]
        rw [Finset.sum_Ico_succ_top (by omega), o5]
        simp
    · refine ⟨_, _, rfl, hd, ?_, fun _ _ _ h => h, hr, rfl, rfl, rfl, .inl rfl, Nat.le_refl _⟩
      simp only [OC]; omega
  case pop5 =>
    refine ⟨_, _, rfl, ⟨hd.1, hd.2, hd.3, hd.4, hd.5, Nat.le_of_eq ho.2.symm⟩, ?_,
      fun u hu y hy => TC_of (d := d) (Nat.le_refl _) (fun _ h => ⟨h, rfl, fun _ _ => rfl⟩) (Nat.le_refl _) (fun h => ⟨h, rfl⟩) hy, ⟨hr.1, hr.2, hr.3⟩, rfl, rfl, rfl, .inr (.inr (.inl rfl)), Nat.le_refl _⟩
    simp only [OC]; exact ho.2
  case popR =>
    refine ⟨_, _, rfl, ⟨hd.1, hd.2, hd.3, hd.4, hd.5, Nat.le_of_eq ho.symm⟩, ?_,
      fun u hu y hy => TC_of (d := d) (Nat.le_refl _) (fun _ h => ⟨h, rfl, fun _ _ => rfl⟩) (Nat.le_refl _) (fun h => ⟨h, rfl⟩) hy, ⟨hr.1, hr.2, hr.3⟩, rfl, rfl, rfl, .inr (.inr (.inr rfl)), Nat.le_refl _⟩
    simp only [OC]; exact ho

/-- What a step of a thief does. -/
structure ThiefOk (d : Dq ι) (me : ι) (x : Th α) (r : Nat → Nat) (d' : Dq ι) (x' : Th α) : Prop where
  dq : DQ d'
  tc : TC d' me x'
  tcs : ∀ u, u ≠ me → ∀ y : Th α, TC d u y → TC d' u y
  oc : ∀ u, u ≠ me → ∀ y : Th α, OC d u y → OC d' u y
  bot : d'.bottom = d.bottom ∧ d'.lb = d.lb
  rc : RC d' (fun g => r g + holdThief x' g)
  cons : queued d' + held x' = queued d + held x
  id : x'.id = x.id
  wc : x'.wc = x.wc
  ix : x'.idx = x.idx ∧ x'.hi = x.hi
  pc : kind x'.pc = .thief ∨ x'.pc = .steal2 ∨ x'.pc = .work
  mono : d.top ≤ d'.top

theorem thief_step (me : ι) (d : Dq ι) (x : Th α) (hk : kind x.pc = .thief) (hd : DQ d) (ho : TC d me x) (r : Nat → Nat)
    (hr : RC d (fun g => r g + holdThief x g)) : ∃ d' x', thiefStep me d x = .ok (d', x') ∧ ThiefOk d me x r d' x' := by
  have hb := hd.bot
  have hlive : ∀ k, 0 < r k + holdThief x k ∨ k = d.cur → (d.segs k).live = true := by
    intro k hk
    rw [hr.live k, hr.eq k]
    rcases hk with hk | hk
    · simp only [decide_eq_true_eq]; omega
    · rw [if_pos hk]; simp
  have lockOC : ∀ (v : Option ι), (∀ u, u ≠ me → d.lock = some u → v = some u) → ∀ u, u ≠ me → ∀ y : Th α, OC d u y → OC { d with lock := v } u y :=
    fun v hv u hu y hy => OC_of (d := d) (Nat.le_refl _) rfl rfl rfl rfl rfl (fun _ => rfl) (fun _ _ => rfl) (hv u hu) hy
  have lockTC : ∀ (v : Option ι), (∀ u, u ≠ me → d.lock = some u → v = some u) → ∀ u, u ≠ me → ∀ y : Th α, TC d u y → TC { d with lock := v } u y :=
    fun v hv u hu y hy => TC_of (d := d) (Nat.le_refl _) (fun _ h => ⟨h, rfl, fun _ _ => rfl⟩) (Nat.le_refl _) (fun h => ⟨hv u hu h, rfl⟩) hy
  obtain ⟨pc, id, wc, wi, rf, b, t, g, idx, hi, snap, gi⟩ := x
  cases pc <;> simp only [kind, reduceCtorEq] at hk <;> simp only [TC] at ho <;> simp only [holdThief] at hr hlive <;> unfold thiefStep <;> simp only []
  case s0 => exact ⟨_, _, rfl, hd, Nat.le_refl _, fun _ _ _ h => h, fun _ _ _ h => h, ⟨rfl, rfl⟩, hr, rfl, rfl, rfl, ⟨rfl, rfl⟩, .inl rfl, Nat.le_refl _⟩
  case s1 =>
    split
    · exact ⟨_, _, rfl, hd, trivial, fun _ _ _ h => h, fun _ _ _ h => h, ⟨rfl, rfl⟩, hr, rfl, rfl, rfl, ⟨rfl, rfl⟩, .inr (.inl rfl), Nat.le_refl _⟩
    · exact ⟨_, _, rfl, hd, ⟨ho, fun h => by simp only [] at *; omega⟩, fun _ _ _ h => h, fun _ _ _ h => h, ⟨rfl, rfl⟩, hr, rfl, rfl, rfl, ⟨rfl, rfl⟩, .inl rfl, Nat.le_refl _⟩
  case s2 =>
    split
    · rename_i hl
      exact ⟨_, _, rfl, ⟨hd.1, hd.2, hd.3, hd.4, hd.5, hd.6⟩, ⟨ho.1, ho.2, rfl⟩, lockTC _ (fun u _ h => by rw [hl] at h; cases h),
        lockOC _ (fun u _ h => by rw [hl] at h; cases h), ⟨rfl, rfl⟩, ⟨hr.1, hr.2, hr.3⟩, rfl, rfl, rfl, ⟨rfl, rfl⟩, .inl rfl, Nat.le_refl _⟩
    · exact ⟨_, _, rfl, hd, ho, fun _ _ _ h => h, fun _ _ _ h => h, ⟨rfl, rfl⟩, hr, rfl, rfl, rfl, ⟨rfl, rfl⟩, .inl rfl, Nat.le_refl _⟩
  case s3 => exact ⟨_, _, rfl, hd, ⟨ho.1, ho.2.1, ho.2.2, rfl⟩, fun _ _ _ h => h, fun _ _ _ h => h, ⟨rfl, rfl⟩, hr, rfl, rfl, rfl, ⟨rfl, rfl⟩, .inl rfl, Nat.le_refl _⟩
  case s4 =>
    obtain ⟨o1, o2, o3, o4⟩ := ho
    rw [if_pos (hlive g (.inr o4))]
    have hat : ∀ k i, (upd d.segs g { d.segs g with rc := (d.segs g).rc + 1 } k).at i = (d.segs k).at i := by
      intro k i
      by_cases hk : k = g
      · subst hk; rw [upd_self]; rfl
      · rw [upd_ne _ _ hk]
    have hlog : ∀ k, (upd d.segs g { d.segs g with rc := (d.segs g).rc + 1 } k).log = (d.segs k).log := by
      intro k
      by_cases hk : k = g
      · subst hk; rw [upd_self]
      · rw [upd_ne _ _ hk]
    refine ⟨_, _, rfl, ⟨hd.top_le, ?_, ?_, hd.small, hd.cur_lt, hd.bot⟩, ?_, ?_, ?_, ⟨rfl, rfl⟩, ?_, rfl, rfl, rfl, ⟨rfl, rfl⟩, .inl rfl, Nat.le_refl _⟩
    · simp only [hlog]; exact hd.room
    · simp only [hat]; exact hd.cont
    · simp only [TC, hat]
      refine ⟨o1, o2, o3, by rw [o4]; exact hd.cur_lt, fun h => ?_⟩
      rw [o4]
      exact hd.cont t (by omega) (o2 h)
    · exact fun u hu y hy => TC_of (d := d) (Nat.le_refl _) (fun _ h => ⟨h, rfl, fun _ _ => hat _ _⟩) (Nat.le_refl _) (fun h => ⟨h, rfl⟩) hy
    · exact fun u hu y hy => OC_of (d := d) (Nat.le_refl _) rfl rfl rfl rfl rfl hlog hat (fun h => h) hy
    · simp only [holdThief]
      have hlt : g < d.nseg := by rw [o4]; exact hd.cur_lt
      constructor
      · intro k
        have := hr.eq k
        simp only [] at *
        by_cases hk : k = g
        · subst hk; rw [upd_self, if_pos rfl]; simp only []; omega
        · rw [upd_ne _ _ hk, if_neg (Ne.symm hk)]; exact this
      · intro k
        have := hr.live k
        simp only [] at *
        by_cases hk : k = g
        · subst hk; simp only [upd_self]; rw [hlive k (.inr o4)]; simp
        · simp only [upd_ne _ _ hk]; exact this
      · intro k
        have := hr.lt k
        simp only [] at *
        by_cases hk : k = g
        · subst hk; exact fun _ => hlt
        · rw [upd_ne _ _ hk]; exact this
  case s5 =>
    obtain ⟨o1, o2, o3, o4⟩ := ho
    exact ⟨_, _, rfl, ⟨hd.1, hd.2, hd.3, hd.4, hd.5, hd.6⟩, ⟨o1, o2, o4⟩, lockTC _ (fun u hu h => by rw [o3] at h; cases h; exact absurd rfl hu),
      lockOC _ (fun u hu h => by rw [o3] at h; cases h; exact absurd rfl hu), ⟨rfl, rfl⟩, ⟨hr.1, hr.2, hr.3⟩, rfl, rfl, rfl, ⟨rfl, rfl⟩, .inl rfl, Nat.le_refl _⟩
  case s6 =>
    obtain ⟨o1, o2, o3, o4⟩ := ho
    rw [if_pos (hlive g (.inl (by rw [if_pos rfl]; omega)))]
    exact ⟨_, _, rfl, hd, ⟨o1, o2, o3, o4, fun h => by simp only []; rw [o4 h]⟩, fun _ _ _ h => h, fun _ _ _ h => h, ⟨rfl, rfl⟩, hr, rfl, rfl, rfl, ⟨rfl, rfl⟩, .inl rfl, Nat.le_refl _⟩
  case s7 =>
    obtain ⟨o1, o2, o3, o4, o5⟩ := ho
    rw [if_pos (hlive g (.inl (by rw [if_pos rfl]; omega)))]
    exact ⟨_, _, rfl, hd, ⟨o1, o2, o3, o4, fun h => ⟨o5 h, by simp only []; rw [o4 h]⟩⟩, fun _ _ _ h => h, fun _ _ _ h => h, ⟨rfl, rfl⟩, hr, rfl, rfl, rfl, ⟨rfl, rfl⟩, .inl rfl, Nat.le_refl _⟩
  case s8 =>
    obtain ⟨o1, o2, o3, o4, o5⟩ := ho
    rw [if_pos (hlive g (.inl (by rw [if_pos rfl]; omega)))]
    refine ⟨_, _, rfl, hd, ⟨o1, o2, fun h => ?_⟩, fun _ _ _ h => h, fun _ _ _ h => h, ⟨rfl, rfl⟩, hr, rfl, rfl, rfl, ⟨rfl, rfl⟩, .inl rfl, Nat.le_refl _⟩
    simp only [] at *
    obtain ⟨a1, a2⟩ := o5 h
    rw [o4 h, a1, a2]
  case s9 =>
    obtain ⟨o1, o2, o3⟩ := ho
    obtain ⟨s', e1, e2, e3, e4⟩ := release_spec hr
    simp only [e1, R.ok_bind]
    have hat : ∀ k i, ((upd d.segs g s' k)).at i = (d.segs k).at i := by
      intro k i
      by_cases hk : k = g
      · subst hk; rw [upd_self]; unfold Seg.at; rw [e2, e3]
      · rw [upd_ne _ _ hk]
    have hlog : ∀ k, ((upd d.segs g s' k)).log = (d.segs k).log := by
      intro k
      by_cases hk : k = g
      · subst hk; rw [upd_self, e2]
      · rw [upd_ne _ _ hk]
    refine ⟨_, _, rfl, ⟨hd.top_le, ?_, ?_, hd.small, hd.cur_lt, hd.bot⟩, ⟨o1, o2, o3⟩, ?_, ?_, ⟨rfl, rfl⟩, e4, rfl, rfl, rfl, ⟨rfl, rfl⟩, .inl rfl, Nat.le_refl _⟩
    · simp only [hlog]; exact hd.room
    · simp only [hat]; exact hd.cont
    · exact fun u hu y hy => TC_of (d := d) (Nat.le_refl _) (fun _ h => ⟨h, rfl, fun _ _ => hat _ _⟩) (Nat.le_refl _) (fun h => ⟨h, rfl⟩) hy
    · exact fun u hu y hy => OC_of (d := d) (Nat.le_refl _) rfl rfl rfl rfl rfl hlog hat (fun h => h) hy
  case s10 =>
    obtain ⟨o1, o2, o3⟩ := ho
    split
    · rename_i h
      have h2 := o2 h
      have h3 := o3 h
      have hroom := hd.room
      refine ⟨_, _, rfl, ⟨by simp only []; omega, by simp only []; omega, fun i hi1 hi2 => hd.cont i (by simp only [] at *; omega) hi2, hd.small, hd.cur_lt, hd.bot⟩, trivial, ?_, ?_, ⟨rfl, rfl⟩, ⟨hr.1, hr.2, hr.3⟩, ?_, rfl, rfl, ⟨rfl, rfl⟩, .inr (.inr rfl), by simp only []; omega⟩
      · intro u hu y hy
        refine TC_of (d := d) (by simp only []; omega) (fun h => ?_) (Nat.le_refl _) (fun h => ⟨h, rfl⟩) hy
        simp only [] at h; omega
      · exact fun u hu y hy => OC_of (d := d) (by simp only []; omega) rfl rfl rfl rfl rfl (fun _ => rfl) (fun _ _ => rfl) (fun h => h) hy
      · simp only [queued, held]
        rw [h, Finset.sum_eq_sum_Ico_succ_bot h2, h3]
        simp [add_comm]
    · exact ⟨_, _, rfl, hd, Nat.le_refl _, fun _ _ _ h => h, fun _ _ _ h => h, ⟨rfl, rfl⟩, hr, rfl, rfl, rfl, ⟨rfl, rfl⟩, .inl rfl, Nat.le_refl _⟩

end STL.Par.PSort
