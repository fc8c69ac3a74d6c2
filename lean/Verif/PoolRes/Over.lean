import Verif.PoolRes.Dealloc

/-! # `unsynchronized_pool_resource`: `_Pool::_Clear` and the oversized allocations -/

namespace STL.PoolRes
open STL STL.Pmr

/-- `_Clear` gives every chunk of a pool back. -/
theorem clearLoop_ok {sf : Nat} {o : Opts} {lg bs : Nat} {m : Words} {rest : List Blk} (hlg : bs = 2 ^ lg) (hb : BsOk bs) : ∀ (cs : List GC) (ups : List Blk) (v f : Nat),
    CChain bs m v cs → (∀ c ∈ cs, ChunkOk o lg bs m c) → Ctx sf ⟨m, ups⟩ bs cs rest → cs.length + 1 ≤ f →
    ∃ ups', clearLoop sf lg bs f ⟨m, ups⟩ v = .ok ⟨m, ups'⟩ ∧ UpsOk sf ups' ∧ ups'.Perm rest := by
  intro cs
  induction cs with
  | nil =>
    intro ups v f hch _ hx hf
    obtain ⟨f, rfl⟩ : ∃ k, f = k + 1 := ⟨f - 1, by omega⟩
    have hv : v = 0 := hch
    exact ⟨ups, by rw [clearLoop, if_pos hv], hx.ups, hx.perm⟩
  | cons c t ih =>
    intro ups v f hch hck hx hf
    obtain ⟨f, rfl⟩ : ∃ k, f = k + 1 := ⟨f - 1, by omega⟩
    have hc := hck c (List.mem_cons_self ..)
    have hcm : c.blk bs ∈ ups := blk_mem hx.perm (List.mem_cons_self ..)
    have h8 := hc.hdr8 hb
    have hl := hc.lim
    have hpos := hc.pos
    have hsz : sizeFor lg c.cap = c.cap * bs + 56 := by rw [hlg] at hl ⊢; exact sizeFor_eq (by omega)
    have hv : v ≠ 0 := by rw [hch.1]; unfold GC.hdr; omega
    have hperm : (ups.erase (c.blk bs)).Perm (t.map (GC.blk bs) ++ rest) := by
      have := hx.perm.erase (c.blk bs)
      simpa using this
    obtain ⟨ups', h1, h2, h3⟩ := ih (ups.erase (c.blk bs)) _ f hch.2 (fun d hd => hck d (List.mem_cons_of_mem _ hd)) ⟨hx.ups.sub List.erase_sublist, hperm⟩ (by simp at hf; omega)
    refine ⟨ups', ?_, h2, h3⟩
    rw [clearLoop, if_neg hv, hch.1, ldm hcm h8 (hdr_in0 _ c), R.ok_bind, ldm hcm (by omega) (hdr_in _ c (by omega)), R.ok_bind,
      ldm hcm (by omega) (hdr_in _ c (by omega)), R.ok_bind, hc.f32, hc.f24, hsz]
    rw [show Heap.dealloc ⟨m, ups⟩ c.base (c.cap * bs + 56) bs = .ok ⟨m, ups.erase (c.blk bs)⟩ by unfold Heap.dealloc; exact if_pos hcm, R.ok_bind, h1]

/-! ## The circular list of oversized allocations -/

/-- From the node `a` on, the nodes `L` follow, then the list head. -/
def DSeg (sf : Nat) (m : Words) : Nat → List Nat → Prop
  | a, [] => m a = sf ∧ m (sf + 8) = a
  | a, n :: t => m a = n ∧ m (n + 8) = a ∧ DSeg sf m n t

theorem DSeg.congr {sf : Nat} {m m' : Words} : ∀ {L : List Nat} {a : Nat}, m' a = m a → m' (sf + 8) = m (sf + 8) → (∀ n ∈ L, m' n = m n ∧ m' (n + 8) = m (n + 8)) →
    DSeg sf m a L → DSeg sf m' a L
  | [], a, h1, h2, _, h => ⟨h1.trans h.1, h2.trans h.2⟩
  | n :: t, a, h1, h2, h3, h => ⟨h1.trans h.1, (h3 n (List.mem_cons_self ..)).2.trans h.2.1,
      DSeg.congr (h3 n (List.mem_cons_self ..)).1 h2 (fun k hk => h3 k (List.mem_cons_of_mem _ hk)) h.2.2⟩

/-- Two nodes (of 16 bytes at least) do not overlap. -/
def Sep (a b : Nat) : Prop := a + 16 ≤ b ∨ b + 16 ≤ a

theorem DSeg.push {sf : Nat} {m : Words} {L : List Nat} {p : Nat} (h : DSeg sf m sf L) (hs : (sf :: p :: L).Pairwise Sep) :
    DSeg sf (upd (upd (upd (upd m p (m sf)) (m sf + 8) p) (p + 8) sf) sf p) sf (p :: L) := by
  rw [List.pairwise_cons, List.pairwise_cons] at hs
  obtain ⟨h1, h2, h3⟩ := hs
  have h1p := h1 p (List.mem_cons_self ..)
  unfold Sep at h1p
  cases L with
  | nil =>
    obtain ⟨e1, e2⟩ := h
    rw [e1]
    refine ⟨upd_eq .., ?_, ?_, ?_⟩
    · rw [upd_ne _ _ (by omega), upd_eq]
    · rw [upd_ne _ _ (by omega), upd_ne _ _ (by omega), upd_ne _ _ (by omega), upd_eq]
    · rw [upd_ne _ _ (by omega), upd_ne _ _ (by omega), upd_eq]
  | cons n t =>
    obtain ⟨e1, e2, e3⟩ := h
    rw [e1]
    have h1n := h1 n (by simp)
    have h2n := h2 n (by simp)
    rw [List.pairwise_cons] at h3
    unfold Sep at h1n h2n
    refine ⟨upd_eq .., ?_, ?_, ?_, ?_⟩
    · rw [upd_ne _ _ (by omega), upd_eq]
    · rw [upd_ne _ _ (by omega), upd_ne _ _ (by omega), upd_ne _ _ (by omega), upd_eq]
    · rw [upd_ne _ _ (by omega), upd_ne _ _ (by omega), upd_eq]
    · refine e3.congr ?_ ?_ fun k hk => ?_
      · rw [upd_ne _ _ (by omega), upd_ne _ _ (by omega), upd_ne _ _ (by omega), upd_ne _ _ (by omega)]
      · rw [upd_ne _ _ (by omega), upd_ne _ _ (by omega), upd_ne _ _ (by omega), upd_ne _ _ (by omega)]
      · have a1 := h1 k (by simp [hk])
        have a2 := h2 k (by simp [hk])
        have a3 := h3.1 k hk
        unfold Sep at a1 a2 a3
        refine ⟨?_, ?_⟩ <;> rw [upd_ne _ _ (by omega), upd_ne _ _ (by omega), upd_ne _ _ (by omega), upd_ne _ _ (by omega)]

theorem DSeg.remove {sf : Nat} {m : Words} {x : Nat} {L2 : List Nat} : ∀ {L1 : List Nat} {a : Nat}, DSeg sf m a (L1 ++ x :: L2) → (a :: (L1 ++ x :: L2)).Pairwise Sep →
    (∀ n ∈ L1 ++ x :: L2, Sep sf n) → (a = sf ∨ Sep sf a) →
    (m x = sf ∨ m x ∈ L2) ∧ (m (x + 8) = a ∨ m (x + 8) ∈ L1) ∧ DSeg sf (upd (upd m (m x + 8) (m (x + 8))) (m (x + 8)) (m x)) a (L1 ++ L2)
  | [], a, h, hs, hsf, ha => by
    obtain ⟨e1, e2, e3⟩ := h
    rw [List.nil_append] at hs hsf
    rw [List.pairwise_cons, List.pairwise_cons] at hs
    obtain ⟨h1, h2, h3⟩ := hs
    have hx := hsf x (List.mem_cons_self ..)
    have hax := h1 x (List.mem_cons_self ..)
    unfold Sep at hx hax
    rw [e2]
    have ha' : a ≠ sf + 8 := by rcases ha with rfl | ha <;> [omega; (unfold Sep at ha; omega)]
    cases L2 with
    | nil =>
      obtain ⟨f1, f2⟩ := e3
      rw [f1]
      exact ⟨.inl rfl, .inl rfl, upd_eq .., by rw [upd_ne _ _ (by omega), upd_eq]⟩
    | cons n t =>
      obtain ⟨f1, f2, f3⟩ := e3
      rw [f1]
      have hn := hsf n (by simp)
      have han := h1 n (by simp)
      rw [List.pairwise_cons] at h3
      unfold Sep at hn han
      refine ⟨.inr (List.mem_cons_self ..), .inl rfl, upd_eq .., by rw [upd_ne _ _ (by omega), upd_eq], f3.congr ?_ ?_ fun k hk => ?_⟩
      · rw [upd_ne _ _ (by omega), upd_ne _ _ (by omega)]
      · rw [upd_ne _ _ (by omega), upd_ne _ _ (by omega)]
      · have a1 := h1 k (by simp [hk])
        have a2 := h3.1 k hk
        unfold Sep at a1 a2
        refine ⟨?_, ?_⟩ <;> rw [upd_ne _ _ (by omega), upd_ne _ _ (by omega)]
  | y :: L1, a, h, hs, hsf, ha => by
    obtain ⟨e1, e2, e3⟩ := h
    rw [List.cons_append] at hs hsf
    rw [List.pairwise_cons] at hs
    obtain ⟨h1, h2⟩ := hs
    have hy := hsf y (List.mem_cons_self ..)
    obtain ⟨i1, i2, i3⟩ := DSeg.remove (L1 := L1) (a := y) e3 h2 (fun n hn => hsf n (List.mem_cons_of_mem _ hn)) (.inr hy)
    have hay := h1 y (List.mem_cons_self ..)
    rw [List.pairwise_cons] at h2
    have p1 : Sep a (m x) ∨ a = sf ∧ m x = sf ∨ Sep sf a ∧ m x = sf := by
      rcases i1 with i1 | i1
      · rcases ha with ha | ha
        · exact .inr (.inl ⟨ha, i1⟩)
        · exact .inr (.inr ⟨ha, i1⟩)
      · exact .inl (h1 _ (by simp [i1]))
    have p2 : Sep a (m (x + 8)) := h1 _ (by simp only [List.mem_cons, List.mem_append]; rcases i2 with i2 | i2 <;> simp [i2])
    have p3 : Sep y (m x) ∨ m x = sf := by
      rcases i1 with i1 | i1
      · exact .inr i1
      · exact .inl (h2.1 _ (by simp [i1]))
    have p4 : Sep y (m (x + 8)) ∨ m (x + 8) = y := by
      rcases i2 with i2 | i2
      · exact .inr i2
      · exact .inl (h2.1 _ (by simp [i2]))
    unfold Sep at hy hay p1 p2 p3 p4
    refine ⟨i1, .inr ?_, ?_, ?_, i3⟩
    · rcases i2 with i2 | i2 <;> simp [i2]
    · rw [upd_ne _ _ (by omega), upd_ne _ _ (by omega)]; exact e1
    · rw [upd_ne _ _ (by omega), upd_ne _ _ (by omega)]; exact e2

/-- The adjusted size of an oversized allocation. -/
def oadj (n : Nat) : Nat := (n + 39) / 8 * 8
/-- The address of the header of the oversized block handed out as `x`. -/
def ohdr (x : Blk) : Nat := x.addr + oadj x.size - 32
/-- The upstream block of the oversized block handed out as `x`. -/
def oblk (x : Blk) : Blk := ⟨x.addr, oadj x.size, max x.align 8⟩

theorem oadj_ge (n : Nat) : n + 32 ≤ oadj n := by unfold oadj; omega
theorem oadj8 (n : Nat) : oadj n % 8 = 0 := by unfold oadj; omega

theorem prepare_eq {bytes al : Nat} (hb : bytes < 2 ^ 64) :
    prepareOversized bytes al = if 2 ^ 64 - 40 < bytes then none else some (oadj bytes, max al 8) := by
  unfold prepareOversized
  simp only
  rw [wrap8_ok (by omega) (by omega), show ((2 ^ 64 - 1 : Int) - 32 - 8 + 1).toNat = 2 ^ 64 - 40 by decide]
  split
  · rfl
  · have := and_mask (ws := 8) (.inr rfl) (x := bytes + 39) (by norm_num at *; omega)
    rw [wrap8_ok (by omega) (by omega), show ((bytes : Int) + 32 + 8 - 1).toNat = bytes + 39 by omega]
    unfold oadj
    rw [← this]
    norm_num

/-- The oversized allocations are in order. -/
structure OvOk (sf lim : Nat) (m : Words) (ovs : List Blk) : Prop where
  list : DSeg sf m sf (ovs.map ohdr)
  each : ∀ x ∈ ovs, lim < x.size ∧ x.size ≤ 2 ^ 64 - 40 ∧ (∃ k, x.align = 2 ^ k) ∧ m (ohdr x + 16) = oadj x.size ∧ m (ohdr x + 24) = max x.align 8

theorem max8_pow {k : Nat} : ∃ j, 3 ≤ j ∧ max (2 ^ k) 8 = 2 ^ j := by
  by_cases h : 3 ≤ k
  · exact ⟨k, h, max_eq_left (pow_ge h)⟩
  · exact ⟨3, le_refl _, max_eq_right (pow_ge (b := 3) (by omega))⟩

theorem max8_dvd {al a : Nat} (h : ∃ k, al = 2 ^ k) (hd : max al 8 ∣ a) : a % 8 = 0 ∧ al ∣ a := by
  obtain ⟨k, rfl⟩ := h
  obtain ⟨j, hj, he⟩ := max8_pow (k := k)
  have h1 : (8 : Nat) ∣ 2 ^ j := pow_dvd_pow 2 (show 3 ≤ j from hj)
  rw [he] at hd
  refine ⟨Nat.mod_eq_zero_of_dvd (h1.trans hd), Nat.dvd_trans ?_ hd⟩
  rw [← he]
  by_cases h : 3 ≤ k
  · rw [show max (2 ^ k) 8 = 2 ^ k from max_eq_left (pow_ge h)]
  · rw [show max (2 ^ k) 8 = 2 ^ 3 from max_eq_right (pow_ge (b := 3) (by omega))]; exact pow_dvd_pow 2 (show k ≤ 3 by omega)

theorem ohdr_in (x : Blk) {k : Nat} (hk : k ≤ 24) : Inside (ohdr x + k) 8 (oblk x).addr (oblk x).size := by
  have := oadj_ge x.size
  unfold Inside ohdr oblk; simp only; omega

theorem ohdr_in0 (x : Blk) : Inside (ohdr x) 8 (oblk x).addr (oblk x).size := ohdr_in x (k := 0) (by omega)

theorem ohdr8 {sf : Nat} {ups : List Blk} (hu : UpsOk sf ups) {x : Blk} (hx : oblk x ∈ ups) (hp : ∃ k, x.align = 2 ^ k) : ohdr x % 8 = 0 := by
  have h1 := (max8_dvd hp (hu.each _ hx).2.1).1
  have h2 := oadj8 x.size
  have := oadj_ge x.size
  simp only [oblk] at h1
  unfold ohdr; omega

theorem ohdr_sep {sf : Nat} {ups : List Blk} (hu : UpsOk sf ups) {x : Blk} (hx : oblk x ∈ ups) : Sep sf (ohdr x) := by
  have h1 := (hu.each _ hx).2.2.2
  have := oadj_ge x.size
  unfold Disj at h1; unfold Sep ohdr; simp only [oblk] at h1; omega

theorem ohdrs_sep {ovs : List Blk} (h : (ovs.map oblk).Pairwise fun a b => Disj a.addr a.size b.addr b.size) : (ovs.map ohdr).Pairwise Sep := by
  rw [List.pairwise_map] at h ⊢
  refine h.imp fun {a b} hd => ?_
  have := oadj_ge a.size
  have := oadj_ge b.size
  unfold Disj at hd; unfold Sep ohdr; simp only [oblk] at hd; omega

theorem can_self (sf : Nat) (h : Heap) : can sf h sf = true := by simp [can]
theorem can_self8 (sf : Nat) (h : Heap) : can sf h (sf + 8) = true := by simp [can]

theorem ld_can {sf : Nat} {h : Heap} {a : Nat} (hc : can sf h a = true) : ld sf h a = .ok (h.mem a) := by unfold ld; rw [hc]; rfl
theorem st_can {sf : Nat} {h : Heap} {a v : Nat} (hc : can sf h a = true) : st sf h a v = .ok ⟨upd h.mem a v, h.ups⟩ := by unfold st; rw [hc]; rfl
theorem ldc {sf a : Nat} {m m0 : Words} {ups : List Blk} (hc : can sf ⟨m0, ups⟩ a = true) : ld sf ⟨m, ups⟩ a = .ok (m a) := ld_can (h := ⟨m, ups⟩) hc
theorem stc {sf a v : Nat} {m m0 : Words} {ups : List Blk} (hc : can sf ⟨m0, ups⟩ a = true) : st sf ⟨m, ups⟩ a v = .ok ⟨upd m a v, ups⟩ := st_can (h := ⟨m, ups⟩) hc

/-- `_Push_front` -/
theorem pushFront_eq {sf : Nat} {m : Words} {ups : List Blk} {p : Nat} (hp : can sf ⟨m, ups⟩ p = true) (hp8 : can sf ⟨m, ups⟩ (p + 8) = true)
    (hn : can sf ⟨m, ups⟩ (m sf + 8) = true) (hne : p ≠ sf) : pushFront sf ⟨m, ups⟩ p = .ok ⟨upd (upd (upd (upd m p (m sf)) (m sf + 8) p) (p + 8) sf) sf p, ups⟩ := by
  have hs := can_self sf ⟨m, ups⟩
  unfold pushFront
  rw [ldc hs, R.ok_bind, stc hp, R.ok_bind, ldc hs, R.ok_bind, upd_ne _ _ (Ne.symm hne), stc hn, R.ok_bind, stc hp8, R.ok_bind, stc hs]

/-- `_Remove` -/
theorem removeDouble_eq {sf : Nat} {m : Words} {ups : List Blk} {x : Nat} (hx : can sf ⟨m, ups⟩ x = true) (hx8 : can sf ⟨m, ups⟩ (x + 8) = true)
    (hn : can sf ⟨m, ups⟩ (m x + 8) = true) (hp : can sf ⟨m, ups⟩ (m (x + 8)) = true) (h1 : m x ≠ x) (h2 : m x + 8 ≠ x) :
    removeDouble sf ⟨m, ups⟩ x = .ok ⟨upd (upd m (m x + 8) (m (x + 8))) (m (x + 8)) (m x), ups⟩ := by
  unfold removeDouble
  rw [ldc hx, R.ok_bind, ldc hx8, R.ok_bind, stc hn, R.ok_bind, ldc hx8, R.ok_bind, ldc hx, R.ok_bind, upd_ne _ _ (show x + 8 ≠ m x + 8 by omega),
    upd_ne _ _ (Ne.symm h2), stc hp]

end STL.PoolRes
