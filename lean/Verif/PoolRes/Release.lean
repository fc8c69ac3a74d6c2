import Verif.PoolRes.Ops

/-! # `unsynchronized_pool_resource`: `do_allocate`, `do_deallocate`, `release` -/

namespace STL.PoolRes
open STL STL.Pmr

theorem doAllocate_ok {sf : Nat} {h : Heap} {s : Res} {out : List Blk} {gs : List GP} {ovs : List Blk} (hi : RInv sf h s out gs ovs) {up : Up} (hu : UpOk sf up) {bytes al : Nat}
    (hr : Req bytes al) :
    (∃ h' s' gs', doAllocate sf h s bytes al up = .ok (h', s', .error .badAlloc) ∧ RInv sf h' s' out gs' ovs ∧ h'.mem = h.mem ∧ (2 ^ 64 - 40 < bytes ∨ Refused up)) ∨
    ∃ h' s' p gs' ovs', doAllocate sf h s bytes al up = .ok (h', s', .ok p) ∧ RInv sf h' s' (⟨p, bytes, al⟩ :: out) gs' ovs' ∧
      ∀ w, h'.mem w ≠ h.mem w → ∀ x ∈ out, Disj w 8 x.addr x.size := by
  unfold doAllocate
  by_cases hb : bytes ≤ s.opts.largest
  · rw [if_pos hb]
    simp only
    obtain ⟨f1, f2, f3, f4⟩ := logOf_ok hr (hb.trans hi.lim)
    obtain ⟨l1, l2, hgs, hf, hlo, hhi⟩ := find_split gs (logOf bytes al) hi.sorted
    rw [← hi.pools] at hf
    subst hgs
    rw [hf]
    by_cases hc : (s.pools[l1.length]?).map (·.log) = some (logOf bytes al)
    · rw [if_pos hc]
      cases l2 with
      | nil => rw [hi.pools] at hc; simp at hc
      | cons g l2 =>
        have hl : g.1.log = logOf bytes al := by rw [hi.pools] at hc; simpa using hc
        rcases allocIn_ok hi hu hr hb hl with ⟨s', gs', e1, e2, e3⟩ | ⟨h', s', gs', b, e1, e2, e3⟩
        · exact .inl ⟨h, s', gs', e1, e2, rfl, .inr e3⟩
        · exact .inr ⟨h', s', b, gs', ovs, e1, e2, e3⟩
    · rw [if_neg hc]
      have hhi' : ∀ g ∈ l2, logOf bytes al < g.1.log := by
        cases l2 with
        | nil => simp
        | cons g l2 =>
          have hne : g.1.log ≠ logOf bytes al := fun he => hc (by rw [hi.pools]; simpa using he)
          have h0 := hhi g (List.mem_cons_self ..)
          have hs := hi.sorted
          rw [List.pairwise_append, List.pairwise_cons] at hs
          intro q hq
          rcases List.mem_cons.1 hq with rfl | hq
          · omega
          · have := hs.2.1.1 q hq; omega
      rcases emplace_ok hi hu f1 f2 hlo hhi' with ⟨e1, e2⟩ | ⟨h1, s1, e1, e2, e3, e4⟩
      · rw [e1, R.ok_bind]
        exact .inl ⟨h, s, l1 ++ l2, rfl, hi, rfl, .inr e2⟩
      · rw [e1, R.ok_bind]
        simp only
        rcases allocIn_ok e4 hu hr (by rw [e3]; exact hb) rfl with ⟨s', gs', k1, k2, k3⟩ | ⟨h', s', gs', b, k1, k2, k3⟩
        · exact .inl ⟨h1, s', gs', k1, k2, e2, .inr k3⟩
        · exact .inr ⟨h', s', b, gs', ovs, k1, k2, by rw [← e2]; exact k3⟩
  · rw [if_neg hb]
    obtain ⟨q1, -, k, -, q2⟩ := hr
    rcases allocOver_ok hi hu q1 (by omega) ⟨k, q2⟩ with ⟨e1, e2⟩ | ⟨h', p, ovs', e1, e2, e3⟩
    · rw [e1, R.ok_bind]
      exact .inl ⟨h, s, gs, rfl, hi, rfl, e2⟩
    · rw [e1, R.ok_bind]
      exact .inr ⟨h', s, p, gs, ovs', rfl, e2, e3⟩

theorem doDeallocate_ok {sf : Nat} {h : Heap} {s : Res} {out : List Blk} {gs : List GP} {ovs : List Blk} (hi : RInv sf h s out gs ovs) {x : Blk} (hx : x ∈ out) :
    ∃ h' s' gs' ovs', doDeallocate sf h s x.addr x.size x.align = .ok (h', s') ∧ RInv sf h' s' (out.erase x) gs' ovs' ∧ (∀ b ∈ h'.ups, b ∈ h.ups) ∧
      ∀ w, h'.mem w ≠ h.mem w → ∀ y ∈ out.erase x, Disj w 8 y.addr y.size := by
  unfold doDeallocate
  by_cases hb : x.size ≤ s.opts.largest
  · rw [if_pos hb]
    simp only
    have hxg : x ∈ gs.flatMap gout := by
      rcases List.mem_append.1 (hi.out.mem_iff.1 hx) with h1 | h1
      · have := (hi.ov.each x h1).1; omega
      · exact h1
    obtain ⟨g, hg, hxo⟩ := List.mem_flatMap.1 hxg
    have hp := hi.each g hg
    have hlog : logOf x.size x.align = g.1.log := by
      obtain ⟨c, hc, hxc⟩ := List.mem_flatMap.1 hxo
      obtain ⟨u, hu, rfl⟩ := List.mem_map.1 hxc
      exact ((hp.chunks c hc).usz u hu).2.2.2
    rw [hlog]
    obtain ⟨l1, l2, hgs, hf, hlo, hhi⟩ := find_split gs g.1.log hi.sorted
    rw [← hi.pools] at hf
    subst hgs
    rw [hf]
    have hl2 : ∃ l2', l2 = g :: l2' := by
      have hg2 : g ∈ l2 := by
        rcases List.mem_append.1 hg with h1 | h1
        · have := hlo g h1; omega
        · exact h1
      cases l2 with
      | nil => cases hg2
      | cons q l2 =>
        rcases List.mem_cons.1 hg2 with rfl | h1
        · exact ⟨l2, rfl⟩
        · have hs := hi.sorted
          rw [List.pairwise_append, List.pairwise_cons] at hs
          have := hs.2.1.1 g h1
          have := hhi q (List.mem_cons_self ..)
          omega
    obtain ⟨l2, rfl⟩ := hl2
    have hget : s.pools[l1.length]? = some g.1 := by rw [hi.pools]; simp
    rw [hget]
    simp only [if_true]
    obtain ⟨h1, p1, e1, cs1, k1, k2, k3, k4, k5, k6, k7⟩ := poolDealloc_ok hp hi.ctx hxo
    rw [e1, R.ok_bind]
    have hout : (out.erase x).Perm (cs1.flatMap (GC.out g.1.bsize) ++ (ovs ++ (l1 ++ l2).flatMap gout)) := by
      have h5 : out.Perm (x :: (cs1.flatMap (GC.out g.1.bsize) ++ (ovs ++ (l1 ++ l2).flatMap gout))) := by
        refine hi.out_split.trans ?_
        rw [← List.cons_append]
        exact k5.append_right _
      have := h5.erase x
      simpa using this
    have := hi.setPool k1 k2 k3 k4 (out1 := out.erase x) (fun w hw => by obtain ⟨c, hc, hin⟩ := (k6 w hw).1; exact ⟨c, .inl hc, hin⟩) hout
    refine ⟨_, _, _, _, rfl, this.1, k7, fun w hw y hy => ?_⟩
    rcases List.mem_append.1 (hout.mem_iff.1 hy) with h2 | h2
    · exact (k6 w hw).2 y h2
    · exact this.2 w hw y h2
  · rw [if_neg hb]
    have hxo : x ∈ ovs := by
      rcases List.mem_append.1 (hi.out.mem_iff.1 hx) with h1 | h1
      · exact h1
      · obtain ⟨g, hg, hxo⟩ := List.mem_flatMap.1 h1
        obtain ⟨c, hc, hxc⟩ := List.mem_flatMap.1 hxo
        obtain ⟨u, hu, rfl⟩ := List.mem_map.1 hxc
        exact absurd (((hi.each g hg).chunks c hc).usz u hu).2.2.1 hb
    obtain ⟨o1, o2, rfl⟩ := List.append_of_mem hxo
    obtain ⟨h', e1, e2, e3⟩ := deallocOver_ok hi
    rw [e1, R.ok_bind]
    refine ⟨h', s, gs, o1 ++ o2, rfl, e2, fun b hbm => ?_, e3⟩
    have h1 := e2.perm.mem_iff.1 hbm
    refine hi.perm.mem_iff.2 ?_
    simp only [List.map_append, List.map_cons, List.mem_append, List.mem_cons] at h1 ⊢
    tauto

theorem clearPools_ok {sf : Nat} {o : Opts} {m : Words} {rest : List Blk} : ∀ (gs : List GP) (ups : List Blk), (∀ g ∈ gs, PoolOk o m g.1 g.2) → UpsOk sf ups →
    ups.Perm (gs.flatMap gblks ++ rest) → ∃ ups', clearPools sf ⟨m, ups⟩ (gs.map (·.1)) = .ok ⟨m, ups'⟩ ∧ UpsOk sf ups' ∧ ups'.Perm rest
  | [], ups, _, hu, hp => ⟨ups, rfl, hu, by simpa using hp⟩
  | g :: t, ups, he, hu, hp => by
    have hg := he g (List.mem_cons_self ..)
    rw [List.flatMap_cons, List.append_assoc] at hp
    have hlen : g.2.length ≤ ups.length := by have := hp.length_eq; simp only [List.length_append, gblks, List.length_map] at this; omega
    obtain ⟨u1, a1, a2, a3⟩ := clearLoop_ok (sf := sf) (o := o) hg.bsz hg.bs g.2 ups g.1.head (ups.length + 1) hg.chain hg.chunks ⟨hu, hp⟩ (by omega)
    obtain ⟨u2, b1, b2, b3⟩ := clearPools_ok t u1 (fun q hq => he q (List.mem_cons_of_mem _ hq)) a2 a3
    refine ⟨u2, ?_, b2, b3⟩
    rw [List.map_cons, clearPools, a1, R.ok_bind, b1]

theorem overLoop_ok {sf : Nat} {m m' : Words} : ∀ (ovs ups : List Blk) (a f : Nat), DSeg sf m a (ovs.map ohdr) →
    (∀ x ∈ ovs, (∃ k, x.align = 2 ^ k) ∧ m' (ohdr x) = m (ohdr x) ∧ m' (ohdr x + 16) = oadj x.size ∧ m' (ohdr x + 24) = max x.align 8) → UpsOk sf ups → ups.Perm (ovs.map oblk) →
    ovs.length + 1 ≤ f → overLoop sf f ⟨m', ups⟩ (m a) = .ok ⟨m', []⟩
  | [], ups, a, f, hl, _, _, hp, hf => by
    obtain ⟨f, rfl⟩ : ∃ k, f = k + 1 := ⟨f - 1, by omega⟩
    have : ups = [] := by simpa using hp
    rw [overLoop, if_pos hl.1, this]
  | x :: t, ups, a, f, hl, he, hu, hp, hf => by
    obtain ⟨f, rfl⟩ : ∃ k, f = k + 1 := ⟨f - 1, by omega⟩
    obtain ⟨e1, e2, e3⟩ := hl
    obtain ⟨k1, k2, k3, k4⟩ := he x (List.mem_cons_self ..)
    have hxm : oblk x ∈ ups := hp.mem_iff.2 (by simp)
    have hs := ohdr_self hu hxm
    have hc := fun k hk h8 => can_hdr (m := m') hu hxm k1 (k := k) hk h8
    have hge := oadj_ge x.size
    have hp2 : (ups.erase (oblk x)).Perm (t.map oblk) := by
      have := hp.erase (oblk x)
      simpa using this
    rw [overLoop, e1, if_neg (by omega), show ld sf ⟨m', ups⟩ (ohdr x) = .ok (m' (ohdr x)) from ldc (hc 0 (by omega) (by omega)), R.ok_bind, ldc (hc 16 (by omega) (by omega)), R.ok_bind,
      ldc (hc 24 (by omega) (by omega)), R.ok_bind, k3, k4, k2, show ohdr x + 32 - oadj x.size = x.addr by unfold ohdr; omega,
      show Heap.dealloc ⟨m', ups⟩ x.addr (oadj x.size) (max x.align 8) = .ok ⟨m', ups.erase (oblk x)⟩ by unfold Heap.dealloc; exact if_pos hxm, R.ok_bind]
    exact overLoop_ok t _ _ f e3 (fun y hy => he y (List.mem_cons_of_mem _ hy)) (hu.sub List.erase_sublist) hp2 (by simp at hf; omega)

theorem release_ok {sf : Nat} {h : Heap} {s : Res} {out : List Blk} {gs : List GP} {ovs : List Blk} (hi : RInv sf h s out gs ovs) :
    ∃ m', release sf h s = .ok (⟨m', []⟩, ⟨s.opts, 0, 0, []⟩) ∧ (∀ w, m' w ≠ h.mem w → w = sf ∨ w = sf + 8) ∧ RInv sf ⟨m', []⟩ ⟨s.opts, 0, 0, []⟩ [] [] [] := by
  obtain ⟨u1, a1, a2, a3⟩ := clearPools_ok (sf := sf) (rest := vblk s ++ ovs.map oblk) gs h.ups hi.each hi.ups (hi.perm.trans (by
    rw [List.perm_iff_count]; intro a; simp only [List.count_append]; omega))
  obtain ⟨u2, b1, b2, b3⟩ := freeVec_ok (m := h.mem) (s := s) a2 a3
  have hmem : ∀ y ∈ ovs, oblk y ∈ h.ups := fun y hy => hi.perm.mem_iff.2 (List.mem_append_right _ (List.mem_append_left _ (List.mem_map_of_mem hy)))
  obtain ⟨m', hm'⟩ : ∃ m', m' = upd (upd h.mem sf sf) (sf + 8) sf := ⟨_, rfl⟩
  have hsame : ∀ y ∈ ovs, ∀ k ≤ 24, m' (ohdr y + k) = h.mem (ohdr y + k) := by
    intro y hy k hk
    have := ohdr_self hi.ups (hmem y hy)
    rw [hm', upd_ne _ _ (by omega), upd_ne _ _ (by omega)]
  have hlen : ovs.length + 1 ≤ u2.length + 1 := by have := b3.length_eq; simp at this; omega
  have hloop := overLoop_ok (m' := m') ovs u2 sf (u2.length + 1) hi.ov.list (fun y hy => by
    obtain ⟨-, -, c1, c2, c3⟩ := hi.ov.each y hy
    exact ⟨c1, hsame y hy 0 (by omega), (hsame y hy 16 (by omega)).trans c2, (hsame y hy 24 (by omega)).trans c3⟩) b2 b3 hlen
  refine ⟨m', ?_, fun w hw => ?_, ?_⟩
  · unfold release
    rw [hi.pools, a1, R.ok_bind, b1, R.ok_bind, ldc (can_self sf ⟨h.mem, u2⟩), R.ok_bind, stc (can_self sf ⟨h.mem, u2⟩), R.ok_bind, stc (can_self8 sf ⟨h.mem, u2⟩), R.ok_bind, ← hm']
    simp only
    rw [hloop, R.ok_bind]
  · by_contra hno
    push Not at hno
    exact hw (by rw [hm', upd_ne _ _ hno.2, upd_ne _ _ hno.1])
  · refine ⟨rfl, List.Pairwise.nil, by simp, by simp, ⟨by simp, List.Pairwise.nil⟩, by simp [vblk], by simp, ⟨?_, by simp⟩, hi.mb, hi.lim⟩
    refine ⟨?_, by show m' (sf + 8) = sf; rw [hm', upd_eq]⟩
    show m' sf = sf
    rw [hm', upd_ne _ _ (by omega), upd_eq]

theorem make_inv {sf : Nat} (m : Words) (o : Opts) (h1 : o.maxBlocks < 2 ^ 64) (h2 : o.largest < 2 ^ 64) : RInv sf (make sf m o).1 (make sf m o).2 [] [] [] := by
  obtain ⟨a1, -, -, -, -, ⟨k, hk, a2⟩, -⟩ := setup_ok o h1 h2
  refine ⟨rfl, List.Pairwise.nil, by simp, by simp, ⟨by simp [make], List.Pairwise.nil⟩, by simp [vblk, make], by simp, ⟨?_, by simp⟩, a1, ?_⟩
  · refine ⟨?_, by simp [make, upd_eq]⟩
    simp [make, upd]
  · simp only [make]; rw [a2]; exact pow_ge hk

end STL.PoolRes
