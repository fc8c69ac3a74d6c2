import Verif.PoolRes.Over

/-! # `unsynchronized_pool_resource`: the invariant of the resource -/

namespace STL.PoolRes
open STL STL.Pmr

/-- A pool and its chunks. -/
abbrev GP := PoolRec × List GC
/-- The upstream blocks of a pool. -/
def gblks (g : GP) : List Blk := g.2.map (GC.blk g.1.bsize)
/-- The blocks handed out by a pool. -/
def gout (g : GP) : List Blk := g.2.flatMap (GC.out g.1.bsize)
/-- The buffer of the vector of pools. -/
def vblk (s : Res) : List Blk := if s.vcap = 0 then [] else [⟨s.vaddr, s.vcap * 48, 8⟩]

/-- The invariant: pools `gs`, oversized blocks `ovs`, `out` all blocks handed out. -/
structure RInv (sf : Nat) (h : Heap) (s : Res) (out : List Blk) (gs : List GP) (ovs : List Blk) : Prop where
  pools : s.pools = gs.map (·.1)
  sorted : gs.Pairwise fun a b => a.1.log < b.1.log
  each : ∀ g ∈ gs, PoolOk s.opts h.mem g.1 g.2
  vcap : gs.length ≤ s.vcap
  ups : UpsOk sf h.ups
  perm : h.ups.Perm (vblk s ++ (ovs.map oblk ++ gs.flatMap gblks))
  out : out.Perm (ovs ++ gs.flatMap gout)
  ov : OvOk sf s.opts.largest h.mem ovs
  mb : 1 ≤ s.opts.maxBlocks
  lim : s.opts.largest ≤ 2 ^ 59

theorem PoolOk.frame {o : Opts} {m m' : Words} {p : PoolRec} {cs : List GC} (hp : PoolOk o m p cs) (hm : ∀ c ∈ cs, ∀ w, priv p.bsize c w → m' w = m w) : PoolOk o m' p cs :=
  ⟨hp.lg4, hp.lg61, hp.bsz, hp.chain.congr fun c hc => hm c hc _ ((hp.chunks c hc).priv_hdr (k := 0) (by omega)),
    fun c hc => (hp.chunks c hc).frame hp.bs fun w hw _ => hm c hc w hw, hp.ids, hp.unfull, hp.empty, hp.one, hp.nextPos, hp.nextLim⟩

theorem OvOk.frame {sf lim : Nat} {m m' : Words} {ovs : List Blk} (ho : OvOk sf lim m ovs) (h0 : m' sf = m sf) (h8 : m' (sf + 8) = m (sf + 8))
    (hm : ∀ x ∈ ovs, ∀ k ≤ 24, m' (ohdr x + k) = m (ohdr x + k)) : OvOk sf lim m' ovs := by
  refine ⟨ho.list.congr h0 h8 fun n hn => ?_, fun x hx => ?_⟩
  · obtain ⟨x, hx, rfl⟩ := List.mem_map.1 hn
    exact ⟨hm x hx 0 (by omega), hm x hx 8 (by omega)⟩
  · obtain ⟨a, b, c, d, e⟩ := ho.each x hx
    exact ⟨a, b, c, (hm x hx 16 (by omega)).trans d, (hm x hx 24 (by omega)).trans e⟩

/-- Everything upstream has given except for the chunks of one pool. -/
def others (s : Res) (ovs : List Blk) (l1 l2 : List GP) : List Blk := vblk s ++ (ovs.map oblk ++ (l1 ++ l2).flatMap gblks)

theorem RInv.ctx {sf : Nat} {h : Heap} {s : Res} {out : List Blk} {l1 l2 : List GP} {g : GP} {ovs : List Blk} (hi : RInv sf h s out (l1 ++ g :: l2) ovs) :
    Ctx sf h g.1.bsize g.2 (others s ovs l1 l2) := by
  refine ⟨hi.ups, hi.perm.trans ?_⟩
  unfold others
  rw [List.perm_iff_count]
  intro a
  simp only [List.flatMap_append, List.flatMap_cons, List.count_append, gblks]
  omega

theorem disj_of {sf : Nat} {ups A B : List Blk} (hu : UpsOk sf ups) (hp : ups.Perm (A ++ B)) {a b : Blk} (ha : a ∈ A) (hb : b ∈ B) : Disj a.addr a.size b.addr b.size := by
  have := (hu.perm hp).disj
  rw [List.pairwise_append] at this
  exact this.2.2 a ha b hb

/-- A block handed out lies in an upstream block. -/
theorem pool_out_in {o : Opts} {m : Words} {g : GP} (hp : PoolOk o m g.1 g.2) {x : Blk} (hx : x ∈ gout g) : ∃ b ∈ gblks g, Inside x.addr x.size b.addr b.size := by
  obtain ⟨c, hc, hxc⟩ := List.mem_flatMap.1 hx
  refine ⟨c.blk g.1.bsize, List.mem_map_of_mem hc, ?_⟩
  have := out_inside (hp.chunks c hc) hxc
  unfold Inside at *; simp only [GC.blk]; omega

theorem over_in (x : Blk) : Inside x.addr (x.size + 32) (oblk x).addr (oblk x).size := by
  have := oadj_ge x.size; unfold Inside oblk; simp only; omega

theorem RInv.other_in {sf : Nat} {h : Heap} {s : Res} {out : List Blk} {l1 l2 : List GP} {g : GP} {ovs : List Blk} (hi : RInv sf h s out (l1 ++ g :: l2) ovs) {x : Blk}
    (hx : x ∈ ovs ++ (l1 ++ l2).flatMap gout) : ∃ b ∈ others s ovs l1 l2, Inside x.addr x.size b.addr b.size := by
  rcases List.mem_append.1 hx with h1 | h1
  · refine ⟨oblk x, ?_, ?_⟩
    · unfold others; exact List.mem_append_right _ (List.mem_append_left _ (List.mem_map_of_mem h1))
    · have := over_in x; unfold Inside at *; omega
  · obtain ⟨q, hq, hxq⟩ := List.mem_flatMap.1 h1
    obtain ⟨b, hb, hib⟩ := pool_out_in (hi.each q (mem_split_of hq)) hxq
    exact ⟨b, by unfold others; exact List.mem_append_right _ (List.mem_append_right _ (List.mem_flatMap.2 ⟨q, hq, hb⟩)), hib⟩

theorem RInv.out_split {sf : Nat} {h : Heap} {s : Res} {out : List Blk} {l1 l2 : List GP} {g : GP} {ovs : List Blk} (hi : RInv sf h s out (l1 ++ g :: l2) ovs) :
    out.Perm (gout g ++ (ovs ++ (l1 ++ l2).flatMap gout)) := by
  refine hi.out.trans ?_
  rw [List.perm_iff_count]
  intro a
  simp only [List.flatMap_append, List.flatMap_cons, List.count_append]
  omega

/-- One pool changes. -/
theorem RInv.setPool {sf : Nat} {h : Heap} {s : Res} {out : List Blk} {l1 l2 : List GP} {g : GP} {ovs : List Blk} (hi : RInv sf h s out (l1 ++ g :: l2) ovs) {h1 : Heap} {p1 : PoolRec}
    {cs1 : List GC} {out1 : List Blk} (hok : PoolOk s.opts h1.mem p1 cs1) (hlog : p1.log = g.1.log) (hbs : p1.bsize = g.1.bsize)
    (hx : Ctx sf h1 g.1.bsize cs1 (others s ovs l1 l2))
    (hch : ∀ w, h1.mem w ≠ h.mem w → ∃ c, (c ∈ g.2 ∨ c ∈ cs1) ∧ Inside w 8 c.base (c.cap * g.1.bsize + 56))
    (hout : out1.Perm (cs1.flatMap (GC.out g.1.bsize) ++ (ovs ++ (l1 ++ l2).flatMap gout))) :
    RInv sf h1 ⟨s.opts, s.vaddr, s.vcap, s.pools.set l1.length p1⟩ out1 (l1 ++ (p1, cs1) :: l2) ovs ∧
      ∀ w, h1.mem w ≠ h.mem w → ∀ x ∈ ovs ++ (l1 ++ l2).flatMap gout, Disj w 8 x.addr x.size := by
  have hc0 := hi.ctx
  have key : ∀ w, h1.mem w ≠ h.mem w → (∀ b ∈ others s ovs l1 l2, Disj w 8 b.addr b.size) ∧ w ≠ sf ∧ w ≠ sf + 8 := by
    intro w hw
    obtain ⟨c, hc, hin⟩ := hch w hw
    have : (∀ b ∈ others s ovs l1 l2, Disj (c.blk g.1.bsize).addr (c.blk g.1.bsize).size b.addr b.size) ∧ Disj sf 16 (c.blk g.1.bsize).addr (c.blk g.1.bsize).size := by
      rcases hc with hc | hc
      · exact ⟨fun b hb => disj_of hc0.ups hc0.perm (List.mem_map_of_mem hc) hb, (hc0.ups.each _ (blk_mem hc0.perm hc)).2.2.2⟩
      · exact ⟨fun b hb => disj_of hx.ups hx.perm (List.mem_map_of_mem hc) hb, (hx.ups.each _ (blk_mem hx.perm hc)).2.2.2⟩
    simp only [GC.blk] at this
    obtain ⟨t1, t2⟩ := this
    refine ⟨fun b hb => ?_, ?_, ?_⟩
    · have := t1 b hb; unfold Disj at *; unfold Inside at hin; omega
    · unfold Disj at t2; unfold Inside at hin; omega
    · unfold Disj at t2; unfold Inside at hin; omega
  have nin : ∀ b ∈ others s ovs l1 l2, ∀ w, Inside w 8 b.addr b.size → h1.mem w = h.mem w := by
    intro b hb w hin
    by_contra hw
    have := (key w hw).1 b hb
    unfold Disj at this; unfold Inside at hin; omega
  refine ⟨⟨?_, ?_, ?_, ?_, hx.ups, ?_, ?_, ?_, hi.mb, hi.lim⟩, fun w hw x hxm => ?_⟩
  · simp only
    rw [hi.pools]
    simp [List.set_append]
  · have := hi.sorted
    simp only [List.pairwise_append, List.pairwise_cons, List.mem_cons] at this ⊢
    refine ⟨this.1, ⟨fun a ha => ?_, this.2.1.2⟩, fun a ha b hb => ?_⟩
    · rw [hlog]; exact this.2.1.1 a ha
    · rcases hb with rfl | hb
      · rw [hlog]; exact this.2.2 a ha g (.inl rfl)
      · exact this.2.2 a ha b (.inr hb)
  · intro q hq
    rcases mem_split_cases hq with rfl | hq
    · exact hok
    · refine (hi.each q (mem_split_of hq)).frame fun c hc w hw => ?_
      refine nin (c.blk q.1.bsize) ?_ w hw.1
      unfold others
      exact List.mem_append_right _ (List.mem_append_right _ (List.mem_flatMap.2 ⟨q, hq, List.mem_map_of_mem hc⟩))
  · have := hi.vcap; simp only [List.length_append, List.length_cons] at this ⊢; exact this
  · refine hx.perm.trans ?_
    unfold others
    rw [List.perm_iff_count]
    intro a
    simp only [List.flatMap_append, List.flatMap_cons, List.count_append, gblks, hbs, vblk]
    omega
  · refine hout.trans ?_
    rw [List.perm_iff_count]
    intro a
    simp only [List.flatMap_append, List.flatMap_cons, List.count_append, gout, hbs]
    omega
  · refine hi.ov.frame ?_ ?_ fun x hxm k hk => ?_
    · by_contra hw; exact (key _ hw).2.1 rfl
    · by_contra hw; exact (key _ hw).2.2 rfl
    · exact nin (oblk x) (by unfold others; exact List.mem_append_right _ (List.mem_append_left _ (List.mem_map_of_mem hxm))) _ (ohdr_in x hk)
  · obtain ⟨b, hb, hib⟩ := hi.other_in hxm
    have := (key w hw).1 b hb
    unfold Disj at *; unfold Inside at hib; omega

/-- Every block handed out lies in an upstream block, and the words of upstream blocks outside are those of the resource. -/
theorem RInv.out_in {sf : Nat} {h : Heap} {s : Res} {out : List Blk} {gs : List GP} {ovs : List Blk} (hi : RInv sf h s out gs ovs) {x : Blk} (hx : x ∈ out) :
    ∃ b ∈ h.ups, Inside x.addr x.size b.addr b.size := by
  rcases List.mem_append.1 (hi.out.mem_iff.1 hx) with h1 | h1
  · refine ⟨oblk x, hi.perm.mem_iff.2 (List.mem_append_right _ (List.mem_append_left _ (List.mem_map_of_mem h1))), ?_⟩
    have := over_in x; unfold Inside at *; omega
  · obtain ⟨q, hq, hxq⟩ := List.mem_flatMap.1 h1
    obtain ⟨b, hb, hib⟩ := pool_out_in (hi.each q hq) hxq
    exact ⟨b, hi.perm.mem_iff.2 (List.mem_append_right _ (List.mem_append_right _ (List.mem_flatMap.2 ⟨q, hq, hb⟩))), hib⟩

/-- Foreign writes. -/
theorem RInv.write {sf : Nat} {h : Heap} {s : Res} {out : List Blk} {gs : List GP} {ovs : List Blk} (hi : RInv sf h s out gs ovs) {m : Words}
    (hm : ∀ w, (w = sf ∨ w = sf + 8 ∨ ∃ b ∈ h.ups, Inside w 8 b.addr b.size) → (∀ x ∈ out, Disj w 8 x.addr x.size) → m w = h.mem w) : RInv sf ⟨m, h.ups⟩ s out gs ovs := by
  have hself : ∀ w, w = sf ∨ w = sf + 8 → ∀ x ∈ out, Disj w 8 x.addr x.size := by
    intro w hw x hx
    obtain ⟨b, hb, hib⟩ := hi.out_in hx
    have := (hi.ups.each b hb).2.2.2
    unfold Disj at *; unfold Inside at hib; omega
  refine ⟨hi.pools, hi.sorted, fun g hg => ?_, hi.vcap, hi.ups, hi.perm, hi.out, hi.ov.frame ?_ ?_ ?_, hi.mb, hi.lim⟩
  · obtain ⟨l1, l2, rfl⟩ := List.append_of_mem hg
    have hc0 := hi.ctx
    have hd := cs_disj hc0.ups hc0.perm
    refine (hi.each g hg).frame fun c hc w hw => hm w (.inr (.inr ⟨c.blk g.1.bsize, blk_mem hc0.perm hc, hw.1⟩)) fun x hx => ?_
    rcases List.mem_append.1 (hi.out_split.mem_iff.1 hx) with h1 | h1
    · obtain ⟨d, hdm, hxd⟩ := List.mem_flatMap.1 h1
      by_cases hcd : c = d
      · exact hw.2 x (hcd ▸ hxd)
      · have e1 := pair_ne hd hc hdm hcd
        have e2 := out_inside ((hi.each g hg).chunks d hdm) hxd
        have e3 := hw.1
        unfold RDisj Disj at e1; unfold Inside at e2 e3; unfold Disj; omega
    · obtain ⟨b, hb, hib⟩ := hi.other_in h1
      have e1 := disj_of hc0.ups hc0.perm (List.mem_map_of_mem hc) hb
      have e3 := hw.1
      simp only [GC.blk] at e1
      unfold Disj at *; unfold Inside at hib e3; omega
  · exact hm sf (.inl rfl) (hself sf (.inl rfl))
  · exact hm (sf + 8) (.inr (.inl rfl)) (hself _ (.inr rfl))
  · intro x hx k hk
    have hxu : oblk x ∈ h.ups := hi.perm.mem_iff.2 (List.mem_append_right _ (List.mem_append_left _ (List.mem_map_of_mem hx)))
    refine hm _ (.inr (.inr ⟨oblk x, hxu, ohdr_in x hk⟩)) fun y hy => ?_
    have hge := oadj_ge x.size
    rcases List.mem_append.1 (hi.out.mem_iff.1 hy) with h1 | h1
    · obtain ⟨o1, o2, ho⟩ := List.append_of_mem hx
      have hmem : y = x ∨ y ∈ o1 ++ o2 := mem_split_cases (ho ▸ h1)
      rcases hmem with rfl | hyo
      · unfold Disj ohdr; omega
      · have hp := hi.ups.perm hi.perm
        have h2 := (hp.disj.sublist (List.sublist_append_right ..)).sublist (List.sublist_append_left ..)
        rw [ho, List.pairwise_map] at h2
        have h3 := split_rel (r := fun a b : Blk => Disj (oblk a).addr (oblk a).size (oblk b).addr (oblk b).size) (fun _ _ h => disj_comm h) h2 y hyo
        have h4 := over_in y
        unfold Disj ohdr; unfold Disj at h3; unfold Inside at h4; simp only [oblk] at h3 h4; omega
    · obtain ⟨q, hq, hyq⟩ := List.mem_flatMap.1 h1
      obtain ⟨b, hb, hib⟩ := pool_out_in (hi.each q hq) hyq
      have hp := hi.ups.perm hi.perm
      have h2 : (ovs.map oblk ++ gs.flatMap gblks).Pairwise fun a b => Disj a.addr a.size b.addr b.size := hp.disj.sublist (List.sublist_append_right ..)
      rw [List.pairwise_append] at h2
      have h3 := h2.2.2 (oblk x) (List.mem_map_of_mem hx) b (List.mem_flatMap.2 ⟨q, hq, hb⟩)
      unfold Disj ohdr; unfold Disj at h3; unfold Inside at hib; simp only [oblk] at h3; omega

end STL.PoolRes
