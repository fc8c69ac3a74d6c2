import Verif.PoolRes.Alloc

/-! # `unsynchronized_pool_resource`: `_Pool::_Deallocate` and `_Pool::_Clear` -/

namespace STL.PoolRes
open STL STL.Pmr

/-- `_Remove` takes a chunk out of the stack. -/
theorem removeLoop_ok {sf : Nat} {o : Opts} {lg bs : Nat} {ups : List Blk} {g : GC} (hb : BsOk bs) : ∀ (l2 l1 : List GC) (m : Words) (head prev f : Nat) (q : Option GC),
    (∀ c ∈ q.toList ++ l1 ++ g :: l2, ChunkOk o lg bs m c ∧ c.blk bs ∈ ups) → (q.toList ++ l1 ++ g :: l2).Pairwise (RDisj bs) →
    prev = (match q with | none => 0 | some c => c.hdr bs) → CChain bs m (if prev = 0 then head else m prev) (l1 ++ g :: l2) → l1.length + 1 ≤ f →
    ∃ m' head', removeLoop sf (g.hdr bs) f ⟨m, ups⟩ head prev = .ok (⟨m', ups⟩, head') ∧ (prev ≠ 0 → head' = head) ∧
      CChain bs m' (if prev = 0 then head' else m' prev) (l1 ++ l2) ∧ (∀ w, m' w ≠ m w → ∃ x ∈ q.toList ++ l1, w = x.hdr bs) := by
  intro l2 l1
  induction l1 with
  | nil =>
    intro m head prev f q hc hd hpv hch hf
    obtain ⟨f, rfl⟩ : ∃ k, f = k + 1 := ⟨f - 1, by omega⟩
    obtain ⟨hg, hgm⟩ := hc g (by simp)
    have hg0 : g.hdr bs ≠ 0 := by have := hg.pos; unfold GC.hdr; omega
    have hgld : ld sf ⟨m, ups⟩ (g.hdr bs) = .ok (m (g.hdr bs)) := ldm hgm (hg.hdr8 hb) (hdr_in0 _ g)
    cases q with
    | none =>
      simp only at hpv
      subst hpv
      rw [if_pos rfl] at hch
      refine ⟨m, m (g.hdr bs), ?_, by simp, ?_, fun w hw => absurd rfl hw⟩
      · rw [removeLoop, show linkOf sf ⟨m, ups⟩ head 0 = .ok head from rfl, R.ok_bind, hch.1, if_neg hg0, if_pos rfl, hgld, R.ok_bind, if_pos rfl]
      · rw [if_pos rfl]; exact hch.2
    | some c =>
      simp only at hpv
      obtain ⟨hcc, hcm⟩ := hc c (by simp)
      have hc0 : prev ≠ 0 := by have := hcc.pos; rw [hpv]; unfold GC.hdr; omega
      rw [if_neg hc0] at hch
      have h8 := hcc.hdr8 hb
      refine ⟨upd m prev (m (g.hdr bs)), head, ?_, fun _ => rfl, ?_, fun w hw => ⟨c, by simp, ?_⟩⟩
      · rw [removeLoop, show linkOf sf ⟨m, ups⟩ head prev = .ok (m prev) by unfold linkOf; rw [if_neg hc0, hpv]; exact ldm hcm h8 (hdr_in0 _ c), R.ok_bind, hch.1, if_neg hg0, if_pos rfl, hgld, R.ok_bind,
          if_neg hc0, show st sf ⟨m, ups⟩ prev (m (g.hdr bs)) = .ok ⟨upd m prev (m (g.hdr bs)), ups⟩ by rw [hpv]; exact stm hcm _ h8 (hdr_in0 _ c), R.ok_bind]
      · rw [if_neg hc0, upd_eq]
        refine hch.2.congr fun d hdm => upd_ne _ _ ?_
        rw [hpv]
        simp only [Option.toList_some, List.append_nil, List.singleton_append, List.pairwise_cons] at hd
        have := hd.1 d (by simp only [List.mem_cons]; right; simpa using hdm)
        exact (hdr_ne this (k := 0) (l := 0) (by omega) (by omega)).symm
      · by_contra hne
        exact hw (upd_ne _ _ (by rw [hpv]; exact hne))
  | cons x l1 ih =>
    intro m head prev f q hc hd hpv hch hf
    obtain ⟨f, rfl⟩ : ∃ k, f = k + 1 := ⟨f - 1, by omega⟩
    obtain ⟨hxk, hxm⟩ := hc x (by simp)
    have hx0 : x.hdr bs ≠ 0 := by have := hxk.pos; unfold GC.hdr; omega
    have hxg : x.hdr bs ≠ g.hdr bs := by
      have h1 : (x :: (l1 ++ g :: l2)).Pairwise (RDisj bs) := hd.sublist (by simp)
      exact hdr_ne ((List.pairwise_cons.1 h1).1 g (by simp)) (k := 0) (l := 0) (by omega) (by omega)
    have hcur : linkOf sf ⟨m, ups⟩ head prev = .ok (x.hdr bs) := by
      unfold linkOf
      cases q with
      | none =>
        simp only at hpv; subst hpv
        rw [if_pos rfl] at hch ⊢
        rw [hch.1]
      | some c =>
        simp only at hpv
        obtain ⟨hcc, hcm⟩ := hc c (by simp)
        have hc0 : prev ≠ 0 := by have := hcc.pos; rw [hpv]; unfold GC.hdr; omega
        rw [if_neg hc0] at hch ⊢
        rw [← hch.1, hpv]
        exact ldm hcm (hcc.hdr8 hb) (hdr_in0 _ c)
    have hch2 : CChain bs m (m (x.hdr bs)) (l1 ++ g :: l2) := hch.2
    have hsub : (some x).toList ++ l1 ++ g :: l2 = x :: (l1 ++ g :: l2) := by simp
    obtain ⟨m', head', h1, h2, h3, h4⟩ := ih m head (x.hdr bs) f (some x) (fun c hcm => hc c (by rw [hsub] at hcm; simp only [List.mem_append, List.mem_cons] at hcm ⊢; tauto))
      (by rw [hsub]; exact hd.sublist (by simp)) rfl (by rw [if_neg hx0]; exact hch2) (by simp at hf; omega)
    have hhead := h2 hx0
    subst hhead
    rw [if_neg hx0] at h3
    refine ⟨m', head', ?_, fun _ => rfl, ?_, fun w hw => ?_⟩
    · rw [removeLoop, hcur, R.ok_bind, if_neg hx0, if_neg hxg, h1]
    · have hpe : (if prev = 0 then head' else m' prev) = x.hdr bs := by
        cases q with
        | none =>
          simp only at hpv; subst hpv
          rw [if_pos rfl] at hch ⊢
          exact hch.1
        | some c =>
          simp only at hpv
          obtain ⟨hcc, hcm⟩ := hc c (by simp)
          have hc0 : prev ≠ 0 := by have := hcc.pos; rw [hpv]; unfold GC.hdr; omega
          rw [if_neg hc0] at hch ⊢
          rw [← hch.1]
          by_contra hne
          obtain ⟨y, hy, hye⟩ := h4 _ hne
          have h5 : (c :: (x :: l1 ++ g :: l2)).Pairwise (RDisj bs) := by simpa using hd
          have := (List.pairwise_cons.1 h5).1 y (by simp at hy ⊢; tauto)
          rw [hpv] at hye
          exact hdr_ne this (k := 0) (l := 0) (by omega) (by omega) hye
      rw [hpe]
      exact ⟨rfl, h3⟩
    · obtain ⟨y, hy, hye⟩ := h4 w hw
      exact ⟨y, by simp at hy ⊢; tauto, hye⟩

/-- A block goes back to its pool, as seen by the rest of the resource. -/
def Gave (sf : Nat) (o : Opts) (h : Heap) (p : PoolRec) (cs : List GC) (rest : List Blk) (x : Blk) (h1 : Heap) (p1 : PoolRec) : Prop :=
  ∃ cs1, PoolOk o h1.mem p1 cs1 ∧ p1.log = p.log ∧ p1.bsize = p.bsize ∧ Ctx sf h1 p.bsize cs1 rest ∧
    (cs.flatMap (GC.out p.bsize)).Perm (x :: cs1.flatMap (GC.out p.bsize)) ∧ Touched p.bsize h.mem h1.mem cs (cs1.flatMap (GC.out p.bsize)) ∧
    ∀ b ∈ h1.ups, b ∈ h.ups

theorem out_mem_split {bs : Nat} {cs : List GC} {x : Blk} (hx : x ∈ cs.flatMap (GC.out bs)) :
    ∃ l1 c l2 u1 i u2, cs = l1 ++ c :: l2 ∧ c.used = u1 ++ (i, x.size, x.align) :: u2 ∧ x.addr = c.base + i * bs := by
  obtain ⟨c, hc, hxc⟩ := List.mem_flatMap.1 hx
  obtain ⟨l1, l2, rfl⟩ := List.append_of_mem hc
  obtain ⟨u, hu, rfl⟩ := List.mem_map.1 hxc
  obtain ⟨u1, u2, hu2⟩ := List.append_of_mem hu
  exact ⟨l1, c, l2, u1, u.1, u2, rfl, by rw [hu2], rfl⟩

/-- The changes made by pushing a block to the free list. -/
theorem push_priv {o : Opts} {lg bs : Nat} {m : Words} {c : GC} (hc : ChunkOk o lg bs m c) (hb : BsOk bs) {i sz al : Nat} {u1 u2 : List (Nat × Nat × Nat)}
    (hu : c.used = u1 ++ (i, sz, al) :: u2) {w : Nat}
    (hw : upd (upd (upd m (c.base + i * bs) (m (c.hdr bs + 8))) (c.hdr bs + 8) (c.base + i * bs)) (c.hdr bs + 16) (m (c.hdr bs + 16) + 1) w ≠ m w) :
    priv bs ⟨c.base, c.cap, c.id, c.na, i :: c.free, u1 ++ u2⟩ w ∧ w ≠ c.hdr bs := by
  have hp := hc.push hb hu
  have hge := hb.ge
  have hin := hc.used_lt (u := (i, sz, al)) (by rw [hu]; simp)
  simp only at hin
  have hnc := hc.naCap
  have hs := mul_sep (bs := bs) (show i < c.cap by omega)
  by_cases e1 : w = c.hdr bs + 16
  · rw [e1]; exact ⟨hp.priv_hdr (k := 16) (by omega), by simp⟩
  · by_cases e2 : w = c.hdr bs + 8
    · rw [e2]; exact ⟨hp.priv_hdr (k := 8) (by omega), by simp⟩
    · by_cases e3 : w = c.base + i * bs
      · rw [e3]; exact ⟨hp.priv_free hb (i := i) (List.mem_cons_self ..), by unfold GC.hdr; omega⟩
      · exfalso; apply hw; simp [upd, e1, e2, e3]

theorem pair_ne {bs : Nat} {cs : List GC} (h : cs.Pairwise (RDisj bs)) {c d : GC} (hc : c ∈ cs) (hd : d ∈ cs) (hne : c ≠ d) : RDisj bs c d := by
  obtain ⟨l1, l2, rfl⟩ := List.append_of_mem hc
  rcases mem_split_cases hd with h1 | h1
  · exact absurd h1.symm hne
  · exact split_rel (fun _ _ => RDisj.symm) h d h1

/-- The first word of a chunk header overlaps no block handed out. -/
theorem hdr_out {o : Opts} {lg bs : Nat} {m : Words} {cs : List GC} (h : cs.Pairwise (RDisj bs)) (hck : ∀ x ∈ cs, ChunkOk o lg bs m x) {c : GC} (hc : c ∈ cs) :
    ∀ y ∈ cs.flatMap (GC.out bs), Disj (c.hdr bs) 8 y.addr y.size := by
  intro y hy
  obtain ⟨d, hd, hyd⟩ := List.mem_flatMap.1 hy
  by_cases hcd : c = d
  · exact (hck c hc).priv_hdr (k := 0) (by omega) |>.2 y (hcd ▸ hyd)
  · have h1 := pair_ne h hc hd hcd
    have h2 := out_inside (hck d hd) hyd
    have h3 := hdr_in0 bs c
    unfold RDisj Disj at h1; unfold Inside at h2 h3; unfold Disj; omega

/-- A chunk that is wholly free is given back to the upstream resource. -/
theorem drop_ok {sf : Nat} {o : Opts} {p : PoolRec} {m : Words} {ups : List Blk} {g : GC} {l1 l2 : List GC} {rest : List Blk} (hlg : p.bsize = 2 ^ p.log) (hb : BsOk p.bsize)
    (hch : CChain p.bsize m p.head (l1 ++ g :: l2)) (hck : ∀ x ∈ l1 ++ g :: l2, ChunkOk o p.log p.bsize m x) (hx : Ctx sf ⟨m, ups⟩ p.bsize (l1 ++ g :: l2) rest) :
    ∃ m' head' ups', removeLoop sf (g.hdr p.bsize) (ups.length + 1) ⟨m, ups⟩ p.head 0 = .ok (⟨m', ups⟩, head') ∧
      ld sf ⟨m', ups⟩ (g.hdr p.bsize + 32) = .ok g.base ∧ ld sf ⟨m', ups⟩ (g.hdr p.bsize + 24) = .ok g.cap ∧
      Heap.dealloc ⟨m', ups⟩ g.base (sizeFor p.log g.cap) p.bsize = .ok ⟨m', ups'⟩ ∧ CChain p.bsize m' head' (l1 ++ l2) ∧
      (∀ x ∈ l1 ++ l2, ChunkOk o p.log p.bsize m' x) ∧ Ctx sf ⟨m', ups'⟩ p.bsize (l1 ++ l2) rest ∧ (∀ b ∈ ups', b ∈ ups) ∧ ∀ w, m' w ≠ m w → ∃ x ∈ l1, w = x.hdr p.bsize := by
  have hd := cs_disj hx.ups hx.perm
  have hlen : (l1 ++ g :: l2).length ≤ ups.length := by have := hx.perm.length_eq; simp only [List.length_append, List.length_map] at this ⊢; omega
  have hg := hck g (by simp)
  have hgm : g.blk p.bsize ∈ ups := blk_mem hx.perm (by simp)
  obtain ⟨m', head', h1, -, h3, h4⟩ := removeLoop_ok (sf := sf) (o := o) (lg := p.log) (bs := p.bsize) (ups := ups) (g := g) hb l2 l1 m p.head 0 (ups.length + 1) none
    (fun c hc => ⟨hck c (by simpa using hc), blk_mem hx.perm (by simpa using hc)⟩) (by simpa using hd) rfl (by rw [if_pos rfl]; exact hch) (by simp at hlen; omega)
  rw [if_pos rfl] at h3
  simp only [Option.toList_none, List.nil_append] at h4
  have hh : ∀ c ∈ l1 ++ g :: l2, ∀ k, 0 < k → k ≤ 48 → m' (c.hdr p.bsize + k) = m (c.hdr p.bsize + k) := by
    intro c hc k h0 hk
    by_contra hne
    obtain ⟨x, hx1, hx2⟩ := h4 _ hne
    by_cases hcx : c = x
    · rw [hcx] at hx2; omega
    · have := pair_ne hd hc (d := x) (by simp [hx1]) hcx
      exact hdr_ne this (k := k) (l := 0) hk (by omega) hx2
  have h8 := hg.hdr8 hb
  have hl := hg.lim
  have hpos := hg.pos
  have hsz : sizeFor p.log g.cap = g.cap * p.bsize + 56 := by rw [hlg] at hl ⊢; exact sizeFor_eq (by omega)
  have hperm : (ups.erase (g.blk p.bsize)).Perm ((l1 ++ l2).map (GC.blk p.bsize) ++ rest) := by
    have h5 : ups.Perm (g.blk p.bsize :: ((l1 ++ l2).map (GC.blk p.bsize) ++ rest)) := by
      refine hx.perm.trans ?_
      simp only [List.map_append, List.map_cons, List.append_assoc, List.cons_append]
      exact List.perm_middle
    have := h5.erase (g.blk p.bsize)
    simpa using this
  refine ⟨m', head', ups.erase (g.blk p.bsize), h1, ?_, ?_, ?_, h3, ?_, ⟨hx.ups.sub (List.erase_sublist), hperm⟩, fun b hb => List.mem_of_mem_erase hb, h4⟩
  · rw [ldm hgm (by omega) (hdr_in _ g (by omega)), hh g (by simp) _ (by omega) (by omega), hg.f32]
  · rw [ldm hgm (by omega) (hdr_in _ g (by omega)), hh g (by simp) _ (by omega) (by omega), hg.f24]
  · unfold Heap.dealloc
    rw [hsz]
    exact if_pos hgm
  · intro x hxm
    refine (hck x (mem_split_of hxm)).frame hb fun w hw hne => ?_
    by_contra hc
    obtain ⟨y, hy1, hy2⟩ := h4 _ hc
    by_cases hxy : x = y
    · exact hne (hxy ▸ hy2)
    · have := pair_ne hd (mem_split_of hxm) (d := y) (by simp [hy1]) hxy
      have h5 := hw.1
      have h6 := hdr_in0 p.bsize y
      rw [hy2] at h5
      unfold RDisj Disj at this; unfold Inside at h5 h6; omega

/-- `_Deallocate`. -/
theorem poolDealloc_ok {sf : Nat} {o : Opts} {h : Heap} {p : PoolRec} {cs : List GC} {rest : List Blk} {x : Blk} (hp : PoolOk o h.mem p cs) (hx : Ctx sf h p.bsize cs rest)
    (hxm : x ∈ cs.flatMap (GC.out p.bsize)) : ∃ h1 p1, poolDealloc sf h p x.addr = .ok (h1, p1) ∧ Gave sf o h p cs rest x h1 p1 := by
  obtain ⟨l1, c, l2, u1, i, u2, rfl, hus, hxa⟩ := out_mem_split hxm
  have hc := hp.chunks c (by simp)
  have hbs := hp.bs
  have hge := hbs.ge
  have hcm := blk_mem hx.perm (c := c) (by simp)
  have h8 := hc.hdr8 hbs
  have hpos := hc.pos
  have hlim := hc.lim
  have hd := cs_disj hx.ups hx.perm
  have hne := split_rel (fun _ _ => RDisj.symm) hd
  have hin := hc.used_lt (u := (i, x.size, x.align)) (by rw [hus]; simp)
  simp only at hin
  have hnc := hc.naCap
  have hlen := hc.len
  have hul : c.used.length = u1.length + u2.length + 1 := by rw [hus]; simp; omega
  have hs := mul_sep (bs := p.bsize) (show i < c.cap by omega)
  have hi8 := mul8 hbs.m8 i
  have hb8 := hc.base8 hbs
  have hm8 := hbs.m8
  have hcle : c.cap ≤ c.cap * p.bsize := Nat.le_mul_of_pos_right _ (by omega)
  obtain ⟨ptr, hptr⟩ : ∃ ptr, ptr = c.base + i * p.bsize := ⟨_, rfl⟩
  have hptr2 : ptr + p.bsize ≤ c.hdr p.bsize := by unfold GC.hdr; omega
  have hc' := hc.push hbs hus
  have hpriv := fun w => push_priv hc hbs hus (w := w)
  rw [← hptr] at hc' hpriv
  obtain ⟨c', hc'e⟩ : ∃ c' : GC, c' = ⟨c.base, c.cap, c.id, c.na, i :: c.free, u1 ++ u2⟩ := ⟨_, rfl⟩
  obtain ⟨m', hm'⟩ : ∃ m', m' = upd (upd (upd h.mem ptr (h.mem (c.hdr p.bsize + 8))) (c.hdr p.bsize + 8) ptr) (c.hdr p.bsize + 16) (h.mem (c.hdr p.bsize + 16) + 1) := ⟨_, rfl⟩
  rw [← hc'e, ← hm'] at hc'
  rw [← hm', ← hc'e] at hpriv
  have ebase : c'.base = c.base := by rw [hc'e]
  have ecap : c'.cap = c.cap := by rw [hc'e]
  have eid : c'.id = c.id := by rw [hc'e]
  have eused : c'.used = u1 ++ u2 := by rw [hc'e]
  have hhdr : c'.hdr p.bsize = c.hdr p.bsize := by unfold GC.hdr; rw [ebase, ecap]
  have hblk : c'.blk p.bsize = c.blk p.bsize := by unfold GC.blk; rw [ebase, ecap]
  have hmap : (l1 ++ c' :: l2).map (GC.blk p.bsize) = (l1 ++ c :: l2).map (GC.blk p.bsize) := by simp [hblk]
  have eul : c'.used.length + 1 = c.used.length := by rw [eused, hul]; simp
  have hperm : ((l1 ++ c :: l2).flatMap (GC.out p.bsize)).Perm (x :: (l1 ++ c' :: l2).flatMap (GC.out p.bsize)) := by
    have ho1 : c.out p.bsize = (u1.map fun u => ⟨c.base + u.1 * p.bsize, u.2.1, u.2.2⟩) ++ x :: u2.map fun u => ⟨c.base + u.1 * p.bsize, u.2.1, u.2.2⟩ := by
      unfold GC.out
      rw [hus]
      simp only [List.map_append, List.map_cons]
      congr 2
      rw [← hxa]
    have ho2 : c'.out p.bsize = (u1.map fun u => ⟨c.base + u.1 * p.bsize, u.2.1, u.2.2⟩) ++ u2.map fun u => ⟨c.base + u.1 * p.bsize, u.2.1, u.2.2⟩ := by
      unfold GC.out; rw [eused, ebase]; simp
    rw [List.perm_iff_count]
    intro a
    simp only [List.flatMap_append, List.flatMap_cons, ho1, ho2, List.count_append, List.count_cons, List.cons_append]
    omega
  have hmin : ∀ w, m' w ≠ h.mem w → Inside w 8 c.base (c.cap * p.bsize + 56) ∧ w ≠ c.hdr p.bsize := by
    intro w hw
    have := hpriv w hw
    exact ⟨by rw [← ebase, ← ecap]; exact this.1.1, this.2⟩
  have hd' : (l1 ++ c' :: l2).Pairwise (RDisj p.bsize) := cs_disj hx.ups (rest := rest) (by rw [hmap]; exact hx.perm)
  have htouch : Touched p.bsize h.mem m' (l1 ++ c :: l2) ((l1 ++ c' :: l2).flatMap (GC.out p.bsize)) :=
    touched_of hd' (fun y hy => hp.chunks y (mem_split_of hy)) ebase.symm ecap.symm fun w hw => (hpriv w hw).1
  have hctx' : Ctx sf ⟨m', h.ups⟩ p.bsize (l1 ++ c' :: l2) rest := ⟨hx.ups, by rw [hmap]; exact hx.perm⟩
  obtain ⟨k1, k2, k3⟩ := hp.core hd ebase ecap eid hmin hc'
  have kg : ∀ uf em, ((uf = 0 ∧ ∀ x ∈ l1 ++ c' :: l2, x.full) ∨ ∃ d ∈ l1 ++ c' :: l2, uf = d.hdr p.bsize ∧ ∀ x ∈ l1 ++ c' :: l2, d.id < x.id → x.full) →
      (em = 0 ∨ ∃ x ∈ l1 ++ c' :: l2, em = x.hdr p.bsize ∧ x.used = []) → (∀ x ∈ l1 ++ c' :: l2, x.used = [] → 2 ≤ x.cap → em = x.hdr p.bsize) →
      Gave sf o h p (l1 ++ c :: l2) rest x ⟨m', h.ups⟩ ⟨uf, p.head, p.nextCap, p.bsize, p.log, em⟩ := fun uf em a1 a2 a3 =>
    ⟨l1 ++ c' :: l2, ⟨hp.lg4, hp.lg61, hp.bsz, k1, k2, k3, a1, a2, a3, hp.nextPos, hp.nextLim⟩, rfl, rfl, hctx', hperm, htouch, fun b hb => hb⟩
  -- the part of the program before the tests
  have e16 : h.mem (c.hdr p.bsize + 16) = c.cap - c.used.length := hc.f16
  have hcapm : c.used.length ≤ c.cap := by omega
  have f16 := hc'.f16
  have f24 := hc'.f24
  have f48 := hc'.f48
  rw [hhdr] at f16 f24 f48
  rw [ecap] at f16 f24
  have hld : ∀ k, k ≤ 48 → k % 8 = 0 → ld sf ⟨m', h.ups⟩ (c.hdr p.bsize + k) = .ok (m' (c.hdr p.bsize + k)) := fun k hk h0 => ldm hcm (by omega) (hdr_in _ c hk)
  have hldo : ∀ d ∈ l1 ++ c' :: l2, ld sf ⟨m', h.ups⟩ (d.hdr p.bsize + 48) = .ok d.id := fun d hdm => by
    have h1 := k2 d hdm
    have := h1.hdr8 hbs
    rw [ldm (b := d.blk p.bsize) (blk_mem hctx'.perm hdm) (by omega) (hdr_in _ d (by omega)), h1.f48]
  have notfull : ¬ c'.full := by unfold GC.full; rw [ecap]; omega
  have hfree : ∀ y ∈ l1 ++ c :: l2, y.used = [] → y ∈ l1 ++ l2 := by
    intro y hy hyu
    rcases mem_split_cases hy with rfl | hy
    · rw [hyu] at hul; simp at hul
    · exact hy
  -- the unfull chunk may stay what it is
  have hstay : ∀ d ∈ l1 ++ c :: l2, p.unfull = d.hdr p.bsize → (∀ y ∈ l1 ++ c :: l2, d.id < y.id → y.full) → c.id ≤ d.id →
      ∃ d' ∈ l1 ++ c' :: l2, d'.id = d.id ∧ p.unfull = d'.hdr p.bsize ∧ ∀ y ∈ l1 ++ c' :: l2, d'.id < y.id → y.full := by
    intro d hdm h1 h2 h3
    have h4 : ∀ y ∈ l1 ++ c' :: l2, d.id < y.id → y.full := by
      intro y hy hlt
      rcases mem_split_cases hy with rfl | hy
      · omega
      · exact h2 y (mem_split_of hy) hlt
    rcases mem_split_cases hdm with rfl | hdm
    · exact ⟨c', by simp, eid, by rw [hhdr]; exact h1, by rw [eid]; exact h4⟩
    · exact ⟨d, mem_split_of hdm, rfl, h1, h4⟩
  have hunz : p.unfull = 0 → ∀ y ∈ l1 ++ c :: l2, y.full := by
    intro h0
    rcases hp.unfull with h1 | ⟨d, hd, h1, _⟩
    · exact h1.2
    · exfalso
      have := (hp.chunks d hd).pos
      rw [h0] at h1; unfold GC.hdr at h1; omega
  have hemp : Unit → (p.empty = 0 ∨ ∃ y ∈ l1 ++ c' :: l2, p.empty = y.hdr p.bsize ∧ y.used = []) := fun _ => by
    rcases hp.empty with h1 | ⟨y, hy, h1, h2⟩
    · exact .inl h1
    · exact .inr ⟨y, mem_split_of (hfree y hy h2), h1, h2⟩
  have hone : (c'.used = [] → 2 ≤ c'.cap → False) → ∀ y ∈ l1 ++ c' :: l2, y.used = [] → 2 ≤ y.cap → p.empty = y.hdr p.bsize := by
    intro h1 y hy hyu hy2
    rcases mem_split_cases hy with rfl | hy
    · exact (h1 hyu hy2).elim
    · exact hp.one y (mem_split_of hy) hyu hy2
  have hm16 : m' (c.hdr p.bsize + 16) = h.mem (c.hdr p.bsize + 16) + 1 := by rw [hm', upd_eq]
  unfold poolDealloc
  rw [hxa, ← hptr, show ld sf h (ptr + p.bsize - 8) = .ok (c.hdr p.bsize) by
      rw [ld_ok hcm (by omega) (by unfold Inside GC.blk; simp only; omega), hptr, hc.own i hin], R.ok_bind,
    ld_ok hcm (by omega) (hdr_in _ c (by omega)), R.ok_bind, st_ok hcm _ (by omega) (by unfold Inside GC.blk; simp only; omega), R.ok_bind,
    stm hcm _ (by omega) (hdr_in _ c (by omega)), R.ok_bind, ldm hcm (by omega) (hdr_in _ c (by omega)), R.ok_bind,
    upd_ne _ _ (by omega), upd_ne _ _ (by omega), stm hcm _ (by omega) (hdr_in _ c (by omega)), R.ok_bind, wrap8_ok (by omega) (by omega),
    show ((h.mem (c.hdr p.bsize + 16) : Int) + 1).toNat = h.mem (c.hdr p.bsize + 16) + 1 by omega, ← hm']
  by_cases hf : h.mem (c.hdr p.bsize + 16) = 0
  · rw [if_pos hf]
    have hcf : c.full := by unfold GC.full; omega
    have hone' := hone fun h1 h2 => by rw [h1] at eul; simp at eul; omega
    by_cases hu0 : p.unfull = 0
    · rw [if_pos hu0]
      refine ⟨_, _, rfl, kg _ _ (.inr ⟨c', by simp, hhdr.symm, fun y hy hlt => ?_⟩) (hemp ()) hone'⟩
      rcases mem_split_cases hy with rfl | hy
      · omega
      · exact hunz hu0 y (mem_split_of hy)
    · rw [if_neg hu0]
      rcases hp.unfull with h1 | ⟨d, hdm, h1, h2⟩
      · exact absurd h1.1 hu0
      · have hldd : ld sf ⟨m', h.ups⟩ (p.unfull + 48) = .ok d.id := by
          rw [h1]
          rcases mem_split_cases hdm with rfl | hdm
          · rw [← hhdr, hldo c' (by simp), eid]
          · exact hldo d (mem_split_of hdm)
        rw [hldd, R.ok_bind, hld 48 (by omega) (by omega), R.ok_bind, f48, eid]
        by_cases hlt : d.id < c.id
        · rw [if_pos hlt]
          refine ⟨_, _, rfl, kg _ _ (.inr ⟨c', by simp, hhdr.symm, fun y hy hlt2 => ?_⟩) (hemp ()) hone'⟩
          rcases mem_split_cases hy with rfl | hy
          · omega
          · exact h2 y (mem_split_of hy) (by omega)
        · rw [if_neg hlt]
          obtain ⟨d', q1, q2, q3, q4⟩ := hstay d hdm h1 h2 (by omega)
          exact ⟨_, _, rfl, kg _ _ (.inr ⟨d', q1, q3, q4⟩) (hemp ()) hone'⟩
  · rw [if_neg hf, hld 16 (by omega) (by omega), R.ok_bind, hld 24 (by omega) (by omega), R.ok_bind, f16, f24]
    have hcf : ¬ c.full := by unfold GC.full; omega
    obtain ⟨d', q1, q2, q3, q4⟩ : ∃ d' ∈ l1 ++ c' :: l2, c.id ≤ d'.id ∧ p.unfull = d'.hdr p.bsize ∧ ∀ y ∈ l1 ++ c' :: l2, d'.id < y.id → y.full := by
      rcases hp.unfull with h1 | ⟨d, hdm, h1, h2⟩
      · exact absurd (h1.2 c (by simp)) hcf
      · have h3 : c.id ≤ d.id := by
          by_contra hlt
          exact hcf (h2 c (by simp) (by omega))
        obtain ⟨d', q1, q2, q3, q4⟩ := hstay d hdm h1 h2 h3
        exact ⟨d', q1, by omega, q3, q4⟩
    by_cases hlt : c.cap - c'.used.length < c.cap
    · rw [if_pos hlt]
      exact ⟨_, _, rfl, kg _ _ (.inr ⟨d', q1, q3, q4⟩) (hemp ()) (hone fun h1 _ => by rw [h1] at hlt; simp at hlt)⟩
    · rw [if_neg hlt]
      have hcu : c'.used = [] := by rw [← List.length_eq_zero_iff]; have := hc.capPos; omega
      have hcap2 : 2 ≤ c.cap := by rw [hcu] at eul; simp at eul; omega
      by_cases he : p.empty = 0
      · rw [if_pos he]
        refine ⟨_, _, rfl, kg _ _ (.inr ⟨d', q1, q3, q4⟩) (.inr ⟨c', by simp, hhdr.symm, hcu⟩) fun y hy hyu hy2 => ?_⟩
        rcases mem_split_cases hy with rfl | hy
        · exact hhdr.symm
        · exfalso
          have h1 := hp.one y (mem_split_of hy) hyu hy2
          have h2 := (hp.chunks y (mem_split_of hy)).pos
          rw [he] at h1; unfold GC.hdr at h1; omega
      · rw [if_neg he]
        rcases hp.empty with h1 | ⟨e, hem, he1, he2⟩
        · exact absurd h1 he
        · have hem' := hfree e hem he2
          rw [he1, hldo e (mem_split_of hem'), R.ok_bind, hld 48 (by omega) (by omega), R.ok_bind, f48, eid]
          obtain ⟨g, k, hg, hk, hgu, hku, hgk, hall, hge, hke⟩ : ∃ g k, g ∈ l1 ++ c' :: l2 ∧ k ∈ l1 ++ c' :: l2 ∧ g.used = [] ∧ k.used = [] ∧ g.id < k.id ∧
              (∀ y ∈ l1 ++ c' :: l2, y.used = [] → 2 ≤ y.cap → y = g ∨ y = k) ∧ (if e.id < c.id then e.hdr p.bsize else c.hdr p.bsize) = g.hdr p.bsize ∧
              (if e.id < c.id then c.hdr p.bsize else e.hdr p.bsize) = k.hdr p.bsize := by
            have hall : ∀ y ∈ l1 ++ c' :: l2, y.used = [] → 2 ≤ y.cap → y = e ∨ y = c' := by
              intro y hy hyu hy2
              rcases mem_split_cases hy with rfl | hy
              · exact .inr rfl
              · left
                have h1 := hp.one y (mem_split_of hy) hyu hy2
                rw [he1] at h1
                by_contra hne2
                exact hdr_ne (pair_ne hd hem (mem_split_of hy) (fun h => hne2 h.symm)) (k := 0) (l := 0) (by omega) (by omega) h1
            have hidne : e.id ≠ c.id := fun h => by
              have := ids_inj hp.ids hem (by simp : c ∈ _) h
              have h3 := hne e hem'
              rw [this] at h3
              exact hdr_ne h3 (k := 0) (l := 0) (by omega) (by omega) rfl
            by_cases hlt2 : e.id < c.id
            · exact ⟨e, c', mem_split_of hem', by simp, he2, hcu, by omega, hall, if_pos hlt2, by rw [if_pos hlt2, hhdr]⟩
            · refine ⟨c', e, by simp, mem_split_of hem', hcu, he2, by omega, fun y a b c => (hall y a b c).symm, by rw [if_neg hlt2, hhdr], if_neg hlt2⟩
          simp only [hge, hke]
          obtain ⟨g1, g2, hgs⟩ := List.append_of_mem hg
          obtain ⟨m2, head', ups', r1, r2, r3, r4, r5, r6, r7, r8, r9⟩ := drop_ok (sf := sf) (o := o) (l1 := g1) (l2 := g2) (g := g) (rest := rest) hp.bsz hbs (hgs ▸ k1) (hgs ▸ k2) (hgs ▸ hctx')
          rw [r1, R.ok_bind]
          simp only
          rw [r2, R.ok_bind, r3, R.ok_bind, r4, R.ok_bind]
          have hgout : g.out p.bsize = [] := by unfold GC.out; rw [hgu]; rfl
          have hfm : (l1 ++ c' :: l2).flatMap (GC.out p.bsize) = (g1 ++ g2).flatMap (GC.out p.bsize) := by
            rw [hgs]; simp [hgout]
          have hmem : ∀ y ∈ l1 ++ c' :: l2, y ≠ g → y ∈ g1 ++ g2 := by
            intro y hy hyg
            rw [hgs] at hy
            exact (mem_split_cases hy).resolve_left hyg
          have hmem2 : ∀ y ∈ g1 ++ g2, y ∈ l1 ++ c' :: l2 := fun y hy => by rw [hgs]; exact mem_split_of hy
          have hkm : k ∈ g1 ++ g2 := hmem k hk fun h => by rw [h] at hgk; omega
          have hknf : ¬ k.full := by unfold GC.full; rw [hku]; have := (k2 k hk).capPos; simp; omega
          have hkd : k.id ≤ d'.id := by
            by_contra hlt3
            exact hknf (q4 k hk (by omega))
          refine ⟨_, _, rfl, g1 ++ g2, ⟨hp.lg4, hp.lg61, hp.bsz, r5, r6, ?_, ?_, ?_, ?_, hp.nextPos, hp.nextLim⟩, rfl, rfl, r7, ?_, ?_, r8⟩
          · rw [hgs] at k3; exact k3.sublist (by simp)
          · exact .inr ⟨d', hmem d' q1 fun h => by rw [h] at hkd; omega, q3, fun y hy => q4 y (hmem2 y hy)⟩
          · exact .inr ⟨k, hkm, rfl, hku⟩
          · intro y hy hyu hy2
            rcases hall y (hmem2 y hy) hyu hy2 with rfl | rfl
            · exfalso
              have h3 := hgs ▸ k3
              have := split_rel (r := fun a b : GC => a.id ≠ b.id) (fun _ _ h => h.symm) (h3.imp fun h => by omega) y hy
              exact this rfl
            · rfl
          · rw [← hfm]; exact hperm
          · rw [← hfm]
            intro w hw
            by_cases hw2 : m2 w = m' w
            · exact htouch w (by rw [← hw2]; exact hw)
            · obtain ⟨y, hy, rfl⟩ := r9 w hw2
              have hy' : y ∈ l1 ++ c' :: l2 := hmem2 y (List.mem_append_left _ hy)
              refine ⟨?_, hdr_out hd' k2 hy'⟩
              have := hdr_in0 p.bsize y
              rcases mem_split_cases hy' with rfl | hy2
              · exact ⟨c, by simp, by rw [← ebase, ← ecap]; exact this⟩
              · exact ⟨y, mem_split_of hy2, this⟩

end STL.PoolRes
