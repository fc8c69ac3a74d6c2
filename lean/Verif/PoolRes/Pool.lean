import Verif.PoolRes.Chunk

/-! # `unsynchronized_pool_resource`: the invariant of a pool, allocation -/

namespace STL.PoolRes
open STL STL.Pmr

/-- The stack of all chunks. -/
def CChain (bs : Nat) (m : Words) : Nat → List GC → Prop
  | v, [] => v = 0
  | v, c :: t => v = c.hdr bs ∧ CChain bs m (m (c.hdr bs)) t

theorem CChain.congr {bs : Nat} {m m' : Words} : ∀ {l : List GC} {v : Nat}, (∀ c ∈ l, m' (c.hdr bs) = m (c.hdr bs)) → CChain bs m v l → CChain bs m' v l
  | [], _, _, h => h
  | i :: t, v, hm, h => by
    refine ⟨h.1, ?_⟩
    rw [hm i (List.mem_cons_self ..)]
    exact CChain.congr (fun j hj => hm j (List.mem_cons_of_mem _ hj)) h.2

theorem CChain.subst {bs : Nat} {m : Words} {c c' : GC} (he : c'.hdr bs = c.hdr bs) {l2 : List GC} : ∀ {l1 : List GC} {v : Nat},
    CChain bs m v (l1 ++ c :: l2) → CChain bs m v (l1 ++ c' :: l2)
  | [], v, h => ⟨he ▸ h.1, by rw [he]; exact h.2⟩
  | x :: l1, v, h => ⟨h.1, CChain.subst he (l1 := l1) h.2⟩

/-- What comes after a chunk in the stack. -/
def top (bs : Nat) : List GC → Nat
  | [] => 0
  | c :: _ => c.hdr bs

theorem CChain.head {bs : Nat} {m : Words} {l : List GC} {v : Nat} (h : CChain bs m v l) : v = top bs l := by
  cases l with
  | nil => exact h
  | cons c t => exact h.1

theorem CChain.next {bs : Nat} {m : Words} {c : GC} {l2 : List GC} : ∀ {l1 : List GC} {v : Nat}, CChain bs m v (l1 ++ c :: l2) → m (c.hdr bs) = top bs l2
  | [], _, h => h.2.head
  | _ :: _, _, h => CChain.next h.2

/-- The regions of two chunks do not overlap. -/
def RDisj (bs : Nat) (c d : GC) : Prop := Disj c.base (c.cap * bs + 56) d.base (d.cap * bs + 56)

theorem RDisj.symm {bs : Nat} {c d : GC} (h : RDisj bs c d) : RDisj bs d c := disj_comm h

/-- The invariant of a pool. -/
structure PoolOk (o : Opts) (m : Words) (p : PoolRec) (cs : List GC) : Prop where
  lg4 : 4 ≤ p.log
  lg61 : p.log ≤ 61
  bsz : p.bsize = 2 ^ p.log
  chain : CChain p.bsize m p.head cs
  chunks : ∀ c ∈ cs, ChunkOk o p.log p.bsize m c
  ids : cs.Pairwise fun a b => b.id < a.id
  unfull : (p.unfull = 0 ∧ ∀ c ∈ cs, c.full) ∨ ∃ d ∈ cs, p.unfull = d.hdr p.bsize ∧ ∀ x ∈ cs, d.id < x.id → x.full
  empty : p.empty = 0 ∨ ∃ c ∈ cs, p.empty = c.hdr p.bsize ∧ c.used = []
  one : ∀ c ∈ cs, c.used = [] → 2 ≤ c.cap → p.empty = c.hdr p.bsize
  nextPos : 1 ≤ p.nextCap ∧ min 2 o.maxBlocks ≤ p.nextCap
  nextLim : min p.nextCap o.maxBlocks * 2 ^ p.log + 56 < 2 ^ 64

theorem pow_ge {a b : Nat} (h : a ≤ b) : 2 ^ a ≤ 2 ^ b := Nat.pow_le_pow_right (by omega) h

theorem bsOk_pow {lg : Nat} (h : 4 ≤ lg) : BsOk (2 ^ lg) := by
  refine ⟨?_, ?_⟩
  · obtain ⟨k, rfl⟩ : ∃ k, lg = 3 + k := ⟨lg - 3, by omega⟩
    rw [pow_add]; exact Nat.mul_mod_right _ _
  · exact pow_ge h

theorem PoolOk.bs {o : Opts} {m : Words} {p : PoolRec} {cs : List GC} (h : PoolOk o m p cs) : BsOk p.bsize := by rw [h.bsz]; exact bsOk_pow h.lg4

theorem ids_inj {cs : List GC} (h : cs.Pairwise fun a b => b.id < a.id) {c d : GC} (hc : c ∈ cs) (hd : d ∈ cs) (he : c.id = d.id) : c = d := by
  induction cs with
  | nil => cases hc
  | cons x t ih =>
    rw [List.pairwise_cons] at h
    rcases List.mem_cons.1 hc with h1 | h1 <;> rcases List.mem_cons.1 hd with h2 | h2
    · rw [h1, h2]
    · have := h.1 _ h2; rw [← h1] at this; omega
    · have := h.1 _ h1; rw [← h2] at this; omega
    · exact ih h.2 h1 h2

theorem split_rel {α : Type} {r : α → α → Prop} (hs : ∀ a b, r a b → r b a) {l1 l2 : List α} {c : α} (h : (l1 ++ c :: l2).Pairwise r) : ∀ d ∈ l1 ++ l2, r c d := by
  have := (List.perm_middle (a := c) (l₁ := l1) (l₂ := l2)).pairwise_iff (R := r) (fun {a b} h => hs a b h) |>.1 h
  exact (List.pairwise_cons.1 this).1

theorem cs_disj {self bs : Nat} {ups rest : List Blk} {cs : List GC} (hu : UpsOk self ups) (hp : ups.Perm (cs.map (GC.blk bs) ++ rest)) : cs.Pairwise (RDisj bs) := by
  have := ((hu.perm hp).sub (List.sublist_append_left ..)).disj
  rw [List.pairwise_map] at this
  exact this

theorem hdr_in (bs : Nat) (c : GC) {k : Nat} (hk : k ≤ 48) : Inside (c.hdr bs + k) 8 c.base (c.cap * bs + 56) := by unfold Inside GC.hdr; omega

theorem hdr_in0 (bs : Nat) (c : GC) : Inside (c.hdr bs) 8 c.base (c.cap * bs + 56) := hdr_in bs c (k := 0) (by omega)

theorem hdr_ne {bs : Nat} {c d : GC} (h : RDisj bs c d) {k l : Nat} (hk : k ≤ 48) (hl : l ≤ 48) : c.hdr bs + k ≠ d.hdr bs + l := by
  have h1 := hdr_in bs c hk; have h2 := hdr_in bs d hl
  unfold RDisj Disj at h; unfold Inside at h1 h2; omega

theorem blk_mem {bs : Nat} {ups rest : List Blk} {cs : List GC} (hp : ups.Perm (cs.map (GC.blk bs) ++ rest)) {c : GC} (hc : c ∈ cs) : c.blk bs ∈ ups :=
  hp.mem_iff.2 (List.mem_append_left _ (List.mem_map_of_mem hc))

/-- Frame: the chunks of a pool other than `c` do not notice changes inside `c`. -/
theorem ChunkOk.frame_other {o : Opts} {lg bs : Nat} {m m' : Words} {c d : GC} (h : ChunkOk o lg bs m d) (hb : BsOk bs) (hd : RDisj bs c d)
    (hm : ∀ w, m' w ≠ m w → Inside w 8 c.base (c.cap * bs + 56)) : ChunkOk o lg bs m' d := by
  refine h.frame hb fun w hw _ => ?_
  by_contra hne
  have h1 := hm w hne
  have h2 := hw.1
  unfold RDisj Disj at hd; unfold Inside at h1 h2; omega

theorem mem_split_cases {α : Type} {l1 l2 : List α} {c x : α} (h : x ∈ l1 ++ c :: l2) : x = c ∨ x ∈ l1 ++ l2 := by
  simp only [List.mem_append, List.mem_cons] at *; tauto

theorem mem_split_of {α : Type} {l1 l2 : List α} {c x : α} (h : x ∈ l1 ++ l2) : x ∈ l1 ++ c :: l2 := by
  simp only [List.mem_append, List.mem_cons] at *; tauto

/-- A chunk is replaced by a new version of itself: what does not depend on the members of the pool. -/
theorem PoolOk.core {o : Opts} {m m' : Words} {p : PoolRec} {c c' : GC} {l1 l2 : List GC} (h : PoolOk o m p (l1 ++ c :: l2))
    (hd : (l1 ++ c :: l2).Pairwise (RDisj p.bsize)) (hbase : c'.base = c.base) (hcap : c'.cap = c.cap) (hid : c'.id = c.id)
    (hm : ∀ w, m' w ≠ m w → Inside w 8 c.base (c.cap * p.bsize + 56) ∧ w ≠ c.hdr p.bsize) (hc : ChunkOk o p.log p.bsize m' c') :
    CChain p.bsize m' p.head (l1 ++ c' :: l2) ∧ (∀ x ∈ l1 ++ c' :: l2, ChunkOk o p.log p.bsize m' x) ∧ (l1 ++ c' :: l2).Pairwise fun a b => b.id < a.id := by
  have hhdr : c'.hdr p.bsize = c.hdr p.bsize := by unfold GC.hdr; rw [hbase, hcap]
  have hne : ∀ d ∈ l1 ++ l2, RDisj p.bsize c d := split_rel (fun _ _ => RDisj.symm) hd
  refine ⟨?_, ?_, ?_⟩
  · refine CChain.subst hhdr (h.chain.congr fun d hdm => ?_)
    by_contra hx
    have h1 := hm _ hx
    rcases mem_split_cases hdm with rfl | hdm
    · exact h1.2 rfl
    · have := hne d hdm
      have h2 := hdr_in p.bsize d (k := 0) (by omega)
      have h3 := h1.1
      unfold RDisj Disj at this; unfold Inside at h2 h3; omega
  · intro x hx
    rcases mem_split_cases hx with rfl | hx
    · exact hc
    · exact (h.chunks x (mem_split_of hx)).frame_other h.bs (hne x hx) fun w hw => (hm w hw).1
  · have := h.ids
    simp only [List.pairwise_append, List.pairwise_cons, List.mem_cons, hid] at this ⊢
    refine ⟨this.1, this.2.1, fun a ha b hb => ?_⟩
    rcases hb with rfl | hb
    · rw [hid]; exact this.2.2 a ha c (.inl rfl)
    · exact this.2.2 a ha b (.inr hb)

/-- A chunk is replaced by a new version of itself. -/
theorem PoolOk.replace {o : Opts} {m m' : Words} {p : PoolRec} {c c' : GC} {l1 l2 : List GC} (h : PoolOk o m p (l1 ++ c :: l2))
    (hd : (l1 ++ c :: l2).Pairwise (RDisj p.bsize)) (hbase : c'.base = c.base) (hcap : c'.cap = c.cap) (hid : c'.id = c.id)
    (hm : ∀ w, m' w ≠ m w → Inside w 8 c.base (c.cap * p.bsize + 56) ∧ w ≠ c.hdr p.bsize) (hc : ChunkOk o p.log p.bsize m' c') (uf em : Nat)
    (hu : (uf = 0 ∧ ∀ x ∈ l1 ++ c' :: l2, x.full) ∨ ∃ d ∈ l1 ++ c' :: l2, uf = d.hdr p.bsize ∧ ∀ x ∈ l1 ++ c' :: l2, d.id < x.id → x.full)
    (he : em = 0 ∨ ∃ x ∈ l1 ++ c' :: l2, em = x.hdr p.bsize ∧ x.used = []) (ho : ∀ x ∈ l1 ++ c' :: l2, x.used = [] → 2 ≤ x.cap → em = x.hdr p.bsize) :
    PoolOk o m' ⟨uf, p.head, p.nextCap, p.bsize, p.log, em⟩ (l1 ++ c' :: l2) := by
  obtain ⟨h1, h2, h3⟩ := h.core hd hbase hcap hid hm hc
  exact ⟨h.lg4, h.lg61, h.bsz, h1, h2, h3, hu, he, ho, h.nextPos, h.nextLim⟩

theorem wrap8_ok {v : Int} (h0 : 0 ≤ v) (h1 : v < 2 ^ 64) : wrap 8 v = v.toNat := wrap_ok h0 (by norm_num at *; exact h1)

/-- Everything about pools needs this much of the state of the upstream resource. -/
structure Ctx (sf : Nat) (h : Heap) (bs : Nat) (cs : List GC) (rest : List Blk) : Prop where
  ups : UpsOk sf h.ups
  perm : h.ups.Perm (cs.map (GC.blk bs) ++ rest)

theorem takeOne_eq {self : Nat} {o : Opts} {h : Heap} {p : PoolRec} {c : GC} (hc : ChunkOk o p.log p.bsize h.mem c) (hb : BsOk p.bsize) (hm : c.blk p.bsize ∈ h.ups)
    (hu : p.unfull = c.hdr p.bsize) (hf : c.used.length < c.cap) :
    takeOne self h p = .ok (⟨upd h.mem (c.hdr p.bsize + 16) (h.mem (c.hdr p.bsize + 16) - 1), h.ups⟩,
      ⟨p.unfull, p.head, p.nextCap, p.bsize, p.log, if p.unfull = p.empty then 0 else p.empty⟩) := by
  have h8 := hc.hdr8 hb
  have h16 := hc.f16
  have hl := hc.lim
  have : c.cap ≤ c.cap * p.bsize := Nat.le_mul_of_pos_right _ (by have := hb.ge; omega)
  unfold takeOne
  rw [hu, ld_ok hm (by omega) (hdr_in _ c (by omega)), R.ok_bind, st_ok hm _ (by omega) (hdr_in _ c (by omega)), R.ok_bind, wrap8_ok (by omega) (by omega)]
  congr 5
  omega

theorem bump_none {self : Nat} {o : Opts} {h : Heap} {p : PoolRec} {c : GC} (hc : ChunkOk o p.log p.bsize h.mem c) (hb : BsOk p.bsize) (hm : c.blk p.bsize ∈ h.ups)
    (hu : p.unfull = c.hdr p.bsize) (hn : ¬ c.na < c.cap) : bump self h p = .ok none := by
  have h8 := hc.hdr8 hb
  unfold bump
  rw [hu, ld_ok hm (by omega) (hdr_in _ c (by omega)), R.ok_bind, ld_ok hm (by omega) (hdr_in _ c (by omega)), R.ok_bind, hc.f40, hc.f24, if_neg hn]

theorem bump_some {self : Nat} {o : Opts} {h : Heap} {p : PoolRec} {c : GC} (hc : ChunkOk o p.log p.bsize h.mem c) (hb : BsOk p.bsize) (hm : c.blk p.bsize ∈ h.ups)
    (hu : p.unfull = c.hdr p.bsize) (hn : c.na < c.cap) :
    bump self h p = .ok (some (⟨upd (upd (upd h.mem (c.hdr p.bsize + 16) (h.mem (c.hdr p.bsize + 16) - 1)) (c.hdr p.bsize + 40) (c.na + 1))
        (c.base + c.na * p.bsize + p.bsize - 8) (c.hdr p.bsize), h.ups⟩,
      ⟨p.unfull, p.head, p.nextCap, p.bsize, p.log, if p.unfull = p.empty then 0 else p.empty⟩, c.base + c.na * p.bsize)) := by
  have h8 := hc.hdr8 hb
  have hlen := hc.len
  have hge := hb.ge
  have hm8 := hb.m8
  have hs := mul_sep (bs := p.bsize) hn
  have hb8 := hc.base8 hb
  have hn8 := mul8 hb.m8 c.na
  unfold bump
  rw [show ld self h (p.unfull + 40) = .ok c.na by rw [hu, ld_ok hm (by omega) (hdr_in _ c (by omega)), hc.f40], R.ok_bind,
    show ld self h (p.unfull + 24) = .ok c.cap by rw [hu, ld_ok hm (by omega) (hdr_in _ c (by omega)), hc.f24], R.ok_bind, if_pos hn,
    takeOne_eq hc hb hm hu (by omega), R.ok_bind]
  simp only
  have e1 : ∀ k, k ≠ 16 → (upd h.mem (c.hdr p.bsize + 16) (h.mem (c.hdr p.bsize + 16) - 1)) (c.hdr p.bsize + k) = h.mem (c.hdr p.bsize + k) :=
    fun k hk => upd_ne _ _ (by omega)
  rw [hu, ldm hm (by omega) (hdr_in _ c (by omega)), R.ok_bind, ldm hm (by omega) (hdr_in _ c (by omega)), R.ok_bind]
  rw [e1 32 (by omega), e1 40 (by omega), hc.f32, hc.f40, stm hm _ (by omega) (hdr_in _ c (by omega)), R.ok_bind,
    stm hm _ (by omega) ?_, R.ok_bind]
  unfold Inside GC.blk; simp only; omega

/-- What `_Allocate` and `_Increase_capacity` may change. -/
def Touched (bs : Nat) (m m' : Words) (cs : List GC) (keep : List Blk) : Prop :=
  ∀ w, m' w ≠ m w → (∃ c ∈ cs, Inside w 8 c.base (c.cap * bs + 56)) ∧ ∀ x ∈ keep, Disj w 8 x.addr x.size

theorem out_inside {o : Opts} {lg bs : Nat} {m : Words} {c : GC} (h : ChunkOk o lg bs m c) {x : Blk} (hx : x ∈ c.out bs) : Inside x.addr (x.size + 8) c.base (c.cap * bs) := by
  obtain ⟨u, hu, rfl⟩ := List.mem_map.1 hx
  have h1 := h.used_lt hu
  have h2 := h.naCap
  have h3 := (h.usz u hu).1
  have h4 := mul_sep (bs := bs) (show u.1 < c.cap by omega)
  unfold Inside; simp only; omega

/-- Changes in private words of one chunk touch no block handed out. -/
theorem touched_of {o : Opts} {lg bs : Nat} {m m' : Words} {c c' : GC} {l1 l2 : List GC} (hd : (l1 ++ c :: l2).Pairwise (RDisj bs))
    (hok : ∀ x ∈ l1 ++ l2, ChunkOk o lg bs m x) (hb : c'.base = c.base) (hcap : c'.cap = c.cap) (hm : ∀ w, m' w ≠ m w → priv bs c w) :
    Touched bs m m' (l1 ++ c' :: l2) ((l1 ++ c :: l2).flatMap (GC.out bs)) := by
  intro w hw
  have h1 := hm w hw
  refine ⟨⟨c', by simp, by rw [hb, hcap]; exact h1.1⟩, fun x hx => ?_⟩
  obtain ⟨d, hdm, hxd⟩ := List.mem_flatMap.1 hx
  rcases mem_split_cases hdm with rfl | hdm
  · exact h1.2 x hxd
  · have h2 := split_rel (fun _ _ => RDisj.symm) hd d hdm
    have h3 := out_inside (hok d hdm) hxd
    have h4 := h1.1
    unfold RDisj Disj at h2; unfold Inside at h3 h4; unfold Disj; omega

/-- A successful allocation of a block, as seen by the rest of the resource. -/
def Got (sf : Nat) (o : Opts) (h : Heap) (p : PoolRec) (cs : List GC) (rest : List Blk) (sz al : Nat) (h1 : Heap) (p1 : PoolRec) (b : Nat) : Prop :=
  ∃ cs1, PoolOk o h1.mem p1 cs1 ∧ p1.log = p.log ∧ p1.bsize = p.bsize ∧ Ctx sf h1 p.bsize cs1 rest ∧
    (cs1.flatMap (GC.out p.bsize)).Perm (⟨b, sz, al⟩ :: cs.flatMap (GC.out p.bsize)) ∧ Touched p.bsize h.mem h1.mem cs1 (cs.flatMap (GC.out p.bsize)) ∧
    ∀ x ∈ cs.map (GC.blk p.bsize), x ∈ cs1.map (GC.blk p.bsize)

/-- One block is taken from the chunk `c`, which is the unfull one. -/
theorem got_one {sf : Nat} {o : Opts} {h : Heap} {p : PoolRec} {l1 l2 : List GC} {c c' : GC} {rest : List Blk} {sz al i : Nat} {m' : Words}
    (hp : PoolOk o h.mem p (l1 ++ c :: l2)) (hx : Ctx sf h p.bsize (l1 ++ c :: l2) rest) (hu : p.unfull = c.hdr p.bsize) (hl1 : ∀ x ∈ l1, x.full)
    (hbase : c'.base = c.base) (hcap : c'.cap = c.cap) (hid : c'.id = c.id) (hused : c'.used = (i, sz, al) :: c.used)
    (hm : ∀ w, m' w ≠ h.mem w → priv p.bsize c w ∧ w ≠ c.hdr p.bsize) (hc : ChunkOk o p.log p.bsize m' c') :
    Got sf o h p (l1 ++ c :: l2) rest sz al ⟨m', h.ups⟩ ⟨p.unfull, p.head, p.nextCap, p.bsize, p.log, if p.unfull = p.empty then 0 else p.empty⟩ (c.base + i * p.bsize) := by
  have hd := cs_disj hx.ups hx.perm
  have hne := split_rel (fun _ _ => RDisj.symm) hd
  have hhdr : c'.hdr p.bsize = c.hdr p.bsize := by unfold GC.hdr; rw [hbase, hcap]
  have hblk : c'.blk p.bsize = c.blk p.bsize := by unfold GC.blk; rw [hbase, hcap]
  have hmap : (l1 ++ c' :: l2).map (GC.blk p.bsize) = (l1 ++ c :: l2).map (GC.blk p.bsize) := by simp [hblk]
  have hout : c'.out p.bsize = ⟨c.base + i * p.bsize, sz, al⟩ :: c.out p.bsize := by unfold GC.out; rw [hused, hbase]; rfl
  refine ⟨l1 ++ c' :: l2, hp.replace hd hbase hcap hid (fun w hw => ⟨(hm w hw).1.1, (hm w hw).2⟩) hc _ _ ?_ ?_ ?_, rfl, rfl, ⟨hx.ups, by rw [hmap]; exact hx.perm⟩, ?_, ?_, ?_⟩
  · refine .inr ⟨c', by simp, by rw [hhdr, hu], fun x hxm hlt => ?_⟩
    rcases mem_split_cases hxm with rfl | hxm
    · omega
    · rcases List.mem_append.1 hxm with h1 | h1
      · exact hl1 x h1
      · have := hp.ids
        simp only [List.pairwise_append, List.pairwise_cons] at this
        have := this.2.1.1 x h1
        omega
  · split
    · exact .inl rfl
    · rename_i hne2
      rcases hp.empty with h1 | ⟨x, hxm, h1, h2⟩
      · exact .inl h1
      · rcases mem_split_cases hxm with rfl | hxm
        · exact absurd (hu.trans h1.symm) hne2
        · exact .inr ⟨x, mem_split_of hxm, h1, h2⟩
  · intro x hxm hxu hx2
    rcases mem_split_cases hxm with rfl | hxm
    · rw [hused] at hxu; cases hxu
    · have h1 := hp.one x (mem_split_of hxm) hxu hx2
      have h2 : c.hdr p.bsize ≠ x.hdr p.bsize := hdr_ne (hne x hxm) (k := 0) (l := 0) (by omega) (by omega)
      rw [if_neg (by rw [hu, h1]; exact h2), h1]
  · rw [List.perm_iff_count]
    intro a
    simp only [List.flatMap_append, List.flatMap_cons, hout, List.count_append, List.count_cons, List.cons_append]
    omega
  · exact touched_of hd (fun x hx => hp.chunks x (mem_split_of hx)) hbase hcap fun w hw => (hm w hw).1
  · rw [hmap]; exact fun x hx => hx

end STL.PoolRes
