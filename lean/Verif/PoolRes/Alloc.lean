import Verif.PoolRes.Pool

/-! # `unsynchronized_pool_resource`: `_Pool::_Allocate` -/

namespace STL.PoolRes
open STL STL.Pmr

theorem sizeFor_eq {log cap : Nat} (h : cap * 2 ^ log + 56 < 2 ^ 64) : sizeFor log cap = cap * 2 ^ log + 56 := by
  unfold sizeFor
  have e : (cap : Int) * 2 ^ log = ((cap * 2 ^ log : Nat) : Int) := by push_cast; rfl
  rw [e, wrap8_ok (v := ((cap * 2 ^ log : Nat) : Int)) (by omega) (by omega), wrap8_ok (by omega) (by omega)]
  omega

/-- The pool asks for a new chunk. -/
theorem increase_ok {sf : Nat} {o : Opts} {h : Heap} {p : PoolRec} {cs : List GC} {rest : List Blk} {up : Up} (hp : PoolOk o h.mem p cs) (hx : Ctx sf h p.bsize cs rest)
    (hu : UpOk sf up) (ho : 1 ≤ o.maxBlocks) (h0 : p.unfull = 0) :
    (∃ nc, increaseCapacity sf o h p up = .ok (h, ⟨p.unfull, p.head, nc, p.bsize, p.log, p.empty⟩, .error .badAlloc) ∧
      PoolOk o h.mem ⟨p.unfull, p.head, nc, p.bsize, p.log, p.empty⟩ cs ∧ ∃ size, up h.ups size p.bsize = none) ∨
    ∃ n m' next, increaseCapacity sf o h p up = .ok (⟨m', n.blk p.bsize :: h.ups⟩, ⟨n.hdr p.bsize, n.hdr p.bsize, next, p.bsize, p.log, n.hdr p.bsize⟩, .ok ()) ∧
      PoolOk o m' ⟨n.hdr p.bsize, n.hdr p.bsize, next, p.bsize, p.log, n.hdr p.bsize⟩ (n :: cs) ∧ Ctx sf ⟨m', n.blk p.bsize :: h.ups⟩ p.bsize (n :: cs) rest ∧
      n.used = [] ∧ n.free = [] ∧ n.na = 0 ∧ ∀ w, m' w ≠ h.mem w → Inside w 8 n.base (n.cap * p.bsize + 56) := by
  have hfull : ∀ c ∈ cs, c.full := by
    rcases hp.unfull with h1 | ⟨d, hd, h1, _⟩
    · exact h1.2
    · exfalso
      have := (hp.chunks d hd).pos
      rw [h0] at h1; unfold GC.hdr at h1; omega
  have hnl := hp.nextLim
  have hbs := hp.bs
  have hge := hbs.ge
  have hnc : (if p.nextCap > o.maxBlocks then o.maxBlocks else p.nextCap) = min p.nextCap o.maxBlocks := by
    split
    · exact (min_eq_right (by omega)).symm
    · exact (min_eq_left (by omega)).symm
  have hnp := hp.nextPos
  have hnc1 : 1 ≤ min p.nextCap o.maxBlocks ∧ min 2 o.maxBlocks ≤ min p.nextCap o.maxBlocks := by
    rw [le_min_iff, le_min_iff]; exact ⟨⟨hnp.1, ho⟩, hnp.2, min_le_right _ _⟩
  have hncM : min p.nextCap o.maxBlocks ≤ o.maxBlocks := min_le_right _ _
  obtain ⟨nc, hnce⟩ : ∃ nc, nc = min p.nextCap o.maxBlocks := ⟨_, rfl⟩
  rw [← hnce] at hnl hnc1 hncM
  have hsz := sizeFor_eq hnl
  unfold increaseCapacity
  simp only [hnc, ← hnce, hsz]
  have hnl' : nc * p.bsize + 56 < 2 ^ 64 := by rw [hp.bsz]; exact hnl
  rw [← hp.bsz]
  cases hup : up h.ups (nc * p.bsize + 56) p.bsize with
  | none =>
    left
    refine ⟨nc, rfl, ⟨hp.lg4, hp.lg61, hp.bsz, hp.chain, hp.chunks, hp.ids, hp.unfull, hp.empty, hp.one, hnc1, ?_⟩, _, hup⟩
    simp only
    rw [min_eq_left hncM]; exact hnl
  | some b =>
    right
    simp only
    have hupo := hx.ups.cons hu hup
    obtain ⟨hb0, hbal, hblim, _⟩ := hupo.each _ (List.mem_cons_self ..)
    simp only at hb0 hbal hblim
    obtain ⟨id, hide⟩ : ∃ id, id = (if p.head = 0 then 0 else h.mem (p.head + 48) + 1) := ⟨_, rfl⟩
    have hbm : ∀ m, (⟨b, nc * p.bsize + 56, p.bsize⟩ : Blk) ∈ (⟨m, ⟨b, nc * p.bsize + 56, p.bsize⟩ :: h.ups⟩ : Heap).ups := fun _ => List.mem_cons_self ..
    have hbm' := List.mem_cons_self (a := (⟨b, nc * p.bsize + 56, p.bsize⟩ : Blk)) (l := h.ups)
    have hb8 : b % 8 = 0 := Nat.mod_eq_zero_of_dvd (Nat.dvd_trans (Nat.dvd_of_mod_eq_zero hbs.m8) hbal)
    have hn8 := mul8 hbs.m8 nc
    have ec : b + (nc * p.bsize + 56) - 56 = b + nc * p.bsize := by omega
    rw [ec]
    have hin : ∀ k, k ≤ 48 → Inside (b + nc * p.bsize + k) 8 b (nc * p.bsize + 56) := fun k hk => by unfold Inside; omega
    obtain ⟨c, hc⟩ : ∃ c, c = b + nc * p.bsize := ⟨_, rfl⟩
    rw [← hc] at hin ⊢
    have hc8 : c % 8 = 0 := by omega
    have hnew : ∀ d ∈ cs, Disj b (nc * p.bsize + 56) d.base (d.cap * p.bsize + 56) := fun d hd => by
      have := (List.pairwise_cons.1 hupo.disj).1 (d.blk p.bsize) (blk_mem hx.perm hd)
      exact this
    rw [stm hbm' _ (by omega) (hin _ (by omega)), R.ok_bind, stm hbm' _ (by omega) (hin _ (by omega)), R.ok_bind, stm hbm' _ (by omega) (hin _ (by omega)), R.ok_bind,
      stm hbm' _ (by omega) (hin _ (by omega)), R.ok_bind, stm hbm' _ (by omega) (hin _ (by omega)), R.ok_bind]
    have hidld : newId sf ⟨upd (upd (upd (upd (upd h.mem (c + 8) 0) (c + 16) nc) (c + 24) nc) (c + 32) b) (c + 40) 0, ⟨b, nc * p.bsize + 56, p.bsize⟩ :: h.ups⟩ p.head = .ok id := by
      unfold newId
      rw [hide]
      split
      · rfl
      · rename_i hh
        cases cs with
        | nil => exact absurd hp.chain hh
        | cons d t =>
          have h1 : p.head = d.hdr p.bsize := hp.chain.1
          have hd := hp.chunks d (List.mem_cons_self ..)
          have h2 := hnew d (List.mem_cons_self ..)
          have h8 := hd.hdr8 hbs
          have h3 := hdr_in p.bsize d (k := 48) (by omega)
          rw [h1, ldm (b := d.blk p.bsize) (List.mem_cons_of_mem _ (blk_mem hx.perm (List.mem_cons_self ..))) (by omega) h3, R.ok_bind]
          have hne : ∀ k, k ≤ 48 → d.hdr p.bsize + 48 ≠ c + k := fun k hk => by
            have h4 := hin k hk
            unfold Disj at h2; unfold Inside at h3 h4; omega
          rw [upd_ne _ _ (hne _ (by omega)), upd_ne _ _ (hne _ (by omega)), upd_ne _ _ (hne _ (by omega)), upd_ne _ _ (hne _ (by omega)), upd_ne _ _ (hne _ (by omega))]
    rw [hidld, R.ok_bind, stm hbm' _ (by omega) (hin _ (by omega)), R.ok_bind, stm hbm' _ (by omega) (by simpa using hin 0 (by omega)), R.ok_bind]
    obtain ⟨m', hm'⟩ : ∃ m', m' = upd (upd (upd (upd (upd (upd (upd h.mem (c + 8) 0) (c + 16) nc) (c + 24) nc) (c + 32) b) (c + 40) 0) (c + 48) id) c p.head := ⟨_, rfl⟩
    rw [← hm']
    have hch : ∀ w, m' w ≠ h.mem w → Inside w 8 b (nc * p.bsize + 56) := by
      intro w hw
      by_contra hni
      apply hw
      have hne : ∀ k, k ≤ 48 → w ≠ c + k := fun k hk h5 => hni (h5 ▸ hin k hk)
      rw [hm', upd_ne _ _ (by simpa using hne 0 (by omega)), upd_ne _ _ (hne _ (by omega)), upd_ne _ _ (hne _ (by omega)), upd_ne _ _ (hne _ (by omega)), upd_ne _ _ (hne _ (by omega)),
        upd_ne _ _ (hne _ (by omega)), upd_ne _ _ (hne _ (by omega))]
    have hhd : GC.hdr p.bsize ⟨b, nc, id, 0, [], []⟩ = c := hc.symm
    have hids : ∀ d ∈ cs, d.id < id := by
      intro d hd
      cases cs with
      | nil => cases hd
      | cons e t =>
        have he := hp.chunks e (List.mem_cons_self ..)
        have h1 : p.head = e.hdr p.bsize := hp.chain.1
        have h2 : p.head ≠ 0 := by have := he.pos; rw [h1]; unfold GC.hdr; omega
        rw [hide, if_neg h2, h1, he.f48]
        rcases List.mem_cons.1 hd with rfl | hd
        · omega
        · have := (List.pairwise_cons.1 hp.ids).1 d hd; omega
    refine ⟨⟨b, nc, id, 0, [], []⟩, m', min (wrap 8 ((nc : Int) * 2)) (min ((ptrdiffMax - 56) / p.bsize) o.maxBlocks), ?_, ?_, ⟨hupo, ?_⟩, rfl, rfl, rfl, hch⟩
    · rw [hhd]; rfl
    · rw [hhd]
      refine ⟨hp.lg4, hp.lg61, hp.bsz, ⟨hhd.symm, ?_⟩, ?_, List.pairwise_cons.2 ⟨hids, hp.ids⟩, ?_, ?_, ?_, ?_, ?_⟩
      · simp only
        rw [hhd, show m' c = p.head by rw [hm', upd_eq]]
        refine hp.chain.congr fun d hd => ?_
        by_contra hne
        have h1 := hch _ hne
        have h2 := hnew d hd
        have h3 := hdr_in p.bsize d (k := 0) (by omega)
        unfold Disj at h2; unfold Inside at h1 h3; omega
      · intro d hd
        rcases List.mem_cons.1 hd with rfl | hd
        · refine ChunkOk.fresh hbs hnc1 hncM hblim (by omega) hbal ?_ ?_ ?_ ?_ ?_ ?_ <;> rw [← hc, hm'] <;> simp [upd]
        · exact (hp.chunks d hd).frame_other (c := ⟨b, nc, id, 0, [], []⟩) hbs (hnew d hd) hch
      · refine .inr ⟨_, List.mem_cons_self .., hhd.symm, fun x hx hlt => ?_⟩
        rcases List.mem_cons.1 hx with rfl | hx
        · omega
        · exact hfull x hx
      · exact .inr ⟨_, List.mem_cons_self .., hhd.symm, rfl⟩
      · intro x hx hxu hx2
        rcases List.mem_cons.1 hx with rfl | hx
        · exact hhd.symm
        · have := hfull x hx
          unfold GC.full at this
          rw [hxu] at this; simp at this; omega
      · simp only
        have h61 := hp.lg61
        have h4 := hp.lg4
        have hq : 2 ≤ (ptrdiffMax - 56) / p.bsize := by
          rw [hp.bsz, Nat.le_div_iff_mul_le (by positivity)]
          have := pow_ge h61
          unfold ptrdiffMax; norm_num at *; omega
        have : nc * 2 < 2 ^ 64 := by have := Nat.mul_le_mul_left nc hge; omega
        rw [wrap8_ok (by omega) (by omega)]
        simp only [le_min_iff]
        exact ⟨⟨by omega, by omega, ho⟩, (min_le_left _ _).trans (by omega), (min_le_left _ _).trans hq, min_le_right _ _⟩
      · simp only
        obtain ⟨nx, hnx⟩ : ∃ nx, nx = min (min (wrap 8 ((nc : Int) * 2)) (min ((ptrdiffMax - 56) / p.bsize) o.maxBlocks)) o.maxBlocks := ⟨_, rfl⟩
        rw [← hnx]
        have h1 : nx ≤ (ptrdiffMax - 56) / 2 ^ p.log := by
          rw [hnx, ← hp.bsz]; exact (min_le_left _ _).trans ((min_le_right _ _).trans (min_le_left _ _))
        have h2 : nx * 2 ^ p.log ≤ ptrdiffMax - 56 := (Nat.mul_le_mul_right _ h1).trans (Nat.div_mul_le_self _ _)
        unfold ptrdiffMax at h2; norm_num at h2 ⊢; omega
    · exact hx.perm.cons _

/-- `Got` after a new chunk. -/
theorem got_new {sf : Nat} {o : Opts} {h : Heap} {p : PoolRec} {n : GC} {cs : List GC} {rest : List Blk} {sz al b : Nat} {m' : Words} {p' : PoolRec} {h1 : Heap} {p1 : PoolRec}
    (hp : PoolOk o h.mem p cs) (hx' : Ctx sf ⟨m', n.blk p.bsize :: h.ups⟩ p.bsize (n :: cs) rest) (hb : p'.bsize = p.bsize) (hl : p'.log = p.log) (hn : n.used = [])
    (hm : ∀ w, m' w ≠ h.mem w → Inside w 8 n.base (n.cap * p.bsize + 56)) (hg : Got sf o ⟨m', n.blk p.bsize :: h.ups⟩ p' (n :: cs) rest sz al h1 p1 b) :
    Got sf o h p cs rest sz al h1 p1 b := by
  obtain ⟨cs1, g1, g2, g3, g4, g5, g6, g7⟩ := hg
  rw [hb] at g3 g4 g5 g6 g7
  have hout : n.out p.bsize = [] := by unfold GC.out; rw [hn]; rfl
  simp only [List.flatMap_cons, hout, List.nil_append] at g5 g6
  refine ⟨cs1, g1, g2.trans hl, g3, g4, g5, fun w hw => ?_, fun x hx => g7 x ?_⟩
  · by_cases h2 : m' w = h.mem w
    · exact g6 w (by rw [h2]; exact hw)
    · have h3 := hm w h2
      have hnm := g7 (n.blk p.bsize) (by simp)
      obtain ⟨c, hc, hcb⟩ := List.mem_map.1 hnm
      refine ⟨⟨c, hc, ?_⟩, fun x hx => ?_⟩
      · unfold GC.blk at hcb
        simp only [Blk.mk.injEq] at hcb
        rw [hcb.1, hcb.2.1]; exact h3
      · obtain ⟨d, hd, hxd⟩ := List.mem_flatMap.1 hx
        have h4 := out_inside (hp.chunks d hd) hxd
        have h5 := (List.pairwise_cons.1 (cs_disj hx'.ups hx'.perm)).1 d hd
        unfold RDisj Disj at h5; unfold Inside at h3 h4; unfold Disj; omega
  · simp only [List.map_cons, List.mem_cons]; exact .inr hx

/-- The changes of taking a never allocated block are private. -/
theorem bump_priv {o : Opts} {lg bs : Nat} {m : Words} {c : GC} (hc : ChunkOk o lg bs m c) (hb : BsOk bs) (hlt : c.na < c.cap) {w : Nat}
    (hw : upd (upd (upd m (c.hdr bs + 16) (m (c.hdr bs + 16) - 1)) (c.hdr bs + 40) (c.na + 1)) (c.base + c.na * bs + bs - 8) (c.hdr bs) w ≠ m w) :
    priv bs c w ∧ w ≠ c.hdr bs := by
  have hge := hb.ge
  have hs := mul_sep (bs := bs) hlt
  simp only [upd] at hw
  by_cases e1 : w = c.base + c.na * bs + bs - 8
  · rw [e1]
    refine ⟨⟨by unfold Inside; omega, ?_⟩, by unfold GC.hdr; omega⟩
    intro x hx
    obtain ⟨u, hu, rfl⟩ := List.mem_map.1 hx
    have h1 := hc.used_lt hu
    have h3 := (hc.usz u hu).1
    have := mul_sep (bs := bs) h1
    unfold Disj; simp only; omega
  · by_cases e2 : w = c.hdr bs + 40
    · rw [e2]; exact ⟨hc.priv_hdr (by omega), by simp⟩
    · by_cases e3 : w = c.hdr bs + 16
      · rw [e3]; exact ⟨hc.priv_hdr (by omega), by simp⟩
      · exfalso; apply hw; simp [e1, e2, e3]

/-- The loop when there is no unfull chunk. -/
theorem allocLoop_null {sf : Nat} {o : Opts} {h : Heap} {p : PoolRec} {cs : List GC} {rest : List Blk} {up : Up} {sz al : Nat} (hp : PoolOk o h.mem p cs)
    (hx : Ctx sf h p.bsize cs rest) (hu : UpOk sf up) (ho : 1 ≤ o.maxBlocks) (hz : Fits o p.log p.bsize sz al) (h0 : p.unfull = 0) (f : Nat) :
    (∃ p1, allocLoop sf o up (f + 1) h p = .ok (h, p1, .error .badAlloc) ∧ PoolOk o h.mem p1 cs ∧ p1.log = p.log ∧ p1.bsize = p.bsize ∧ ∃ size, up h.ups size p.bsize = none) ∨
    ∃ h1 p1 b, allocLoop sf o up (f + 1) h p = .ok (h1, p1, .ok b) ∧ Got sf o h p cs rest sz al h1 p1 b := by
  rcases increase_ok hp hx hu ho h0 with ⟨nc, h1, h2, h3⟩ | ⟨n, m', next, h1, h2, h3, hn, hf, hna, hm⟩
  · left
    refine ⟨_, ?_, h2, rfl, rfl, h3⟩
    rw [allocLoop, if_pos h0, h1]; rfl
  · right
    have hc := h2.chunks n (List.mem_cons_self ..)
    have hlt : n.na < n.cap := by rw [hna]; exact hc.capPos.1
    have hge := h2.bs.ge
    obtain ⟨p', hp'⟩ : ∃ p' : PoolRec, p' = ⟨n.hdr p.bsize, n.hdr p.bsize, next, p.bsize, p.log, n.hdr p.bsize⟩ := ⟨_, rfl⟩
    have hb' : p'.bsize = p.bsize := by rw [hp']
    have hl' : p'.log = p.log := by rw [hp']
    have hu' : p'.unfull = n.hdr p'.bsize := by rw [hp']
    rw [← hp'] at h1 h2
    have hc : ChunkOk o p'.log p'.bsize m' n := h2.chunks n (List.mem_cons_self ..)
    have hz' : Fits o p'.log p'.bsize sz al := by rw [hb', hl']; exact hz
    have h3' : Ctx sf ⟨m', n.blk p.bsize :: h.ups⟩ p'.bsize (n :: cs) rest := by rw [hb']; exact h3
    have hmem : n.blk p'.bsize ∈ n.blk p.bsize :: h.ups := by rw [hb']; exact List.mem_cons_self ..
    have hb := bump_some (self := sf) (h := ⟨m', n.blk p.bsize :: h.ups⟩) hc h2.bs hmem hu' hlt
    have hg := got_one (l1 := []) (h := ⟨m', n.blk p.bsize :: h.ups⟩) (c' := ⟨n.base, n.cap, n.id, n.na + 1, n.free, (n.na, sz, al) :: n.used⟩) h2 h3' hu' (by simp) rfl rfl rfl rfl
      (fun w hw => bump_priv hc h2.bs hlt hw) (hc.bump h2.bs hlt hz')
    refine ⟨_, _, _, ?_, got_new hp h3 hb' hl' hn hm hg⟩
    rw [allocLoop, if_pos h0, h1, R.ok_bind]
    simp only
    rw [hb, R.ok_bind]

theorem top_ne {o : Opts} {lg bs : Nat} {m : Words} {l : List GC} (h : ∀ c ∈ l, ChunkOk o lg bs m c) (h0 : top bs l = 0) : l = [] := by
  cases l with
  | nil => rfl
  | cons c t => have := (h c (List.mem_cons_self ..)).pos; simp only [top, GC.hdr] at h0; omega

/-- One iteration of the loop at an unfull chunk. -/
theorem alloc_at {sf : Nat} {o : Opts} {h : Heap} {rest : List Blk} {up : Up} {sz al : Nat} {l1 l2 : List GC} {c : GC} {p : PoolRec}
    (hp : PoolOk o h.mem p (l1 ++ c :: l2)) (hx : Ctx sf h p.bsize (l1 ++ c :: l2) rest) (hz : Fits o p.log p.bsize sz al) (hun : p.unfull = c.hdr p.bsize)
    (hl1 : ∀ x ∈ l1, x.full) :
    (∃ h1 p1 b, (∀ f, allocLoop sf o up (f + 1) h p = .ok (h1, p1, .ok b)) ∧ Got sf o h p (l1 ++ c :: l2) rest sz al h1 p1 b) ∨
    (c.full ∧ ∀ f, allocLoop sf o up (f + 1) h p = allocLoop sf o up f h ⟨top p.bsize l2, p.head, p.nextCap, p.bsize, p.log, p.empty⟩) := by
  have hc := hp.chunks c (by simp)
  have hbs := hp.bs
  have hcm := blk_mem hx.perm (c := c) (by simp)
  have h8 := hc.hdr8 hbs
  have hpos := hc.pos
  have hn0 : p.unfull ≠ 0 := by rw [hun]; unfold GC.hdr; omega
  have hld8 : ld sf h (p.unfull + 8) = .ok (h.mem (c.hdr p.bsize + 8)) := by rw [hun]; exact ld_ok hcm (by omega) (hdr_in _ c (by omega))
  cases hfr : c.free with
  | nil =>
    have h80 : h.mem (c.hdr p.bsize + 8) = 0 := by have := hc.f8; rw [hfr] at this; exact this
    by_cases hlt : c.na < c.cap
    · left
      refine ⟨_, _, _, fun f => ?_, got_one (c' := ⟨c.base, c.cap, c.id, c.na + 1, c.free, (c.na, sz, al) :: c.used⟩) hp hx hun hl1 rfl rfl rfl rfl (fun w hw => bump_priv hc hbs hlt hw) (hc.bump hbs hlt hz)⟩
      rw [allocLoop, if_neg hn0, hld8, R.ok_bind, h80, if_neg (by simp), bump_some hc hbs hcm hun hlt, R.ok_bind]
    · right
      have hlen := hc.len
      have hna := hc.naCap
      refine ⟨by unfold GC.full; rw [hfr] at hlen; simp at hlen; omega, fun f => ?_⟩
      rw [allocLoop, if_neg hn0, hld8, R.ok_bind, h80, if_neg (by simp), bump_none hc hbs hcm hun hlt, R.ok_bind]
      simp only
      rw [hun, ld_ok hcm (by omega) (hdr_in0 _ c), R.ok_bind, hp.chain.next]
  | cons i t =>
    left
    have hif : i ∈ c.free := by rw [hfr]; exact List.mem_cons_self ..
    have hge := hbs.ge
    have hin := hc.free_lt hif
    have hnc := hc.naCap
    have hs := mul_sep (bs := p.bsize) (show i < c.cap by omega)
    have h81 : h.mem (c.hdr p.bsize + 8) = c.base + i * p.bsize := by have := hc.f8; rw [hfr] at this; exact this.1
    have hlen := hc.len
    rw [hfr] at hlen; simp at hlen
    have hi8 := mul8 hbs.m8 i
    have hb8 := hc.base8 hbs
    refine ⟨_, _, _, fun f => ?_, got_one (c' := ⟨c.base, c.cap, c.id, c.na, t, (i, sz, al) :: c.used⟩) hp hx hun hl1 rfl rfl rfl rfl (fun w hw => ?_) (hc.pop hbs hfr hz)⟩
    · rw [allocLoop, if_neg hn0, hld8, R.ok_bind, h81, if_pos (by omega), takeOne_eq hc hbs hcm hun (by omega), R.ok_bind]
      simp only
      rw [hun, ldm hcm (by omega) (hdr_in _ c (by omega)), R.ok_bind, upd_ne _ _ (by omega), h81, ldm hcm (by omega) (by unfold Inside GC.blk; simp only; omega), R.ok_bind,
        upd_ne _ _ (by unfold GC.hdr; omega), stm hcm _ (by omega) (hdr_in _ c (by omega)), R.ok_bind]
    · simp only [upd] at hw
      by_cases e2 : w = c.hdr p.bsize + 8
      · rw [e2]; exact ⟨hc.priv_hdr (by omega), by simp⟩
      · by_cases e3 : w = c.hdr p.bsize + 16
        · rw [e3]; exact ⟨hc.priv_hdr (by omega), by simp⟩
        · exfalso; apply hw; simp [e2, e3]

/-- The loop from an unfull chunk on. -/
theorem allocLoop_from {sf : Nat} {o : Opts} {h : Heap} {rest : List Blk} {up : Up} {sz al : Nat} (hu : UpOk sf up) (ho : 1 ≤ o.maxBlocks) :
    ∀ (l2 l1 : List GC) (p : PoolRec) (f : Nat), PoolOk o h.mem p (l1 ++ l2) → Ctx sf h p.bsize (l1 ++ l2) rest → Fits o p.log p.bsize sz al →
      p.unfull = top p.bsize l2 → (∀ x ∈ l1, x.full) → l2.length + 1 ≤ f →
      (∃ p1, allocLoop sf o up f h p = .ok (h, p1, .error .badAlloc) ∧ PoolOk o h.mem p1 (l1 ++ l2) ∧ p1.log = p.log ∧ p1.bsize = p.bsize ∧ ∃ size, up h.ups size p.bsize = none) ∨
      ∃ h1 p1 b, allocLoop sf o up f h p = .ok (h1, p1, .ok b) ∧ Got sf o h p (l1 ++ l2) rest sz al h1 p1 b := by
  intro l2
  induction l2 with
  | nil =>
    intro l1 p f hp hx hz hun hl1 hf
    obtain ⟨f, rfl⟩ : ∃ k, f = k + 1 := ⟨f - 1, by omega⟩
    exact allocLoop_null hp hx hu ho hz hun f
  | cons c t ih =>
    intro l1 p f hp hx hz hun hl1 hf
    obtain ⟨f, rfl⟩ : ∃ k, f = k + 1 := ⟨f - 1, by omega⟩
    rcases alloc_at (up := up) hp hx hz hun hl1 with ⟨h1, p1, b, h2, h3⟩ | ⟨hfull, h2⟩
    · exact .inr ⟨h1, p1, b, h2 f, h3⟩
    · rw [h2 f]
      have hl1' : ∀ x ∈ l1 ++ [c], x.full := by
        intro x hx
        rcases List.mem_append.1 hx with h1 | h1
        · exact hl1 x h1
        · rw [List.mem_singleton.1 h1]; exact hfull
      have e : l1 ++ c :: t = (l1 ++ [c]) ++ t := by simp
      have hp' : PoolOk o h.mem ⟨top p.bsize t, p.head, p.nextCap, p.bsize, p.log, p.empty⟩ ((l1 ++ [c]) ++ t) := by
        rw [← e]
        refine ⟨hp.lg4, hp.lg61, hp.bsz, hp.chain, hp.chunks, hp.ids, ?_, hp.empty, hp.one, hp.nextPos, hp.nextLim⟩
        cases t with
        | nil => exact .inl ⟨rfl, hl1'⟩
        | cons d t =>
          refine .inr ⟨d, by simp, rfl, fun x hxm hlt => ?_⟩
          rw [e] at hxm
          rcases List.mem_append.1 hxm with h1 | h1
          · exact hl1' x h1
          · have := hp.ids
            simp only [List.pairwise_append, List.pairwise_cons] at this
            rcases List.mem_cons.1 h1 with rfl | h1
            · omega
            · have := this.2.1.2.1 x h1; omega
      have := ih (l1 ++ [c]) ⟨top p.bsize t, p.head, p.nextCap, p.bsize, p.log, p.empty⟩ f hp' (by rw [← e]; exact hx) hz rfl hl1' (by simp at hf; omega)
      rw [← e] at this
      exact this

/-- `_Allocate`. -/
theorem allocLoop_ok {sf : Nat} {o : Opts} {h : Heap} {p : PoolRec} {cs : List GC} {rest : List Blk} {up : Up} {sz al : Nat} (hp : PoolOk o h.mem p cs)
    (hx : Ctx sf h p.bsize cs rest) (hu : UpOk sf up) (ho : 1 ≤ o.maxBlocks) (hz : Fits o p.log p.bsize sz al) :
    (∃ p1, allocLoop sf o up (h.ups.length + 2) h p = .ok (h, p1, .error .badAlloc) ∧ PoolOk o h.mem p1 cs ∧ p1.log = p.log ∧ p1.bsize = p.bsize ∧
      ∃ size, up h.ups size p.bsize = none) ∨
    ∃ h1 p1 b, allocLoop sf o up (h.ups.length + 2) h p = .ok (h1, p1, .ok b) ∧ Got sf o h p cs rest sz al h1 p1 b := by
  have hlen : cs.length ≤ h.ups.length := by have := hx.perm.length_eq; simp at this; omega
  rcases hp.unfull with ⟨h0, _⟩ | ⟨d, hd, h1, h2⟩
  · exact allocLoop_null hp hx hu ho hz h0 _
  · obtain ⟨l1, l2, rfl⟩ := List.append_of_mem hd
    refine allocLoop_from hu ho (d :: l2) l1 p _ hp hx hz h1 (fun x hxm => ?_) ?_
    · have := hp.ids
      simp only [List.pairwise_append, List.mem_cons] at this
      exact h2 x (by simp [hxm]) (this.2.2 x hxm d (.inl rfl))
    · simp only [List.length_append, List.length_cons] at hlen ⊢; omega

end STL.PoolRes
