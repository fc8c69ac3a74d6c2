import Verif.PoolRes.Release

/-!
# C45: `unsynchronized_pool_resource`

`Run sf o h s out`: the resource at address `sf`, constructed with the options `o`, is in the state `s` with the memory `h`, and has handed out the blocks `out`
(with the size and alignment asked for), after some history of `allocate` (against any upstream resource that keeps its promises, `UpOk`), `deallocate` of
blocks handed out (with the same size and alignment), `release` and foreign writes. Foreign code may change any word except for those of the resource itself and
those in memory the resource has obtained from upstream that overlap no block handed out. `Heap.ups` is the list of the blocks obtained from upstream and not
yet given back; giving back anything else is undefined behaviour in the model.

Requests: size less than `2 ^ 64`, alignment a power of two up to `2 ^ 61`, and not both size 0 and alignment at most 8 (`Req`). The two kinds of requests that
are left out go wrong: `C45_zero_size_defect`, `C45_overalign_defect`.
-/

namespace STL.PoolRes
open STL STL.Pmr

/-- Reachable states. -/
inductive Run (sf : Nat) (o : Opts) : Heap → Res → List Blk → Prop
  /-- The constructors. -/
  | make (m : Words) : o.maxBlocks < 2 ^ 64 → o.largest < 2 ^ 64 → Run sf o (make sf m o).1 (make sf m o).2 []
  /-- `allocate` returns a block. -/
  | alloc {h s out h' s' p} (bytes al : Nat) (up : Up) : Run sf o h s out → Req bytes al → UpOk sf up →
      doAllocate sf h s bytes al up = .ok (h', s', .ok p) → Run sf o h' s' (⟨p, bytes, al⟩ :: out)
  /-- `allocate` throws. -/
  | allocThrow {h s out h' s' e} (bytes al : Nat) (up : Up) : Run sf o h s out → Req bytes al → UpOk sf up →
      doAllocate sf h s bytes al up = .ok (h', s', .error e) → Run sf o h' s' out
  /-- `deallocate` -/
  | dealloc {h s out h' s'} (x : Blk) : Run sf o h s out → x ∈ out → doDeallocate sf h s x.addr x.size x.align = .ok (h', s') → Run sf o h' s' (out.erase x)
  /-- `release()` -/
  | release {h s out h' s'} : Run sf o h s out → release sf h s = .ok (h', s') → Run sf o h' s' []
  /-- Foreign writes. -/
  | write {h s out} (m : Words) : Run sf o h s out →
      (∀ w, (w = sf ∨ w = sf + 8 ∨ ∃ b ∈ h.ups, Inside w 8 b.addr b.size) → (∀ x ∈ out, Disj w 8 x.addr x.size) → m w = h.mem w) → Run sf o ⟨m, h.ups⟩ s out

theorem emplace_opts {h h' : Heap} {s s' : Res} {i lg : Nat} {up : Up} (he : emplacePool h s i lg up = .ok (some (h', s'))) : s'.opts = s.opts := by
  unfold emplacePool at he
  split at he
  · simp only at he
    split at he
    · cases he
    · simp only [bind, Except.bind] at he
      split at he
      · cases he
      · cases he; rfl
  · cases he; rfl

theorem allocIn_opts {sf : Nat} {h h' : Heap} {s s' : Res} {i : Nat} {up : Up} {r : Except Exc Nat} (he : allocIn sf h s i up = .ok (h', s', r)) : s'.opts = s.opts := by
  unfold allocIn at he
  split at he
  · cases he
  · simp only [bind, Except.bind] at he
    split at he
    · cases he
    · cases he; rfl

theorem alloc_opts {sf : Nat} {h h' : Heap} {s s' : Res} {b al : Nat} {up : Up} {r : Except Exc Nat} (he : doAllocate sf h s b al up = .ok (h', s', r)) : s'.opts = s.opts := by
  unfold doAllocate at he
  split at he
  · simp only at he
    split at he
    · exact allocIn_opts he
    · simp only [bind, Except.bind] at he
      split at he
      · cases he
      · split at he
        · cases he; rfl
        · rename_i hh
          exact (allocIn_opts he).trans (emplace_opts hh)
  · simp only [bind, Except.bind] at he
    split at he
    · cases he
    · cases he; rfl

theorem dealloc_opts {sf : Nat} {h h' : Heap} {s s' : Res} {p b al : Nat} (he : doDeallocate sf h s p b al = .ok (h', s')) : s'.opts = s.opts := by
  unfold doDeallocate at he
  split at he
  · simp only at he
    split at he
    · cases he; rfl
    · split at he
      · simp only [bind, Except.bind] at he
        split at he
        · cases he
        · cases he; rfl
      · cases he; rfl
  · simp only [bind, Except.bind] at he
    split at he
    · cases he
    · cases he; rfl

theorem run_inv {sf : Nat} {o : Opts} {h : Heap} {s : Res} {out : List Blk} (hr : Run sf o h s out) : (∃ gs ovs, RInv sf h s out gs ovs) ∧ s.opts = setupOptions o := by
  induction hr with
  | make m h1 h2 => exact ⟨⟨_, _, make_inv m o h1 h2⟩, rfl⟩
  | alloc bytes al up _ hq hu he ih =>
    obtain ⟨⟨gs, ovs, hi⟩, ho⟩ := ih
    refine ⟨?_, (alloc_opts he).trans ho⟩
    rcases doAllocate_ok hi hu hq with ⟨h1, s1, gs1, e1, -⟩ | ⟨h1, s1, p1, gs1, ovs1, e1, e2, -⟩
    · rw [e1] at he; cases he
    · rw [e1] at he; cases he; exact ⟨_, _, e2⟩
  | allocThrow bytes al up _ hq hu he ih =>
    obtain ⟨⟨gs, ovs, hi⟩, ho⟩ := ih
    refine ⟨?_, (alloc_opts he).trans ho⟩
    rcases doAllocate_ok hi hu hq with ⟨h1, s1, gs1, e1, e2, -⟩ | ⟨h1, s1, p1, gs1, ovs1, e1, e2, -⟩
    · rw [e1] at he; cases he; exact ⟨_, _, e2⟩
    · rw [e1] at he; cases he
  | dealloc x _ hx he ih =>
    obtain ⟨⟨gs, ovs, hi⟩, ho⟩ := ih
    refine ⟨?_, (dealloc_opts he).trans ho⟩
    obtain ⟨h1, s1, gs1, ovs1, e1, e2, -⟩ := doDeallocate_ok hi hx
    rw [e1] at he; cases he; exact ⟨_, _, e2⟩
  | release _ he ih =>
    obtain ⟨⟨gs, ovs, hi⟩, ho⟩ := ih
    obtain ⟨m', e1, -, e2⟩ := release_ok hi
    rw [e1] at he; cases he
    exact ⟨⟨_, _, e2⟩, ho⟩
  | write m _ hm ih =>
    obtain ⟨⟨gs, ovs, hi⟩, ho⟩ := ih
    exact ⟨⟨_, _, hi.write hm⟩, ho⟩

/-- Blocks from one chunk are disjoint. -/
theorem chunk_out_disj {o : Opts} {lg bs : Nat} {m : Words} {c : GC} (hc : ChunkOk o lg bs m c) : (c.out bs).Pairwise fun a b => Disj a.addr a.size b.addr b.size := by
  unfold GC.out
  rw [List.pairwise_map]
  have hn := hc.nodup
  rw [List.nodup_append] at hn
  have h2 := hn.2.1
  rw [List.Nodup, List.pairwise_map] at h2
  refine h2.imp_of_mem fun {a b} ha hb hne => ?_
  have ha' := (hc.usz a ha).1
  have hb' := (hc.usz b hb).1
  unfold Disj; simp only
  rcases Nat.lt_or_gt_of_ne hne with h5 | h5
  · have := mul_sep (bs := bs) h5; omega
  · have := mul_sep (bs := bs) h5; omega

theorem disj_sub {x y a b : Blk} (h : Disj a.addr a.size b.addr b.size) (hx : Inside x.addr x.size a.addr a.size) (hy : Inside y.addr y.size b.addr b.size) :
    Disj x.addr x.size y.addr y.size := by unfold Disj at *; unfold Inside at hx hy; omega

/-- A list of groups, each inside its own blocks. -/
theorem flatMap_disj {α : Type} {f g : α → List Blk} : ∀ {l : List α}, (∀ c ∈ l, (f c).Pairwise fun a b => Disj a.addr a.size b.addr b.size) →
    (∀ c ∈ l, ∀ x ∈ f c, ∃ b ∈ g c, Inside x.addr x.size b.addr b.size) → ((l.flatMap g).Pairwise fun a b => Disj a.addr a.size b.addr b.size) →
    (l.flatMap f).Pairwise fun a b => Disj a.addr a.size b.addr b.size
  | [], _, _, _ => by simp
  | c :: t, h1, h2, h3 => by
    rw [List.flatMap_cons, List.pairwise_append] at h3 ⊢
    refine ⟨h1 c (List.mem_cons_self ..), flatMap_disj (fun d hd => h1 d (List.mem_cons_of_mem _ hd)) (fun d hd => h2 d (List.mem_cons_of_mem _ hd)) h3.2.1, fun x hx y hy => ?_⟩
    obtain ⟨d, hd, hyd⟩ := List.mem_flatMap.1 hy
    obtain ⟨a, ha, hxa⟩ := h2 c (List.mem_cons_self ..) x hx
    obtain ⟨b, hb, hyb⟩ := h2 d (List.mem_cons_of_mem _ hd) y hyd
    exact disj_sub (h3.2.2 a ha b (List.mem_flatMap.2 ⟨d, hd, hb⟩)) hxa hyb

/-- Every block handed out and not yet given back is not null, is aligned as asked for and lies in memory obtained from upstream and not given back; and these
blocks are pairwise disjoint. -/
theorem C45_blocks {sf : Nat} {o : Opts} {h : Heap} {s : Res} {out : List Blk} (hr : Run sf o h s out) :
    (∀ x ∈ out, x.addr ≠ 0 ∧ x.align ∣ x.addr ∧ ∃ b ∈ h.ups, Inside x.addr x.size b.addr b.size) ∧ out.Pairwise fun a b => Disj a.addr a.size b.addr b.size := by
  obtain ⟨⟨gs, ovs, hi⟩, -⟩ := run_inv hr
  refine ⟨fun x hx => ?_, ?_⟩
  · obtain ⟨b, hb, hib⟩ := hi.out_in hx
    refine ⟨?_, ?_, b, hb, hib⟩
    · have := (hi.ups.each b hb).1; unfold Inside at hib; omega
    · rcases List.mem_append.1 (hi.out.mem_iff.1 hx) with h1 | h1
      · have hm : oblk x ∈ h.ups := hi.perm.mem_iff.2 (List.mem_append_right _ (List.mem_append_left _ (List.mem_map_of_mem h1)))
        exact (max8_dvd (hi.ov.each x h1).2.2.1 (hi.ups.each _ hm).2.1).2
      · obtain ⟨g, hg, hxo⟩ := List.mem_flatMap.1 h1
        obtain ⟨c, hc, hxc⟩ := List.mem_flatMap.1 hxo
        obtain ⟨u, hu, rfl⟩ := List.mem_map.1 hxc
        have hck := (hi.each g hg).chunks c hc
        have hal := (hck.usz u hu).2.1
        exact Nat.dvd_add (hal.trans hck.al) (hal.trans (Nat.dvd_mul_left _ _))
  · rw [hi.out.pairwise_iff (fun {a b} h => disj_comm h)]
    have hd := (hi.ups.perm hi.perm).disj.sublist (List.sublist_append_right ..)
    rw [List.pairwise_append] at hd ⊢
    refine ⟨?_, flatMap_disj (g := gblks) (fun g hg => ?_) (fun g hg x hx => pool_out_in (hi.each g hg) hx) hd.2.1, fun x hx y hy => ?_⟩
    · have h1 := hd.1
      rw [List.pairwise_map] at h1
      refine h1.imp fun {a b} hab => disj_sub hab ?_ ?_
      · have := over_in a; unfold Inside at *; omega
      · have := over_in b; unfold Inside at *; omega
    · refine flatMap_disj (g := fun c => [GC.blk g.1.bsize c]) (fun c hc => chunk_out_disj ((hi.each g hg).chunks c hc)) (fun c hc x hx => ?_) ?_
      · refine ⟨_, List.mem_singleton.2 rfl, ?_⟩
        have := out_inside ((hi.each g hg).chunks c hc) hx
        unfold Inside at *; simp only [GC.blk]; omega
      · obtain ⟨l1, l2, rfl⟩ := List.append_of_mem hg
        have := cs_disj hi.ctx.ups hi.ctx.perm
        rw [← List.map_eq_flatMap, List.pairwise_map]
        exact this
    · obtain ⟨g, hg, hyo⟩ := List.mem_flatMap.1 hy
      obtain ⟨b, hb, hib⟩ := pool_out_in (hi.each g hg) hyo
      refine disj_sub (hd.2.2 (oblk x) (List.mem_map_of_mem hx) b (List.mem_flatMap.2 ⟨g, hg, hb⟩)) ?_ hib
      have := over_in x; unfold Inside at *; omega

/-- In every reachable state `allocate` has no undefined behaviour. It throws only `bad_alloc`, and only if the size leaves no room for a header or the
upstream resource refuses a request; it then changes no memory. Otherwise it changes no word that overlaps a block handed out before. -/
theorem C45_allocate {sf : Nat} {o : Opts} {h : Heap} {s : Res} {out : List Blk} (hr : Run sf o h s out) {bytes al : Nat} (hq : Req bytes al) {up : Up} (hu : UpOk sf up) :
    (∃ h' s', doAllocate sf h s bytes al up = .ok (h', s', .error .badAlloc) ∧ h'.mem = h.mem ∧ (2 ^ 64 - 40 < bytes ∨ ∃ ups size a, up ups size a = none)) ∨
    ∃ h' s' p, doAllocate sf h s bytes al up = .ok (h', s', .ok p) ∧ ∀ w, (∃ x ∈ out, ¬ Disj w 8 x.addr x.size) → h'.mem w = h.mem w := by
  obtain ⟨⟨gs, ovs, hi⟩, -⟩ := run_inv hr
  rcases doAllocate_ok hi hu hq with ⟨h1, s1, gs1, e1, -, e2, e3⟩ | ⟨h1, s1, p1, gs1, ovs1, e1, -, e2⟩
  · exact .inl ⟨h1, s1, e1, e2, e3⟩
  · refine .inr ⟨h1, s1, p1, e1, fun w ⟨x, hx, hw⟩ => ?_⟩
    by_contra hne
    exact hw (e2 w hne x hx)

/-- In every reachable state `deallocate` of a block handed out, with the size and alignment it was asked for with, has no undefined behaviour, changes no word
that overlaps a block still handed out, and obtains nothing from upstream. -/
theorem C45_deallocate {sf : Nat} {o : Opts} {h : Heap} {s : Res} {out : List Blk} (hr : Run sf o h s out) {x : Blk} (hx : x ∈ out) :
    ∃ h' s', doDeallocate sf h s x.addr x.size x.align = .ok (h', s') ∧ (∀ b ∈ h'.ups, b ∈ h.ups) ∧
      ∀ w, (∃ y ∈ out.erase x, ¬ Disj w 8 y.addr y.size) → h'.mem w = h.mem w := by
  obtain ⟨⟨gs, ovs, hi⟩, -⟩ := run_inv hr
  obtain ⟨h1, s1, gs1, ovs1, e1, -, e3, e2⟩ := doDeallocate_ok hi hx
  refine ⟨h1, s1, e1, e3, fun w ⟨y, hy, hw⟩ => ?_⟩
  by_contra hne
  exact hw (e2 w hne y hy)

/-- In every reachable state `release()` (and the destructor) gives everything obtained from upstream back exactly once, with the size and alignment it was
obtained with, and changes no memory outside of the resource itself; afterwards the resource is as constructed. -/
theorem C45_release {sf : Nat} {o : Opts} {h : Heap} {s : Res} {out : List Blk} (hr : Run sf o h s out) :
    ∃ m', release sf h s = .ok (⟨m', []⟩, ⟨setupOptions o, 0, 0, []⟩) ∧ m' sf = sf ∧ m' (sf + 8) = sf ∧ ∀ w, w ≠ sf → w ≠ sf + 8 → m' w = h.mem w := by
  obtain ⟨⟨gs, ovs, hi⟩, ho⟩ := run_inv hr
  obtain ⟨m', e1, e2, e3⟩ := release_ok hi
  rw [ho] at e1
  refine ⟨m', e1, e3.ov.list.1, e3.ov.list.2, fun w h1 h2 => ?_⟩
  by_contra hne
  rcases e2 w hne with h3 | h3
  · exact h1 h3
  · exact h2 h3

/-- The options in effect: `max_blocks_per_chunk` is kept if it is between 1 and `PTRDIFF_MAX` and is `PTRDIFF_MAX` otherwise;
`largest_required_pool_block` becomes the least power of two that is at least 8 and at least the value given (`2 ^ 59` if the value is 0 or larger). -/
theorem C45_options (o : Opts) (h1 : o.maxBlocks < 2 ^ 64) (h2 : o.largest < 2 ^ 64) :
    (setupOptions o).maxBlocks = (if 1 ≤ o.maxBlocks ∧ o.maxBlocks ≤ 2 ^ 63 - 1 then o.maxBlocks else 2 ^ 63 - 1) ∧
    (1 ≤ o.largest ∧ o.largest ≤ 2 ^ 59 → ∃ k ≤ 59, (setupOptions o).largest = 2 ^ k ∧ o.largest ≤ 2 ^ k ∧ 3 ≤ k ∧ ∀ j, 3 ≤ j → o.largest ≤ 2 ^ j → k ≤ j) ∧
    (o.largest = 0 ∨ 2 ^ 59 < o.largest → (setupOptions o).largest = 2 ^ 59) := by
  obtain ⟨a1, a2, a3, a4, a5, ⟨k, hk, a6⟩, a7, a8, a9⟩ := setup_ok o h1 h2
  refine ⟨?_, fun ⟨b1, b2⟩ => ⟨k, hk, a6, a6 ▸ a7 b2, ?_, fun j hj hjl => ?_⟩, a9⟩
  · split
    · rename_i h; exact a3 h.1 h.2
    · rename_i h; exact a4 (by unfold ptrdiffMax; omega)
  · rw [a6] at a5
    by_contra hlt
    have := pow_ge (show k ≤ 2 by omega)
    norm_num at this; omega
  · have := a8 b2 j hj hjl b1
    rw [a6] at this
    by_contra hlt
    have := pow_lt_inv (lt_of_le_of_lt this (Nat.pow_lt_pow_right (by omega) (show j < k by omega)))
    omega

/-- What the resource holds from upstream: a buffer for the table of pools, one block for every oversized block handed out, with less than 40 bytes more than
asked for, and chunks of at most `max_blocks_per_chunk` blocks. -/
theorem C45_upstream {sf : Nat} {o : Opts} {h : Heap} {s : Res} {out : List Blk} (hr : Run sf o h s out) {b : Blk} (hb : b ∈ h.ups) :
    (b = ⟨s.vaddr, s.vcap * 48, 8⟩) ∨
    (∃ x ∈ out, (setupOptions o).largest < x.size ∧ b.addr = x.addr ∧ x.size + 32 ≤ b.size ∧ b.size < x.size + 40 ∧ b.align = max x.align 8) ∨
    ∃ n lg, 1 ≤ n ∧ n ≤ (setupOptions o).maxBlocks ∧ b.size = n * 2 ^ lg + 56 ∧ b.align = 2 ^ lg := by
  obtain ⟨⟨gs, ovs, hi⟩, ho⟩ := run_inv hr
  rw [← ho]
  rcases List.mem_append.1 (hi.perm.mem_iff.1 hb) with h1 | h1
  · left
    unfold vblk at h1
    split at h1
    · cases h1
    · exact List.mem_singleton.1 h1
  · right
    rcases List.mem_append.1 h1 with h1 | h1
    · left
      obtain ⟨x, hx, rfl⟩ := List.mem_map.1 h1
      refine ⟨x, hi.out.mem_iff.2 (List.mem_append_left _ hx), (hi.ov.each x hx).1, rfl, ?_, ?_, rfl⟩
      · exact oadj_ge x.size
      · simp only [oblk, oadj]; omega
    · right
      obtain ⟨g, hg, hbg⟩ := List.mem_flatMap.1 h1
      obtain ⟨c, hc, rfl⟩ := List.mem_map.1 hbg
      have hp := hi.each g hg
      have hck := hp.chunks c hc
      exact ⟨c.cap, g.1.log, hck.capPos.1, hck.capMax, by simp only [GC.blk]; rw [hp.bsz], by simp only [GC.blk]; rw [hp.bsz]⟩

theorem flatMap_len {α β : Type} {f : α → List β} : ∀ {l : List α}, (∀ a ∈ l, (f a).length ≤ 1) → (l.flatMap f).length ≤ l.length
  | [], _ => by simp
  | a :: t, h => by
    have h1 := h a (List.mem_cons_self ..)
    have h2 := flatMap_len (l := t) fun b hb => h b (List.mem_cons_of_mem _ hb)
    simp only [List.flatMap_cons, List.length_append, List.length_cons]; omega

/-- Memory goes back to upstream: once every block has been deallocated, the resource holds at most one spare chunk per block size, besides the buffer for the
table of pools (there are at most 58 block sizes). Needs `max_blocks_per_chunk ≥ 2`: chunks of a single block are kept until `release()`,
`C45_single_block_chunks_stay`. -/
theorem C45_spare {sf : Nat} {o : Opts} {h : Heap} {s : Res} (hr : Run sf o h s []) (ho : o.maxBlocks ≠ 1) (ho2 : o.maxBlocks < 2 ^ 64) (ho3 : o.largest < 2 ^ 64) :
    h.ups.length ≤ s.pools.length + 1 ∧ s.pools.length ≤ 58 := by
  obtain ⟨⟨gs, ovs, hi⟩, hopt⟩ := run_inv hr
  obtain ⟨a1, a2, a3, a4, -⟩ := setup_ok o ho2 ho3
  have hmax : 2 ≤ s.opts.maxBlocks := by
    rw [hopt]
    by_cases h1 : 1 ≤ o.maxBlocks ∧ o.maxBlocks ≤ ptrdiffMax
    · rw [a3 h1.1 h1.2]; omega
    · rw [a4 (by omega)]; decide
  have hnil := hi.out.symm
  rw [List.perm_nil, List.append_eq_nil_iff] at hnil
  obtain ⟨hov, hgo⟩ := hnil
  have hlen := hi.perm.length_eq
  subst hov
  simp only [List.map_nil, List.nil_append, List.length_append] at hlen
  have hv : (vblk s).length ≤ 1 := by unfold vblk; split <;> simp
  have hg : (gs.flatMap gblks).length ≤ gs.length := by
    refine flatMap_len fun g hg => ?_
    have hp := hi.each g hg
    have hempty : ∀ c ∈ g.2, c.used = [] := by
      intro c hc
      have h1 : gout g = [] := by
        rw [List.flatMap_eq_nil_iff] at hgo; exact hgo g hg
      have h2 : c.out g.1.bsize = [] := by
        unfold gout at h1
        rw [List.flatMap_eq_nil_iff] at h1; exact h1 c hc
      unfold GC.out at h2
      simpa using h2
    have hone : ∀ c ∈ g.2, g.1.empty = c.hdr g.1.bsize := fun c hc => hp.one c hc (hempty c hc) (by
      have := (hp.chunks c hc).capPos.2
      rw [min_eq_left hmax] at this; exact this)
    obtain ⟨l1, l2, rfl⟩ := List.append_of_mem hg
    have hd := cs_disj hi.ctx.ups hi.ctx.perm
    unfold gblks
    rw [List.length_map]
    cases hcs : g.2 with
    | nil => simp
    | cons c t =>
      cases t with
      | nil => simp
      | cons d t =>
        exfalso
        have e1 := hone c (by rw [hcs]; simp)
        have e2 := hone d (by rw [hcs]; simp)
        rw [hcs, List.pairwise_cons] at hd
        exact hdr_ne (hd.1 d (by simp)) (k := 0) (l := 0) (by omega) (by omega) (e1.symm.trans e2)
  have hpl : s.pools.length = gs.length := by rw [hi.pools]; simp
  refine ⟨by omega, ?_⟩
  rw [hpl]
  have hs := hi.sorted
  have hnd : (gs.map fun g => g.1.log).Nodup := by
    rw [List.Nodup, List.pairwise_map]
    exact hs.imp fun h => by omega
  have hsub : (gs.map fun g => g.1.log) ⊆ List.range' 4 58 := by
    intro a ha
    obtain ⟨g, hg, rfl⟩ := List.mem_map.1 ha
    have h1 := (hi.each g hg).lg4
    have h2 := (hi.each g hg).lg61
    rw [List.mem_range'_1]; omega
  have := (hnd.subperm hsub).length_le
  simpa using this

end STL.PoolRes
