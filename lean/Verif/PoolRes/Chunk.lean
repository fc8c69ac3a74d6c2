import Verif.PoolRes.Model
import Verif.Pmr.Mono
import Mathlib.Data.List.Perm.Basic
import Mathlib.Data.List.Flatten
import Mathlib.Data.List.Nodup

/-! # `unsynchronized_pool_resource`: the invariant of a chunk -/

namespace STL.PoolRes
open STL STL.Pmr

theorem upd_eq (m : Words) (a v : Nat) : upd m a v a = v := by simp [upd]
theorem upd_ne (m : Words) {a x : Nat} (v : Nat) (h : x ≠ a) : upd m a v x = m x := by simp [upd, h]

/-- What an upstream resource guarantees about the outstanding blocks. -/
structure UpsOk (sf : Nat) (ups : List Blk) : Prop where
  each : ∀ b ∈ ups, b.addr ≠ 0 ∧ b.align ∣ b.addr ∧ b.addr + b.size ≤ 2 ^ 64 ∧ Disj sf 16 b.addr b.size
  disj : ups.Pairwise fun a b => Disj a.addr a.size b.addr b.size

/-- The upstream resource keeps its promises: a block it returns is not null, aligned, inside the address space, and overlaps neither an outstanding block nor
the resource object (of which the two words at `self` are modelled). -/
def UpOk (self : Nat) (up : Up) : Prop :=
  ∀ ups size al p, up ups size al = some p → p ≠ 0 ∧ al ∣ p ∧ p + size ≤ 2 ^ 64 ∧ Disj self 16 p size ∧ ∀ b ∈ ups, Disj p size b.addr b.size

theorem UpsOk.cons {self : Nat} {ups : List Blk} (h : UpsOk self ups) {up : Up} (hu : UpOk self up) {size al p : Nat} (he : up ups size al = some p) :
    UpsOk self (⟨p, size, al⟩ :: ups) := by
  obtain ⟨h1, h2, h3, h4, h5⟩ := hu _ _ _ _ he
  refine ⟨fun b hb => ?_, List.pairwise_cons.2 ⟨h5, h.disj⟩⟩
  rcases List.mem_cons.1 hb with rfl | hb
  · exact ⟨h1, h2, h3, h4⟩
  · exact h.each b hb

theorem UpsOk.perm {self : Nat} {u v : List Blk} (h : UpsOk self u) (p : u.Perm v) : UpsOk self v :=
  ⟨fun b hb => h.each b (p.mem_iff.2 hb), (p.pairwise_iff (fun {a b} h => disj_comm h)).1 h.disj⟩

theorem UpsOk.sub {self : Nat} {u v : List Blk} (h : UpsOk self u) (p : List.Sublist v u) : UpsOk self v :=
  ⟨fun b hb => h.each b (p.subset hb), h.disj.sublist p⟩

theorem can_of {self : Nat} {h : Heap} {b : Blk} (hb : b ∈ h.ups) {a : Nat} (h8 : a % 8 = 0) (hi : Inside a 8 b.addr b.size) : can self h a = true := by
  unfold can Heap.owns
  simp only [Bool.or_eq_true, Bool.and_eq_true, decide_eq_true_eq, List.any_eq_true]
  exact .inr ⟨h8, b, hb, hi.1, hi.2⟩

theorem ld_ok {self : Nat} {h : Heap} {b : Blk} (hb : b ∈ h.ups) {a : Nat} (h8 : a % 8 = 0) (hi : Inside a 8 b.addr b.size) : ld self h a = .ok (h.mem a) := by
  unfold ld; rw [can_of hb h8 hi]; rfl

theorem st_ok {self : Nat} {h : Heap} {b : Blk} (hb : b ∈ h.ups) {a : Nat} (v : Nat) (h8 : a % 8 = 0) (hi : Inside a 8 b.addr b.size) :
    st self h a v = .ok ⟨upd h.mem a v, h.ups⟩ := by
  unfold st; rw [can_of hb h8 hi]; rfl

theorem ldm {self : Nat} {m : Words} {ups : List Blk} {b : Blk} (hb : b ∈ ups) {a : Nat} (h8 : a % 8 = 0) (hi : Inside a 8 b.addr b.size) :
    ld self ⟨m, ups⟩ a = .ok (m a) := ld_ok (h := ⟨m, ups⟩) hb h8 hi

theorem stm {self : Nat} {m : Words} {ups : List Blk} {b : Blk} (hb : b ∈ ups) {a : Nat} (v : Nat) (h8 : a % 8 = 0) (hi : Inside a 8 b.addr b.size) :
    st self ⟨m, ups⟩ a v = .ok ⟨upd m a v, ups⟩ := st_ok (h := ⟨m, ups⟩) hb v h8 hi

/-- What a chunk is about: the address of its first block, its capacity and number, how many blocks have ever been allocated, which of these (by index) are in
the free list, and which are handed out, with the size and alignment that were asked for. -/
structure GC where
  base : Nat
  cap : Nat
  id : Nat
  na : Nat
  free : List Nat
  used : List (Nat × Nat × Nat)

/-- The address of the header of a chunk with blocks of `bs` bytes. -/
def GC.hdr (bs : Nat) (c : GC) : Nat := c.base + c.cap * bs
/-- The upstream block of a chunk. -/
def GC.blk (bs : Nat) (c : GC) : Blk := ⟨c.base, c.cap * bs + 56, bs⟩
/-- The blocks handed out from a chunk. -/
def GC.out (bs : Nat) (c : GC) : List Blk := c.used.map fun u => ⟨c.base + u.1 * bs, u.2.1, u.2.2⟩
/-- No block is available. -/
def GC.full (c : GC) : Prop := c.used.length = c.cap

/-- The free list. -/
def FLink (base bs : Nat) (m : Words) : Nat → List Nat → Prop
  | v, [] => v = 0
  | v, i :: t => v = base + i * bs ∧ FLink base bs m (m (base + i * bs)) t

theorem FLink.congr {base bs : Nat} {m m' : Words} : ∀ {l : List Nat} {v : Nat}, (∀ i ∈ l, m' (base + i * bs) = m (base + i * bs)) →
    FLink base bs m v l → FLink base bs m' v l
  | [], _, _, h => h
  | i :: t, v, hm, h => by
    refine ⟨h.1, ?_⟩
    rw [hm i (List.mem_cons_self ..)]
    exact FLink.congr (fun j hj => hm j (List.mem_cons_of_mem _ hj)) h.2

/-- The memory of a chunk is in order. -/
structure ChunkOk (o : Opts) (lg bs : Nat) (m : Words) (c : GC) : Prop where
  capPos : 1 ≤ c.cap ∧ min 2 o.maxBlocks ≤ c.cap
  capMax : c.cap ≤ o.maxBlocks
  lim : c.base + c.cap * bs + 56 ≤ 2 ^ 64
  pos : 0 < c.base
  al : bs ∣ c.base
  f8 : FLink c.base bs m (m (c.hdr bs + 8)) c.free
  f16 : m (c.hdr bs + 16) = c.cap - c.used.length
  f24 : m (c.hdr bs + 24) = c.cap
  f32 : m (c.hdr bs + 32) = c.base
  f40 : m (c.hdr bs + 40) = c.na
  f48 : m (c.hdr bs + 48) = c.id
  own : ∀ i < c.na, m (c.base + i * bs + bs - 8) = c.hdr bs
  perm : (c.free ++ c.used.map (·.1)).Perm (List.range c.na)
  naCap : c.na ≤ c.cap
  usz : ∀ u ∈ c.used, u.2.1 + 8 ≤ bs ∧ u.2.2 ∣ bs ∧ u.2.1 ≤ o.largest ∧ logOf u.2.1 u.2.2 = lg

/-- Block sizes. -/
structure BsOk (bs : Nat) : Prop where
  m8 : bs % 8 = 0
  ge : 16 ≤ bs

theorem mul_sep {i j bs : Nat} (h : i < j) : i * bs + bs ≤ j * bs := by
  rw [← Nat.succ_mul]; exact Nat.mul_le_mul_right _ h

theorem mul8 {bs : Nat} (h : bs % 8 = 0) (i : Nat) : i * bs % 8 = 0 := by rw [Nat.mul_mod, h]; simp

variable {o : Opts} {lg bs : Nat} {m m' : Words} {c : GC}

theorem ChunkOk.base8 (h : ChunkOk o lg bs m c) (hb : BsOk bs) : c.base % 8 = 0 :=
  Nat.mod_eq_zero_of_dvd (Nat.dvd_trans (Nat.dvd_of_mod_eq_zero hb.m8) h.al)

theorem ChunkOk.hdr8 (h : ChunkOk o lg bs m c) (hb : BsOk bs) : c.hdr bs % 8 = 0 := by
  have := h.base8 hb; have := mul8 hb.m8 c.cap; unfold GC.hdr; omega

theorem ChunkOk.free_lt (h : ChunkOk o lg bs m c) {i : Nat} (hi : i ∈ c.free) : i < c.na := by
  have := h.perm.mem_iff.1 (List.mem_append_left _ hi); exact List.mem_range.1 this

theorem ChunkOk.used_lt (h : ChunkOk o lg bs m c) {u : Nat × Nat × Nat} (hu : u ∈ c.used) : u.1 < c.na := by
  have := h.perm.mem_iff.1 (List.mem_append_right _ (List.mem_map_of_mem hu)); exact List.mem_range.1 this

theorem ChunkOk.nodup (h : ChunkOk o lg bs m c) : (c.free ++ c.used.map (·.1)).Nodup := h.perm.nodup_iff.2 List.nodup_range

theorem ChunkOk.len (h : ChunkOk o lg bs m c) : c.free.length + c.used.length = c.na := by
  have := h.perm.length_eq; simpa using this

theorem ChunkOk.free_used (h : ChunkOk o lg bs m c) {i : Nat} (hi : i ∈ c.free) {u : Nat × Nat × Nat} (hu : u ∈ c.used) : i ≠ u.1 := by
  have := h.nodup
  rw [List.nodup_append] at this
  exact this.2.2 _ hi _ (List.mem_map_of_mem hu)

/-- Words of the chunk that do not overlap a block handed out. -/
def priv (bs : Nat) (c : GC) (w : Nat) : Prop := Inside w 8 c.base (c.cap * bs + 56) ∧ ∀ x ∈ c.out bs, Disj w 8 x.addr x.size

theorem ChunkOk.priv_hdr (h : ChunkOk o lg bs m c) {k : Nat} (hk : k ≤ 48) : priv bs c (c.hdr bs + k) := by
  refine ⟨by unfold Inside GC.hdr; omega, fun x hx => ?_⟩
  obtain ⟨u, hu, rfl⟩ := List.mem_map.1 hx
  have h1 := h.used_lt hu
  have h2 := h.naCap
  have h3 := (h.usz u hu).1
  have h4 := mul_sep (bs := bs) (show u.1 < c.cap by omega)
  unfold Disj GC.hdr; simp only; omega

theorem ChunkOk.priv_own (h : ChunkOk o lg bs m c) (hb : BsOk bs) {i : Nat} (hi : i < c.na) : priv bs c (c.base + i * bs + bs - 8) := by
  have h2 := h.naCap
  have h4 := mul_sep (bs := bs) (show i < c.cap by omega)
  have := hb.ge
  refine ⟨by unfold Inside; omega, fun x hx => ?_⟩
  obtain ⟨u, hu, rfl⟩ := List.mem_map.1 hx
  have h1 := h.used_lt hu
  have h3 := (h.usz u hu).1
  unfold Disj; simp only
  rcases Nat.lt_trichotomy u.1 i with h5 | h5 | h5
  · have := mul_sep (bs := bs) h5; omega
  · rw [h5]; omega
  · have := mul_sep (bs := bs) h5; omega

theorem ChunkOk.priv_free (h : ChunkOk o lg bs m c) (hb : BsOk bs) {i : Nat} (hi : i ∈ c.free) : priv bs c (c.base + i * bs) := by
  have h2 := h.naCap
  have h0 := h.free_lt hi
  have h4 := mul_sep (bs := bs) (show i < c.cap by omega)
  have := hb.ge
  refine ⟨by unfold Inside; omega, fun x hx => ?_⟩
  obtain ⟨u, hu, rfl⟩ := List.mem_map.1 hx
  have h3 := (h.usz u hu).1
  have hne := h.free_used hi hu
  unfold Disj; simp only
  rcases Nat.lt_or_gt_of_ne hne with h5 | h5
  · have := mul_sep (bs := bs) h5; omega
  · have := mul_sep (bs := bs) h5; omega

theorem ChunkOk.frame (h : ChunkOk o lg bs m c) (hb : BsOk bs) (hm : ∀ w, priv bs c w → w ≠ c.hdr bs → m' w = m w) : ChunkOk o lg bs m' c := by
  have hh : ∀ k, 0 < k → k ≤ 48 → m' (c.hdr bs + k) = m (c.hdr bs + k) := fun k h0 hk => hm _ (h.priv_hdr hk) (by omega)
  have lt : ∀ i, i < c.na → c.base + i * bs + bs ≤ c.hdr bs := fun i hi => by
    have := mul_sep (bs := bs) (show i < c.cap by have := h.naCap; omega); unfold GC.hdr; omega
  have := hb.ge
  refine ⟨h.capPos, h.capMax, h.lim, h.pos, h.al, ?_, ?_, ?_, ?_, ?_, ?_, ?_, h.perm, h.naCap, h.usz⟩
  · rw [hh 8 (by omega) (by omega)]
    exact h.f8.congr fun i hi => hm _ (h.priv_free hb hi) (by have := lt i (h.free_lt hi); omega)
  · rw [hh _ (by omega) (by omega)]; exact h.f16
  · rw [hh _ (by omega) (by omega)]; exact h.f24
  · rw [hh _ (by omega) (by omega)]; exact h.f32
  · rw [hh _ (by omega) (by omega)]; exact h.f40
  · rw [hh _ (by omega) (by omega)]; exact h.f48
  · intro i hi
    rw [hm _ (h.priv_own hb hi) (by have := lt i hi; omega)]; exact h.own i hi

/-- A request that fits the blocks of the pool. -/
def Fits (o : Opts) (lg bs sz al : Nat) : Prop := sz + 8 ≤ bs ∧ al ∣ bs ∧ sz ≤ o.largest ∧ logOf sz al = lg

/-- Taking a block from the free list. -/
theorem ChunkOk.pop (h : ChunkOk o lg bs m c) (hb : BsOk bs) {i : Nat} {t : List Nat} (hf : c.free = i :: t) {sz al : Nat} (hz : Fits o lg bs sz al) :
    ChunkOk o lg bs (upd (upd m (c.hdr bs + 16) (m (c.hdr bs + 16) - 1)) (c.hdr bs + 8) (m (c.base + i * bs))) ⟨c.base, c.cap, c.id, c.na, t, (i, sz, al) :: c.used⟩ := by
  have hi : i ∈ c.free := by rw [hf]; exact List.mem_cons_self ..
  have hlen := h.len
  rw [hf] at hlen
  simp only [List.length_cons] at hlen
  have hna := h.naCap
  have hge := hb.ge
  have lt : ∀ i, i < c.na → c.base + i * bs + bs ≤ c.hdr bs := fun i hi => by
    have := mul_sep (bs := bs) (show i < c.cap by omega); unfold GC.hdr; omega
  have hhdr : GC.hdr bs ⟨c.base, c.cap, c.id, c.na, t, (i, sz, al) :: c.used⟩ = c.hdr bs := rfl
  refine ⟨h.capPos, h.capMax, h.lim, h.pos, h.al, ?_, ?_, ?_, ?_, ?_, ?_, ?_, ?_, h.naCap, ?_⟩
  · rw [hhdr, upd_eq]
    have h8 := h.f8
    rw [hf] at h8
    refine h8.2.congr fun j hj => ?_
    have hj : j ∈ c.free := by rw [hf]; exact List.mem_cons_of_mem _ hj
    have := lt j (h.free_lt hj)
    rw [upd_ne _ _ (by show c.base + j * bs ≠ _; omega), upd_ne _ _ (by show c.base + j * bs ≠ _; omega)]
  · rw [hhdr, upd_ne _ _ (by omega), upd_eq, h.f16]; simp only [List.length_cons]; omega
  · rw [hhdr, upd_ne _ _ (by omega), upd_ne _ _ (by omega)]; exact h.f24
  · rw [hhdr, upd_ne _ _ (by omega), upd_ne _ _ (by omega)]; exact h.f32
  · rw [hhdr, upd_ne _ _ (by omega), upd_ne _ _ (by omega)]; exact h.f40
  · rw [hhdr, upd_ne _ _ (by omega), upd_ne _ _ (by omega)]; exact h.f48
  · intro j hj
    have := lt j hj
    show upd _ _ _ (c.base + j * bs + bs - 8) = _
    rw [hhdr, upd_ne _ _ (by omega), upd_ne _ _ (by omega)]; exact h.own j hj
  · have hp := h.perm
    rw [hf] at hp
    refine List.Perm.trans ?_ hp
    simp only [List.map_cons]
    exact List.perm_middle
  · intro u hu
    rcases List.mem_cons.1 hu with rfl | hu
    · exact hz
    · exact h.usz u hu

/-- Taking a block that has never been allocated. -/
theorem ChunkOk.bump (h : ChunkOk o lg bs m c) (hb : BsOk bs) (hn : c.na < c.cap) {sz al : Nat} (hz : Fits o lg bs sz al) :
    ChunkOk o lg bs (upd (upd (upd m (c.hdr bs + 16) (m (c.hdr bs + 16) - 1)) (c.hdr bs + 40) (c.na + 1)) (c.base + c.na * bs + bs - 8) (c.hdr bs))
      ⟨c.base, c.cap, c.id, c.na + 1, c.free, (c.na, sz, al) :: c.used⟩ := by
  have hlen := h.len
  have hge := hb.ge
  have lt : ∀ i, i < c.cap → c.base + i * bs + bs ≤ c.hdr bs := fun i hi => by
    have := mul_sep (bs := bs) hi; unfold GC.hdr; omega
  have ln := lt c.na hn
  have hhdr : GC.hdr bs ⟨c.base, c.cap, c.id, c.na + 1, c.free, (c.na, sz, al) :: c.used⟩ = c.hdr bs := rfl
  refine ⟨h.capPos, h.capMax, h.lim, h.pos, h.al, ?_, ?_, ?_, ?_, ?_, ?_, ?_, ?_, hn, ?_⟩
  · rw [hhdr, upd_ne _ _ (by omega), upd_ne _ _ (by omega), upd_ne _ _ (by omega)]
    refine h.f8.congr fun j hj => ?_
    have hj := h.free_lt hj
    have := lt j (by omega)
    have := mul_sep (bs := bs) hj
    rw [upd_ne _ _ (by show c.base + j * bs ≠ _; omega), upd_ne _ _ (by show c.base + j * bs ≠ _; omega), upd_ne _ _ (by show c.base + j * bs ≠ _; omega)]
  · rw [hhdr, upd_ne _ _ (by omega), upd_ne _ _ (by omega), upd_eq, h.f16]; simp only [List.length_cons]; omega
  · rw [hhdr, upd_ne _ _ (by omega), upd_ne _ _ (by omega), upd_ne _ _ (by omega)]; exact h.f24
  · rw [hhdr, upd_ne _ _ (by omega), upd_ne _ _ (by omega), upd_ne _ _ (by omega)]; exact h.f32
  · rw [hhdr, upd_ne _ _ (by omega), upd_eq]
  · rw [hhdr, upd_ne _ _ (by omega), upd_ne _ _ (by omega), upd_ne _ _ (by omega)]; exact h.f48
  · intro j hj
    show upd _ _ _ (c.base + j * bs + bs - 8) = _
    have hj : j < c.na + 1 := hj
    have := lt j (by omega)
    rw [hhdr]
    by_cases hjn : j = c.na
    · rw [hjn, upd_eq]
    · have := mul_sep (bs := bs) (show j < c.na by omega)
      rw [upd_ne _ _ (by omega), upd_ne _ _ (by omega), upd_ne _ _ (by omega)]; exact h.own j (by omega)
  · show (c.free ++ (c.na :: c.used.map (·.1))).Perm (List.range (c.na + 1))
    rw [List.range_succ]
    exact (List.perm_middle.trans (h.perm.cons _)).trans (List.perm_append_singleton ..).symm
  · intro u hu
    rcases List.mem_cons.1 hu with rfl | hu
    · exact hz
    · exact h.usz u hu

/-- Returning a block. -/
theorem ChunkOk.push (h : ChunkOk o lg bs m c) (hb : BsOk bs) {i sz al : Nat} {u1 u2 : List (Nat × Nat × Nat)} (hu : c.used = u1 ++ (i, sz, al) :: u2) :
    ChunkOk o lg bs (upd (upd (upd m (c.base + i * bs) (m (c.hdr bs + 8))) (c.hdr bs + 8) (c.base + i * bs)) (c.hdr bs + 16) (m (c.hdr bs + 16) + 1))
      ⟨c.base, c.cap, c.id, c.na, i :: c.free, u1 ++ u2⟩ := by
  have hi : (i, sz, al) ∈ c.used := by rw [hu]; simp
  have hin := h.used_lt hi
  simp only at hin
  have hlen := h.len
  have hlu : c.used.length = u1.length + u2.length + 1 := by rw [hu]; simp; omega
  have hna := h.naCap
  have hge := hb.ge
  have lt : ∀ i, i < c.cap → c.base + i * bs + bs ≤ c.hdr bs := fun i hi => by
    have := mul_sep (bs := bs) hi; unfold GC.hdr; omega
  have li := lt i (by omega)
  have hhdr : GC.hdr bs ⟨c.base, c.cap, c.id, c.na, i :: c.free, u1 ++ u2⟩ = c.hdr bs := rfl
  refine ⟨h.capPos, h.capMax, h.lim, h.pos, h.al, ?_, ?_, ?_, ?_, ?_, ?_, ?_, ?_, h.naCap, ?_⟩
  · rw [hhdr, upd_ne _ _ (by omega), upd_eq]
    refine ⟨rfl, ?_⟩
    simp only
    rw [upd_ne _ _ (by omega), upd_ne _ _ (by omega), upd_eq]
    refine h.f8.congr fun j hj => ?_
    have hne := h.free_used hj hi
    have hj := h.free_lt hj
    have := lt j (by omega)
    rw [upd_ne _ _ (by omega), upd_ne _ _ (by omega), upd_ne _ _ ?_]
    intro he
    rcases Nat.lt_or_gt_of_ne hne with h5 | h5
    · have := mul_sep (bs := bs) h5; simp only at this; omega
    · have := mul_sep (bs := bs) h5; simp only at this; omega
  · rw [hhdr, upd_eq, h.f16]; simp only [List.length_append]; omega
  · rw [hhdr, upd_ne _ _ (by omega), upd_ne _ _ (by omega), upd_ne _ _ (by omega)]; exact h.f24
  · rw [hhdr, upd_ne _ _ (by omega), upd_ne _ _ (by omega), upd_ne _ _ (by omega)]; exact h.f32
  · rw [hhdr, upd_ne _ _ (by omega), upd_ne _ _ (by omega), upd_ne _ _ (by omega)]; exact h.f40
  · rw [hhdr, upd_ne _ _ (by omega), upd_ne _ _ (by omega), upd_ne _ _ (by omega)]; exact h.f48
  · intro j hj
    have hj : j < c.na := hj
    have := lt j (by omega)
    show upd _ _ _ (c.base + j * bs + bs - 8) = _
    rw [hhdr, upd_ne _ _ (by omega), upd_ne _ _ (by omega), upd_ne _ _ ?_]
    · exact h.own j hj
    · intro he
      rcases Nat.lt_trichotomy j i with h5 | h5 | h5
      · have := mul_sep (bs := bs) h5; omega
      · subst h5; omega
      · have := mul_sep (bs := bs) h5; omega
  · have hp := h.perm
    rw [hu] at hp
    refine List.Perm.trans ?_ hp
    simp only [List.map_append, List.map_cons]
    rw [List.perm_iff_count]
    intro a
    simp only [List.count_append, List.count_cons, List.cons_append]
    omega
  · intro u hu2
    refine h.usz u ?_
    rw [hu]
    rcases List.mem_append.1 hu2 with h1 | h1
    · exact List.mem_append_left _ h1
    · exact List.mem_append_right _ (List.mem_cons_of_mem _ h1)

/-- A chunk that has just been obtained. -/
theorem ChunkOk.fresh {base cap id : Nat} (hb : BsOk bs) (hc : 1 ≤ cap ∧ min 2 o.maxBlocks ≤ cap) (hcm : cap ≤ o.maxBlocks) (hl : base + cap * bs + 56 ≤ 2 ^ 64) (hp : 0 < base) (ha : bs ∣ base)
    (h8 : m (base + cap * bs + 8) = 0) (h16 : m (base + cap * bs + 16) = cap) (h24 : m (base + cap * bs + 24) = cap) (h32 : m (base + cap * bs + 32) = base)
    (h40 : m (base + cap * bs + 40) = 0) (h48 : m (base + cap * bs + 48) = id) : ChunkOk o lg bs m ⟨base, cap, id, 0, [], []⟩ :=
  ⟨hc, hcm, hl, hp, ha, h8, h16, h24, h32, h40, h48, fun _ h => absurd h (Nat.not_lt_zero _), List.Perm.refl _, Nat.zero_le _, fun _ h => by cases h⟩

end STL.PoolRes
