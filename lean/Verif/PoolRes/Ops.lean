import Verif.PoolRes.Inv

/-! # `unsynchronized_pool_resource`: the operations keep the invariant -/

namespace STL.PoolRes
open STL STL.Pmr

theorem log2_or_one {x : Nat} (h : 1 ≤ x) : Nat.log2 (x ||| 1) = Nat.log2 x := by
  have h0 : x ≠ 0 := by omega
  have h1 : 2 ^ x.log2 ≤ x := Nat.log2_self_le h0
  have h2 : x < 2 ^ (x.log2 + 1) := Nat.lt_log2_self
  have h3 : x ≤ x ||| 1 := Nat.left_le_or
  have h4 : x ||| 1 < 2 ^ (x.log2 + 1) := Nat.or_lt_two_pow h2 (by rw [pow_succ]; have : 0 < 2 ^ x.log2 := by positivity
                                                                   omega)
  exact (Nat.log2_eq_iff (by omega)).2 ⟨by omega, h4⟩

theorem ceil_ok {v : Nat} (h2 : 2 ≤ v) (hv : v < 2 ^ 64) : 1 ≤ ceilLog2 v ∧ v ≤ 2 ^ ceilLog2 v ∧ 2 ^ (ceilLog2 v - 1) < v := by
  unfold ceilLog2 floorLog2
  rw [wrap8_ok (by omega) (by omega), show ((v : Int) - 1).toNat = v - 1 by omega, log2_or_one (by omega)]
  have h1 : 2 ^ (v - 1).log2 ≤ v - 1 := Nat.log2_self_le (by omega)
  have h2 : v - 1 < 2 ^ ((v - 1).log2 + 1) := Nat.lt_log2_self
  rw [show 1 + (v - 1).log2 = (v - 1).log2 + 1 by omega]
  exact ⟨by omega, by omega, by simp; omega⟩

/-- The requests the theorems are about; see the two defects for the others. -/
def Req (bytes al : Nat) : Prop := bytes < 2 ^ 64 ∧ (1 ≤ bytes ∨ 16 ≤ al) ∧ ∃ k ≤ 61, al = 2 ^ k

theorem pow_lt_inv {a b : Nat} (h : 2 ^ a < 2 ^ b) : a < b := (Nat.pow_lt_pow_iff_right (by omega)).1 h

theorem logOf_ok {bytes al : Nat} (hr : Req bytes al) (hb : bytes ≤ 2 ^ 59) : 4 ≤ logOf bytes al ∧ logOf bytes al ≤ 61 ∧ bytes + 8 ≤ 2 ^ logOf bytes al ∧ al ∣ 2 ^ logOf bytes al := by
  obtain ⟨-, h1, k, hk, rfl⟩ := hr
  have hkp := pow_ge hk
  have hw : wrap 8 ((bytes : Int) + 8) = bytes + 8 := by
    rw [wrap8_ok (by omega) (by norm_num at *; omega)]; omega
  obtain ⟨M, hM⟩ : ∃ M, M = max (bytes + 8) (2 ^ k) := ⟨_, rfl⟩
  have hM1 : bytes + 8 ≤ M := by rw [hM]; exact le_max_left _ _
  have hM2 : 2 ^ k ≤ M := by rw [hM]; exact le_max_right _ _
  have hM3 : M ≤ 2 ^ 61 := by rw [hM]; exact max_le (by norm_num at *; omega) hkp
  obtain ⟨c1, c2, c3⟩ := ceil_ok (v := M) (by omega) (lt_of_le_of_lt hM3 (by norm_num))
  have c4 : ceilLog2 M - 1 < 61 := pow_lt_inv (lt_of_lt_of_le c3 hM3)
  have c5 : 3 < ceilLog2 M := pow_lt_inv (lt_of_lt_of_le (show 2 ^ 3 < M by omega) c2)
  have c6 : k ≤ ceilLog2 M := by
    by_contra hlt
    have := pow_ge (show ceilLog2 M + 1 ≤ k by omega)
    rw [pow_succ] at this
    have : 0 < 2 ^ ceilLog2 M := by positivity
    omega
  have he : logOf bytes (2 ^ k) = ceilLog2 M := by
    unfold logOf
    rw [hw, ← hM]
    exact Nat.mod_eq_of_lt (lt_of_le_of_lt (show ceilLog2 M ≤ 61 by omega) (by norm_num))
  rw [he]
  exact ⟨by omega, by omega, by omega, pow_dvd_pow 2 c6⟩

theorem setup_ok (o : Opts) (h1 : o.maxBlocks < 2 ^ 64) (h2 : o.largest < 2 ^ 64) :
    1 ≤ (setupOptions o).maxBlocks ∧ (setupOptions o).maxBlocks ≤ ptrdiffMax ∧ (1 ≤ o.maxBlocks → o.maxBlocks ≤ ptrdiffMax → (setupOptions o).maxBlocks = o.maxBlocks) ∧
    (o.maxBlocks = 0 ∨ ptrdiffMax < o.maxBlocks → (setupOptions o).maxBlocks = ptrdiffMax) ∧
    8 ≤ (setupOptions o).largest ∧ (∃ k ≤ 59, (setupOptions o).largest = 2 ^ k) ∧ (o.largest ≤ 2 ^ 59 → o.largest ≤ (setupOptions o).largest) ∧
    (o.largest ≤ 2 ^ 59 → ∀ k, 3 ≤ k → o.largest ≤ 2 ^ k → 1 ≤ o.largest → (setupOptions o).largest ≤ 2 ^ k) ∧
    (o.largest = 0 ∨ 2 ^ 59 < o.largest → (setupOptions o).largest = 2 ^ 59) := by
  unfold setupOptions
  simp only
  have hw0 : ∀ v : Nat, v < 2 ^ 64 → wrap 8 ((v : Int) - 1) = if v = 0 then 2 ^ 64 - 1 else v - 1 := by
    intro v hv
    by_cases h : v = 0
    · subst h; decide
    · rw [if_neg h, wrap8_ok (by omega) (by omega)]; omega
  have hL : ptrdiffMax / 2 ^ 4 + 1 = 2 ^ 59 := by decide
  rw [hw0 _ h1, hw0 _ h2, hL]
  have hp : ptrdiffMax = 2 ^ 63 - 1 := rfl
  have A : ∀ (x : Nat), x = (if (if o.maxBlocks = 0 then 2 ^ 64 - 1 else o.maxBlocks - 1) ≥ ptrdiffMax then ptrdiffMax else o.maxBlocks) →
      1 ≤ x ∧ x ≤ ptrdiffMax ∧ (1 ≤ o.maxBlocks → o.maxBlocks ≤ ptrdiffMax → x = o.maxBlocks) ∧ (o.maxBlocks = 0 ∨ ptrdiffMax < o.maxBlocks → x = ptrdiffMax) := by
    intro x hx
    rw [hp] at hx ⊢
    split at hx <;> split at hx <;> omega
  obtain ⟨a1, a2, a3, a4⟩ := A _ rfl
  refine ⟨a1, a2, a3, a4, ?_⟩
  by_cases hz : o.largest = 0
  · rw [if_pos hz, if_neg (by norm_num), if_pos (by norm_num)]
    refine ⟨by norm_num, ⟨59, le_refl _, rfl⟩, fun _ => by omega, fun _ k _ _ h => by omega, fun _ => rfl⟩
  · rw [if_neg hz]
    by_cases h8 : o.largest - 1 < 8
    · rw [if_pos h8]
      refine ⟨le_refl _, ⟨3, by omega, rfl⟩, fun _ => by omega, fun _ k hk _ _ => pow_ge hk, fun h => ?_⟩
      have : (2 : Nat) ^ 59 = 576460752303423488 := by norm_num
      omega
    · rw [if_neg h8]
      by_cases hl : o.largest - 1 ≥ 2 ^ 59
      · rw [if_pos hl]
        have : (2 : Nat) ^ 59 = 576460752303423488 := by norm_num
        exact ⟨by omega, ⟨59, le_refl _, rfl⟩, fun _ => by omega, fun _ k _ _ _ => by omega, fun _ => rfl⟩
      · rw [if_neg hl]
        obtain ⟨c1, c2, c3⟩ := ceil_ok (v := o.largest) (by omega) h2
        have h59 : (2 : Nat) ^ 59 = 576460752303423488 := by norm_num
        have c4 : ceilLog2 o.largest - 1 < 59 := pow_lt_inv (lt_of_lt_of_le c3 (by omega))
        refine ⟨by omega, ⟨_, by omega, rfl⟩, fun _ => c2, fun _ k _ hk _ => ?_, fun h => by omega⟩
        have := pow_lt_inv (lt_of_lt_of_le c3 hk)
        exact pow_ge (by omega)

/-- `_Find_pool` splits the pools at the wanted size. -/
theorem find_split : ∀ (gs : List GP) (lg : Nat), gs.Pairwise (fun a b => a.1.log < b.1.log) →
    ∃ l1 l2, gs = l1 ++ l2 ∧ findPool (gs.map (·.1)) lg = l1.length ∧ (∀ g ∈ l1, g.1.log < lg) ∧ ∀ g ∈ l2, lg ≤ g.1.log
  | [], lg, _ => ⟨[], [], rfl, rfl, by simp, by simp⟩
  | g :: t, lg, hs => by
    rw [List.pairwise_cons] at hs
    by_cases h : g.1.log < lg
    · obtain ⟨l1, l2, h1, h2, h3, h4⟩ := find_split t lg hs.2
      refine ⟨g :: l1, l2, by rw [h1]; rfl, ?_, ?_, h4⟩
      · unfold findPool at h2 ⊢
        simp only [List.map_cons, List.findIdx_cons, h, not_true_eq_false, decide_false, cond_false, List.length_cons]
        rw [h2]
      · intro q hq
        rcases List.mem_cons.1 hq with rfl | hq
        · exact h
        · exact h3 q hq
    · refine ⟨[], g :: t, rfl, ?_, by simp, ?_⟩
      · unfold findPool
        have h' : lg ≤ g.1.log := by omega
        simp [List.findIdx_cons, h']
      · intro q hq
        rcases List.mem_cons.1 hq with rfl | hq
        · omega
        · have := hs.1 q hq; omega

theorem insertIdx_mid {α : Type} (a : α) (l2 : List α) : ∀ l1 : List α, (l1 ++ l2).insertIdx l1.length a = l1 ++ a :: l2
  | [] => by simp
  | x :: l1 => by simp only [List.cons_append, List.length_cons, List.insertIdx_succ_cons, insertIdx_mid a l2 l1]

/-- A refused allocation has asked the upstream resource for something. -/
def Refused (up : Up) : Prop := ∃ ups size al, up ups size al = none

/-- `_Allocate` of the pool found. -/
theorem allocIn_ok {sf : Nat} {h : Heap} {s : Res} {out : List Blk} {l1 l2 : List GP} {g : GP} {ovs : List Blk} (hi : RInv sf h s out (l1 ++ g :: l2) ovs) {up : Up} (hu : UpOk sf up)
    {bytes al : Nat} (hr : Req bytes al) (hb : bytes ≤ s.opts.largest) (hl : g.1.log = logOf bytes al) :
    (∃ s' gs', allocIn sf h s l1.length up = .ok (h, s', .error .badAlloc) ∧ RInv sf h s' out gs' ovs ∧ Refused up) ∨
    ∃ h' s' gs' b, allocIn sf h s l1.length up = .ok (h', s', .ok b) ∧ RInv sf h' s' (⟨b, bytes, al⟩ :: out) gs' ovs ∧
      ∀ w, h'.mem w ≠ h.mem w → ∀ x ∈ out, Disj w 8 x.addr x.size := by
  have hp := hi.each g (by simp)
  obtain ⟨f1, f2, f3, f4⟩ := logOf_ok hr (hb.trans hi.lim)
  have hz : Fits s.opts g.1.log g.1.bsize bytes al := by
    rw [hp.bsz, hl]; exact ⟨f3, f4, hb, rfl⟩
  have hget : s.pools[l1.length]? = some g.1 := by rw [hi.pools]; simp
  unfold allocIn
  rw [hget]
  simp only
  rcases allocLoop_ok hp hi.ctx hu hi.mb hz with ⟨p1, e1, e2, e3, e4, size, e5⟩ | ⟨h1, p1, b, e1, cs1, k1, k2, k3, k4, k5, k6, k7⟩
  · left
    rw [e1, R.ok_bind]
    refine ⟨_, _, rfl, (hi.setPool (h1 := h) e2 e3 e4 hi.ctx (fun w hw => absurd rfl hw) hi.out_split).1, _, _, _, e5⟩
  · right
    rw [e1, R.ok_bind]
    have := hi.setPool k1 k2 k3 k4 (out1 := ⟨b, bytes, al⟩ :: out) (fun w hw => by
      obtain ⟨c, hc, hin⟩ := (k6 w hw).1; exact ⟨c, .inr hc, hin⟩) (by
      refine (hi.out_split.cons _).trans ?_
      rw [← List.cons_append]
      exact (k5.symm.append_right _))
    refine ⟨_, _, _, _, rfl, this.1, fun w hw x hx => ?_⟩
    rcases List.mem_append.1 (hi.out_split.mem_iff.1 hx) with h2 | h2
    · exact (k6 w hw).2 x h2
    · exact this.2 w hw x h2

theorem make_ok {o : Opts} {m : Words} {lg : Nat} (h4 : 4 ≤ lg) (h61 : lg ≤ 61) : PoolOk o m (PoolRec.make lg) [] := by
  have hp := pow_ge h61
  have hbs : 2 ^ lg % 2 ^ 64 = 2 ^ lg := Nat.mod_eq_of_lt (lt_of_le_of_lt hp (by norm_num))
  refine ⟨h4, h61, hbs, rfl, by simp, List.Pairwise.nil, .inl ⟨rfl, by simp⟩, .inl rfl, by simp, ⟨by simp [PoolRec.make], (min_le_left _ _).trans (by simp [PoolRec.make])⟩, ?_⟩
  simp only [PoolRec.make]
  have h1 : min 4 o.maxBlocks ≤ 4 := min_le_left _ _
  have h2 := Nat.mul_le_mul h1 hp
  norm_num at h2 ⊢
  omega

theorem freeVec_ok {sf : Nat} {m : Words} {ups R : List Blk} {s : Res} (hu : UpsOk sf ups) (hp : ups.Perm (vblk s ++ R)) :
    ∃ ups', freeVec ⟨m, ups⟩ s = .ok ⟨m, ups'⟩ ∧ UpsOk sf ups' ∧ ups'.Perm R := by
  unfold freeVec
  unfold vblk at hp
  by_cases h0 : s.vcap = 0
  · rw [if_pos h0] at hp ⊢
    exact ⟨ups, rfl, hu, hp⟩
  · rw [if_neg h0] at hp ⊢
    have hm : (⟨s.vaddr, s.vcap * 48, 8⟩ : Blk) ∈ ups := hp.mem_iff.2 (by simp)
    refine ⟨ups.erase ⟨s.vaddr, s.vcap * 48, 8⟩, ?_, hu.sub List.erase_sublist, ?_⟩
    · unfold Heap.dealloc; exact if_pos hm
    · have := hp.erase (⟨s.vaddr, s.vcap * 48, 8⟩ : Blk)
      simpa using this

theorem emplace_ok {sf : Nat} {h : Heap} {s : Res} {out : List Blk} {l1 l2 : List GP} {ovs : List Blk} (hi : RInv sf h s out (l1 ++ l2) ovs) {up : Up} (hu : UpOk sf up) {lg : Nat}
    (h4 : 4 ≤ lg) (h61 : lg ≤ 61) (hlo : ∀ g ∈ l1, g.1.log < lg) (hhi : ∀ g ∈ l2, lg < g.1.log) :
    (emplacePool h s l1.length lg up = .ok none ∧ Refused up) ∨
    ∃ h' s', emplacePool h s l1.length lg up = .ok (some (h', s')) ∧ h'.mem = h.mem ∧ s'.opts = s.opts ∧ RInv sf h' s' out (l1 ++ (PoolRec.make lg, []) :: l2) ovs := by
  have hmk := make_ok (o := s.opts) (m := h.mem) h4 h61
  have hins : s.pools.insertIdx l1.length (PoolRec.make lg) = (l1 ++ (PoolRec.make lg, []) :: l2).map (·.1) := by
    rw [hi.pools]
    simp only [List.map_append, List.map_cons]
    have : l1.length = (l1.map (·.1) : List PoolRec).length := by simp
    rw [this, insertIdx_mid]
  have hsort : (l1 ++ (PoolRec.make lg, ([] : List GC)) :: l2).Pairwise fun a b => a.1.log < b.1.log := by
    have := hi.sorted
    simp only [List.pairwise_append, List.pairwise_cons, List.mem_cons] at this ⊢
    refine ⟨this.1, ⟨fun a ha => hhi a ha, this.2.1⟩, fun a ha b hb => ?_⟩
    rcases hb with rfl | hb
    · exact hlo a ha
    · exact this.2.2 a ha b hb
  have heach : ∀ g ∈ l1 ++ (PoolRec.make lg, ([] : List GC)) :: l2, PoolOk s.opts h.mem g.1 g.2 := by
    intro g hg
    rcases mem_split_cases hg with rfl | hg
    · exact hmk
    · exact hi.each g hg
  have hgb : (l1 ++ (PoolRec.make lg, ([] : List GC)) :: l2).flatMap gblks = (l1 ++ l2).flatMap gblks := by simp [gblks]
  have hgo : (l1 ++ (PoolRec.make lg, ([] : List GC)) :: l2).flatMap gout = (l1 ++ l2).flatMap gout := by simp [gout]
  have hlen : s.pools.length = (l1 ++ l2).length := by rw [hi.pools]; simp
  have hvc := hi.vcap
  unfold emplacePool
  by_cases hf : s.pools.length = s.vcap
  · rw [if_pos hf]
    simp only
    cases hup : up h.ups (max (s.vcap + s.vcap / 2) (s.pools.length + 1) * 48) 8 with
    | none => exact .inl ⟨rfl, _, _, _, hup⟩
    | some a =>
      right
      obtain ⟨nc, hnc⟩ : ∃ nc, nc = max (s.vcap + s.vcap / 2) (s.pools.length + 1) := ⟨_, rfl⟩
      have hnc1 : s.pools.length + 1 ≤ nc := by rw [hnc]; exact le_max_right _ _
      rw [← hnc] at hup ⊢
      simp only
      have hups := hi.ups.cons hu hup
      have hperm : (⟨a, nc * 48, 8⟩ :: h.ups : List Blk).Perm (vblk s ++ (⟨a, nc * 48, 8⟩ :: (ovs.map oblk ++ (l1 ++ l2).flatMap gblks))) :=
        (hi.perm.cons _).trans List.perm_middle.symm
      obtain ⟨ups', e1, e2, e3⟩ := freeVec_ok (m := h.mem) hups hperm
      rw [e1, R.ok_bind]
      refine ⟨_, _, rfl, rfl, rfl, hins, hsort, heach, ?_, e2, ?_, ?_, hi.ov, hi.mb, hi.lim⟩
      · simp only [List.length_append, List.length_cons] at hlen ⊢; omega
      · refine e3.trans ?_
        unfold vblk
        simp only
        rw [if_neg (by omega), hgb]
        simp
      · rw [hgo]; exact hi.out
  · rw [if_neg hf]
    right
    refine ⟨_, _, rfl, rfl, rfl, hins, hsort, heach, ?_, hi.ups, ?_, ?_, hi.ov, hi.mb, hi.lim⟩
    · simp only [List.length_append, List.length_cons] at hlen hvc ⊢; omega
    · rw [hgb]; exact hi.perm
    · rw [hgo]; exact hi.out

/-! ## Oversized allocations -/

/-- The header words of an oversized block overlap no block handed out. -/
theorem ov_words {sf : Nat} {o : Opts} {m : Words} {ups V : List Blk} {gs : List GP} {ovs : List Blk} (hu : UpsOk sf ups) (hp : ups.Perm (V ++ (ovs.map oblk ++ gs.flatMap gblks)))
    (he : ∀ g ∈ gs, PoolOk o m g.1 g.2) {x y : Blk} (hx : x ∈ ovs) (hy : y ∈ ovs ++ gs.flatMap gout) {k : Nat} (hk : k ≤ 24) : Disj (ohdr x + k) 8 y.addr y.size := by
  have hge := oadj_ge x.size
  have h2 : (ovs.map oblk ++ gs.flatMap gblks).Pairwise fun a b => Disj a.addr a.size b.addr b.size := (hu.perm hp).disj.sublist (List.sublist_append_right ..)
  rw [List.pairwise_append] at h2
  rcases List.mem_append.1 hy with h1 | h1
  · obtain ⟨o1, o2, ho⟩ := List.append_of_mem hx
    rcases mem_split_cases (ho ▸ h1) with rfl | hyo
    · unfold Disj ohdr; omega
    · have h2 := h2.1
      rw [ho, List.pairwise_map] at h2
      have h3 := split_rel (r := fun a b : Blk => Disj (oblk a).addr (oblk a).size (oblk b).addr (oblk b).size) (fun _ _ h => disj_comm h) h2 y hyo
      have h4 := over_in y
      unfold Disj ohdr; unfold Disj at h3; unfold Inside at h4; simp only [oblk] at h3 h4; omega
  · obtain ⟨q, hq, hyq⟩ := List.mem_flatMap.1 h1
    obtain ⟨b, hb, hib⟩ := pool_out_in (he q hq) hyq
    have h3 := h2.2.2 (oblk x) (List.mem_map_of_mem hx) b (List.mem_flatMap.2 ⟨q, hq, hb⟩)
    unfold Disj ohdr; unfold Disj at h3; unfold Inside at hib; simp only [oblk] at h3; omega

/-- The words of the list head overlap no upstream block. -/
theorem self_words {sf : Nat} {ups : List Blk} (hu : UpsOk sf ups) {b : Blk} (hb : b ∈ ups) {a n w : Nat} (hin : Inside a n b.addr b.size) (hw : w = sf ∨ w = sf + 8) : Disj w 8 a n := by
  have := (hu.each b hb).2.2.2
  unfold Disj at *; unfold Inside at hin; omega

/-- The list of oversized blocks changes. -/
theorem RInv.setOv {sf : Nat} {h : Heap} {s : Res} {out : List Blk} {gs : List GP} {ovs : List Blk} (hi : RInv sf h s out gs ovs) {h1 : Heap} {ovs1 out1 : List Blk} (hu : UpsOk sf h1.ups)
    (hp : h1.ups.Perm (vblk s ++ (ovs1.map oblk ++ gs.flatMap gblks))) (ho : OvOk sf s.opts.largest h1.mem ovs1) (hout : out1.Perm (ovs1 ++ gs.flatMap gout))
    (hch : ∀ w, h1.mem w ≠ h.mem w → w = sf ∨ w = sf + 8 ∨ ∃ x, (x ∈ ovs ∨ x ∈ ovs1) ∧ ∃ k ≤ 24, w = ohdr x + k) : RInv sf h1 s out1 gs ovs1 := by
  refine ⟨hi.pools, hi.sorted, fun g hg => ?_, hi.vcap, hu, hp, hout, ho, hi.mb, hi.lim⟩
  refine (hi.each g hg).frame fun c hc w hw => ?_
  by_contra hne
  have hb : c.blk g.1.bsize ∈ gs.flatMap gblks := List.mem_flatMap.2 ⟨g, hg, List.mem_map_of_mem hc⟩
  have hbu : c.blk g.1.bsize ∈ h.ups := hi.perm.mem_iff.2 (List.mem_append_right _ (List.mem_append_right _ hb))
  have hin := hw.1
  rcases hch w hne with h2 | h2 | ⟨x, hx, k, hk, rfl⟩
  · have := self_words hi.ups hbu hin (.inl h2); unfold Disj at this; omega
  · have := self_words hi.ups hbu hin (.inr h2); unfold Disj at this; omega
  · have hd : Disj (oblk x).addr (oblk x).size (c.blk g.1.bsize).addr (c.blk g.1.bsize).size := by
      rcases hx with hx | hx
      · have h2 : (ovs.map oblk ++ gs.flatMap gblks).Pairwise fun a b => Disj a.addr a.size b.addr b.size := (hi.ups.perm hi.perm).disj.sublist (List.sublist_append_right ..)
        rw [List.pairwise_append] at h2
        exact h2.2.2 _ (List.mem_map_of_mem hx) _ hb
      · have h2 : (ovs1.map oblk ++ gs.flatMap gblks).Pairwise fun a b => Disj a.addr a.size b.addr b.size := (hu.perm hp).disj.sublist (List.sublist_append_right ..)
        rw [List.pairwise_append] at h2
        exact h2.2.2 _ (List.mem_map_of_mem hx) _ hb
    have h3 := ohdr_in x hk
    unfold Disj at hd; unfold Inside at hin h3; simp only [GC.blk] at hd; omega

theorem DSeg.head {sf : Nat} {m : Words} {a : Nat} {L : List Nat} (h : DSeg sf m a L) : m a = sf ∨ m a ∈ L := by
  cases L with
  | nil => exact .inl h.1
  | cons n t => rw [h.1]; exact .inr (List.mem_cons_self ..)

/-- Headers lie apart. -/
theorem ohdr_far {sf : Nat} {ups V W : List Blk} {ovs : List Blk} (hu : UpsOk sf ups) (hp : ups.Perm (V ++ (ovs.map oblk ++ W))) {x y : Blk} (hx : x ∈ ovs) (hy : y ∈ ovs)
    (hne : ohdr x ≠ ohdr y) : ohdr x + 32 ≤ ohdr y ∨ ohdr y + 32 ≤ ohdr x := by
  have h2 : (ovs.map oblk ++ W).Pairwise fun a b => Disj a.addr a.size b.addr b.size := (hu.perm hp).disj.sublist (List.sublist_append_right ..)
  rw [List.pairwise_append] at h2
  obtain ⟨o1, o2, ho⟩ := List.append_of_mem hx
  have h3 := h2.1
  rcases mem_split_cases (ho ▸ hy) with rfl | hyo
  · exact absurd rfl hne
  · rw [ho, List.pairwise_map] at h3
    have h3 := split_rel (r := fun a b : Blk => Disj (oblk a).addr (oblk a).size (oblk b).addr (oblk b).size) (fun _ _ h => disj_comm h) h3 y hyo
    have := oadj_ge x.size
    have := oadj_ge y.size
    unfold ohdr; unfold Disj at h3; simp only [oblk] at h3; omega

theorem ohdr_self {sf : Nat} {ups : List Blk} (hu : UpsOk sf ups) {x : Blk} (hx : oblk x ∈ ups) : ohdr x + 32 ≤ sf ∨ sf + 16 ≤ ohdr x := by
  have h1 := (hu.each _ hx).2.2.2
  have := oadj_ge x.size
  unfold Disj at h1; unfold ohdr; simp only [oblk] at h1; omega

theorem can_hdr {sf : Nat} {m : Words} {ups : List Blk} (hu : UpsOk sf ups) {x : Blk} (hx : oblk x ∈ ups) (hp : ∃ k, x.align = 2 ^ k) {k : Nat} (hk : k ≤ 24) (h8 : k % 8 = 0) :
    can sf ⟨m, ups⟩ (ohdr x + k) = true := by
  have := ohdr8 hu hx hp
  exact can_of (b := oblk x) hx (by omega) (ohdr_in x hk)

theorem allocOver_ok {sf : Nat} {h : Heap} {s : Res} {out : List Blk} {gs : List GP} {ovs : List Blk} (hi : RInv sf h s out gs ovs) {up : Up} (hu : UpOk sf up) {bytes al : Nat}
    (hb : bytes < 2 ^ 64) (hl : s.opts.largest < bytes) (ha : ∃ k, al = 2 ^ k) :
    (allocateOversized sf h bytes al up = .ok (h, .error .badAlloc) ∧ (2 ^ 64 - 40 < bytes ∨ Refused up)) ∨
    ∃ h' p ovs', allocateOversized sf h bytes al up = .ok (h', .ok p) ∧ RInv sf h' s (⟨p, bytes, al⟩ :: out) gs ovs' ∧
      ∀ w, h'.mem w ≠ h.mem w → ∀ x ∈ out, Disj w 8 x.addr x.size := by
  unfold allocateOversized
  rw [prepare_eq hb]
  by_cases hbig : 2 ^ 64 - 40 < bytes
  · rw [if_pos hbig]; exact .inl ⟨rfl, .inl hbig⟩
  · rw [if_neg hbig]
    simp only
    cases hup : up h.ups (oadj bytes) (max al 8) with
    | none => exact .inl ⟨rfl, .inr ⟨_, _, _, hup⟩⟩
    | some p =>
      right
      simp only
      obtain ⟨x, hx⟩ : ∃ x : Blk, x = ⟨p, bytes, al⟩ := ⟨_, rfl⟩
      have hxb : oblk x = ⟨p, oadj bytes, max al 8⟩ := by rw [hx]; rfl
      have hxh : p + oadj bytes - 32 = ohdr x := by rw [hx]; rfl
      have hups := hi.ups.cons hu hup
      rw [← hxb] at hups
      rw [← hxb, hxh]
      have hxm : oblk x ∈ oblk x :: h.ups := List.mem_cons_self ..
      have hxa : ∃ k, x.align = 2 ^ k := by rw [hx]; exact ha
      have hperm : (oblk x :: h.ups).Perm (vblk s ++ ((x :: ovs).map oblk ++ gs.flatMap gblks)) := (hi.perm.cons _).trans List.perm_middle.symm
      have hcan : ∀ k, k ≤ 24 → k % 8 = 0 → can sf ⟨h.mem, oblk x :: h.ups⟩ (ohdr x + k) = true := fun k hk h8 => can_hdr hups hxm hxa hk h8
      rw [stc (hcan 16 (by omega) (by omega)), R.ok_bind, stc (hcan 24 (by omega) (by omega)), R.ok_bind]
      obtain ⟨m2, hm2⟩ : ∃ m2, m2 = upd (upd h.mem (ohdr x + 16) (oadj bytes)) (ohdr x + 24) (max al 8) := ⟨_, rfl⟩
      rw [← hm2]
      have hself := ohdr_self hups hxm
      have hm2s : m2 sf = h.mem sf := by rw [hm2, upd_ne _ _ (by omega), upd_ne _ _ (by omega)]
      have hm2s8 : m2 (sf + 8) = h.mem (sf + 8) := by rw [hm2, upd_ne _ _ (by omega), upd_ne _ _ (by omega)]
      have hold : ∀ y ∈ ovs, oblk y ∈ oblk x :: h.ups := fun y hy => hperm.mem_iff.2 (by simp [List.mem_map_of_mem hy])
      have hnew : ∀ y ∈ ovs, ohdr x ≠ ohdr y := by
        intro y hy he
        have h2 : ((x :: ovs).map oblk ++ gs.flatMap gblks).Pairwise fun a b => Disj a.addr a.size b.addr b.size := (hups.perm hperm).disj.sublist (List.sublist_append_right ..)
        rw [List.pairwise_append, List.map_cons, List.pairwise_cons] at h2
        have h3 := h2.1.1 _ (List.mem_map_of_mem hy)
        have := oadj_ge x.size
        have := oadj_ge y.size
        unfold ohdr at he; unfold Disj at h3; simp only [oblk] at h3; omega
      have hfar : ∀ y ∈ ovs, ohdr x + 32 ≤ ohdr y ∨ ohdr y + 32 ≤ ohdr x := fun y hy => ohdr_far hups hperm (by simp) (by simp [hy]) (hnew y hy)
      have hov2 : OvOk sf s.opts.largest m2 ovs := by
        refine hi.ov.frame hm2s hm2s8 fun y hy k hk => ?_
        have := hfar y hy
        rw [hm2, upd_ne _ _ (by omega), upd_ne _ _ (by omega)]
      have hhd := hov2.list.head
      have hcn : can sf ⟨m2, oblk x :: h.ups⟩ (m2 sf + 8) = true := by
        rcases hhd with h1 | h1
        · rw [h1]; exact can_self8 _ _
        · obtain ⟨y, hy, hye⟩ := List.mem_map.1 h1
          rw [← hye]
          exact can_hdr hups (hold y hy) (hov2.each y hy).2.2.1 (by omega) (by omega)
      rw [pushFront_eq (m := m2) (p := ohdr x) (hcan 0 (by omega) (by omega)) (hcan 8 (by omega) (by omega)) hcn (by omega), R.ok_bind]
      have hsep : (sf :: ohdr x :: ovs.map ohdr).Pairwise Sep := by
        have h2 : ((x :: ovs).map oblk).Pairwise fun a b => Disj a.addr a.size b.addr b.size :=
          ((hups.perm hperm).disj.sublist (List.sublist_append_right ..)).sublist (List.sublist_append_left ..)
        have h3 := ohdrs_sep h2
        rw [List.map_cons] at h3
        rw [List.pairwise_cons]
        refine ⟨fun n hn => ?_, h3⟩
        rcases List.mem_cons.1 hn with rfl | hn
        · exact ohdr_sep hups hxm
        · obtain ⟨y, hy, rfl⟩ := List.mem_map.1 hn
          exact ohdr_sep hups (hold y hy)
      have hpush := hov2.list.push hsep
      obtain ⟨m3, hm3⟩ : ∃ m3, m3 = upd (upd (upd (upd m2 (ohdr x) (m2 sf)) (m2 sf + 8) (ohdr x)) (ohdr x + 8) sf) sf (ohdr x) := ⟨_, rfl⟩
      rw [← hm3] at hpush ⊢
      have hnh : ∀ y ∈ x :: ovs, ∀ k, 16 ≤ k → k ≤ 24 → m3 (ohdr y + k) = m2 (ohdr y + k) := by
        intro y hy k h16 hk
        have a1 : ohdr y + k ≠ ohdr x ∧ ohdr y + k ≠ ohdr x + 8 := by
          rcases List.mem_cons.1 hy with rfl | hy
          · omega
          · have := hfar y hy; omega
        have a2 : ohdr y + 32 ≤ sf ∨ sf + 16 ≤ ohdr y := ohdr_self hups (by rcases List.mem_cons.1 hy with rfl | hy <;> [exact hxm; exact hold y hy])
        have a3 : ohdr y + k ≠ m2 sf + 8 := by
          rcases hhd with h1 | h1
          · rw [h1]; omega
          · obtain ⟨z, hz, hze⟩ := List.mem_map.1 h1
            rw [← hze]
            by_cases hyz : ohdr y = ohdr z
            · omega
            · have := ohdr_far hups hperm hy (by simp [hz] : z ∈ x :: ovs) hyz; omega
        rw [hm3, upd_ne _ _ (by omega), upd_ne _ _ a1.2, upd_ne _ _ a3, upd_ne _ _ a1.1]
      have hov3 : OvOk sf s.opts.largest m3 (x :: ovs) := by
        refine ⟨hpush, fun y hy => ?_⟩
        rw [hnh y hy 16 (by omega) (by omega), hnh y hy 24 (by omega) (by omega)]
        rcases List.mem_cons.1 hy with rfl | hy
        · refine ⟨by rw [hx]; exact hl, by rw [hx]; simp only; omega, hxa, ?_, ?_⟩
          · rw [hm2, upd_ne _ _ (by omega), upd_eq, hx]
          · rw [hm2, upd_eq, hx]
        · exact hov2.each y hy
      have hch : ∀ w, m3 w ≠ h.mem w → w = sf ∨ w = sf + 8 ∨ ∃ y ∈ x :: ovs, ∃ k ≤ 24, w = ohdr y + k := by
        intro w hw
        by_contra hno
        push Not at hno
        obtain ⟨n1, n2, n3⟩ := hno
        have b1 := n3 x (by simp)
        apply hw
        have b2 : w ≠ m2 sf + 8 := by
          rcases hhd with h1 | h1
          · rw [h1]; exact n2
          · obtain ⟨z, hz, hze⟩ := List.mem_map.1 h1
            rw [← hze]; exact n3 z (by simp [hz]) 8 (by omega)
        rw [hm3, upd_ne _ _ n1, upd_ne _ _ (b1 8 (by omega)), upd_ne _ _ b2, upd_ne _ _ (show w ≠ ohdr x from b1 0 (by omega)), hm2, upd_ne _ _ (b1 24 (by omega)), upd_ne _ _ (b1 16 (by omega))]
      refine ⟨_, _, x :: ovs, rfl, ?_, fun w hw y hy => ?_⟩
      · refine hi.setOv (h1 := ⟨m3, oblk x :: h.ups⟩) hups hperm hov3 (by rw [← hx]; exact hi.out.cons _) fun w hw => ?_
        rcases hch w hw with h1 | h1 | ⟨y, hy, h1⟩
        · exact .inl h1
        · exact .inr (.inl h1)
        · exact .inr (.inr ⟨y, .inr hy, h1⟩)
      · obtain ⟨b, hbm, hib⟩ := hi.out_in hy
        rcases hch w hw with h1 | h1 | ⟨z, hz, k, hk, rfl⟩
        · exact self_words hi.ups hbm hib (.inl h1)
        · exact self_words hi.ups hbm hib (.inr h1)
        · exact ov_words hups hperm hi.each hz (by rw [List.cons_append]; exact List.mem_cons_of_mem _ (hi.out.mem_iff.1 hy)) hk

theorem deallocOver_ok {sf : Nat} {h : Heap} {s : Res} {out : List Blk} {gs : List GP} {o1 o2 : List Blk} {x : Blk} (hi : RInv sf h s out gs (o1 ++ x :: o2)) :
    ∃ h', deallocateOversized sf h x.addr x.size x.align = .ok h' ∧ RInv sf h' s (out.erase x) gs (o1 ++ o2) ∧
      ∀ w, h'.mem w ≠ h.mem w → ∀ y ∈ out.erase x, Disj w 8 y.addr y.size := by
  obtain ⟨e1, e2, e3, e4, e5⟩ := hi.ov.each x (by simp)
  have hmem : ∀ y ∈ o1 ++ x :: o2, oblk y ∈ h.ups := fun y hy => hi.perm.mem_iff.2 (List.mem_append_right _ (List.mem_append_left _ (List.mem_map_of_mem hy)))
  have hxm := hmem x (by simp)
  have hcan : ∀ y ∈ o1 ++ x :: o2, ∀ k, k ≤ 24 → k % 8 = 0 → ∀ m, can sf ⟨m, h.ups⟩ (ohdr y + k) = true := fun y hy k hk h8 m => can_hdr hi.ups (hmem y hy) (hi.ov.each y hy).2.2.1 hk h8
  have hcx := fun k => hcan x (by simp) k
  have hself := fun y hy => ohdr_self hi.ups (hmem y hy)
  have hfar := fun {y z} (hy : y ∈ o1 ++ x :: o2) (hz : z ∈ o1 ++ x :: o2) => ohdr_far hi.ups hi.perm hy hz
  have hsep1 : ((o1 ++ x :: o2).map ohdr).Pairwise Sep :=
    ohdrs_sep (((hi.ups.perm hi.perm).disj.sublist (List.sublist_append_right ..)).sublist (List.sublist_append_left ..))
  have hsepf : ∀ n ∈ (o1 ++ x :: o2).map ohdr, Sep sf n := by
    intro n hn
    obtain ⟨y, hy, rfl⟩ := List.mem_map.1 hn
    exact ohdr_sep hi.ups (hmem y hy)
  have hl := hi.ov.list
  simp only [List.map_append, List.map_cons] at hl hsep1 hsepf
  obtain ⟨r1, r2, r3⟩ := hl.remove (List.pairwise_cons.2 ⟨hsepf, hsep1⟩) hsepf (.inl rfl)
  -- the neighbours
  have hnx : h.mem (ohdr x) = sf ∨ ∃ z ∈ o1 ++ x :: o2, h.mem (ohdr x) = ohdr z ∧ ohdr z ≠ ohdr x := by
    rcases r1 with r1 | r1
    · exact .inl r1
    · obtain ⟨z, hz, hze⟩ := List.mem_map.1 r1
      refine .inr ⟨z, by simp [hz], hze.symm, fun he => ?_⟩
      rw [List.pairwise_append, List.pairwise_cons] at hsep1
      have := hsep1.2.1.1 _ (List.mem_map_of_mem hz)
      unfold Sep at this; omega
  have hpv : h.mem (ohdr x + 8) = sf ∨ ∃ z ∈ o1 ++ x :: o2, h.mem (ohdr x + 8) = ohdr z := by
    rcases r2 with r2 | r2
    · exact .inl r2
    · obtain ⟨z, hz, hze⟩ := List.mem_map.1 r2
      exact .inr ⟨z, by simp [hz], hze.symm⟩
  have hsx := hself x (by simp)
  have hrun : removeDouble sf h (ohdr x) = .ok ⟨upd (upd h.mem (h.mem (ohdr x) + 8) (h.mem (ohdr x + 8))) (h.mem (ohdr x + 8)) (h.mem (ohdr x)), h.ups⟩ := by
    refine removeDouble_eq (m := h.mem) (ups := h.ups) (hcx 0 (by omega) (by omega) _) (hcx 8 (by omega) (by omega) _) ?_ ?_ ?_ ?_
    · rcases hnx with h1 | ⟨z, hz, h1, -⟩
      · rw [h1]; exact can_self8 _ _
      · rw [h1]; exact hcan z hz 8 (by omega) (by omega) _
    · rcases hpv with h1 | ⟨z, hz, h1⟩
      · rw [h1]; exact can_self _ _
      · rw [h1]; exact hcan z hz 0 (by omega) (by omega) _
    · rcases hnx with h1 | ⟨z, hz, h1, h2⟩
      · rw [h1]; omega
      · rw [h1]; exact h2
    · rcases hnx with h1 | ⟨z, hz, h1, h2⟩
      · rw [h1]; omega
      · rw [h1]; have := hfar hz (by simp : x ∈ _) h2; omega
  obtain ⟨m', hm'⟩ : ∃ m', m' = upd (upd h.mem (h.mem (ohdr x) + 8) (h.mem (ohdr x + 8))) (h.mem (ohdr x + 8)) (h.mem (ohdr x)) := ⟨_, rfl⟩
  rw [← hm'] at hrun r3
  have hch : ∀ w, m' w ≠ h.mem w → w = sf ∨ w = sf + 8 ∨ ∃ z ∈ o1 ++ x :: o2, w = ohdr z ∨ w = ohdr z + 8 := by
    intro w hw
    by_contra hno
    push Not at hno
    obtain ⟨n1, n2, n3⟩ := hno
    apply hw
    rw [hm', upd_ne, upd_ne]
    · rcases hnx with h1 | ⟨z, hz, h1, -⟩
      · rw [h1]; exact n2
      · rw [h1]; exact (n3 z hz).2
    · rcases hpv with h1 | ⟨z, hz, h1⟩
      · rw [h1]; exact n1
      · rw [h1]; exact (n3 z hz).1
  have hov : OvOk sf s.opts.largest m' (o1 ++ o2) := by
    refine ⟨by rw [List.map_append]; exact r3, fun y hy => ?_⟩
    have hym := mem_split_of (c := x) hy
    have hw : ∀ k, 16 ≤ k → k ≤ 24 → m' (ohdr y + k) = h.mem (ohdr y + k) := by
      intro k h16 hk
      by_contra hne
      have := hself y hym
      rcases hch _ hne with h1 | h1 | ⟨z, hz, h1⟩
      · omega
      · omega
      · by_cases hyz : ohdr y = ohdr z
        · omega
        · have := hfar hym hz hyz; omega
    rw [hw 16 (by omega) (by omega), hw 24 (by omega) (by omega)]
    exact hi.ov.each y hym
  have hperm : (h.ups.erase (oblk x)).Perm (vblk s ++ ((o1 ++ o2).map oblk ++ gs.flatMap gblks)) := by
    have h5 : h.ups.Perm (oblk x :: (vblk s ++ ((o1 ++ o2).map oblk ++ gs.flatMap gblks))) := by
      refine hi.perm.trans ?_
      rw [List.perm_iff_count]
      intro a
      simp only [List.map_append, List.map_cons, List.count_append, List.count_cons]
      omega
    have := h5.erase (oblk x)
    simpa using this
  have hout : (out.erase x).Perm ((o1 ++ o2) ++ gs.flatMap gout) := by
    have h5 : out.Perm (x :: ((o1 ++ o2) ++ gs.flatMap gout)) := by
      refine hi.out.trans ?_
      simp only [List.append_assoc, List.cons_append]
      exact List.perm_middle
    have := h5.erase x
    simpa using this
  refine ⟨⟨m', h.ups.erase (oblk x)⟩, ?_, ?_, fun w hw y hy => ?_⟩
  · unfold deallocateOversized
    rw [prepare_eq (by omega), if_neg (by omega)]
    simp only
    rw [show x.addr + oadj x.size - 32 = ohdr x from rfl, ld_can (hcx 16 (by omega) (by omega) h.mem), R.ok_bind, ld_can (hcx 24 (by omega) (by omega) h.mem), R.ok_bind,
      e4, e5, if_neg (by simp), hrun, R.ok_bind]
    unfold Heap.dealloc
    exact if_pos hxm
  · refine hi.setOv (h1 := ⟨m', h.ups.erase (oblk x)⟩) (hi.ups.sub List.erase_sublist) hperm hov hout fun w hw => ?_
    rcases hch w hw with h1 | h1 | ⟨y, hy, h1 | h1⟩
    · exact .inl h1
    · exact .inr (.inl h1)
    · exact .inr (.inr ⟨y, .inl hy, 0, by omega, h1⟩)
    · exact .inr (.inr ⟨y, .inl hy, 8, by omega, h1⟩)
  · have hyo := List.mem_of_mem_erase hy
    obtain ⟨b, hbm, hib⟩ := hi.out_in hyo
    rcases hch w hw with h1 | h1 | ⟨z, hz, h1⟩
    · exact self_words hi.ups hbm hib (.inl h1)
    · exact self_words hi.ups hbm hib (.inr h1)
    · rcases h1 with rfl | rfl
      · exact ov_words hi.ups hi.perm hi.each hz (hi.out.mem_iff.1 hyo) (k := 0) (by omega)
      · exact ov_words hi.ups hi.perm hi.each hz (hi.out.mem_iff.1 hyo) (k := 8) (by omega)

end STL.PoolRes
