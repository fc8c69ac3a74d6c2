import Verif.PoolRes.Props

/-!
# `unsynchronized_pool_resource`: concrete histories

An upstream resource, histories that exercise every part of the code (several chunks, chunks given back, oversized blocks, `release`), and the requests that are
left out of C45.
-/

namespace STL.PoolRes
open STL STL.Pmr

/-- An end of the outstanding blocks. -/
def endOf (ups : List Blk) : Nat := ups.foldr (fun b e => max (b.addr + b.size) e) 4096

/-- An upstream resource that always uses fresh addresses. -/
def upEx : Up := fun ups size al =>
  let a := (endOf ups / al + 1) * al
  if a = 0 ∨ 2 ^ 64 < a + size then none else some a

theorem endOf_ge : ∀ (ups : List Blk), 4096 ≤ endOf ups ∧ ∀ b ∈ ups, b.addr + b.size ≤ endOf ups
  | [] => ⟨le_refl _, by simp⟩
  | c :: t => by
    obtain ⟨h1, h2⟩ := endOf_ge t
    have e : endOf (c :: t) = max (c.addr + c.size) (endOf t) := rfl
    rw [e]
    refine ⟨h1.trans (le_max_right _ _), fun b hb => ?_⟩
    rcases List.mem_cons.1 hb with rfl | hb
    · exact le_max_left _ _
    · exact (h2 b hb).trans (le_max_right _ _)

theorem upEx_ok : UpOk 64 upEx := by
  intro ups size al p hp
  unfold upEx at hp
  simp only [Option.ite_none_left_eq_some, Option.some.injEq, not_or] at hp
  obtain ⟨⟨h1, h2⟩, rfl⟩ := hp
  obtain ⟨g1, g2⟩ := endOf_ge ups
  have hal : 0 < al := by
    rcases Nat.eq_zero_or_pos al with rfl | h
    · simp at h1
    · exact h
  have hlt : endOf ups < (endOf ups / al + 1) * al := Nat.lt_mul_of_div_lt (Nat.lt_succ_self _) hal
  refine ⟨h1, Nat.dvd_mul_left _ _, by omega, ?_, fun b hb => ?_⟩
  · unfold Disj; omega
  · have := g2 b hb; unfold Disj; omega

/-- A step of a history: `allocate`, `deallocate` of the block at a position of the list of blocks handed out, `release`. -/
inductive Act where
  | alloc (bytes al : Nat)
  | dealloc (i : Nat)
  | release

/-- `Req` as a test. -/
def reqB (bytes al : Nat) : Bool := bytes < 2 ^ 64 && (1 ≤ bytes || 16 ≤ al) && al == 2 ^ al.log2 && al.log2 ≤ 61

/-- Run one step against `upEx`; requests that are no `Req` are refused if `strict`. -/
def step (strict : Bool) (c : Heap × Res × List Blk) : Act → R (Heap × Res × List Blk)
  | .alloc b a =>
    if strict && !reqB b a then .error .fuel
    else do
      let (h, s, r) ← doAllocate 64 c.1 c.2.1 b a upEx
      match r with
      | .ok p => .ok (h, s, ⟨p, b, a⟩ :: c.2.2)
      | .error _ => .ok (h, s, c.2.2)
  | .dealloc i =>
    match c.2.2[i]? with
    | none => .error .fuel
    | some x => do
      let (h, s) ← doDeallocate 64 c.1 c.2.1 x.addr x.size x.align
      .ok (h, s, c.2.2.erase x)
  | .release => do
    let (h, s) ← PoolRes.release 64 c.1 c.2.1
    .ok (h, s, [])

/-- Run a history on a fresh resource. -/
def exec (strict : Bool) (o : Opts) (l : List Act) : R (Heap × Res × List Blk) :=
  l.foldlM (step strict) ((make 64 (fun _ => 0) o).1, (make 64 (fun _ => 0) o).2, [])

theorem step_run {o : Opts} {c c' : Heap × Res × List Blk} {a : Act} (hr : Run 64 o c.1 c.2.1 c.2.2) (he : step true c a = .ok c') : Run 64 o c'.1 c'.2.1 c'.2.2 := by
  cases a with
  | alloc b al =>
    simp only [step, Bool.true_and] at he
    split at he
    · cases he
    · rename_i hq
      have hq : Req b al := by
        simp only [reqB, Bool.not_eq_true', Bool.not_eq_false', Bool.and_eq_true, decide_eq_true_eq, Bool.or_eq_true, beq_iff_eq, Bool.not_eq_eq_eq_not, Bool.not_true, Bool.not_false,
          Bool.not_eq_false] at hq
        exact ⟨hq.1.1.1, hq.1.1.2, al.log2, hq.2, hq.1.2⟩
      cases hd : doAllocate 64 c.1 c.2.1 b al upEx with
      | error e => rw [hd] at he; cases he
      | ok v =>
        obtain ⟨h, s, r⟩ := v
        rw [hd, R.ok_bind] at he
        cases r with
        | ok p => cases he; exact .alloc b al upEx hr hq upEx_ok hd
        | error e => cases he; exact .allocThrow b al upEx hr hq upEx_ok hd
  | dealloc i =>
    simp only [step] at he
    cases hx : c.2.2[i]? with
    | none => rw [hx] at he; cases he
    | some x =>
      rw [hx] at he
      simp only at he
      cases hd : doDeallocate 64 c.1 c.2.1 x.addr x.size x.align with
      | error e => rw [hd] at he; cases he
      | ok v =>
        obtain ⟨h, s⟩ := v
        rw [hd, R.ok_bind] at he
        cases he
        exact .dealloc x hr (List.mem_of_getElem? hx) hd
  | release =>
    simp only [step] at he
    cases hd : PoolRes.release 64 c.1 c.2.1 with
    | error e => rw [hd] at he; cases he
    | ok v =>
      obtain ⟨h, s⟩ := v
      rw [hd, R.ok_bind] at he
      cases he
      exact .release hr hd

theorem foldlM_run {o : Opts} : ∀ (l : List Act) {c c' : Heap × Res × List Blk}, Run 64 o c.1 c.2.1 c.2.2 → l.foldlM (step true) c = .ok c' → Run 64 o c'.1 c'.2.1 c'.2.2
  | [], c, c', hr, he => by cases he; exact hr
  | a :: l, c, c', hr, he => by
    rw [List.foldlM_cons] at he
    cases hd : step true c a with
    | error e => rw [hd] at he; cases he
    | ok v => rw [hd, R.ok_bind] at he; exact foldlM_run l (step_run hr hd) he

/-- Histories are runs. -/
theorem exec_run {o : Opts} (h1 : o.maxBlocks < 2 ^ 64) (h2 : o.largest < 2 ^ 64) {l : List Act} {c : Heap × Res × List Blk} (he : exec true o l = .ok c) :
    Run 64 o c.1 c.2.1 c.2.2 := foldlM_run l (.make _ h1 h2) he

/-- The numbers of outstanding upstream blocks, pools, and blocks handed out at the end of a history. -/
def summary (strict : Bool) (o : Opts) (l : List Act) : R (Nat × Nat × Nat) := (exec strict o l).map fun c => (c.1.ups.length, c.2.1.pools.length, c.2.2.length)

theorem summary_run {o : Opts} (h1 : o.maxBlocks < 2 ^ 64) (h2 : o.largest < 2 ^ 64) {l : List Act} {a b n : Nat} (he : summary true o l = .ok (a, b, n)) :
    ∃ h s out, Run 64 o h s out ∧ h.ups.length = a ∧ s.pools.length = b ∧ out.length = n := by
  unfold summary at he
  cases hx : exec true o l with
  | error e => rw [hx] at he; cases he
  | ok c =>
    rw [hx] at he
    simp only [Except.map, Except.ok.injEq, Prod.mk.injEq] at he
    exact ⟨c.1, c.2.1, c.2.2, exec_run h1 h2 hx, he.1, he.2.1, he.2.2⟩

/-- Fifteen blocks of one size need three chunks (of 4, 8 and 16 blocks). -/
def many : List Act := List.replicate 15 (.alloc 24 8)

/-- Three chunks, two pools and two oversized blocks are reachable. -/
example : ∃ h s out, Run 64 ⟨0, 4096⟩ h s out ∧ h.ups.length = 7 ∧ s.pools.length = 2 ∧ out.length = 18 :=
  summary_run (by norm_num) (by norm_num) (l := many ++ [.alloc 100 64, .alloc 5000 8, .alloc 70000 32]) (by decide +kernel)

/-- After deallocating in some order one chunk is left, after `release` nothing. -/
example : ∃ h s, Run 64 ⟨0, 4096⟩ h s [] ∧ h.ups.length = 2 ∧ s.pools.length = 1 := by
  obtain ⟨h, s, out, h1, h2, h3, h4⟩ := summary_run (o := ⟨0, 4096⟩) (by norm_num) (by norm_num) (a := 2) (b := 1) (n := 0)
    (l := many ++ [.dealloc 7, .alloc 70000 32, .dealloc 0] ++ List.replicate 14 (.dealloc 0)) (by decide +kernel)
  rw [List.length_eq_zero_iff] at h4
  subst h4
  exact ⟨h, s, h1, h2, h3⟩

/-- The bound of C45 on what is held needs its hypothesis: chunks of a single block are not given back before `release()`. -/
theorem C45_single_block_chunks_stay : ∃ h s, Run 64 ⟨1, 0⟩ h s [] ∧ h.ups.length = 6 ∧ s.pools.length = 1 := by
  obtain ⟨h, s, out, h1, h2, h3, h4⟩ := summary_run (o := ⟨1, 0⟩) (by norm_num) (by norm_num) (a := 6) (b := 1) (n := 0)
    (l := List.replicate 5 (.alloc 24 8) ++ List.replicate 5 (.dealloc 0)) (by decide +kernel)
  rw [List.length_eq_zero_iff] at h4
  subst h4
  exact ⟨h, s, h1, h2, h3⟩

/-- A request of size 0 (and alignment at most 8) is served from blocks of 8 bytes, in which the link of the free list overwrites the pointer to the chunk; it
is not restored when the block is taken from the free list. So allocating and deallocating such a block twice has undefined behaviour: the pointer to the chunk
is read from the overwritten word (here it is null). -/
theorem C45_zero_size_defect :
    (exec false ⟨0, 0⟩ [.alloc 0 1, .dealloc 0, .alloc 0 1]).toOption.isSome = true ∧
    (exec false ⟨0, 0⟩ [.alloc 0 1, .dealloc 0, .alloc 0 1, .dealloc 0]).toOption.isSome = false ∧
    (exec true ⟨0, 0⟩ [.alloc 1 1, .dealloc 0, .alloc 1 1, .dealloc 0]).toOption.isSome = true := by
  decide +kernel

/-- The error is undefined behaviour. -/
def isUb {α : Type} : R α → Bool
  | .error .ub => true
  | _ => false

theorem C45_zero_size_ub : isUb (exec false ⟨0, 0⟩ [.alloc 0 1, .dealloc 0, .alloc 0 1, .dealloc 0]) = true := by decide +kernel

/-- With an alignment of `2 ^ 62` the size of a chunk of four blocks wraps around: only room for the header is asked for, and the first block lies outside. -/
theorem C45_overalign_defect : isUb (exec false ⟨0, 0⟩ [.alloc 8 (2 ^ 62)]) = true ∧ (exec true ⟨0, 0⟩ [.alloc 8 (2 ^ 60)]).toOption.isSome = true := by decide +kernel

end STL.PoolRes
