import Verif.Pmr.Mono

/-!
# C21: `monotonic_buffer_resource`

`Run ws buf bsz h s out`: the memory `h` and the resource `s`, with the blocks `out` handed out since the last `release()`, can be reached by some history of
`allocate`, `deallocate`, `release` and foreign writes. `[buf, buf + bsz)` is the buffer given to the constructor (`bsz = 0` if none). Foreign code may write
any memory which the resource does not own or which it has handed out.
-/

namespace STL.Pmr
open STL

variable {ws : Nat}

/-- Reachable states. -/
inductive Run (ws buf bsz : Nat) : Heap → Mono → List Blk → Prop
  /-- `monotonic_buffer_resource(upstream)`, `monotonic_buffer_resource(initial_size, upstream)` -/
  | make (m : Words) (initial : Option Nat) : bsz = 0 → Run ws buf bsz ⟨m, []⟩ (Mono.make ws initial) []
  /-- `monotonic_buffer_resource(buffer, buffer_size, upstream)` -/
  | makeBuf (m : Words) : Run ws buf bsz ⟨m, []⟩ (Mono.makeBuf ws buf bsz) []
  /-- `allocate` returns a block. -/
  | alloc {h s out h' s' p} (bytes al : Nat) (up : Upstream) : Run ws buf bsz h s out → Pow2 ws al → bytes < 2 ^ (8 * ws) → UpOk ws buf bsz h.ups up →
      doAllocate ws h s bytes al up = .ok (h', s', .ok p) → Run ws buf bsz h' s' (⟨p, bytes, al⟩ :: out)
  /-- `allocate` throws. -/
  | allocThrow {h s out h' s' e} (bytes al : Nat) (up : Upstream) : Run ws buf bsz h s out → Pow2 ws al → bytes < 2 ^ (8 * ws) → UpOk ws buf bsz h.ups up →
      doAllocate ws h s bytes al up = .ok (h', s', .error e) → Run ws buf bsz h' s' out
  /-- `release()` (`deallocate` does nothing, `memory_resource:664`). -/
  | release {h s out h' s'} : Run ws buf bsz h s out → release ws h s = .ok (h', s') → Run ws buf bsz h' s' []
  /-- Foreign writes. -/
  | write {h s out} (m : Words) : Run ws buf bsz h s out →
      (∀ a, (∃ b ∈ h.ups, Inside a ws b.addr b.size) → (∀ o ∈ out, Disj a ws o.addr o.size) → m a = h.mem a) → Run ws buf bsz ⟨m, h.ups⟩ s out

theorem pairwise_disj {l : List Blk} (h : l.Pairwise fun a b => Disj a.addr a.size b.addr b.size) {c b : Blk} (hc : c ∈ l) (hb : b ∈ l) (hne : c ≠ b) :
    Disj c.addr c.size b.addr b.size := by
  induction l with
  | nil => cases hc
  | cons x l ih =>
    rw [List.pairwise_cons] at h
    rcases List.mem_cons.1 hc with h1 | h1 <;> rcases List.mem_cons.1 hb with h2 | h2
    · exact absurd (h1.trans h2.symm) hne
    · subst h1; exact h.1 _ h2
    · subst h2; exact disj_comm (h.1 _ h1)
    · exact ih h.2 h1 h2

theorem run_inv (hw : WS ws) {buf bsz : Nat} (hbuf : BufOk ws buf bsz) {h : Heap} {s : Mono} {out : List Blk} (hr : Run ws buf bsz h s out) : Inv ws buf bsz h s out := by
  have hwp := hw.pos
  obtain ⟨l1, l2, l3, l4⟩ := lim_ge hw
  have hmin : NextOk ws (minAllocation ws) := by
    unfold NextOk minAllocation hdrSize
    rw [show 2 * (3 * ws) = 6 * ws by ring]
    exact ⟨Nat.mul_mod_left _ _, by omega, by omega⟩
  have nil : ∀ {P : Blk → Prop}, ∀ a ∈ ([] : List Blk), P a := by intro P a h; cases h
  induction hr with
  | make m initial h0 =>
    refine ⟨nil, List.Pairwise.nil, rfl, ?_, .inl ⟨rfl, rfl⟩, nil, nil, List.Pairwise.nil⟩
    unfold Mono.make
    cases initial with
    | none => exact hmin
    | some n =>
      obtain ⟨a, b, c⟩ := round_good hw n
      exact ⟨a, lt_of_lt_of_le hmin.2.1 b, c⟩
  | makeBuf m =>
    refine ⟨nil, List.Pairwise.nil, rfl, ?_, ?_, nil, nil, List.Pairwise.nil⟩
    · unfold Mono.makeBuf
      simp only
      split
      · exact scale_next hw (by assumption)
      · exact hmin
    · unfold Mono.makeBuf
      by_cases h0 : buf = 0
      · left; exact ⟨h0, hbuf.1 h0⟩
      · right; left; exact ⟨h0, le_refl _, le_refl _⟩
  | alloc bytes al up _ ha hb hu he ih =>
    rcases alloc_ok hw hbuf ih ha hb hu with ⟨h1, _⟩ | ⟨h2, s2, p2, h1, h3, _⟩
    · rw [h1] at he; cases he
    · rw [h1] at he; cases he; exact h3
  | allocThrow bytes al up _ ha hb hu he ih =>
    rcases alloc_ok hw hbuf ih ha hb hu with ⟨h1, _⟩ | ⟨h2, s2, p2, h1, h3, _⟩
    · rw [h1] at he; cases he; exact ih
    · rw [h1] at he; cases he
  | release _ he ih =>
    obtain ⟨s2, h1, h2⟩ := release_ok hw ih
    rw [h1] at he; cases he; exact h2
  | @write h s out m _ hm ih =>
    refine ⟨ih.ups_ok, ih.ups_disj, chain_congr ?_ ih.chain, ih.next, ih.cur, ih.out_ok, ih.out_cur, ih.out_disj⟩
    intro b hb i hi3
    have g := ih.ups_ok b hb
    have hsz := g.sz
    have hlm : i * ws ≤ 2 * ws := Nat.mul_le_mul_right _ (by omega)
    refine hm _ ⟨b, hb, ?_⟩ fun o ho => ?_
    · unfold Inside; omega
    · rcases (ih.out_ok o ho).2.2 with h1 | ⟨c, hc, h1⟩
      · have := g.disj; unfold Inside Disj at *; omega
      · by_cases hbc : c = b
        · subst hbc; unfold Inside Disj at *; omega
        · have hd : Disj c.addr c.size b.addr b.size := by
            exact pairwise_disj ih.ups_disj hc hb hbc
          have := (ih.ups_ok c hc).sz
          unfold Inside Disj at *; omega

/-- Every block handed out since the last release is not null, aligned as requested, lies in the initial buffer or in a buffer obtained from upstream and not
yet given back, and the blocks are pairwise disjoint. -/
theorem C21_blocks (hw : WS ws) {buf bsz : Nat} (hbuf : BufOk ws buf bsz) {h : Heap} {s : Mono} {out : List Blk} (hr : Run ws buf bsz h s out) :
    (∀ a ∈ out, a.addr ≠ 0 ∧ a.align ∣ a.addr ∧ (Inside a.addr a.size buf bsz ∨ ∃ b ∈ h.ups, Inside a.addr a.size b.addr b.size)) ∧
    out.Pairwise fun a b => Disj a.addr a.size b.addr b.size := by
  have hi := run_inv hw hbuf hr
  refine ⟨fun a ha => ?_, hi.out_disj⟩
  obtain ⟨h1, h2, h3⟩ := hi.out_ok a ha
  exact ⟨h1, h2, h3.imp id fun ⟨b, hb, h4⟩ => ⟨b, hb, h4.1, le_trans h4.2 (by omega)⟩⟩

/-- In every reachable state `allocate` has no undefined behaviour; it throws `bad_alloc` only if the request cannot be represented or the upstream resource
fails, and then changes nothing; otherwise it changes no word that overlaps a block handed out before or the initial buffer, and takes at most one buffer from
upstream, with the size and alignment it asked for. -/
theorem C21_allocate (hw : WS ws) {buf bsz : Nat} (hbuf : BufOk ws buf bsz) {h : Heap} {s : Mono} {out : List Blk} (hr : Run ws buf bsz h s out) {bytes al : Nat}
    (ha : Pow2 ws al) (hb : bytes < 2 ^ (8 * ws)) {up : Upstream} (hu : UpOk ws buf bsz h.ups up) :
    (doAllocate ws h s bytes al up = .ok (h, s, .error .badAlloc) ∧ (bytes + 4 * ws > 2 ^ (8 * ws) ∨ ∃ size, bytes + 3 * ws ≤ size ∧ up size (max ws al) = none)) ∨
    ∃ h' s' p, doAllocate ws h s bytes al up = .ok (h', s', .ok p) ∧
      (∀ x, (∃ o ∈ out, ¬ Disj x ws o.addr o.size) ∨ ¬ Disj x ws buf bsz → h'.mem x = h.mem x) ∧
      (h'.ups = h.ups ∨ ∃ b, h'.ups = b :: h.ups ∧ up b.size b.align = some b.addr) := by
  rcases alloc_ok hw hbuf (run_inv hw hbuf hr) ha hb hu with h1 | ⟨h2, s2, p2, h1, h3, h4, h5⟩
  · exact .inl h1
  · exact .inr ⟨h2, s2, p2, h1, h4, h5⟩

/-- In every reachable state `release()` (and the destructor) gives every outstanding buffer back to upstream exactly once, with the size and alignment it was
obtained with (anything else is undefined behaviour in the model), keeps none, and touches no memory. -/
theorem C21_release (hw : WS ws) {buf bsz : Nat} (hbuf : BufOk ws buf bsz) {h : Heap} {s : Mono} {out : List Blk} (hr : Run ws buf bsz h s out) :
    ∃ s', release ws h s = .ok (⟨h.mem, []⟩, s') := by
  obtain ⟨s', h1, _⟩ := release_ok hw (run_inv hw hbuf hr)
  exact ⟨s', h1⟩

/-- Buffers grow geometrically: when a new buffer is needed it is at least as large as planned, and the next one is planned at least half as large again (or
as large as the address space allows). -/
theorem C21_growth (hw : WS ws) {buf bsz : Nat} (hbuf : BufOk ws buf bsz) {h h' : Heap} {s s' : Mono} {out : List Blk} (hr : Run ws buf bsz h s out) {bytes al p : Nat}
    (ha : Pow2 ws al) (hb : bytes < 2 ^ (8 * ws)) {up : Upstream} (hu : UpOk ws buf bsz h.ups up) (he : doAllocate ws h s bytes al up = .ok (h', s', .ok p))
    {b : Blk} (hn : h'.ups = b :: h.ups) : s.next ≤ b.size ∧ bytes ≤ b.size ∧ (2 * s'.next ≥ 3 * b.size ∨ s'.next = 2 ^ (8 * ws) - ws) := by
  unfold doAllocate at he
  split at he
  · cases he
    exact absurd (congrArg List.length hn) (by simp)
  · rcases increase_ok hw (run_inv hw hbuf hr) ha hb hu with ⟨h1, _⟩ | ⟨b', mem', next', h1, hg, _, hsz, _, _, _, _, _, hnx, hgr⟩
    · rw [h1] at he; cases he
    · rw [h1] at he
      cases he
      simp only [List.cons.injEq, and_true] at hn
      subst hn
      exact ⟨hnx, by omega, hgr⟩

/-- A concrete history: a 64-byte initial buffer at address 4096, an allocation from it, one that needs upstream, a release. -/
example : ∃ h s, Run 8 4096 64 h s [⟨65536, 100, 16⟩, ⟨4096, 40, 8⟩] ∧ h.ups.length = 1 := by
  have hu : UpOk 8 4096 64 [] (fun size al => if al = 16 ∧ size = 128 then some 65536 else none) := by
    intro size al p hp
    simp only [Option.ite_none_right_eq_some, Option.some.injEq] at hp
    obtain ⟨⟨rfl, rfl⟩, rfl⟩ := hp
    refine ⟨by omega, ⟨4096, rfl⟩, by norm_num, .inr (by omega), by intro b hb; cases hb⟩
  have r0 : Run 8 4096 64 ⟨fun _ => 0, []⟩ (Mono.makeBuf 8 4096 64) [] := .makeBuf _
  have r1 := Run.alloc (h' := ⟨fun _ => 0, []⟩) (s' := ⟨4136, 24, 96, 0⟩) (p := 4096) 40 8 (fun size al => if al = 16 ∧ size = 128 then some 65536 else none) r0
    ⟨3, by norm_num, by norm_num⟩ (by norm_num) hu (by rfl)
  have r2 := Run.alloc (p := 65536) 100 16 (fun size al => if al = 16 ∧ size = 128 then some 65536 else none) r1 ⟨4, by norm_num, by norm_num⟩ (by norm_num) hu rfl
  exact ⟨_, _, r2, rfl⟩

end STL.Pmr
