import Verif.DList.Rep

/-! # Moving blocks of nodes within and between lists. Proofs only. -/

namespace STL.DL
open STL
variable {α : Type}

theorem last_block {d : Nat} {M : List (Nat × α)} (hM : M ≠ []) : (ids M).getLast? = some (atLast d M) := by
  have := last_atLast (hd := d) (A := M)
  cases M with
  | nil => exact absurd rfl hM
  | cons a M => rw [← this]; simp [ids, List.getLast?_cons_cons]

theorem first_block {d : Nat} {M : List (Nat × α)} (hM : M ≠ []) : (ids M).head? = some (atFirst d M) := by
  cases M with
  | nil => exact absurd rfl hM
  | cons a M => simp [atFirst, ids]

theorem atFirst_block {d : Nat} {M : List (Nat × α)} (hM : M ≠ []) : atFirst d M ∈ ids M := head_mem (first_block hM)
theorem atLast_block {d : Nat} {M : List (Nat × α)} (hM : M ≠ []) : atLast d M ∈ ids M := getLast_mem (last_block hM)

theorem atFirst_app {d : Nat} {M N : List (Nat × α)} (hM : M ≠ []) : atFirst d (M ++ N) = atFirst d M := by
  cases M with
  | nil => exact absurd rfl hM
  | cons a M => rfl
theorem atLast_app {d : Nat} {M N : List (Nat × α)} (hN : N ≠ []) : atLast d (M ++ N) = atLast d N := by
  unfold atLast; rw [List.reverse_append, atFirst_app (by simpa using hN)]

theorem block_split {h : Hp α} {d : Nat} {M N : List (Nat × α)} (hM : M ≠ []) (hN : N ≠ []) :
    Ch h (ids (M ++ N)) ↔ Ch h (ids M) ∧ Ch h (ids N) ∧ Link h (atLast d M) (atFirst d N) := by
  rw [ids, List.map_append]; exact ch_join (last_block hM) (first_block hN)

/-- A ring with one block singled out. -/
theorem ring3 {h : Hp α} {hd : Nat} {A M B : List (Nat × α)} (hM : M ≠ []) : Ch h (hd :: (ids (A ++ M ++ B) ++ [hd])) ↔
    Ch h (hd :: ids A) ∧ Ch h (ids M) ∧ Ch h (ids B ++ [hd]) ∧ Link h (atLast hd A) (atFirst hd M) ∧ Link h (atLast hd M) (atFirst hd B) := by
  have e1 : Ch h (hd :: ids (A ++ M)) ↔ Ch h (hd :: ids A) ∧ Ch h (ids M) ∧ Link h (atLast hd A) (atFirst hd M) := by
    rw [show hd :: ids (A ++ M) = (hd :: ids A) ++ ids M by simp [ids]]
    exact ch_join last_atLast (first_block hM)
  rw [ring_split, e1, atLast_app hM]; tauto

/-- A ring with two adjacent blocks singled out. -/
theorem ring4 {h : Hp α} {hd : Nat} {A M N B : List (Nat × α)} (hM : M ≠ []) (hN : N ≠ []) : Ch h (hd :: (ids (A ++ M ++ N ++ B) ++ [hd])) ↔
    Ch h (hd :: ids A) ∧ Ch h (ids M) ∧ Ch h (ids N) ∧ Ch h (ids B ++ [hd]) ∧
    Link h (atLast hd A) (atFirst hd M) ∧ Link h (atLast hd M) (atFirst hd N) ∧ Link h (atLast hd N) (atFirst hd B) := by
  rw [List.append_assoc A M N, ring3 (by simp [hM]), block_split (d := hd) hM hN, atFirst_app hM, atLast_app hN]; tauto

macro "nds" loc:(Lean.Parser.Tactic.location)? : tactic => `(tactic| simp only [ids, List.map_append, List.map_cons, List.map_nil,
  List.nodup_cons, List.nodup_append, List.mem_append, List.mem_cons, List.not_mem_nil, or_false, false_or, not_or, List.nodup_nil, and_true, true_and,
  List.nil_append, List.append_nil, not_false_eq_true, forall_eq, forall_eq_or_imp, or_imp, forall_and] $(loc)?)

/-- A chain is kept by a change of links elsewhere: `S` are the nodes whose `_Next` is altered. -/
theorem Chg.keep {h h' : Hp α} {fn fp : Nat → Nat} (C : Chg h h' fn fp) {S T : List Nat} (hn : ∀ q, q ∉ S → fn q = DL.nx h q) (hp : ∀ q, q ∉ T → fp q = DL.pv h q)
    (hST : ∀ q ∈ T, DL.pv h q ∈ S) {L : List Nat} (c : Ch h L) (hS : ∀ x ∈ L.dropLast, x ∉ S) : Ch h' L :=
  C.ch c (fun x hx => hn x (hS x hx)) fun x y l hx => hp y fun hy => hS x hx (by rw [← l.p]; exact hST y hy)

theorem dropLast_snoc {x d : Nat} {L : List Nat} (h : x ∈ (L ++ [d]).dropLast) : x ∈ L := by simpa using h
theorem mem_dropLast {x : Nat} {L : List Nat} (h : x ∈ L.dropLast) : x ∈ L := (List.dropLast_sublist L).subset h

theorem nodup_of_sub {L M : List Nat} (h : L.Nodup) (s : M.Sublist L) : M.Nodup := s.nodup h

/-- Exchanging two adjacent blocks. -/
theorem swap_blocks {h h' : Hp α} {c : Con} {fn fp : Nat → Nat} {A M N B : List (Nat × α)} (W : WF h c (A ++ M ++ N ++ B)) (hM : M ≠ []) (hN : N ≠ []) (C : Chg h h' fn fp)
    (n1 : fn (atLast c.hd A) = atFirst c.hd N) (n2 : fn (atLast c.hd M) = atFirst c.hd B) (n3 : fn (atLast c.hd N) = atFirst c.hd M)
    (n0 : ∀ q, q ∉ [atLast c.hd A, atLast c.hd M, atLast c.hd N] → fn q = nx h q)
    (p1 : fp (atFirst c.hd N) = atLast c.hd A) (p2 : fp (atFirst c.hd B) = atLast c.hd M) (p3 : fp (atFirst c.hd M) = atLast c.hd N)
    (p0 : ∀ q, q ∉ [atFirst c.hd M, atFirst c.hd N, atFirst c.hd B] → fp q = pv h q) : One h c (A ++ M ++ N ++ B) h' c (A ++ N ++ M ++ B) := by
  obtain ⟨r1, r2, r3, r4, k1, k2, k3⟩ := (ring4 hM hN).1 W.ch
  have hnd := W.nd
  have a1 := atLast_mem (hd := c.hd) A
  have a2 := atLast_block (d := c.hd) hM
  have a3 := atLast_block (d := c.hd) hN
  have K : ∀ {L : List Nat}, Ch h L → (∀ x ∈ L.dropLast, x ∉ [atLast c.hd A, atLast c.hd M, atLast c.hd N]) → Ch h' L :=
    fun cL hS => C.keep n0 p0 (by intro q; simp only [List.mem_cons, List.not_mem_nil, or_false]; rintro (rfl | rfl | rfl); exact Or.inl k1.p; exact Or.inr (Or.inl k2.p); exact Or.inr (Or.inr k3.p)) cL hS
  have nA : (c.hd :: ids A).Nodup := nodup_of_sub hnd (by simp [ids])
  have nM : (ids M).Nodup := by nds at hnd; exact hnd.2.1.1.2.1
  have nN : (ids N).Nodup := by nds at hnd; exact hnd.2.1.2.1
  have hmem : ∀ q, q ∈ ids (A ++ N ++ M ++ B) ↔ q ∈ ids (A ++ M ++ N ++ B) := by intro q; simp [ids]; tauto
  refine ⟨⟨?_, ?_, ?_, ?_⟩, rfl, ?_, ?_, ?_⟩
  · rw [ring4 hN hM]
    refine ⟨K r1 ?_, K r3 ?_, K r2 ?_, K r4 ?_, C.link k1.la k2.lb n1 p1, C.link k3.la k1.lb n3 p3, C.link k2.la k3.lb n2 p2⟩
    · intro x hx; have h1 := dropLast_ne nA last_atLast hx; have h2 := mem_dropLast hx; nds at hnd ⊢; grind
    · intro x hx; have h1 := dropLast_ne nN (last_block (d := c.hd) hN) hx; have h2 := mem_dropLast hx; nds at hnd ⊢; grind
    · intro x hx; have h1 := dropLast_ne nM (last_block (d := c.hd) hM) hx; have h2 := mem_dropLast hx; nds at hnd ⊢; grind
    · intro x hx; have h2 := dropLast_snoc hx; nds at hnd ⊢; grind
  · nds at hnd ⊢; grind
  · intro a ha; rw [C.vl]; exact W.val a (by simp at ha ⊢; tauto)
  · have := W.size; simp at this ⊢; omega
  · intro q q1 q2 q3
    have b1 := atFirst_mem (hd := c.hd) B
    have b2 := atFirst_block (d := c.hd) hM
    have b3 := atFirst_block (d := c.hd) hN
    apply C.same
    · apply n0; nds at q2 ⊢; grind
    · apply p0; nds at q2 ⊢; grind
  · intro q q1 q2; rw [hmem] at q2; exact absurd q1 q2
  · intro q q1; rw [hmem] at q1; exact Or.inl q1

theorem uncheckedSplice_chg {h : Hp α} {before first last p l b : Nat} (k1 : Link h p first) (k2 : Link h l last) (k3 : Link h b before) :
    ∃ h', uncheckedSplice h before first last = .ok h' ∧
      Chg h h' (fun q => if q = b then first else if q = l then before else if q = p then last else nx h q)
        (fun q => if q = first then b else if q = last then p else if q = before then l else pv h q) := by
  unfold uncheckedSplice
  have C := Chg.refl h
  rw [C.nd k1.lb, R.ok_bind, k1.p]; simp only
  obtain ⟨h1, e, C⟩ := C.setN k1.la last; rw [e, R.ok_bind, C.nd k2.lb, R.ok_bind, k2.p]; simp only; clear e
  obtain ⟨h2, e, C⟩ := C.setN k2.la before; rw [e, R.ok_bind, C.nd k3.lb, R.ok_bind, k3.p]; simp only; clear e
  obtain ⟨h3, e, C⟩ := C.setN k3.la first; rw [e, R.ok_bind]; clear e
  obtain ⟨h4, e, C⟩ := C.setP k3.lb l; rw [e, R.ok_bind]; clear e
  obtain ⟨h5, e, C⟩ := C.setP k2.lb p; rw [e, R.ok_bind]; clear e
  obtain ⟨h6, e, C⟩ := C.setP k1.lb b; rw [e]; clear e
  exact ⟨h6, rfl, C⟩

/-- distinctness of the ends of blocks -/
theorem ends_ne {hd : Nat} {A M N B : List (Nat × α)} (hnd : (hd :: ids (A ++ M ++ N ++ B)).Nodup) (hM : M ≠ []) (hN : N ≠ []) :
    atLast hd A ≠ atLast hd M ∧ atLast hd A ≠ atLast hd N ∧ atLast hd M ≠ atLast hd N ∧ atFirst hd M ≠ atFirst hd N ∧ atFirst hd M ≠ atFirst hd B ∧ atFirst hd N ≠ atFirst hd B := by
  have a1 := atLast_mem (hd := hd) A
  have a2 := atLast_block (d := hd) hM
  have a3 := atLast_block (d := hd) hN
  have b1 := atFirst_mem (hd := hd) B
  have b2 := atFirst_block (d := hd) hM
  have b3 := atFirst_block (d := hd) hN
  nds at hnd
  grind

/-- Moving a block right. -/
theorem splice_right {h : Hp α} {c : Con} {A M N B : List (Nat × α)} (W : WF h c (A ++ M ++ N ++ B)) (hM : M ≠ []) (hN : N ≠ []) :
    ∃ h', uncheckedSplice h (atFirst c.hd B) (atFirst c.hd M) (atFirst c.hd N) = .ok h' ∧ One h c (A ++ M ++ N ++ B) h' c (A ++ N ++ M ++ B) := by
  obtain ⟨r1, r2, r3, r4, k1, k2, k3⟩ := (ring4 hM hN).1 W.ch
  obtain ⟨h', e, C⟩ := uncheckedSplice_chg k1 k2 k3
  obtain ⟨d1, d2, d3, d4, d5, d6⟩ := ends_ne W.nd hM hN
  refine ⟨h', e, swap_blocks W hM hN C ?_ ?_ ?_ ?_ ?_ ?_ ?_ ?_⟩
  · simp [d1, d2]
  · simp [d3]
  · simp
  · intro q hq; simp at hq; simp [hq]
  · simp [d4.symm]
  · simp [d5.symm, d6.symm]
  · simp
  · intro q hq; simp at hq; simp [hq]

/-- Moving a block left. -/
theorem splice_left {h : Hp α} {c : Con} {A M N B : List (Nat × α)} (W : WF h c (A ++ M ++ N ++ B)) (hM : M ≠ []) (hN : N ≠ []) :
    ∃ h', uncheckedSplice h (atFirst c.hd M) (atFirst c.hd N) (atFirst c.hd B) = .ok h' ∧ One h c (A ++ M ++ N ++ B) h' c (A ++ N ++ M ++ B) := by
  obtain ⟨r1, r2, r3, r4, k1, k2, k3⟩ := (ring4 hM hN).1 W.ch
  obtain ⟨h', e, C⟩ := uncheckedSplice_chg k2 k3 k1
  obtain ⟨d1, d2, d3, d4, d5, d6⟩ := ends_ne W.nd hM hN
  refine ⟨h', e, swap_blocks W hM hN C ?_ ?_ ?_ ?_ ?_ ?_ ?_ ?_⟩
  · simp
  · simp [d1.symm, d3]
  · simp [d2.symm]
  · intro q hq; simp at hq; simp [hq]
  · simp
  · simp [d6.symm]
  · simp [d4, d5]
  · intro q hq; simp at hq; simp [hq]

/-! ## Two lists -/

/-- No common nodes. -/
def Apart (c : Con) (X : List (Nat × α)) (d : Con) (Y : List (Nat × α)) : Prop := ∀ q ∈ c.hd :: ids X, q ∉ d.hd :: ids Y

/-- What moving elements between two lists has to guarantee. -/
structure Two (h : Hp α) (c : Con) (X : List (Nat × α)) (d : Con) (Y : List (Nat × α)) (h' : Hp α) (c' : Con) (X' : List (Nat × α)) (d' : Con) (Y' : List (Nat × α)) : Prop where
  wf : WF h' c' X'
  wf2 : WF h' d' Y'
  hd : c'.hd = c.hd
  hd2 : d'.hd = d.hd
  apart : Apart c' X' d' Y'
  mem : ∀ q, q ∈ ids X' ∨ q ∈ ids Y' ↔ q ∈ ids X ∨ q ∈ ids Y
  frame : ∀ q, q ∉ c.hd :: ids X → q ∉ d.hd :: ids Y → h' q = h q

theorem Two.refl {h : Hp α} {c d : Con} {X Y : List (Nat × α)} (W : WF h c X) (V : WF h d Y) (ap : Apart c X d Y) : Two h c X d Y h c X d Y :=
  ⟨W, V, rfl, rfl, ap, fun _ => Iff.rfl, fun _ _ _ => rfl⟩

set_option maxHeartbeats 1000000 in
theorem splice_other {h : Hp α} {c d : Con} {A B D M E : List (Nat × α)} (W : WF h c (A ++ B)) (V : WF h d (D ++ M ++ E)) (ap : Apart c (A ++ B) d (D ++ M ++ E)) (hM : M ≠ []) :
    ∃ h', uncheckedSplice h (atFirst c.hd B) (atFirst d.hd M) (atFirst d.hd E) = .ok h' ∧
      Two h c (A ++ B) d (D ++ M ++ E) h' ⟨c.hd, c.size + M.length⟩ (A ++ M ++ B) ⟨d.hd, d.size - M.length⟩ (D ++ E) := by
  obtain ⟨r1, r2, k3⟩ := ring_split.1 W.ch
  obtain ⟨r3, r4, r5, k1, k2⟩ := (ring3 hM).1 V.ch
  obtain ⟨h', e, C⟩ := uncheckedSplice_chg k1 k2 k3
  have a1 := atLast_mem (hd := c.hd) A
  have a2 := atLast_mem (hd := d.hd) D
  have a3 := atLast_block (d := d.hd) hM
  have b1 := atFirst_mem (hd := c.hd) B
  have b2 := atFirst_mem (hd := d.hd) E
  have b3 := atFirst_block (d := d.hd) hM
  have n1 := W.nd
  have n2 := V.nd
  have eL : atLast c.hd M = atLast d.hd M := by
    have h1 := last_block (d := c.hd) hM; rw [last_block (d := d.hd) hM] at h1; simpa using h1.symm
  have eF : atFirst c.hd M = atFirst d.hd M := by
    have h1 := first_block (d := c.hd) hM; rw [first_block (d := d.hd) hM] at h1; simpa using h1.symm
  have d1 : atLast c.hd A ≠ atLast d.hd D := by unfold Apart at ap; nds at ap n1 n2; grind
  have d2 : atLast c.hd A ≠ atLast d.hd M := by unfold Apart at ap; nds at ap n1 n2; grind
  have d3 : atLast d.hd D ≠ atLast d.hd M := by nds at n2; grind
  have d4 : atFirst c.hd B ≠ atFirst d.hd M := by unfold Apart at ap; nds at ap n1 n2; grind
  have d5 : atFirst c.hd B ≠ atFirst d.hd E := by unfold Apart at ap; nds at ap n1 n2; grind
  have d6 : atFirst d.hd E ≠ atFirst d.hd M := by nds at n2; grind
  have K : ∀ {L : List Nat}, Ch h L → (∀ x ∈ L.dropLast, x ∉ [atLast c.hd A, atLast d.hd D, atLast d.hd M]) → Ch h' L := by
    intro L cL hS
    refine C.keep (S := [atLast c.hd A, atLast d.hd D, atLast d.hd M]) (T := [atFirst c.hd B, atFirst d.hd M, atFirst d.hd E]) ?_ ?_ ?_ cL hS
    · intro q hq; simp at hq; simp [hq]
    · intro q hq; simp at hq; simp [hq]
    · intro q; simp only [List.mem_cons, List.not_mem_nil, or_false]; rintro (rfl | rfl | rfl)
      · exact Or.inl k3.p
      · exact Or.inr (Or.inl k1.p)
      · exact Or.inr (Or.inr k2.p)
  have nA : (c.hd :: ids A).Nodup := nodup_of_sub n1 (by simp [ids])
  have nD : (d.hd :: ids D).Nodup := nodup_of_sub n2 (by simp [ids])
  have nM : (ids M).Nodup := by nds at n2; exact n2.2.1.2.1
  refine ⟨h', e, ⟨?_, ?_, ?_, ?_⟩, ⟨?_, ?_, ?_, ?_⟩, rfl, rfl, ?_, ?_, ?_⟩
  · simp only; rw [ring3 hM, eL, eF]
    refine ⟨K r1 ?_, K r4 ?_, K r2 ?_, C.link k3.la k1.lb (by simp) (by simp), C.link k2.la k3.lb (by simp [d2.symm]) (by simp [d4, d5])⟩
    · intro x hx; have h1 := dropLast_ne nA last_atLast hx; have h2 := mem_dropLast hx; unfold Apart at ap; nds at ap n1 n2 ⊢; grind
    · intro x hx; have h1 := dropLast_ne nM (last_block (d := d.hd) hM) hx; have h2 := mem_dropLast hx; unfold Apart at ap; nds at ap n1 n2 ⊢; grind
    · intro x hx; have h2 := dropLast_snoc hx; unfold Apart at ap; nds at ap n1 n2 ⊢; grind
  · unfold Apart at ap; nds at ap n1 n2 ⊢; grind
  · intro a ha; rw [C.vl]
    simp only [List.mem_append] at ha
    rcases ha with (ha | ha) | ha
    · exact W.val a (by simp [ha])
    · exact V.val a (by simp [ha])
    · exact W.val a (by simp [ha])
  · have := W.size; simp at this ⊢; omega
  · simp only; rw [ring_split]
    refine ⟨K r3 ?_, K r5 ?_, C.link k1.la k2.lb (by simp [d1.symm, d3]) (by simp [d6])⟩
    · intro x hx; have h1 := dropLast_ne nD last_atLast hx; have h2 := mem_dropLast hx; unfold Apart at ap; nds at ap n1 n2 ⊢; grind
    · intro x hx; have h2 := dropLast_snoc hx; unfold Apart at ap; nds at ap n1 n2 ⊢; grind
  · unfold Apart at ap; nds at ap n1 n2 ⊢; grind
  · intro a ha; rw [C.vl]; exact V.val a (by simp at ha ⊢; tauto)
  · have := V.size; simp at this ⊢; omega
  · intro q q1 q2
    have ap := ap q
    nds at ap n1 n2 q1 q2; grind
  · intro q; simp only [ids, List.map_append, List.mem_append]; grind
  · intro q q1 q2
    apply C.same
    · nds at q1 q2; rw [if_neg (by grind), if_neg (by grind), if_neg (by grind)]
    · nds at q1 q2; rw [if_neg (by grind), if_neg (by grind), if_neg (by grind)]

/-! ## New and removed nodes -/

/-- A block of nodes that is not part of any list. -/
structure Blk (h : Hp α) (Q : List (Nat × α)) : Prop where
  ch : Ch h (ids Q)
  live : ∀ q ∈ ids Q, live h q
  nd : (ids Q).Nodup
  val : ∀ a ∈ Q, vl h a.1 = some a.2

theorem insert_block {h h' : Hp α} {c : Con} {fn fp : Nat → Nat} {A B Q : List (Nat × α)} (W : WF h c (A ++ B)) (hQ : Q ≠ []) (V : Blk h Q) (ap : ∀ q ∈ c.hd :: ids (A ++ B), q ∉ ids Q)
    (C : Chg h h' fn fp) (n1 : fn (atLast c.hd A) = atFirst c.hd Q) (n2 : fn (atLast c.hd Q) = atFirst c.hd B)
    (n0 : ∀ q, q ∉ [atLast c.hd A, atLast c.hd Q] → fn q = nx h q)
    (p1 : fp (atFirst c.hd Q) = atLast c.hd A) (p2 : fp (atFirst c.hd B) = atLast c.hd Q)
    (p0 : ∀ q, q ∉ [atFirst c.hd Q, atFirst c.hd B] → fp q = pv h q) :
    WF h' ⟨c.hd, c.size + Q.length⟩ (A ++ Q ++ B) ∧ ∀ q, q ∉ c.hd :: ids (A ++ Q ++ B) → h' q = h q := by
  obtain ⟨r1, r2, k1⟩ := ring_split.1 W.ch
  have a1 := atLast_mem (hd := c.hd) A
  have a3 := atLast_block (d := c.hd) hQ
  have b1 := atFirst_mem (hd := c.hd) B
  have b3 := atFirst_block (d := c.hd) hQ
  have hnd := W.nd
  have nA : (c.hd :: ids A).Nodup := nodup_of_sub hnd (by simp [ids])
  have nQ := V.nd
  have K : ∀ {L : List Nat}, Ch h L → (∀ x ∈ L.dropLast, x ∉ [atLast c.hd A, atLast c.hd Q]) → (∀ y ∈ L.tail, y ≠ atFirst c.hd Q) → Ch h' L := by
    intro L cL hS hT
    refine ch_frame cL fun x y l hx hy => ⟨(C.live x).2 l.la, (C.live y).2 l.lb, by rw [C.nx, n0 x (hS x hx), l.n], ?_⟩
    rw [C.pv, p0, l.p]
    simp only [List.mem_cons, List.not_mem_nil, or_false, not_or]
    refine ⟨hT y hy, ?_⟩
    rintro rfl
    have := l.p; rw [k1.p] at this
    exact hS x hx (by simp [this])
  refine ⟨⟨?_, ?_, ?_, ?_⟩, ?_⟩
  · simp only; rw [ring3 hQ]
    refine ⟨K r1 ?_ ?_, K V.ch ?_ ?_, K r2 ?_ ?_, C.link k1.la (V.live _ b3) n1 p1, C.link (V.live _ a3) k1.lb n2 p2⟩
    · intro x hx; have h1 := dropLast_ne nA last_atLast hx; have h2 := mem_dropLast hx; nds at ap hnd ⊢; grind
    · intro y hy; have := List.mem_of_mem_tail hy; nds at ap this; grind
    · intro x hx; have h1 := dropLast_ne nQ (last_block (d := c.hd) hQ) hx; have h2 := mem_dropLast hx; nds at ap hnd ⊢; grind
    · intro y hy
      cases Q with
      | nil => exact absurd rfl hQ
      | cons a Q => simp [ids, atFirst] at hy nQ ⊢; rintro rfl; obtain ⟨v, hv⟩ := hy; exact nQ.1 _ hv
    · intro x hx; have h2 := dropLast_snoc hx; nds at ap hnd ⊢; grind
    · intro y hy; have := List.mem_of_mem_tail hy; nds at ap this; grind
  · nds at ap hnd nQ ⊢; grind
  · intro a ha; rw [C.vl]
    simp only [List.mem_append] at ha
    rcases ha with (ha | ha) | ha
    · exact W.val a (by simp [ha])
    · exact V.val a ha
    · exact W.val a (by simp [ha])
  · have := W.size; simp at this ⊢; omega
  · intro q q1
    apply C.same
    · apply n0; nds at q1 ⊢; grind
    · apply p0; nds at q1 ⊢; grind

theorem cut_block {h h' : Hp α} {c : Con} {fn fp : Nat → Nat} {A M B : List (Nat × α)} (W : WF h c (A ++ M ++ B)) (hM : M ≠ [])
    (C : Chg h h' fn fp) (n1 : fn (atLast c.hd A) = atFirst c.hd B) (n0 : ∀ q, q ≠ atLast c.hd A → q ∉ ids M → fn q = nx h q)
    (p1 : fp (atFirst c.hd B) = atLast c.hd A) (p0 : ∀ q, q ≠ atFirst c.hd B → q ∉ ids M → fp q = pv h q) :
    WF h' ⟨c.hd, c.size - M.length⟩ (A ++ B) ∧ ∀ q, q ∉ c.hd :: ids (A ++ M ++ B) → h' q = h q := by
  obtain ⟨r1, r2, r3, k1, k2⟩ := (ring3 hM).1 W.ch
  have a1 := atLast_mem (hd := c.hd) A
  have a3 := atLast_block (d := c.hd) hM
  have b1 := atFirst_mem (hd := c.hd) B
  have b3 := atFirst_block (d := c.hd) hM
  have hnd := W.nd
  have nA : (c.hd :: ids A).Nodup := nodup_of_sub hnd (by simp [ids])
  have K : ∀ {L : List Nat}, Ch h L → (∀ x ∈ L.dropLast, x ≠ atLast c.hd A ∧ x ≠ atLast c.hd M ∧ x ∉ ids M) → (∀ y ∈ L.tail, y ∉ ids M) → Ch h' L := by
    intro L cL hS hT
    refine ch_frame cL fun x y l hx hy => ⟨(C.live x).2 l.la, (C.live y).2 l.lb, by rw [C.nx, n0 x (hS x hx).1 (hS x hx).2.2, l.n], ?_⟩
    rw [C.pv, p0 y _ (hT y hy), l.p]
    rintro rfl
    have := l.p; rw [k2.p] at this
    exact (hS x hx).2.1 this.symm
  refine ⟨⟨?_, ?_, ?_, ?_⟩, ?_⟩
  · simp only; rw [ring_split]
    refine ⟨K r1 ?_ ?_, K r3 ?_ ?_, C.link k1.la k2.lb n1 p1⟩
    · intro x hx; have h1 := dropLast_ne nA last_atLast hx; have h2 := mem_dropLast hx; nds at hnd ⊢; grind
    · intro y hy; have := List.mem_of_mem_tail hy; nds at hnd this ⊢; grind
    · intro x hx; have h2 := dropLast_snoc hx; nds at hnd ⊢; grind
    · intro y hy; have := List.mem_of_mem_tail hy; nds at hnd this ⊢; grind
  · nds at hnd ⊢; grind
  · intro a ha; rw [C.vl]; exact W.val a (by simp at ha ⊢; tauto)
  · have := W.size; simp at this ⊢; omega
  · intro q q1
    apply C.same
    · apply n0 <;> (nds at q1 ⊢; grind)
    · apply p0 <;> (nds at q1 ⊢; grind)

/-- freeing the nodes that were cut out -/
theorem cut_free {h h1 h2 : Hp α} {c c' : Con} {A M B : List (Nat × α)} (W : WF h c (A ++ M ++ B)) (W' : WF h1 c' (A ++ B)) (hc : c'.hd = c.hd)
    (fr : ∀ q, q ∉ c.hd :: ids (A ++ M ++ B) → h1 q = h q) (f1 : ∀ q ∈ ids M, h2 q = none) (f2 : ∀ q, q ∉ ids M → h2 q = h1 q) : One h c (A ++ M ++ B) h2 c' (A ++ B) where
  wf := W'.frame fun q hq => f2 q (by have := W.nd; rw [hc] at hq; nds at this hq ⊢; grind)
  hd := hc
  frame := fun q q1 q2 q3 => by
    rw [f2 q (by nds at q2 ⊢; grind), fr q (by nds at q2 ⊢; grind)]
  gone := fun q q1 q2 => f1 q (by nds at q1 q2 ⊢; grind)
  new := fun q q1 => Or.inl (by nds at q1 ⊢; grind)

end STL.DL
