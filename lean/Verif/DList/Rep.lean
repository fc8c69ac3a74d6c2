import Verif.DList.Spec
import Mathlib.Data.List.Chain

/-! # Chains of linked nodes. Proofs only. -/

namespace STL.DL
open STL
variable {α : Type}

/-! ## Heaps seen through their fields -/

def live (h : Hp α) (p : Nat) : Prop := h p ≠ none
def nx (h : Hp α) (p : Nat) : Nat := match h p with | some n => n.next | none => 0
def pv (h : Hp α) (p : Nat) : Nat := match h p with | some n => n.prev | none => 0
def vl (h : Hp α) (p : Nat) : Option α := match h p with | some n => n.val | none => none

theorem nd_live {h : Hp α} {p : Nat} (hl : live h p) : nd h p = .ok ⟨nx h p, pv h p, vl h p⟩ := by
  unfold live at hl; unfold nd nx pv vl
  cases hh : h p with
  | none => exact absurd hh hl
  | some n => rfl

theorem hp_ext {h h' : Hp α} {p : Nat} (h1 : live h p ↔ live h' p) (h2 : nx h p = nx h' p) (h3 : pv h p = pv h' p) (h4 : vl h p = vl h' p) : h p = h' p := by
  unfold live at h1; unfold nx at h2; unfold pv at h3; unfold vl at h4
  cases hh : h p with
  | none =>
    cases hh' : h' p with
    | none => rfl
    | some n => simp [hh, hh'] at h1
  | some n =>
    cases hh' : h' p with
    | none => simp [hh, hh'] at h1
    | some n' => simp only [hh, hh'] at h2 h3 h4; cases n; cases n'; simp_all

/-- `h'` is `h` with the fields `F` of node `p`, all others alike -/
structure Chg (h h' : Hp α) (fn fp : Nat → Nat) : Prop where
  live : ∀ q, live h' q ↔ live h q
  nx : ∀ q, nx h' q = fn q
  pv : ∀ q, pv h' q = fp q
  vl : ∀ q, vl h' q = vl h q

theorem Chg.refl (h : Hp α) : Chg h h (DL.nx h) (DL.pv h) := ⟨fun _ => Iff.rfl, fun _ => rfl, fun _ => rfl, fun _ => rfl⟩

theorem live_put {h : Hp α} {p q : Nat} {n : Node α} : live (put h p n) q ↔ q = p ∨ live h q := by
  unfold live put; by_cases hq : q = p <;> simp [hq]
theorem nx_put {h : Hp α} {p q : Nat} {n : Node α} : nx (put h p n) q = if q = p then n.next else nx h q := by
  unfold nx put; by_cases hq : q = p <;> simp [hq]
theorem pv_put {h : Hp α} {p q : Nat} {n : Node α} : pv (put h p n) q = if q = p then n.prev else pv h q := by
  unfold pv put; by_cases hq : q = p <;> simp [hq]
theorem vl_put {h : Hp α} {p q : Nat} {n : Node α} : vl (put h p n) q = if q = p then n.val else vl h q := by
  unfold vl put; by_cases hq : q = p <;> simp [hq]

theorem Chg.setN {h0 h : Hp α} {fn fp : Nat → Nat} (C : Chg h0 h fn fp) {p : Nat} (hl : DL.live h0 p) (v : Nat) :
    ∃ h', DL.setN h p v = .ok h' ∧ Chg h0 h' (fun q => if q = p then v else fn q) fp := by
  have hl' := (C.live p).2 hl
  refine ⟨put h p ⟨v, DL.pv h p, DL.vl h p⟩, by unfold DL.setN; rw [nd_live hl']; rfl, ?_, ?_, ?_, ?_⟩
  · intro q; rw [live_put, C.live q]; constructor
    · rintro (rfl | h)
      · exact hl
      · exact h
    · exact Or.inr
  · intro q; rw [nx_put, C.nx]
  · intro q; rw [pv_put]; split <;> (subst_vars; exact C.pv _)
  · intro q; rw [vl_put]; split <;> (subst_vars; exact C.vl _)

theorem Chg.setP {h0 h : Hp α} {fn fp : Nat → Nat} (C : Chg h0 h fn fp) {p : Nat} (hl : DL.live h0 p) (v : Nat) :
    ∃ h', DL.setP h p v = .ok h' ∧ Chg h0 h' fn (fun q => if q = p then v else fp q) := by
  have hl' := (C.live p).2 hl
  refine ⟨put h p ⟨DL.nx h p, v, DL.vl h p⟩, by unfold DL.setP; rw [nd_live hl']; rfl, ?_, ?_, ?_, ?_⟩
  · intro q; rw [live_put, C.live q]; constructor
    · rintro (rfl | h)
      · exact hl
      · exact h
    · exact Or.inr
  · intro q; rw [nx_put]; split <;> (subst_vars; exact C.nx _)
  · intro q; rw [pv_put, C.pv]
  · intro q; rw [vl_put]; split <;> (subst_vars; exact C.vl _)

theorem Chg.nd {h0 h : Hp α} {fn fp : Nat → Nat} (C : Chg h0 h fn fp) {p : Nat} (hl : DL.live h0 p) : DL.nd h p = .ok ⟨fn p, fp p, DL.vl h0 p⟩ := by
  rw [nd_live ((C.live p).2 hl), C.nx, C.pv, C.vl]

theorem Chg.same {h0 h : Hp α} {fn fp : Nat → Nat} (C : Chg h0 h fn fp) {q : Nat} (h1 : fn q = DL.nx h0 q) (h2 : fp q = DL.pv h0 q) : h q = h0 q :=
  hp_ext (C.live q) ((C.nx q).trans h1) ((C.pv q).trans h2) (C.vl q)

theorem alloc_ok {h : Hp α} {x : Nat} {v : Option α} (hx : ¬ live h x) (h0 : x ≠ 0) : ∃ h', alloc h x v = .ok h' ∧
    (∀ q, q ≠ x → h' q = h q) ∧ live h' x ∧ vl h' x = v := by
  refine ⟨put h x ⟨0, 0, v⟩, ?_, ?_, ?_, ?_⟩
  · unfold alloc; rw [if_pos]; refine ⟨?_, h0⟩; unfold live at hx; simpa using hx
  · intro q hq; simp [put, hq]
  · simp [live, put]
  · simp [vl, put]

theorem free_ok {h : Hp α} {x : Nat} (hx : live h x) : ∃ h', free h x = .ok h' ∧ (∀ q, q ≠ x → h' q = h q) ∧ h' x = none := by
  refine ⟨fun q => if q = x then none else h q, by unfold free; rw [nd_live hx]; rfl, ?_, by simp⟩
  intro q hq; simp [hq]

theorem live_eq {h h' : Hp α} {q : Nat} (e : h' q = h q) : live h' q ↔ live h q := by unfold live; rw [e]
theorem nx_eq {h h' : Hp α} {q : Nat} (e : h' q = h q) : nx h' q = nx h q := by unfold nx; rw [e]
theorem pv_eq {h h' : Hp α} {q : Nat} (e : h' q = h q) : pv h' q = pv h q := by unfold pv; rw [e]
theorem vl_eq {h h' : Hp α} {q : Nat} (e : h' q = h q) : vl h' q = vl h q := by unfold vl; rw [e]

theorem valAt_ok {h : Hp α} {p : Nat} {v : α} (hl : live h p) (hv : vl h p = some v) : valAt h p = .ok v := by
  unfold valAt; rw [nd_live hl, R.ok_bind]; simp only; rw [hv]

/-! ## Chains -/

/-- `a` and `b` are neighbours -/
structure Link (h : Hp α) (a b : Nat) : Prop where
  la : live h a
  lb : live h b
  n : nx h a = b
  p : pv h b = a

abbrev Ch (h : Hp α) (L : List Nat) : Prop := L.IsChain (Link h)

theorem ch_append {h : Hp α} {A B : List Nat} : Ch h (A ++ B) ↔ Ch h A ∧ Ch h B ∧ ∀ x ∈ A.getLast?, ∀ y ∈ B.head?, Link h x y := List.isChain_append

theorem ch_join {h : Hp α} {A B : List Nat} {x y : Nat} (hA : A.getLast? = some x) (hB : B.head? = some y) : Ch h (A ++ B) ↔ Ch h A ∧ Ch h B ∧ Link h x y := by
  rw [ch_append, hA, hB]; simp

theorem ch_frame {h h' : Hp α} {L : List Nat} (c : Ch h L) (hs : ∀ x y, Link h x y → x ∈ L.dropLast → y ∈ L.tail → Link h' x y) : Ch h' L := by
  induction L with
  | nil => exact .nil
  | cons a L ih =>
    cases L with
    | nil => exact .singleton _
    | cons b L =>
      rw [Ch, List.isChain_cons_cons] at c ⊢
      refine ⟨hs a b c.1 (by simp) (by simp), ih c.2 ?_⟩
      intro x y l hx hy
      exact hs x y l (by simp at hx ⊢; exact Or.inr hx) (by simp at hy ⊢; exact Or.inr hy)

theorem getLast_mem {L : List Nat} {x : Nat} (h : L.getLast? = some x) : x ∈ L := List.mem_of_getLast? h
theorem head_mem {L : List Nat} {x : Nat} (h : L.head? = some x) : x ∈ L := List.mem_of_head? h

theorem dropLast_ne {L : List Nat} {x l : Nat} (hn : L.Nodup) (hl : L.getLast? = some l) (hx : x ∈ L.dropLast) : x ≠ l := by
  obtain ⟨M, rfl⟩ : ∃ M, L = M ++ [l] := by
    rw [List.getLast?_eq_some_iff] at hl; exact hl
  simp at hx
  rw [List.nodup_append] at hn
  exact hn.2.2 x hx l (by simp)

theorem ch_live {h : Hp α} : ∀ {L : List Nat}, Ch h L → 2 ≤ L.length → ∀ q ∈ L, live h q
  | [], _, h2, _, _ => by simp at h2
  | [_], _, h2, _, _ => by simp at h2
  | a :: b :: L, c, _, q, hq => by
    rw [Ch, List.isChain_cons_cons] at c
    rcases List.mem_cons.1 hq with rfl | hq
    · exact c.1.la
    · cases L with
      | nil => simp at hq; subst hq; exact c.1.lb
      | cons d L => exact ch_live c.2 (by simp) q hq

/-- Nodes that are unaltered keep their links. -/
theorem ch_same {h h' : Hp α} {L : List Nat} (c : Ch h L) (hs : ∀ q ∈ L, h' q = h q) : Ch h' L := by
  refine ch_frame c fun x y l hx hy => ?_
  have e1 := hs x ((List.dropLast_sublist L).subset hx)
  have e2 := hs y (List.mem_of_mem_tail hy)
  exact ⟨(live_eq e1).2 l.la, (live_eq e2).2 l.lb, (nx_eq e1).trans l.n, (pv_eq e2).trans l.p⟩

/-- Chains survive changes elsewhere. -/
theorem Chg.ch {h h' : Hp α} {fn fp : Nat → Nat} (C : Chg h h' fn fp) {L : List Nat} (c : Ch h L)
    (h1 : ∀ x ∈ L.dropLast, fn x = DL.nx h x) (h2 : ∀ x y, Link h x y → x ∈ L.dropLast → fp y = DL.pv h y) : Ch h' L :=
  ch_frame c fun x y l hx _ => ⟨(C.live x).2 l.la, (C.live y).2 l.lb, by rw [C.nx, h1 x hx, l.n], by rw [C.pv, h2 x y l hx, l.p]⟩

theorem Chg.link {h h' : Hp α} {fn fp : Nat → Nat} (C : Chg h h' fn fp) {a b : Nat} (la : DL.live h a) (lb : DL.live h b) (h1 : fn a = b) (h2 : fp b = a) : Link h' a b :=
  ⟨(C.live a).2 la, (C.live b).2 lb, by rw [C.nx, h1], by rw [C.pv, h2]⟩

/-! ## The representation of a list -/

structure WF (h : Hp α) (c : Con) (X : List (Nat × α)) : Prop where
  ch : Ch h (c.hd :: (ids X ++ [c.hd]))
  nd : (c.hd :: ids X).Nodup
  val : ∀ a ∈ X, vl h a.1 = some a.2
  size : c.size = X.length

theorem WF.live {h : Hp α} {c : Con} {X : List (Nat × α)} (W : WF h c X) {q : Nat} (hq : q = c.hd ∨ q ∈ ids X) : live h q := by
  refine ch_live W.ch (by simp) q ?_
  rcases hq with rfl | hq <;> simp_all

theorem WF.frame {h h' : Hp α} {c : Con} {X : List (Nat × α)} (W : WF h c X) (hs : ∀ q, q = c.hd ∨ q ∈ ids X → h' q = h q) : WF h' c X where
  ch := ch_same W.ch fun q hq => hs q (by simp at hq ⊢; tauto)
  nd := W.nd
  val := fun a ha => by rw [vl_eq (hs a.1 (Or.inr (List.mem_map_of_mem ha)))]; exact W.val a ha
  size := W.size

/-- What a modification of one list has to guarantee. -/
structure One (h : Hp α) (c : Con) (X : List (Nat × α)) (h' : Hp α) (c' : Con) (X' : List (Nat × α)) : Prop where
  wf : WF h' c' X'
  hd : c'.hd = c.hd
  frame : ∀ q, q ≠ c.hd → q ∉ ids X → q ∉ ids X' → h' q = h q
  gone : ∀ q ∈ ids X, q ∉ ids X' → h' q = none
  new : ∀ q ∈ ids X', q ∈ ids X ∨ h q = none ∧ q ≠ 0

theorem One.refl {h : Hp α} {c : Con} {X : List (Nat × α)} (W : WF h c X) : One h c X h c X :=
  ⟨W, rfl, fun _ _ _ _ => rfl, fun q h1 h2 => absurd h1 h2, fun q h1 => Or.inl h1⟩

theorem One.trans {h h1 h2 : Hp α} {c c1 c2 : Con} {X X1 X2 : List (Nat × α)} (a : One h c X h1 c1 X1) (b : One h1 c1 X1 h2 c2 X2) : One h c X h2 c2 X2 where
  wf := b.wf
  hd := b.hd.trans a.hd
  frame := by
    intro q q1 q2 q3
    by_cases hq : q ∈ ids X1
    · rw [b.gone q hq q3]
      rcases a.new q hq with h | h
      · exact absurd h q2
      · exact h.1.symm
    · rw [b.frame q (by rw [a.hd]; exact q1) hq q3, a.frame q q1 q2 hq]
  gone := by
    intro q q1 q2
    by_cases hq : q ∈ ids X1
    · exact b.gone q hq q2
    · have hg := a.gone q q1 hq
      rw [b.frame q ?_ hq q2, hg]
      rintro rfl
      exact a.wf.live (Or.inl rfl) hg
  new := by
    intro q q1
    rcases b.new q q1 with h | h
    · exact a.new q h
    · by_cases hq : q ∈ ids X
      · exact Or.inl hq
      · right
        have hq1 : q ∉ ids X1 := fun hq1 => a.wf.live (Or.inr hq1) h.1
        have hq2 : q ≠ c.hd := by rintro rfl; exact a.wf.live (Or.inl a.hd.symm) h.1
        rw [← a.frame q hq2 hq hq1]; exact h

/-- last of `A`, or the end -/
def atLast (hd : Nat) (A : List (Nat × α)) : Nat := atFirst hd A.reverse

theorem last_atLast {hd : Nat} {A : List (Nat × α)} : (hd :: ids A).getLast? = some (atLast hd A) := by
  cases A using List.reverseRecOn with
  | nil => simp [atLast, atFirst]
  | append_singleton A a _ => rw [show hd :: ids (A ++ [a]) = (hd :: ids A) ++ [a.1] by simp [ids], List.getLast?_concat]; simp [atLast, atFirst]

theorem first_atFirst {hd : Nat} {B : List (Nat × α)} : (ids B ++ [hd]).head? = some (atFirst hd B) := by
  cases B <;> simp [atFirst, ids]

theorem ring_split {h : Hp α} {hd : Nat} {A B : List (Nat × α)} : Ch h (hd :: (ids (A ++ B) ++ [hd])) ↔
    Ch h (hd :: ids A) ∧ Ch h (ids B ++ [hd]) ∧ Link h (atLast hd A) (atFirst hd B) := by
  rw [show hd :: (ids (A ++ B) ++ [hd]) = (hd :: ids A) ++ (ids B ++ [hd]) by simp [ids]]
  exact ch_join last_atLast first_atFirst

theorem WF.link {h : Hp α} {c : Con} {A B : List (Nat × α)} (W : WF h c (A ++ B)) : Link h (atLast c.hd A) (atFirst c.hd B) := (ring_split.1 W.ch).2.2

theorem atLast_snoc {hd : Nat} {A : List (Nat × α)} {a : Nat × α} : atLast hd (A ++ [a]) = a.1 := by simp [atLast, atFirst]

theorem WF.next {h : Hp α} {c : Con} {A B : List (Nat × α)} {a : Nat × α} (W : WF h c (A ++ a :: B)) : nx h a.1 = atFirst c.hd B := by
  have := (WF.link (A := A ++ [a]) (B := B) (by simpa using W)).n
  rwa [atLast_snoc] at this

theorem WF.first {h : Hp α} {c : Con} {X : List (Nat × α)} (W : WF h c X) : nx h c.hd = atFirst c.hd X := (WF.link (A := []) (B := X) W).n
theorem WF.last {h : Hp α} {c : Con} {X : List (Nat × α)} (W : WF h c X) : pv h c.hd = atLast c.hd X := by
  have := (WF.link (A := X) (B := []) (by simpa using W)).p; exact this
theorem WF.prev {h : Hp α} {c : Con} {A B : List (Nat × α)} (W : WF h c (A ++ B)) : pv h (atFirst c.hd B) = atLast c.hd A := W.link.p

theorem atFirst_mem {hd : Nat} (B : List (Nat × α)) : atFirst hd B = hd ∨ atFirst hd B ∈ ids B := by cases B <;> simp [atFirst, ids]
theorem atLast_mem {hd : Nat} (B : List (Nat × α)) : atLast hd B = hd ∨ atLast hd B ∈ ids B := by
  have := atFirst_mem (hd := hd) B.reverse; simpa [atLast, ids] using this

end STL.DL
