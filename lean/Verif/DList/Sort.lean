import Verif.DList.Remove
import Verif.StableSort.SS

/-! # `sort`, `merge`. Proofs only. -/

namespace STL.DL
open STL
variable {α : Type}

/-- elements are compared by value -/
abbrev lp (lt : α → α → Bool) (a b : Nat × α) : Bool := lt a.2 b.2

theorem swo_lp {lt : α → α → Bool} (h : SWO lt) : SWO (lp lt) where
  irrefl := fun a => h.irrefl a.2
  trans := fun a b c => h.trans a.2 b.2 c.2
  equiv_trans := fun a b c => h.equiv_trans a.2 b.2 c.2

theorem cmp_ok {lt : α → α → Bool} {k : Nat} {h : Hp α} {p q : Nat} {u v : α} (l1 : live h p) (v1 : vl h p = some u) (l2 : live h q) (v2 : vl h q = some v) :
    cmp lt k h p q = .ok (callPred k (lt u v)) := by
  unfold cmp; rw [valAt_ok l1 v1, R.ok_bind, valAt_ok l2 v2, R.ok_bind]

/-- a node with a value -/
structure Has (h : Hp α) (a : Nat × α) : Prop where
  l : live h a.1
  v : vl h a.1 = some a.2

theorem WF.has {h : Hp α} {c : Con} {X : List (Nat × α)} (W : WF h c X) {a : Nat × α} (ha : a ∈ X) : Has h a :=
  ⟨W.live (Or.inr (List.mem_map_of_mem ha)), W.val a ha⟩

theorem One.has {h h' : Hp α} {c c' : Con} {X X' : List (Nat × α)} (O : One h c X h' c' X') {a : Nat × α} (ha : a ∈ X') : Has h' a := O.wf.has ha

theorem runLoop_ok {lt : α → α → Bool} {h : Hp α} {c : Con} {x : Nat × α} {S : List (Nat × α)} (hx : Has h x) :
    ∀ {f k : Nat} {B Q : List (Nat × α)} {m : Nat × α}, WF h c (Q ++ m :: (B ++ S)) → B.length < f →
      (runLoop lt h x.1 (atFirst c.hd S) f k m.1 = .ok none ∧ k < B.length) ∨
      ∃ R B2 k', B = R ++ B2 ∧ runLoop lt h x.1 (atFirst c.hd S) f k m.1 = .ok (some (k', atFirst c.hd (B2 ++ S))) ∧
        (∀ r ∈ R, lt r.2 x.2 = true) ∧ (∀ b ∈ B2.head?, lt b.2 x.2 = false) ∧ k = k' + R.length + (if B2 = [] then 0 else 1)
  | 0, _, _, _, _, _, hf => by omega
  | f + 1, k, B, Q, m, W, hf => by
    have hm := W.has (a := m) (by simp)
    unfold runLoop
    rw [nd_live hm.l, R.ok_bind, W.next]; simp only
    cases B with
    | nil => right; exact ⟨[], [], k, rfl, by simp, by simp, by simp, by simp⟩
    | cons b B =>
      have hb := W.has (a := b) (by simp)
      have hnd := W.nd
      have s1 := atFirst_mem (hd := c.hd) S
      rw [List.cons_append, atFirst_cons, if_neg (by nds at hnd; grind), cmp_ok hb.l hb.v hx.l hx.v, R.ok_bind]
      cases k with
      | zero => left; simp [callPred]
      | succ k =>
        simp only [callPred]
        cases hlt : lt b.2 x.2 with
        | false => right; exact ⟨[], b :: B, k, rfl, by simp [atFirst], by simp, by simpa using hlt, by simp⟩
        | true =>
          simp only
          rcases runLoop_ok (lt := lt) hx (f := f) (k := k) (B := B) (Q := Q ++ [m]) (m := b) (by simpa using W) (by simp at hf; omega) with ⟨e, hk⟩ | ⟨R, B2, k', e1, e2, h1, h2, h3⟩
          · left; exact ⟨e, by simp; omega⟩
          · right; exact ⟨b :: R, B2, k', by simp [e1], e2, by simpa [hlt] using h1, h2, by simp; omega⟩

theorem skipLoop_ok {lt : α → α → Bool} {h : Hp α} {c : Con} {x : Nat × α} {T : List (Nat × α)} :
    ∀ {f k : Nat} {A Q : List (Nat × α)} {m : Nat × α}, WF h c (Q ++ m :: (A ++ x :: T)) → A.length < f →
      (skipLoop lt h x.1 f k m.1 = .ok none ∧ k < A.length) ∨
      ∃ K A2 k', A = K ++ A2 ∧ skipLoop lt h x.1 f k m.1 = .ok (some (k', atFirst c.hd (A2 ++ x :: T))) ∧
        (∀ r ∈ K, lt x.2 r.2 = false) ∧ (∀ b ∈ A2.head?, lt x.2 b.2 = true) ∧ k = k' + K.length + (if A2 = [] then 0 else 1)
  | 0, _, _, _, _, _, hf => by omega
  | f + 1, k, A, Q, m, W, hf => by
    have hm := W.has (a := m) (by simp)
    have hx := W.has (a := x) (by simp)
    unfold skipLoop
    rw [nd_live hm.l, R.ok_bind, W.next]; simp only
    cases A with
    | nil => right; exact ⟨[], [], k, rfl, by simp [atFirst], by simp, by simp, by simp⟩
    | cons b A =>
      have hb := W.has (a := b) (by simp)
      have hnd := W.nd
      rw [List.cons_append, atFirst_cons, if_neg (by nds at hnd; grind), cmp_ok hx.l hx.v hb.l hb.v, R.ok_bind]
      cases k with
      | zero => left; simp [callPred]
      | succ k =>
        simp only [callPred]
        cases hlt : lt x.2 b.2 with
        | true => right; exact ⟨[], b :: A, k, rfl, by simp [atFirst], by simp, by simpa using hlt, by simp⟩
        | false =>
          simp only
          rcases skipLoop_ok (lt := lt) (f := f) (k := k) (A := A) (Q := Q ++ [m]) (m := b) (x := x) (T := T) (by simpa using W) (by simp at hf; omega) with ⟨e, hk⟩ | ⟨R, B2, k', e1, e2, h1, h2, h3⟩
          · left; exact ⟨e, by simp; omega⟩
          · right; exact ⟨b :: R, B2, k', by simp [e1], e2, by simpa [hlt] using h1, h2, by simp; omega⟩

/-- One round of a merge: the run `R` goes before `A`. -/
theorem merge_round {lt : α → α → Bool} (hlt : SWO lt) {a b : Nat × α} {K A2 R B2 Y2 : List (Nat × α)} (hA : Srt (lp lt) (a :: K ++ A2)) (hB : Srt (lp lt) (b :: R ++ B2))
    (hba : lt b.2 a.2 = true) (hR : ∀ r ∈ R, lt r.2 a.2 = true) (hB2 : ∀ x ∈ B2.head?, lt x.2 a.2 = false) (hK : ∀ x ∈ B2.head?, ∀ r ∈ K, lt x.2 r.2 = false)
    (hY : SS (lp lt) (A2 ++ B2) Y2) : SS (lp lt) (a :: K ++ A2 ++ (b :: R ++ B2)) (b :: R ++ (a :: K ++ Y2)) := by
  have hl := swo_lp hlt
  have hRA : ∀ r ∈ b :: R, ∀ x ∈ a :: K ++ A2, lp lt r x = true := by
    intro r hr x hx
    have hra : lp lt r a = true := by
      rcases List.mem_cons.1 hr with rfl | hr
      · exact hba
      · exact hR r hr
    exact Srt.lt_all hl (a := a) (X := K ++ A2) (by simpa using hA) hra x (by simpa using hx)
  have hKB : ∀ x ∈ B2, ∀ r ∈ a :: K, lp lt x r = false := by
    intro x hx r hr
    have hB2s := Srt.right hB
    cases B2 with
    | nil => simp at hx
    | cons y B2 =>
      have hyr : lp lt y r = false := by
        rcases List.mem_cons.1 hr with rfl | hr
        · exact hB2 y (by simp)
        · exact hK y (by simp) r hr
      exact Srt.le_all hl hB2s hyr x (by simpa using hx)
  refine ⟨?_, ?_⟩
  · have e1 : SEq (lp lt) ((a :: K ++ A2) ++ (b :: R)) ((b :: R) ++ (a :: K ++ A2)) := SEq.swap hl (fun x hx r hr => hRA r hr x hx)
    have e2 := e1.append (SEq.refl (lt := lp lt) B2)
    have e3 : SEq (lp lt) ((b :: R) ++ (a :: K) ++ (A2 ++ B2)) ((b :: R) ++ (a :: K) ++ Y2) := (SEq.refl _).append hY.toSEq
    simp only [List.append_assoc, List.cons_append] at e2 e3 ⊢
    exact e2.trans e3
  · have hsR := Srt.left hB
    have hsK := Srt.left hA
    have memY : ∀ y ∈ Y2, y ∈ A2 ∨ y ∈ B2 := fun y hy => by have := hY.mem.1 hy; simpa using this
    unfold Srt at *
    rw [List.pairwise_append, List.pairwise_append]
    refine ⟨hsR, ⟨hsK, hY.srt, ?_⟩, ?_⟩
    · intro r hr y hy
      rcases memY y hy with h | h
      · exact (List.pairwise_append.1 hA).2.2 r hr y h
      · exact hKB y h r hr
    · intro r hr y hy
      rcases List.mem_append.1 hy with h | h
      · exact hl.asymm (hRA r hr y (by simp at h ⊢; tauto))
      · rcases memY y h with h | h
        · exact hl.asymm (hRA r hr y (by simp [h]))
        · exact (List.pairwise_append.1 hB).2.2 r hr y h

/-- The result of a merge: `n` bounds the comparisons. -/
def MrgRes (lt : α → α → Bool) (X Y : List (Nat × α)) (k n : Nat) : Option Nat → Prop
  | none => k < n ∧ Y.Perm X
  | some k' => k ≤ k' + n ∧ SS (lp lt) X Y

theorem MrgRes.perm {lt : α → α → Bool} {X Y : List (Nat × α)} {k n : Nat} {o : Option Nat} (m : MrgRes lt X Y k n o) : Y.Perm X := by
  cases o with
  | none => exact m.2
  | some k' => exact m.2.perm

theorem first_ne {h : Hp α} {c : Con} {Q B S : List (Nat × α)} (W : WF h c (Q ++ (B ++ S))) (hB : B ≠ []) : atFirst c.hd (B ++ S) ≠ atFirst c.hd S := by
  have hnd := W.nd
  have s1 := atFirst_mem (hd := c.hd) S
  have b1 := atFirst_block (d := c.hd) hB
  rw [atFirst_app hB]
  nds at hnd; grind

theorem mergeLoop_ok {lt : α → α → Bool} (hlt : SWO lt) {c : Con} {S : List (Nat × α)} {g : Nat} :
    ∀ {f k : Nat} {h : Hp α} {P A B : List (Nat × α)} {a b : Nat × α}, WF h c (P ++ (a :: A ++ (b :: B ++ S))) → Srt (lp lt) (a :: A) → Srt (lp lt) (b :: B) → lt b.2 a.2 = true →
      A.length + B.length < f → A.length + B.length < g →
      ∃ h' o Y, mergeLoop lt (atFirst c.hd S) g f k h a.1 b.1 = .ok (h', o) ∧ One h c (P ++ (a :: A ++ (b :: B ++ S))) h' c (P ++ (Y ++ S)) ∧ MrgRes lt (a :: A ++ b :: B) Y k (A.length + B.length) o ∧
        (o ≠ none → Y.head? = some b)
  | 0, _, _, _, _, _, _, _, _, _, _, _, hf, _ => by omega
  | f + 1, k, h, P, A, B, a, b, W, sA, sB, hba, hf, hg => by
    have ha := W.has (a := a) (by simp)
    unfold mergeLoop
    rcases runLoop_ok (lt := lt) (f := g) (k := k) (B := B) (Q := P ++ a :: A) (m := b) (S := S) ha (by simpa using W) (by omega) with ⟨e, hk⟩ | ⟨Rn, B2, k1, eB, e, h1, h2, h3⟩
    · rw [e, R.ok_bind]
      refine ⟨h, none, a :: A ++ b :: B, rfl, by simpa using One.refl W, ⟨by omega, .refl _⟩, by simp⟩
    rw [e, R.ok_bind]; simp only; clear e
    subst eB
    have HH := splice_left (A := P) (M := a :: A) (N := b :: Rn) (B := B2 ++ S) (by simpa using W) (by simp) (by simp)
    obtain ⟨h1', e1, O1⟩ := HH
    rw [atFirst_cons, atFirst_cons] at e1
    rw [e1, R.ok_bind]
    have O1' : One h c (P ++ (a :: A ++ (b :: (Rn ++ B2) ++ S))) h1' c (P ++ (b :: Rn ++ (a :: A ++ (B2 ++ S)))) := by simpa using O1
    by_cases hB2 : B2 = []
    · subst hB2
      rw [List.nil_append, if_pos rfl]
      refine ⟨h1', _, b :: Rn ++ a :: A, rfl, by simpa using O1', ⟨by simp at h3 ⊢; omega, ?_⟩, by simp⟩
      have := merge_round hlt (a := a) (b := b) (K := A) (A2 := []) (R := Rn) (B2 := []) (Y2 := []) (by simpa using sA) (by simpa using sB) hba h1 (by simp) (by simp) (SS.self (by simp))
      simpa using this
    have W1 := O1'.wf
    rw [if_neg (first_ne (Q := P ++ b :: Rn ++ a :: A) (by simpa using W1) hB2)]
    obtain ⟨y, B3, rfl⟩ := List.exists_cons_of_ne_nil hB2
    rw [List.cons_append, atFirst_cons]
    rw [if_neg hB2] at h3
    rcases skipLoop_ok (lt := lt) (f := g) (k := k1) (A := A) (Q := P ++ b :: Rn) (m := a) (x := y) (T := B3 ++ S) (by simpa using W1) (by omega) with ⟨e, hk⟩ | ⟨K, A2, k2, eA, e, h4, h5, h6⟩
    · rw [e, R.ok_bind]
      refine ⟨h1', none, b :: Rn ++ (a :: A ++ y :: B3), rfl, by simpa using O1', ⟨by simp; omega, ?_⟩, by simp⟩
      have : (b :: Rn ++ (a :: A) ++ y :: B3).Perm (a :: A ++ b :: Rn ++ y :: B3) := List.Perm.append_right _ List.perm_append_comm
      simpa using this
    subst eA
    rw [e, R.ok_bind]; simp only
    by_cases hA2 : A2 = []
    · subst hA2
      rw [List.nil_append, atFirst_cons, if_pos rfl]
      refine ⟨h1', _, b :: Rn ++ (a :: K ++ y :: B3), rfl, by simpa using O1', ⟨by simp at h6 ⊢; omega, ?_⟩, by simp⟩
      have := merge_round hlt (a := a) (b := b) (K := K) (A2 := []) (R := Rn) (B2 := y :: B3) (Y2 := y :: B3) (by simpa using sA) (by simpa using sB) hba h1 h2
        (by simpa using h4) (SS.self (Srt.right (X := b :: Rn) (by simpa using sB)))
      simpa using this
    obtain ⟨z, A3, rfl⟩ := List.exists_cons_of_ne_nil hA2
    rw [if_neg hA2] at h6
    rw [List.cons_append, atFirst_cons]
    have hzy : z.1 ≠ y.1 := by have := W1.nd; nds at this; grind
    rw [if_neg hzy]
    have W2 : WF h1' c ((P ++ (b :: Rn ++ a :: K)) ++ (z :: A3 ++ (y :: B3 ++ S))) := by simpa using W1
    simp only [List.length_append, List.length_cons] at hf hg
    obtain ⟨h', o, Y, e, O2, M, hY⟩ := mergeLoop_ok hlt (f := f) (g := g) (k := k2) (A := A3) (B := B3) W2 (Srt.right (X := a :: K) (by simpa using sA)) (Srt.right (X := b :: Rn) (by simpa using sB)) (h5 z (by simp)) (by omega) (by omega)
    refine ⟨h', o, b :: Rn ++ (a :: K ++ Y), e, ?_, ?_, by simp⟩
    · have := O1'.trans (X2 := P ++ (b :: Rn ++ (a :: K ++ Y) ++ S)) (by simpa using O2)
      simpa using this
    · cases o with
      | none =>
        obtain ⟨M1, M2⟩ := M
        refine ⟨by simp; omega, ?_⟩
        have p1 : (b :: Rn ++ (a :: K) ++ (z :: A3 ++ y :: B3)).Perm (a :: K ++ z :: A3 ++ (b :: Rn ++ y :: B3)) := by
          classical rw [List.perm_iff_count]; intro q; simp only [List.count_append]; omega
        have p2 := (List.Perm.append_left (b :: Rn ++ a :: K) M2).trans p1
        simpa using p2
      | some k' =>
        obtain ⟨M1, M2⟩ := M
        refine ⟨by simp; omega, ?_⟩
        have := merge_round hlt (a := a) (b := b) (K := K) (A2 := z :: A3) (R := Rn) (B2 := y :: B3) (Y2 := Y) (by simpa using sA) (by simpa using sB) hba h1 h2
          (by simpa using h4) M2
        simpa using this

/-- The result of a merge that reports the new first element. -/
def MrgRes2 (lt : α → α → Bool) (hd : Nat) (X Y S : List (Nat × α)) (k n : Nat) : Option (Nat × Nat) → Prop
  | none => k < n ∧ Y.Perm X
  | some (k', p) => k ≤ k' + n ∧ SS (lp lt) X Y ∧ p = atFirst hd (Y ++ S)

theorem mergeSame_ok {lt : α → α → Bool} (hlt : SWO lt) {c : Con} {S : List (Nat × α)} {g k : Nat} {h : Hp α} {P A B : List (Nat × α)} (hA : A ≠ []) (hB : B ≠ [])
    (W : WF h c (P ++ (A ++ (B ++ S)))) (sA : Srt (lp lt) A) (sB : Srt (lp lt) B) (hg : A.length + B.length < g) :
    ∃ h' o Y, mergeSame lt g k h (atFirst c.hd A) (atFirst c.hd B) (atFirst c.hd S) = .ok (h', o) ∧ One h c (P ++ (A ++ (B ++ S))) h' c (P ++ (Y ++ S)) ∧
      MrgRes2 lt c.hd (A ++ B) Y S k (A.length + B.length - 1) o := by
  obtain ⟨a, A, rfl⟩ := List.exists_cons_of_ne_nil hA
  obtain ⟨b, B, rfl⟩ := List.exists_cons_of_ne_nil hB
  have ha := W.has (a := a) (by simp)
  have hb := W.has (a := b) (by simp)
  unfold mergeSame
  rw [atFirst_cons, atFirst_cons, cmp_ok hb.l hb.v ha.l ha.v, R.ok_bind]
  simp only [List.length_cons] at hg
  cases k with
  | zero => exact ⟨h, none, a :: A ++ b :: B, rfl, by simpa using One.refl W, by simp, .refl _⟩
  | succ k =>
    simp only [callPred]
    cases hba : lt b.2 a.2 with
    | true =>
      simp only
      obtain ⟨h', o, Y, e, O, M, hY⟩ := mergeLoop_ok hlt (f := g) (g := g) (k := k) W sA sB hba (by omega) (by omega)
      rw [e, R.ok_bind]
      refine ⟨h', _, Y, rfl, O, ?_⟩
      cases o with
      | none => exact ⟨by have := M.1; simp; omega, M.2⟩
      | some k' =>
        refine ⟨by have := M.1; simp; omega, M.2, ?_⟩
        have := hY (by simp)
        cases Y with
        | nil => simp at this
        | cons y Y => simp at this; subst this; rfl
    | false =>
      simp only
      rcases skipLoop_ok (lt := lt) (f := g) (k := k) (A := A) (Q := P) (m := a) (x := b) (T := B ++ S) (by simpa using W) (by omega) with ⟨e, hk⟩ | ⟨K, A2, k2, eA, e, h4, h5, h6⟩
      · rw [e, R.ok_bind]
        exact ⟨h, none, a :: A ++ b :: B, rfl, by simpa using One.refl W, by simp; omega, .refl _⟩
      subst eA
      rw [e, R.ok_bind]; simp only
      have hl := swo_lp hlt
      have hKB : ∀ x ∈ a :: K, ∀ y ∈ b :: B, lp lt y x = false := by
        intro x hx y hy
        refine Srt.le_all hl sB ?_ y hy
        rcases List.mem_cons.1 hx with rfl | hx
        · exact hba
        · exact h4 x hx
      by_cases hA2 : A2 = []
      · subst hA2
        rw [List.nil_append, atFirst_cons, if_pos rfl]
        refine ⟨h, _, a :: K ++ b :: B, rfl, by simpa using One.refl W, by simp at h6 ⊢; omega, ?_, rfl⟩
        have := SS.append (X := a :: K) (SS.self (by simpa using sA)) (SS.self sB) hKB
        simpa using this
      obtain ⟨z, A3, rfl⟩ := List.exists_cons_of_ne_nil hA2
      rw [if_neg hA2] at h6
      rw [List.cons_append, atFirst_cons]
      have hzy : z.1 ≠ b.1 := by have := W.nd; nds at this; grind
      rw [if_neg hzy]
      have W2 : WF h c ((P ++ (a :: K)) ++ (z :: A3 ++ (b :: B ++ S))) := by simpa using W
      simp only [List.length_append, List.length_cons] at hg
      obtain ⟨h', o, Y, e, O2, M, hY⟩ := mergeLoop_ok hlt (f := g) (g := g) (k := k2) W2 (Srt.right (X := a :: K) (by simpa using sA)) sB (h5 z (by simp)) (by omega) (by omega)
      rw [e, R.ok_bind]
      refine ⟨h', _, a :: K ++ Y, rfl, by simpa using O2, ?_⟩
      cases o with
      | none =>
        refine ⟨by have := M.1; simp; omega, ?_⟩
        have := List.Perm.append_left (a :: K) M.2
        simpa using this
      | some k' =>
        refine ⟨by have := M.1; simp; omega, ?_, rfl⟩
        have := SS.append (X := a :: K) (Y := a :: K) (SS.self (Srt.left (Y := z :: A3) (by simpa using sA))) M.2 (by
          intro x hx y hy
          rcases List.mem_append.1 hy with hy | hy
          · have sA' : Srt (lp lt) ((a :: K) ++ (z :: A3)) := by simpa using sA
            exact (List.pairwise_append.1 sA').2.2 x hx y hy
          · exact hKB x hx y hy)
        simpa using this

/-! ## `sort` -/

/-- The reference `_First` refers to the first element of the part `A ++ S` of the list. -/
structure RefOk (h : Hp α) (hd : Nat) (P Z : List (Nat × α)) (r : Ref) : Prop where
  get : r.get h = .ok (atFirst hd Z)
  kind : (∃ v, r = .var v) ∨ r = .nextOf hd ∧ P = []

theorem RefOk.start {h : Hp α} {c : Con} {X : List (Nat × α)} (W : WF h c X) : RefOk h c.hd [] X (.nextOf c.hd) :=
  ⟨by simp only [Ref.get]; rw [nd_live (W.live (Or.inl rfl)), R.ok_bind, W.first], Or.inr ⟨rfl, rfl⟩⟩

/-- The heap changed, the part starts with the same element. -/
theorem RefOk.keep {h h' : Hp α} {c : Con} {P Z Z' : List (Nat × α)} {r : Ref} (k : RefOk h c.hd P Z r) (W' : WF h' c (P ++ Z')) (hz : atFirst c.hd Z' = atFirst c.hd Z) : RefOk h' c.hd P Z' r := by
  refine ⟨?_, k.kind⟩
  rcases k.kind with ⟨v, rfl⟩ | ⟨rfl, rfl⟩
  · have := k.get; simp only [Ref.get] at this ⊢; rw [this, hz]
  · exact (RefOk.start (X := Z') (by simpa using W')).get

theorem RefOk.set {h h' : Hp α} {c : Con} {P Z Z' : List (Nat × α)} {r : Ref} (k : RefOk h c.hd P Z r) (W' : WF h' c (P ++ Z')) :
    ∃ r', r.set h' (atFirst c.hd Z') = .ok (h', r') ∧ RefOk h' c.hd P Z' r' := by
  rcases k.kind with ⟨v, rfl⟩ | ⟨rfl, rfl⟩
  · exact ⟨_, rfl, rfl, Or.inl ⟨_, rfl⟩⟩
  · have W2 : WF h' c Z' := by simpa using W'
    have hl := W2.live (Or.inl rfl)
    refine ⟨.nextOf c.hd, ?_, RefOk.start W2⟩
    simp only [Ref.set]
    obtain ⟨h2, e, C⟩ := (Chg.refl h').setN hl (atFirst c.hd Z')
    rw [e, R.ok_bind]
    have : h2 = h' := by
      funext q
      refine C.same ?_ rfl
      split
      · subst_vars; exact W2.first.symm
      · rfl
    rw [this]

/-- The result of sorting the part `A` before `S`. -/
def SrtRes (lt : α → α → Bool) (h' : Hp α) (hd : Nat) (P A Y S : List (Nat × α)) (k n : Nat) : Option (Nat × Ref × Nat) → Prop
  | none => k < n ∧ Y.Perm A
  | some (k', r', last) => k ≤ k' + n ∧ SS (lp lt) A Y ∧ last = atFirst hd S ∧ RefOk h' hd P (Y ++ S) r'

theorem sort_cost {n d : Nat} (hn : 2 ≤ n) (hd : n ≤ 2 ^ d) : ∃ e, d = e + 1 ∧ n / 2 ≤ 2 ^ e ∧ n - n / 2 ≤ 2 ^ e ∧ (n / 2) * e + (n - n / 2) * e + (n - 1) < n * d := by
  cases d with
  | zero => simp at hd; omega
  | succ e =>
    rw [Nat.pow_succ] at hd
    refine ⟨e, rfl, by omega, by omega, ?_⟩
    rw [← Nat.add_mul, show n / 2 + (n - n / 2) = n by omega, Nat.mul_succ]; omega

theorem sortF_ok {lt : α → α → Bool} (hlt : SWO lt) {c : Con} : ∀ {f n d k : Nat} {h : Hp α} {P A S : List (Nat × α)} {r : Ref}, WF h c (P ++ (A ++ S)) → A.length = n → RefOk h c.hd P (A ++ S) r → n < f → n ≤ 2 ^ d →
    ∃ h' o Y, sortF lt f k h r n = .ok (h', o) ∧ One h c (P ++ (A ++ S)) h' c (P ++ (Y ++ S)) ∧ SrtRes lt h' c.hd P A Y S k (n * d) o
  | 0, _, _, _, _, _, _, _, _, _, _, _, hf, _ => by omega
  | f + 1, n, d, k, h, P, A, S, r, W, hn, hr, hf, hd => by
    unfold sortF
    by_cases h0 : n = 0
    · rw [if_pos h0, hr.get, R.ok_bind]
      have hA : A = [] := List.eq_nil_of_length_eq_zero (by omega)
      subst hA
      exact ⟨h, _, [], rfl, One.refl W, by omega, SS.self (by simp), rfl, hr⟩
    rw [if_neg h0]
    by_cases h1 : n = 1
    · rw [if_pos h1, hr.get, R.ok_bind]
      obtain ⟨a, rfl⟩ : ∃ a, A = [a] := by
        cases A with
        | nil => simp at hn; omega
        | cons a A => cases A with
          | nil => exact ⟨a, rfl⟩
          | cons b A => simp at hn; omega
      have ha := W.has (a := a) (by simp)
      rw [List.cons_append, atFirst_cons, nd_live ha.l, R.ok_bind, WF.next (A := P) (a := a) (B := S) (by simpa using W)]
      exact ⟨h, _, [a], rfl, One.refl W, by omega, SS.self (by simp), rfl, hr⟩
    rw [if_neg h1]
    obtain ⟨e, rfl, d1, d2, d3⟩ := sort_cost (n := n) (by omega) hd
    have hsplit : A = A.take (n / 2) ++ A.drop (n / 2) := (List.take_append_drop _ _).symm
    have l1 : (A.take (n / 2)).length = n / 2 := by rw [List.length_take]; omega
    have l2 : (A.drop (n / 2)).length = n - n / 2 := by rw [List.length_drop]; omega
    generalize A.take (n / 2) = A1 at hsplit l1
    generalize A.drop (n / 2) = A2 at hsplit l2
    subst hsplit
    have hne1 : A1 ≠ [] := by rintro rfl; simp at l1; omega
    have hne2 : A2 ≠ [] := by rintro rfl; simp at l2; omega
    -- left half
    obtain ⟨h1', o1, Y1, e1, O1, R1⟩ := sortF_ok hlt (f := f) (d := e) (k := k) (P := P) (A := A1) (S := A2 ++ S) (r := r) (by simpa using W) l1 (by simpa using hr) (by omega) d1
    have O1' : One h c (P ++ (A1 ++ A2 ++ S)) h1' c (P ++ (Y1 ++ A2 ++ S)) := by simpa using O1
    rw [e1, R.ok_bind]; simp only
    cases o1 with
    | none =>
      refine ⟨h1', none, Y1 ++ A2, rfl, O1', ?_, R1.2.append_right _⟩
      have := R1.1
      have : n / 2 * e ≤ n / 2 * e + (n - n / 2) * e := by omega
      omega
    | some t1 =>
    obtain ⟨k1, r1, mid⟩ := t1
    obtain ⟨c1, s1, hm, rr1⟩ := R1
    subst hm
    simp only
    have ly1 : Y1.length = n / 2 := by rw [s1.len, l1]
    have hneY1 : Y1 ≠ [] := by rintro rfl; simp at ly1; omega
    -- right half
    obtain ⟨h2', o2, Y2, e2, O2, R2⟩ := sortF_ok hlt (f := f) (d := e) (k := k1) (P := P ++ Y1) (A := A2) (S := S) (r := .var (atFirst c.hd (A2 ++ S))) (by simpa using O1.wf) l2 ⟨rfl, Or.inl ⟨_, rfl⟩⟩ (by omega) d2
    have O2' : One h c (P ++ (A1 ++ A2 ++ S)) h2' c (P ++ (Y1 ++ Y2 ++ S)) := O1'.trans (by simpa using O2)
    rw [e2, R.ok_bind]; simp only
    cases o2 with
    | none =>
      refine ⟨h2', none, Y1 ++ Y2, rfl, O2', ?_, s1.perm.append R2.2⟩
      have := R2.1
      omega
    | some t2 =>
    obtain ⟨k2, r2, last⟩ := t2
    obtain ⟨c2, s2, hl, rr2⟩ := R2
    subst hl
    simp only
    have ly2 : Y2.length = n - n / 2 := by rw [s2.len, l2]
    have hneY2 : Y2 ≠ [] := by rintro rfl; simp at ly2; omega
    have rr1' : RefOk h2' c.hd P (Y1 ++ (Y2 ++ S)) r1 := rr1.keep (by simpa using O2'.wf) (by rw [atFirst_app hneY1, atFirst_app hneY1])
    rw [rr1'.get, R.ok_bind, rr2.get, R.ok_bind, atFirst_app hneY1, atFirst_app hneY2]
    obtain ⟨h3', o3, Y3, e3, O3, M⟩ := mergeSame_ok hlt (g := n + 1) (k := k2) (S := S) (P := P) hneY1 hneY2 (by simpa using O2'.wf) s1.srt s2.srt (by omega)
    have O3' : One h c (P ++ (A1 ++ A2 ++ S)) h3' c (P ++ (Y3 ++ S)) := O2'.trans (by simpa using O3)
    rw [e3, R.ok_bind]; simp only
    have se : SEq (lp lt) (A1 ++ A2) (Y1 ++ Y2) := s1.toSEq.append s2.toSEq
    cases o3 with
    | none =>
      refine ⟨h3', none, Y3, rfl, O3', ?_, M.2.trans se.perm⟩
      have := M.1
      omega
    | some t3 =>
      obtain ⟨k3, p⟩ := t3
      obtain ⟨c3, s3, hp⟩ := M
      subst hp
      simp only
      obtain ⟨r', e4, rr⟩ := rr1'.set O3'.wf
      rw [e4, R.ok_bind]
      exact ⟨h3', _, Y3, rfl, O3', by omega, SS.of_seq se s3, rfl, rr⟩

theorem ss_stably {lt : α → α → Bool} {X Y : List (Nat × α)} (h : SS (lp lt) X Y) (hlt : SWO lt) : StablySorted lt X Y := by
  refine ⟨h.perm, h.srt, ?_⟩
  intro v
  exact h.stab (0, v)

theorem sort_ok {lt : α → α → Bool} (hlt : SWO lt) {k : Nat} {h : Hp α} {c : Con} {X : List (Nat × α)} (W : WF h c X) :
    ∃ h' e Y, sort lt k h c = .ok (h', e) ∧ One h c X h' c Y ∧ (e = none ∧ StablySorted lt X Y ∨ k < X.length * (Nat.log2 X.length + 1) ∧ e = some .user ∧ Y.Perm X) := by
  unfold sort
  have hd : X.length ≤ 2 ^ (Nat.log2 X.length + 1) := Nat.le_of_lt Nat.lt_log2_self
  obtain ⟨h', o, Y, e, O, Rn⟩ := sortF_ok hlt (f := c.size + 1) (n := X.length) (k := k) (P := []) (A := X) (S := []) (r := .nextOf c.hd) (by simpa using W) rfl (by simpa using RefOk.start W) (by rw [W.size]; omega) hd
  rw [W.size] at e ⊢
  rw [e, R.ok_bind]
  refine ⟨h', _, Y, rfl, by simpa using O, ?_⟩
  cases o with
  | none => right; exact ⟨Rn.1, rfl, Rn.2⟩
  | some t => obtain ⟨k', r', l⟩ := t; left; exact ⟨rfl, ss_stably Rn.2.1 hlt⟩

/-- What `merge` does. -/
def MrgRes3 (maxsz : Nat) (lt : α → α → Bool) (k : Nat) (X Y X' Y' : List (Nat × α)) (e : Option Exc) : Prop :=
  if maxsz - X.length < Y.length then X' = X ∧ Y' = Y ∧ e = some .lengthError
  else Y' = [] ∧ (e = none ∧ StablySorted lt (X ++ Y) X' ∨ k < X.length + Y.length - 1 ∧ e = some .user ∧ X'.Perm (X ++ Y))

theorem merge_ok {maxsz k : Nat} {lt : α → α → Bool} (hlt : SWO lt) {h : Hp α} {c d : Con} {X Y : List (Nat × α)} (W : WF h c X) (V : WF h d Y) (ap : Apart c X d Y) (sX : Sorted lt X) (sY : Sorted lt Y) :
    ∃ h' c' d' e X' Y', merge lt maxsz k h c d = .ok (h', c', d', e) ∧ Two h c X d Y h' c' X' d' Y' ∧ MrgRes3 maxsz lt k X Y X' Y' e := by
  unfold merge MrgRes3
  by_cases hs : d.size = 0
  · have hY : Y = [] := by have := V.size; rw [hs] at this; exact List.eq_nil_of_length_eq_zero this.symm
    subst hY
    rw [if_pos hs]
    refine ⟨h, c, d, none, X, [], rfl, Two.refl W V ap, ?_⟩
    rw [if_neg (by simp)]
    exact ⟨rfl, Or.inl ⟨rfl, by simpa using ss_stably (SS.self sX) hlt⟩⟩
  have hY : Y ≠ [] := by rintro rfl; exact hs V.size
  rw [if_neg hs, nd_live (V.live (Or.inl rfl)), R.ok_bind, V.first]; simp only
  have HH := splice2_ok (maxsz := maxsz) (D := []) (M := Y) (E := []) (p := c.hd) W (by simp) (by simpa using V) (by simpa using ap) hY
  rw [V.size]
  obtain ⟨h1, c1, d1, e, X1, Y1, e1, T, r⟩ := HH
  rw [show atFirst d.hd ([] : List (Nat × α)) = d.hd from rfl] at e1
  rw [e1, R.ok_bind]; simp only
  simp only [List.nil_append, List.append_nil] at T r
  by_cases hm : maxsz - X.length < Y.length
  · rw [if_pos hm] at r
    simp only [if_pos hm]
    obtain ⟨rfl, rfl, rfl⟩ := r
    exact ⟨h1, c1, d1, _, X1, Y1, rfl, T, rfl, rfl, rfl⟩
  rw [if_neg hm] at r
  simp only [if_neg hm]
  obtain ⟨rfl, rfl, rfl⟩ := r
  simp only
  have hput : putAt X c.hd Y = X ++ Y := by
    unfold putAt
    have := W.nd
    rw [bef_none (by nds at this; grind), fro_none (by nds at this; grind)]; simp
  rw [hput] at T
  have W1 := T.wf
  have hc1 := T.hd
  rw [nd_live (W1.live (Or.inl hc1.symm)), R.ok_bind, ← hc1, W1.first]; simp only
  have hdY : atFirst d.hd Y = atFirst c1.hd Y := by
    obtain ⟨y, Y, rfl⟩ := List.exists_cons_of_ne_nil hY; rfl
  rw [hdY]
  by_cases hX : X = []
  · subst hX
    rw [if_neg (by simp)]
    exact ⟨h1, c1, d1, _, Y, [], rfl, by simpa using T, rfl, Or.inl ⟨rfl, by simpa using ss_stably (SS.self sY) hlt⟩⟩
  · have hne : atFirst c1.hd (X ++ Y) ≠ atFirst c1.hd Y := by
      have := first_ne (Q := []) (B := X) (S := Y) (by simpa using W1) hX
      exact this
    rw [if_pos hne, atFirst_app hX]
    obtain ⟨h2, o, Z, e2, O, M⟩ := mergeSame_ok hlt (g := c.size + Y.length + 1) (k := k) (P := []) (S := []) hX hY (by simpa using W1) sX sY (by rw [W.size]; omega)
    rw [show atFirst c1.hd ([] : List (Nat × α)) = c1.hd from rfl] at e2
    rw [e2, R.ok_bind]
    simp only [List.nil_append, List.append_nil] at O
    have hperm : Z.Perm (X ++ Y) := by
      cases o with
      | none => exact M.2
      | some t => exact M.2.1.perm
    have hmem : ∀ q, q ∈ ids Z ↔ q ∈ ids (X ++ Y) := fun q => (hperm.map Prod.fst).mem_iff
    refine ⟨h2, c1, d1, _, Z, [], rfl, ⟨O.wf, ?_, T.hd, T.hd2, ?_, ?_, ?_⟩, rfl, ?_⟩
    · refine T.wf2.frame fun q hq => ?_
      have hap := T.apart q
      have : q ∉ c1.hd :: ids (X ++ Y) := fun hh => hap hh (by simpa using hq)
      simp only [List.mem_cons, not_or] at this
      exact O.frame q this.1 this.2 (by rw [hmem]; exact this.2)
    · intro q hq
      refine T.apart q ?_
      rw [List.mem_cons, hmem] at hq; exact List.mem_cons.2 hq
    · intro q; rw [hmem]; exact T.mem q
    · intro q q1 q2
      rw [← T.frame q q1 q2]
      have : q ∉ ids (X ++ Y) := by have := T.mem q; nds at q1 q2 this ⊢; grind
      rw [← hc1] at q1
      exact O.frame q (by nds at q1; grind) this (by rw [hmem]; exact this)
    · cases o with
      | none => right; exact ⟨M.1, rfl, M.2⟩
      | some t => left; exact ⟨rfl, ss_stably M.2.1 hlt⟩

end STL.DL
