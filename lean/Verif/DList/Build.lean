import Verif.DList.Ops

/-! # Building chains of new nodes. Proofs only. -/

namespace STL.DL
open STL
variable {α : Type}

/-- A chain under construction holds the new elements `Q`. -/
structure Bld (h0 h : Hp α) (o : InsOp) (Q : List (Nat × α)) : Prop where
  blk : Blk h Q
  added : o.added = Q.length
  head : Q ≠ [] → o.head = atFirst 0 Q
  tail : Q ≠ [] → o.tail = atLast 0 Q
  fresh : ∀ q ∈ ids Q, h0 q = none
  nz : 0 ∉ ids Q
  frame : ∀ q, q ∉ ids Q → h q = h0 q

theorem Bld.nil (h : Hp α) : Bld h h ⟨0, 0, 0⟩ [] :=
  ⟨⟨.nil, by simp [ids], by simp [ids], by simp⟩, rfl, by simp, by simp, by simp [ids], by simp [ids], fun _ _ => rfl⟩

theorem Bld.single {h h' : Hp α} {x : Nat} {v : α} (hx : h x = none) (h0 : x ≠ 0) : ∃ h', alloc h x (some v) = .ok h' ∧ Bld h h' ⟨1, x, x⟩ [(x, v)] := by
  obtain ⟨h1, e1, f1, l1, v1⟩ := alloc_ok (v := some v) (h := h) (x := x) (by simp [live, hx]) h0
  exact ⟨h1, e1, ⟨.singleton _, by simpa [ids] using l1, by simp [ids], by simpa using v1⟩, rfl, fun _ => rfl, fun _ => rfl, by simpa [ids] using hx, by simp [ids]; omega,
    fun q hq => f1 q (by simpa [ids] using hq)⟩

/-- one more node -/
theorem Bld.snoc {h0 h : Hp α} {o : InsOp} {Q : List (Nat × α)} (b : Bld h0 h o Q) (hQ : Q ≠ []) {x : Nat} (v : α) (hx : h0 x = none) (hx0 : x ≠ 0) (hxQ : x ∉ ids Q) :
    ∃ h1 h2 h3, alloc h x (some v) = .ok h1 ∧ setN h1 o.tail x = .ok h2 ∧ setP h2 x o.tail = .ok h3 ∧ Bld h0 h3 ⟨o.added + 1, o.head, x⟩ (Q ++ [(x, v)]) := by
  obtain ⟨h1, e1, f1, l1, v1⟩ := alloc_ok (v := some v) (h := h) (x := x) (by simp [live, b.frame x hxQ, hx]) hx0
  have hs : ∀ q ∈ ids Q, h1 q = h q := fun q hq => f1 q (by rintro rfl; exact hxQ hq)
  have hlt : live h1 o.tail := by
    rw [b.tail hQ]
    exact (live_eq (hs _ (atLast_block hQ))).2 (b.blk.live _ (atLast_block hQ))
  obtain ⟨h2, e2, C⟩ := (Chg.refl h1).setN hlt x
  obtain ⟨h3, e3, C⟩ := C.setP l1 o.tail
  have hne : x ≠ o.tail := by rw [b.tail hQ]; rintro rfl; exact hxQ (atLast_block hQ)
  have hnd := b.blk.nd
  refine ⟨h1, h2, h3, e1, e2, e3, ⟨?_, ?_, ?_, ?_⟩, ?_, ?_, ?_, ?_, ?_, ?_⟩
  · rw [block_split (d := 0) hQ (by simp), atFirst_cons, ← b.tail hQ]
    refine ⟨?_, .singleton _, C.link hlt l1 (by simp) (by simp)⟩
    refine ch_frame (ch_same b.blk.ch hs) fun y z l hy hz => ?_
    have hyt : y ≠ o.tail := by rw [b.tail hQ]; exact dropLast_ne hnd (last_block hQ) hy
    have hzx : z ≠ x := by rintro rfl; exact hxQ (List.mem_of_mem_tail hz)
    exact ⟨(C.live _).2 l.la, (C.live _).2 l.lb, by rw [C.nx, if_neg hyt, l.n], by rw [C.pv, if_neg hzx, l.p]⟩
  · intro q hq
    rw [C.live]
    simp only [ids, List.map_append, List.mem_append, List.map_cons, List.map_nil, List.mem_singleton] at hq
    rcases hq with hq | rfl
    · exact (live_eq (hs q hq)).2 (b.blk.live q hq)
    · exact l1
  · nds at hnd hxQ ⊢; grind
  · intro a ha
    rw [C.vl]
    rcases List.mem_append.1 ha with ha | ha
    · rw [vl_eq (hs a.1 (List.mem_map_of_mem ha))]; exact b.blk.val a ha
    · simp at ha; subst ha; exact v1
  · simp [b.added]
  · intro _; simp only; rw [b.head hQ, atFirst_app hQ]
  · intro _; simp only; rw [atLast_snoc]
  · intro q hq
    simp only [ids, List.map_append, List.mem_append, List.map_cons, List.map_nil, List.mem_singleton] at hq
    rcases hq with hq | rfl
    · exact b.fresh q hq
    · exact hx
  · have := b.nz; simp [ids] at this ⊢; exact ⟨this, fun h => hx0 h.symm⟩
  · intro q hq
    simp only [ids, List.map_append, List.mem_append, List.map_cons, List.map_nil, List.mem_singleton, not_or] at hq
    rw [C.same (by rw [if_neg]; rintro rfl; rw [b.tail hQ] at hq; exact hq.1 (atLast_block hQ)) (by rw [if_neg hq.2]), f1 q hq.2, b.frame q hq.1]

theorem appendLoop_spec {h0 : Hp α} : ∀ {vs : List α} {xs : List Nat} {h : Hp α} {o : InsOp} {Q : List (Nat × α)}, Bld h0 h o Q → Q ≠ [] → xs.Nodup → (∀ x ∈ xs, h0 x = none ∧ x ≠ 0 ∧ x ∉ ids Q) →
    ∃ h' o', appendLoop h o vs xs = .ok (h', o', decide (xs.length < vs.length)) ∧ Bld h0 h' o' (Q ++ xs.zip vs)
  | [], xs, h, o, Q, b, _, _, _ => ⟨h, o, by simp [appendLoop], by simpa using b⟩
  | v :: vs, [], h, o, Q, b, _, _, _ => ⟨h, o, by simp [appendLoop], by simpa using b⟩
  | v :: vs, x :: xs, h, o, Q, b, hQ, hnd, hx => by
    obtain ⟨x1, x2, x3⟩ := hx x (by simp)
    obtain ⟨h1, h2, h3, e1, e2, e3, b'⟩ := b.snoc hQ v x1 x2 x3
    rw [List.nodup_cons] at hnd
    obtain ⟨h', o', e, b''⟩ := appendLoop_spec (vs := vs) (xs := xs) b' (by simp) hnd.2 (by
      intro y hy
      obtain ⟨y1, y2, y3⟩ := hx y (by simp [hy])
      refine ⟨y1, y2, ?_⟩
      simp only [ids, List.map_append, List.mem_append, List.map_cons, List.map_nil, List.mem_singleton, not_or]
      exact ⟨y3, by rintro rfl; exact hnd.1 hy⟩)
    refine ⟨h', o', ?_, by simpa using b''⟩
    unfold appendLoop; rw [e1, R.ok_bind, e2, R.ok_bind, e3, R.ok_bind, e]; simp

theorem appendRange_spec {h : Hp α} {vs : List α} {xs : List Nat} (hnd : xs.Nodup) (hx : ∀ x ∈ xs, h x = none ∧ x ≠ 0) :
    ∃ h' o', appendRange h vs xs = .ok (h', o', decide (xs.length < vs.length)) ∧ Bld h h' o' (xs.zip vs) := by
  cases vs with
  | nil => exact ⟨h, ⟨0,0,0⟩, by simp [appendRange], by simpa using Bld.nil h⟩
  | cons v vs =>
    cases xs with
    | nil => exact ⟨h, ⟨0,0,0⟩, by simp [appendRange], by simpa using Bld.nil h⟩
    | cons x xs =>
      obtain ⟨x1, x2⟩ := hx x (by simp)
      obtain ⟨h1, e1, b⟩ := Bld.single (h' := h) (v := v) x1 x2
      rw [List.nodup_cons] at hnd
      obtain ⟨h', o', e, b''⟩ := appendLoop_spec (vs := vs) (xs := xs) b (by simp) hnd.2 (by
        intro y hy
        obtain ⟨y1, y2⟩ := hx y (by simp [hy])
        refine ⟨y1, y2, ?_⟩
        simp [ids]; rintro rfl; exact hnd.1 hy)
      refine ⟨h', o', ?_, by simpa using b''⟩
      simp only [appendRange]; rw [e1, R.ok_bind, e]; simp

theorem appendNLoop_eq {v : α} : ∀ {n : Nat} {xs : List Nat} {h : Hp α} {o : InsOp}, appendNLoop h o v n xs = appendLoop h o (List.replicate n v) xs
  | 0, xs, h, o => by simp [appendNLoop, appendLoop]
  | n + 1, [], h, o => by simp [appendNLoop, appendLoop, List.replicate_succ]
  | n + 1, x :: xs, h, o => by simp only [appendNLoop, appendLoop, List.replicate_succ, appendNLoop_eq]

theorem appendN_eq {h : Hp α} {n : Nat} {v : α} {xs : List Nat} : appendN h n v xs = appendRange h (List.replicate n v) xs := by
  unfold appendN
  cases n with
  | zero => simp [appendRange]
  | succ n =>
    cases xs with
    | nil => simp [appendRange, List.replicate_succ]
    | cons x xs => simp [appendRange, List.replicate_succ, appendNLoop_eq]

theorem insOpDtor_ok {h0 h : Hp α} {o : InsOp} {Q : List (Nat × α)} (b : Bld h0 h o Q) : ∃ h', insOpDtor h o = .ok h' ∧ ∀ q, h' q = h0 q := by
  unfold insOpDtor
  by_cases hQ : Q = []
  · subst hQ
    rw [if_pos (by simpa using b.added)]
    exact ⟨h, rfl, fun q => b.frame q (by simp [ids])⟩
  rw [if_neg (by rw [b.added]; simpa using hQ)]
  have hl1 : live h o.head := by rw [b.head hQ]; exact b.blk.live _ (atFirst_block hQ)
  have hl2 : live h o.tail := by rw [b.tail hQ]; exact b.blk.live _ (atLast_block hQ)
  obtain ⟨h1, e1, C⟩ := (Chg.refl h).setP hl1 0
  obtain ⟨h2, e2, C⟩ := C.setN hl2 0
  rw [e1, R.ok_bind, e2, R.ok_bind]
  have c2 : Ch h2 (ids Q) := by
    refine ch_frame b.blk.ch fun y z l hy hz => ?_
    have hyt : y ≠ o.tail := by rw [b.tail hQ]; exact dropLast_ne b.blk.nd (last_block hQ) hy
    have hzx : z ≠ o.head := by
      rw [b.head hQ]; rintro rfl
      have := b.blk.nd
      cases Q with
      | nil => exact absurd rfl hQ
      | cons a Q => rw [ids, List.map_cons, List.nodup_cons] at this; exact this.1 (by simpa [ids, atFirst] using hz)
    exact ⟨(C.live _).2 l.la, (C.live _).2 l.lb, by rw [C.nx, if_neg hyt, l.n], by rw [C.pv, if_neg hzx, l.p]⟩
  have n1 := nch_of_ch (d := 0) hQ c2 (fun q hq => (C.live q).2 (b.blk.live q hq)) (by rw [C.nx, b.tail hQ]; simp) b.nz
  obtain ⟨h3, e3, g1, g2⟩ := freeLoop_spec (f := o.added) n1 b.blk.nd (by rw [b.added]; simp [ids])
  rw [b.head hQ]
  refine ⟨h3, e3, fun q => ?_⟩
  by_cases hq : q ∈ ids Q
  · rw [g1 q hq, b.fresh q hq]
  · rw [g2 q hq, C.same, b.frame q hq]
    · rw [if_neg]; rintro rfl; rw [b.tail hQ] at hq; exact hq (atLast_block hQ)
    · rw [if_neg]; rintro rfl; rw [b.head hQ] at hq; exact hq (atFirst_block hQ)

theorem attachBefore_ok {h0 h : Hp α} {o : InsOp} {c : Con} {A B Q : List (Nat × α)} (W : WF h0 c (A ++ B)) (b : Bld h0 h o Q) :
    ∃ h', attachBefore h c o (atFirst c.hd B) = .ok (h', ⟨c.hd, c.size + Q.length⟩, atFirst (atFirst c.hd B) Q) ∧ One h0 c (A ++ B) h' ⟨c.hd, c.size + Q.length⟩ (A ++ Q ++ B) := by
  unfold attachBefore
  have ap : ∀ q ∈ c.hd :: ids (A ++ B), q ∉ ids Q := fun q hq hh => W.live (List.mem_cons.1 hq) (b.fresh q hh)
  have W1 : WF h c (A ++ B) := W.frame fun q hq => b.frame q (ap q (List.mem_cons.2 hq))
  by_cases hQ : Q = []
  · subst hQ
    rw [if_pos (by simpa using b.added)]
    refine ⟨h, by cases c; simp [atFirst], ?_⟩
    have := One.refl W1
    refine ⟨by simpa using W1, rfl, ?_, ?_, ?_⟩
    · intro q _ _ _; exact b.frame q (by simp [ids])
    · intro q q1 q2; simp [ids] at q1 q2; tauto
    · intro q q1; left; simpa using q1
  rw [if_neg (by rw [b.added]; simpa using hQ)]
  have k := W1.link
  have a1 := atLast_mem (hd := c.hd) A
  have a2 := atLast_block (d := c.hd) hQ
  have b1 := atFirst_mem (hd := c.hd) B
  have b2 := atFirst_block (d := c.hd) hQ
  have eh : o.head = atFirst c.hd Q := by
    rw [b.head hQ]; have h1 := first_block (d := c.hd) hQ; rw [first_block (d := 0) hQ] at h1; simpa using h1
  have et : o.tail = atLast c.hd Q := by
    rw [b.tail hQ]; have h1 := last_block (d := c.hd) hQ; rw [last_block (d := 0) hQ] at h1; simpa using h1
  have m1 : atFirst c.hd Q ≠ atFirst c.hd B := by nds at ap; grind
  have m2 : atLast c.hd Q ≠ atLast c.hd A := by nds at ap; grind
  have C := Chg.refl h
  rw [C.nd k.lb, R.ok_bind, k.p, eh, et]; simp only
  obtain ⟨_, e, C⟩ := C.setP (b.blk.live _ b2) (atLast c.hd A); rw [e, R.ok_bind]; clear e
  obtain ⟨_, e, C⟩ := C.setN k.la (atFirst c.hd Q); rw [e, R.ok_bind]; clear e
  obtain ⟨_, e, C⟩ := C.setN (b.blk.live _ a2) (atFirst c.hd B); rw [e, R.ok_bind]; clear e
  obtain ⟨h2, e, C⟩ := C.setP k.lb (atLast c.hd Q); rw [e, R.ok_bind]; clear e
  have r := insert_block W1 hQ b.blk ap C (by simp [m2.symm]) (by simp) (by intro q hq; simp at hq; simp [hq]) (by simp [m1]) (by simp) (by intro q hq; simp at hq; simp [hq])
  refine ⟨h2, ?_, One.insert W b.frame (fun q hq => ⟨b.fresh q hq, by rintro rfl; exact b.nz hq⟩) r⟩
  rw [b.added]
  cases Q with
  | nil => exact absurd rfl hQ
  | cons a Q => rfl

/-- The outcome of an insertion of several elements. -/
def InsRes (A B : List (Nat × α)) (hd : Nat) (vs : List α) (xs : List Nat) (X' : List (Nat × α)) (e : Option Exc) (i : Nat) : Prop :=
  if xs.length < vs.length then X' = A ++ B ∧ e = some .badAlloc
  else X' = A ++ xs.zip vs ++ B ∧ e = none ∧ i = atFirst (atFirst hd B) (xs.zip vs)

theorem insertRange_ok {h : Hp α} {c : Con} {A B : List (Nat × α)} (W : WF h c (A ++ B)) (vs : List α) {xs : List Nat} (hnd : xs.Nodup) (hx : ∀ x ∈ xs, h x = none ∧ x ≠ 0) :
    ∃ h' c' i e X', insertRange h c (atFirst c.hd B) vs xs = .ok (h', c', i, e) ∧ One h c (A ++ B) h' c' X' ∧ InsRes A B c.hd vs xs X' e i := by
  obtain ⟨h1, o, e1, b⟩ := appendRange_spec (vs := vs) hnd hx
  unfold insertRange attachOrUndo InsRes
  rw [e1, R.ok_bind]
  simp only
  by_cases hl : xs.length < vs.length
  · simp only [hl, decide_true, ↓reduceIte]
    obtain ⟨h2, e2, g⟩ := insOpDtor_ok b
    have : h2 = h := funext g
    subst this
    exact ⟨h2, c, 0, _, A ++ B, by rw [e2, R.ok_bind], One.refl W, rfl, rfl⟩
  · simp only [hl, decide_false, ↓reduceIte, Bool.false_eq_true]
    obtain ⟨h2, e2, O⟩ := attachBefore_ok W b
    exact ⟨h2, _, _, _, _, by rw [e2, R.ok_bind], O, rfl, rfl, rfl⟩

theorem insertN_eq {h : Hp α} {c : Con} {wh n : Nat} {v : α} {xs : List Nat} : insertN h c wh n v xs = insertRange h c wh (List.replicate n v) xs := by
  unfold insertN insertRange; rw [appendN_eq]

theorem constructRange_ok {h : Hp α} (vs : List α) {xs : List Nat} {x : Option Nat} (hnd : (xs ++ x.toList).Nodup) (hx : ∀ i ∈ xs ++ x.toList, h i = none ∧ i ≠ 0) :
    (xs.length < vs.length ∨ x = none → constructRange h vs xs x = .ok (h, none)) ∧
    ∀ i, x = some i → ¬ xs.length < vs.length → ∃ h', constructRange h vs xs x = .ok (h', some ⟨i, vs.length⟩) ∧ WF h' ⟨i, vs.length⟩ (xs.zip vs) ∧ ∀ q, q ∉ i :: ids (xs.zip vs) → h' q = h q := by
  obtain ⟨h1, o, e1, b⟩ := appendRange_spec (h := h) (vs := vs) (xs := xs) (List.nodup_append.1 hnd).1 (fun i hi => hx i (by simp [hi]))
  unfold constructRange
  rw [e1, R.ok_bind]
  simp only
  constructor
  · intro hh
    obtain ⟨h2, e2, g⟩ := insOpDtor_ok b
    have : h2 = h := funext g
    subst this
    rcases hh with hh | rfl
    · simp only [hh, decide_true]; rw [e2, R.ok_bind]
    · cases hb : decide (xs.length < vs.length) <;> (simp only; rw [e2, R.ok_bind])
  · rintro i rfl hl
    simp only [hl, decide_false]
    have hiQ : i ∉ ids (xs.zip vs) := by
      intro hi
      obtain ⟨a, ha, rfl⟩ := List.mem_map.1 hi
      have := (List.of_mem_zip ha).1
      rw [List.nodup_append] at hnd
      exact hnd.2.2 _ this _ (by simp) rfl
    obtain ⟨i1, i2⟩ := hx i (by simp)
    obtain ⟨h2, e2, f2, l2, v2⟩ := alloc_ok (v := none) (h := h1) (x := i) (by simp [live, b.frame i hiQ, i1]) i2
    unfold attachHead
    rw [e2, R.ok_bind]
    have hlen : (xs.zip vs).length = vs.length := by simp; omega
    by_cases hQ : xs.zip vs = []
    · have ha : o.added = 0 := by rw [b.added, hQ]; rfl
      have hv : vs.length = 0 := by rw [← hlen, hQ]; rfl
      rw [if_pos ha, ha, hQ, hv]
      obtain ⟨h3, e3, C⟩ := (Chg.refl h2).setN l2 i
      obtain ⟨h4, e4, C⟩ := C.setP l2 i
      rw [e3, R.ok_bind, e4, R.ok_bind, R.ok_bind]
      refine ⟨h4, rfl, ⟨?_, by simp [ids], by simp, rfl⟩, ?_⟩
      · simp only [ids, List.map_nil, List.nil_append]
        exact .cons_cons (C.link l2 l2 (by simp) (by simp)) (.singleton _)
      · intro q hq; simp [ids] at hq; rw [C.same (by simp [hq]) (by simp [hq]), f2 q hq, b.frame q (by simp [hQ, ids])]
    · have ha : o.added ≠ 0 := by rw [b.added]; simpa using hQ
      rw [if_neg ha]
      have a2 := atLast_block (d := i) hQ
      have b2 := atFirst_block (d := i) hQ
      have eh : o.head = atFirst i (xs.zip vs) := by
        rw [b.head hQ]; have h1 := first_block (d := i) hQ; rw [first_block (d := 0) hQ] at h1; simpa using h1
      have et : o.tail = atLast i (xs.zip vs) := by
        rw [b.tail hQ]; have h1 := last_block (d := i) hQ; rw [last_block (d := 0) hQ] at h1; simpa using h1
      have hs : ∀ q ∈ ids (xs.zip vs), h2 q = h1 q := fun q hq => f2 q (by rintro rfl; exact hiQ hq)
      have m1 : atFirst i (xs.zip vs) ≠ i := by intro hh; rw [hh] at b2; exact hiQ b2
      have m2 : atLast i (xs.zip vs) ≠ i := by intro hh; rw [hh] at a2; exact hiQ a2
      have lh := (live_eq (hs _ b2)).2 (b.blk.live _ b2)
      have lt := (live_eq (hs _ a2)).2 (b.blk.live _ a2)
      rw [eh, et]
      have C := Chg.refl h2
      obtain ⟨_, e, C⟩ := C.setN l2 (atFirst i (xs.zip vs)); rw [e, R.ok_bind]; clear e
      obtain ⟨_, e, C⟩ := C.setP l2 (atLast i (xs.zip vs)); rw [e, R.ok_bind]; clear e
      obtain ⟨_, e, C⟩ := C.setP lh i; rw [e, R.ok_bind]; clear e
      obtain ⟨h3, e, C⟩ := C.setN lt i; rw [e, R.ok_bind, R.ok_bind]; clear e
      have hnd2 := b.blk.nd
      refine ⟨h3, by simp only; rw [b.added, hlen], ⟨?_, ?_, ?_, ?_⟩, ?_⟩
      · simp only
        rw [show xs.zip vs = [] ++ xs.zip vs ++ [] by simp, ring3 hQ]
        refine ⟨.singleton _, ?_, .singleton _, C.link l2 lh ?_ ?_, C.link lt l2 ?_ ?_⟩
        · refine ch_frame (ch_same b.blk.ch hs) fun y z l hy hz => ?_
          have hyt : y ≠ atLast i (xs.zip vs) := dropLast_ne hnd2 (last_block hQ) hy
          have hyi : y ≠ i := by rintro rfl; exact hiQ (mem_dropLast hy)
          have hzx : z ≠ atFirst i (xs.zip vs) := by
            rintro rfl
            cases hc : xs.zip vs with
            | nil => exact absurd hc hQ
            | cons a Q => rw [hc] at hnd2 hz; rw [ids, List.map_cons, List.nodup_cons] at hnd2; exact hnd2.1 (by simpa [ids, atFirst, hc] using hz)
          have hzi : z ≠ i := by rintro rfl; exact hiQ (List.mem_of_mem_tail hz)
          exact ⟨(C.live _).2 l.la, (C.live _).2 l.lb, by rw [C.nx, if_neg hyt, if_neg hyi, l.n], by rw [C.pv, if_neg hzx, if_neg hzi, l.p]⟩
        · rw [show atLast i ([] : List (Nat × α)) = i from rfl, if_neg m2.symm]; simp
        · rw [show atLast i ([] : List (Nat × α)) = i from rfl]; simp
        · simp [atFirst]
        · rw [show atFirst i ([] : List (Nat × α)) = i from rfl, if_neg m1.symm]; simp
      · exact List.nodup_cons.2 ⟨hiQ, hnd2⟩
      · intro a ha; rw [C.vl, vl_eq (hs a.1 (List.mem_map_of_mem ha))]; exact b.blk.val a ha
      · exact hlen.symm
      · intro q hq
        simp only [List.mem_cons, not_or] at hq
        have q1 : q ≠ atFirst i (xs.zip vs) := by rintro rfl; exact hq.2 b2
        have q2 : q ≠ atLast i (xs.zip vs) := by rintro rfl; exact hq.2 a2
        rw [C.same (by simp [hq.1, q2]) (by simp [hq.1, q1]), f2 q hq.1, b.frame q hq.2]

end STL.DL
