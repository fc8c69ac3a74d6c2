import Verif.DList.Splice

/-! # `remove_if`, `unique`. Proofs only. -/

namespace STL.DL
open STL
variable {α : Type}

/-- The removed nodes `L` hang on the removal operation. -/
structure Rm (h : Hp α) (o : RmOp) (L : List Nat) : Prop where
  ch : NCh h o.head L
  tail : o.tail = L.getLast?
  nd : L.Nodup

theorem NCh.snoc {h h' : Hp α} {t x : Nat} : ∀ {L : List Nat} {p : Nat}, NCh h p L → L.getLast? = some t → L.Nodup → (∀ q ∈ L, live h' q) → (∀ q ∈ L, q ≠ t → nx h' q = nx h q) →
    nx h' t = x → x ≠ 0 → live h' x → nx h' x = 0 → NCh h' p (L ++ [x])
  | [], _, _, hl, _, _, _, _, _, _, _ => by simp at hl
  | [a], p, ⟨n1, n2, n3, n4⟩, hl, _, h1, h2, h3, h4, h5, h6 => by
    simp at hl; subst hl
    refine ⟨n1, n2, h1 a (by simp), ?_⟩
    rw [h3]; exact ⟨rfl, h4, h5, h6⟩
  | a :: b :: L, p, ⟨n1, n2, n3, n4⟩, hl, hn, h1, h2, h3, h4, h5, h6 => by
    rw [List.getLast?_cons_cons] at hl
    rw [List.nodup_cons] at hn
    have ht := List.mem_of_getLast? hl
    refine ⟨n1, n2, h1 a (by simp), ?_⟩
    rw [h2 a (by simp) (by rintro rfl; exact hn.1 ht)]
    exact n4.snoc hl hn.2 (fun q hq => h1 q (by simp [List.mem_cons.1 hq])) (fun q hq => h2 q (by simp [List.mem_cons.1 hq])) h3 h4 h5 h6

/-- Same nodes with the same values. -/
structure Vals (h h' : Hp α) : Prop where
  live : ∀ q, live h' q ↔ live h q
  vl : ∀ q, vl h' q = vl h q

theorem Vals.refl (h : Hp α) : Vals h h := ⟨fun _ => Iff.rfl, fun _ => rfl⟩
theorem Vals.trans {h h1 h2 : Hp α} (a : Vals h h1) (b : Vals h1 h2) : Vals h h2 := ⟨fun q => (b.live q).trans (a.live q), fun q => (b.vl q).trans (a.vl q)⟩

theorem transferBack_ok {h : Hp α} {c : Con} {o : RmOp} {A B : List (Nat × α)} {a : Nat × α} {L : List Nat} (W : WF h c (A ++ [a] ++ B)) (r : Rm h o L)
    (ap : ∀ q ∈ L, q ∉ c.hd :: ids (A ++ [a] ++ B)) (h0 : ¬ live h 0) :
    ∃ h' o', transferBack h c o a.1 = .ok (h', ⟨c.hd, c.size - 1⟩, o', atFirst c.hd B) ∧ WF h' ⟨c.hd, c.size - 1⟩ (A ++ B) ∧ Rm h' o' (L ++ [a.1]) ∧ Vals h h' ∧
      ∀ q, q ∉ c.hd :: ids (A ++ [a] ++ B) → q ∉ L → h' q = h q := by
  obtain ⟨k1, k2, m1, m2⟩ := cut1_spec W
  have hnd := W.nd
  have a1 := atLast_mem (hd := c.hd) A
  have b1 := atFirst_mem (hd := c.hd) B
  have ha0 : a.1 ≠ 0 := by intro hh; rw [hh] at k1; exact h0 k1.lb
  unfold transferBack
  have C := Chg.refl h
  rw [C.nd k1.lb, R.ok_bind, k1.p, k2.n]; simp only
  obtain ⟨_, e, C⟩ := C.setN k1.lb 0; rw [e, R.ok_bind]; clear e
  obtain ⟨_, e, C⟩ := C.setN k1.la (atFirst c.hd B); rw [e, R.ok_bind]; clear e
  obtain ⟨h1, e, C⟩ := C.setP k2.lb (atLast c.hd A); rw [e, R.ok_bind]; clear e
  have ht := r.tail
  have hLa : a.1 ∉ L := fun hh => ap _ hh (by simp [ids])
  have hLA : atLast c.hd A ∉ L := fun hh => ap _ hh (by nds; grind)
  cases hl : L.getLast? with
  | none =>
    have hL : L = [] := by simpa using hl
    subst hL
    rw [ht]; simp only [List.getLast?_nil]
    obtain ⟨W', fr⟩ := cut_block W (by simp) C (by simp) (by intro q q1 q2; simp [ids] at q2; simp [q1, q2]) (by simp) (by intro q q1 q2; simp [q1])
    refine ⟨h1, _, rfl, W', ⟨?_, by simp, by simp⟩, ⟨C.live, C.vl⟩, fun q q1 _ => fr q q1⟩
    exact ⟨rfl, ha0, (C.live _).2 k1.lb, by rw [C.nx]; simp [m1, NCh]⟩
  | some t =>
    rw [ht, hl]; simp only
    have htL := List.mem_of_getLast? hl
    have hlt : live h t := by
      have := r.ch
      revert this htL
      generalize o.head = p
      clear ap r ht hl hLa hLA
      induction L generalizing p with
      | nil => simp
      | cons b L ih =>
        rintro htL ⟨n1, n2, n3, n4⟩
        rcases List.mem_cons.1 htL with rfl | hh
        · exact n3
        · exact ih _ hh n4
    have htX := ap t htL
    have hta : t ≠ a.1 := by rintro rfl; exact hLa htL
    have htA : t ≠ atLast c.hd A := by rintro rfl; exact hLA htL
    obtain ⟨h2, e, C⟩ := C.setN hlt a.1; rw [e, R.ok_bind]; clear e
    have hlL : ∀ q ∈ L, live h2 q := by
      have := r.ch
      intro q hq
      rw [C.live]
      revert this hq
      generalize o.head = p
      clear ap r ht hl hLa hLA htL htX
      induction L generalizing p with
      | nil => simp
      | cons b L ih =>
        rintro ⟨n1, n2, n3, n4⟩ hh
        rcases List.mem_cons.1 hh with rfl | hh
        · exact n3
        · exact ih _ n4 hh
    have nnx : ∀ q, q ≠ t → nx h2 q = if q = atLast c.hd A then atFirst c.hd B else if q = a.1 then 0 else nx h q := by
      intro q hq; rw [C.nx, if_neg hq]
    -- the list
    have r3 := (ring3 (by simp)).1 W.ch
    have W' : WF h2 ⟨c.hd, c.size - 1⟩ (A ++ B) ∧ ∀ q, q ∉ c.hd :: ids (A ++ [a] ++ B) → q ∉ L → h2 q = h q := by
      obtain ⟨h1', e', C'⟩ := (Chg.refl h).setN k1.lb 0
      obtain ⟨h2', e', C'⟩ := C'.setN k1.la (atFirst c.hd B)
      obtain ⟨h3', e', C'⟩ := C'.setP k2.lb (atLast c.hd A)
      obtain ⟨W', fr⟩ := cut_block W (by simp) C' (by simp) (by intro q q1 q2; simp [ids] at q2; simp [q1, q2]) (by simp) (by intro q q1 q2; simp [q1])
      have hs : ∀ q, q ≠ t → h2 q = h3' q := by
        intro q hq
        refine hp_ext ((C.live q).trans (C'.live q).symm) ?_ ?_ ((C.vl q).trans (C'.vl q).symm)
        · rw [C.nx, C'.nx, if_neg hq]
        · rw [C.pv, C'.pv]
      refine ⟨W'.frame fun q hq => hs q ?_, fun q q1 q2 => ?_⟩
      · rintro rfl; nds at htX hq; grind
      · rw [hs q (by rintro rfl; exact q2 htL), fr q q1]
    refine ⟨h2, _, rfl, W'.1, ⟨?_, by simp, ?_⟩, ⟨C.live, C.vl⟩, W'.2⟩
    · exact r.ch.snoc hl r.nd hlL (fun q hq hqt => by rw [nnx q hqt, if_neg (by rintro rfl; exact hLA hq), if_neg (by rintro rfl; exact hLa hq)]) (by rw [C.nx]; simp) ha0
        ((C.live _).2 k1.lb) (by rw [nnx _ hta.symm, if_neg m1]; simp)
    · rw [List.nodup_append]; exact ⟨r.nd, by simp, by intro x hx y hy; simp at hy; subst hy; rintro rfl; exact hLa hx⟩

/-- What the removing loops achieve: from contents `X` and removed nodes `L` to contents `X'`. -/
structure RmRes (h : Hp α) (c : Con) (X : List (Nat × α)) (L : List Nat) (h' : Hp α) (c' : Con) (X' : List (Nat × α)) (L' : List Nat) : Prop where
  wf : WF h' c' X'
  hd : c'.hd = c.hd
  vals : Vals h h'
  mem : ∀ q, q ∈ ids X' ∨ q ∈ L' ↔ q ∈ ids X ∨ q ∈ L
  ap : ∀ q ∈ L', q ∉ c.hd :: ids X'
  len : X'.length + L'.length = X.length + L.length
  frame : ∀ q, q ∉ c.hd :: ids X → q ∉ L → h' q = h q

theorem RmRes.refl {h : Hp α} {c : Con} {X : List (Nat × α)} {L : List Nat} (W : WF h c X) (ap : ∀ q ∈ L, q ∉ c.hd :: ids X) : RmRes h c X L h c X L :=
  ⟨W, rfl, Vals.refl h, fun _ => Iff.rfl, ap, rfl, fun _ _ _ => rfl⟩

theorem RmRes.trans {h h1 h2 : Hp α} {c c1 c2 : Con} {X X1 X2 : List (Nat × α)} {L L1 L2 : List Nat} (a : RmRes h c X L h1 c1 X1 L1) (b : RmRes h1 c1 X1 L1 h2 c2 X2 L2) : RmRes h c X L h2 c2 X2 L2 where
  wf := b.wf
  hd := b.hd.trans a.hd
  vals := a.vals.trans b.vals
  mem := fun q => (b.mem q).trans (a.mem q)
  ap := by rw [← a.hd]; exact b.ap
  len := b.len.trans a.len
  frame := fun q q1 q2 => by
    have hm := a.mem q
    simp only [List.mem_cons, not_or] at q1
    have h3 : q ∉ ids X1 ∧ q ∉ L1 := by
      constructor <;> (intro hh; have := hm.1 (by tauto); tauto)
    rw [b.frame q (by rw [a.hd]; simp only [List.mem_cons, not_or]; exact ⟨q1.1, h3.1⟩) h3.2, a.frame q (by simp only [List.mem_cons, not_or]; exact q1) q2]

theorem RmRes.transfer {h h' : Hp α} {c : Con} {A B : List (Nat × α)} {a : Nat × α} {L : List Nat} (W : WF h c (A ++ [a] ++ B)) (ap : ∀ q ∈ L, q ∉ c.hd :: ids (A ++ [a] ++ B))
    (W' : WF h' ⟨c.hd, c.size - 1⟩ (A ++ B)) (v : Vals h h') (fr : ∀ q, q ∉ c.hd :: ids (A ++ [a] ++ B) → q ∉ L → h' q = h q) :
    RmRes h c (A ++ [a] ++ B) L h' ⟨c.hd, c.size - 1⟩ (A ++ B) (L ++ [a.1]) where
  wf := W'
  hd := rfl
  vals := v
  mem := fun q => by simp only [ids, List.map_append, List.mem_append, List.map_cons, List.map_nil, List.mem_singleton]; tauto
  ap := by
    have := W.nd
    intro q hq
    rcases List.mem_append.1 hq with hq | hq
    · have := ap q hq; nds at this ⊢; grind
    · simp at hq; subst hq; nds at this ⊢; grind
  len := by simp; omega
  frame := fr

theorem removeLoop_ok {pred : Hp α → α → R Bool} {pr : α → Bool} {h0 : Hp α} (hp : ∀ h', Vals h0 h' → ∀ v, pred h' v = .ok (pr v)) (hz : ¬ live h0 0) :
    ∀ {f k : Nat} {B A : List (Nat × α)} {h : Hp α} {c : Con} {o : RmOp} {L : List Nat}, WF h c (A ++ B) → Rm h o L → (∀ q ∈ L, q ∉ c.hd :: ids (A ++ B)) → Vals h0 h → B.length < f →
      ∃ h' c' o' L', removeLoop pred c.hd f k h c o (atFirst c.hd B) = .ok (h', c', o', decide (k < B.length)) ∧ Rm h' o' L' ∧
        RmRes h c (A ++ B) L h' c' (A ++ ((B.take k).filter (fun a => !pr a.2) ++ B.drop k)) L'
  | 0, _, _, _, _, _, _, _, _, _, _, _, hf => by omega
  | f + 1, k, [], A, h, c, o, L, W, r, ap, v, hf => by
    refine ⟨h, c, o, L, by simp [removeLoop, atFirst], r, ?_⟩
    simpa using RmRes.refl W ap
  | f + 1, k, b :: B, A, h, c, o, L, W, r, ap, v, hf => by
    have hbX : b.1 ∈ ids (A ++ b :: B) := by simp [ids]
    have hl := W.live (Or.inr hbX)
    have hnd := W.nd
    unfold removeLoop
    rw [if_neg (by rw [asg_hd W]; simp), atFirst_cons, nd_live hl, R.ok_bind, valAt_ok hl (W.val b (by simp)), R.ok_bind, hp h v, R.ok_bind, W.next]
    simp only
    cases k with
    | zero =>
      simp only [callPred]
      exact ⟨h, c, o, L, by simp, r, by simpa using RmRes.refl W ap⟩
    | succ k =>
      simp only [callPred]
      have W1 : WF h c (A ++ [b] ++ B) := by simpa using W
      have ap1 : ∀ q ∈ L, q ∉ c.hd :: ids (A ++ [b] ++ B) := by simpa using ap
      cases hb : pr b.2 with
      | true =>
        simp only
        obtain ⟨h1, o1, e1, W2, r2, v2, fr2⟩ := transferBack_ok W1 r ap1 (by rwa [v.live])
        have RR := RmRes.transfer W1 ap1 W2 v2 fr2
        rw [e1, R.ok_bind]
        obtain ⟨h', c', o', L', e, r', RR'⟩ := removeLoop_ok hp hz (f := f) (k := k) W2 r2 RR.ap (v.trans v2) (by simp at hf; omega)
        simp only at e
        refine ⟨h', c', o', L', by simp only; rw [e]; simp, r', ?_⟩
        have := RR.trans RR'
        simpa [hb] using this
      | false =>
        simp only
        obtain ⟨h', c', o', L', e, r', RR'⟩ := removeLoop_ok hp hz (f := f) (k := k) W1 r ap1 v (by simp at hf; omega)
        refine ⟨h', c', o', L', by rw [e]; simp, r', ?_⟩
        simpa [hb] using RR'

/-- At the end the removed nodes are freed. -/
theorem rmDtor_ok {h h1 : Hp α} {c c1 : Con} {o : RmOp} {X X' : List (Nat × α)} {L : List Nat} (W : WF h c X) (r : Rm h1 o L) (RR : RmRes h c X [] h1 c1 X' L) :
    ∃ h2, rmDtor (c.size - c1.size) h1 o = .ok h2 ∧ One h c X h2 c1 X' ∧ c.size - c1.size = X.length - X'.length := by
  have hlen := RR.len
  have s1 := W.size
  have s2 := RR.wf.size
  simp at hlen
  obtain ⟨h2, e, g1, g2⟩ := freeLoop_spec (f := c.size - c1.size) r.ch r.nd (by omega)
  refine ⟨h2, e, ⟨?_, RR.hd, ?_, ?_, ?_⟩, by omega⟩
  · exact RR.wf.frame fun q hq => g2 q fun hh => RR.ap q hh (by rw [RR.hd] at hq; exact List.mem_cons.2 hq)
  · intro q q1 q2 q3
    have hm := RR.mem q
    have hL : q ∉ L := fun hh => q2 (by simpa using hm.1 (Or.inr hh))
    rw [g2 q hL, RR.frame q (by simp only [List.mem_cons, not_or]; exact ⟨q1, q2⟩) (by simp)]
  · intro q q1 q2
    apply g1
    have hm := RR.mem q
    simp at hm; simp at q1 q2; tauto
  · intro q q1
    have hm := RR.mem q
    simp at hm; simp at q1; left; simp; tauto

theorem removeIf_ok {pred : Hp α → α → R Bool} {pr : α → Bool} {h : Hp α} {c : Con} {X : List (Nat × α)} {k : Nat} (hp : ∀ h', Vals h h' → ∀ v, pred h' v = .ok (pr v)) (hz : ¬ live h 0) (W : WF h c X) :
    ∃ h' c', removeIf pred k h c = .ok (h', c', (X.take k).countP (fun a => pr a.2), if k < X.length then some .user else none) ∧
      One h c X h' c' ((X.take k).filter (fun a => !pr a.2) ++ X.drop k) := by
  unfold removeIf
  rw [nd_live (W.live (Or.inl rfl)), R.ok_bind, W.first]
  have HH := removeLoop_ok hp hz (f := c.size + 1) (k := k) (A := []) (B := X) (o := ⟨0, none⟩) (L := []) W ⟨rfl, rfl, by simp⟩ (by simp) (Vals.refl h) (by rw [W.size]; omega)
  obtain ⟨h1, c1, o1, L1, e1, r1, RR⟩ := HH
  simp only [List.nil_append] at RR
  obtain ⟨h2, e2, O, hs⟩ := rmDtor_ok W r1 RR
  simp only
  rw [e1, R.ok_bind]; simp only
  rw [e2, R.ok_bind]
  refine ⟨h2, c1, ?_, O⟩
  have hcount : X.length - ((X.take k).filter (fun a => !pr a.2) ++ X.drop k).length = (X.take k).countP (fun a => pr a.2) := by
    have h1 := List.length_eq_countP_add_countP (fun a : Nat × α => pr a.2) (l := X.take k)
    have h2 : X.length = (X.take k).length + (X.drop k).length := by rw [← List.length_append, List.take_append_drop]
    rw [List.length_append, ← List.countP_eq_length_filter]
    have h3 : List.countP (fun a : Nat × α => !pr a.2) (X.take k) = List.countP (fun a => decide ¬pr a.2 = true) (X.take k) := by
      congr 1; funext a; cases pr a.2 <;> simp
    rw [h3]; omega
  rw [hs, hcount]
  simp only [decide_eq_true_eq]

theorem uniqueLoop_ok {eq : α → α → Bool} {h0 : Hp α} (hz : ¬ live h0 0) :
    ∀ {f k : Nat} {B A : List (Nat × α)} {a : Nat × α} {h : Hp α} {c : Con} {o : RmOp} {L : List Nat}, WF h c (A ++ a :: B) → Rm h o L → (∀ q ∈ L, q ∉ c.hd :: ids (A ++ a :: B)) → Vals h0 h → B.length < f →
      ∃ h' c' o' L', uniqueLoop eq c.hd f k h c o a.1 (atFirst c.hd B) = .ok (h', c', o', decide (k < B.length)) ∧ Rm h' o' L' ∧
        RmRes h c (A ++ a :: B) L h' c' (A ++ uniq eq a k B) L'
  | 0, _, _, _, _, _, _, _, _, _, _, _, _, hf => by omega
  | f + 1, k, [], A, a, h, c, o, L, W, r, ap, v, hf => by
    refine ⟨h, c, o, L, by simp [uniqueLoop, atFirst], r, ?_⟩
    simpa [uniq] using RmRes.refl W ap
  | f + 1, k, b :: B, A, a, h, c, o, L, W, r, ap, v, hf => by
    have hl := W.live (q := b.1) (Or.inr (by simp [ids]))
    have hla := W.live (q := a.1) (Or.inr (by simp [ids]))
    have W1 : WF h c (A ++ [a] ++ [b] ++ B) := by simpa using W
    have ap1 : ∀ q ∈ L, q ∉ c.hd :: ids (A ++ [a] ++ [b] ++ B) := by simpa using ap
    unfold uniqueLoop
    rw [if_neg (by rw [asg_hd (A := A ++ [a]) (by simpa using W)]; simp), atFirst_cons, valAt_ok hla (W.val a (by simp)), R.ok_bind, valAt_ok hl (W.val b (by simp)), R.ok_bind]
    cases k with
    | zero =>
      simp only [callPred]
      exact ⟨h, c, o, L, by simp, r, by simpa [uniq] using RmRes.refl W ap⟩
    | succ k =>
      simp only [callPred]
      cases hb : eq a.2 b.2 with
      | true =>
        simp only
        obtain ⟨h1, o1, e1, W2, r2, v2, fr2⟩ := transferBack_ok W1 r ap1 (by rwa [v.live])
        have RR := RmRes.transfer W1 ap1 W2 v2 fr2
        rw [e1, R.ok_bind]
        obtain ⟨h', c', o', L', e, r', RR'⟩ := uniqueLoop_ok hz (eq := eq) (f := f) (k := k) (A := A) (a := a) (B := B) (by simpa using W2) r2 (by simpa using RR.ap) (v.trans v2) (by simp at hf; omega)
        simp only at e
        refine ⟨h', c', o', L', by simp only; rw [e]; simp, r', ?_⟩
        have := RR.trans (by simpa using RR')
        simpa [hb, uniq] using this
      | false =>
        simp only
        rw [nd_live hl, R.ok_bind, WF.next (A := A ++ [a]) (a := b) (B := B) (by simpa using W)]
        obtain ⟨h', c', o', L', e, r', RR'⟩ := uniqueLoop_ok hz (eq := eq) (f := f) (k := k) (A := A ++ [a]) (a := b) (B := B) (by simpa using W) r (by simpa using ap) v (by simp at hf; omega)
        refine ⟨h', c', o', L', by simp only; rw [e]; simp, r', ?_⟩
        simpa [hb, uniq] using RR'

/-- what `unique` leaves -/
def uniqL (eq : α → α → Bool) (k : Nat) : List (Nat × α) → List (Nat × α)
  | [] => []
  | a :: X => uniq eq a k X

theorem unique_ok {eq : α → α → Bool} {h : Hp α} {c : Con} {X : List (Nat × α)} {k : Nat} (hz : ¬ live h 0) (W : WF h c X) :
    ∃ h' c', unique eq k h c = .ok (h', c', X.length - (uniqL eq k X).length, if k < X.length - 1 then some .user else none) ∧ One h c X h' c' (uniqL eq k X) := by
  unfold unique
  rw [nd_live (W.live (Or.inl rfl)), R.ok_bind, W.first]
  have : ∃ h1 c1 o1 L1, (do
      let pn ← nd h (atFirst c.hd X)
      uniqueLoop eq c.hd (c.size + 1) k h c ⟨0, none⟩ (atFirst c.hd X) pn.next) = .ok (h1, c1, o1, decide (k < X.length - 1)) ∧ Rm h1 o1 L1 ∧ RmRes h c X [] h1 c1 (uniqL eq k X) L1 := by
    cases X with
    | nil =>
      rw [show atFirst c.hd ([] : List (Nat × α)) = c.hd from rfl, nd_live (W.live (Or.inl rfl)), R.ok_bind, W.first]
      refine ⟨h, c, ⟨0, none⟩, [], ?_, ⟨rfl, rfl, by simp⟩, RmRes.refl W (by simp)⟩
      simp [uniqueLoop, atFirst]
    | cons a X =>
      rw [atFirst_cons, nd_live (W.live (Or.inr (by simp [ids]))), R.ok_bind, WF.next (A := []) (a := a) (B := X) W]
      have HH := uniqueLoop_ok hz (eq := eq) (f := c.size + 1) (k := k) (A := []) (a := a) (B := X) (o := ⟨0, none⟩) (L := []) W ⟨rfl, rfl, by simp⟩ (by simp) (Vals.refl h) (by rw [W.size]; simp; omega)
      simpa [uniqL] using HH
  obtain ⟨h1, c1, o1, L1, e1, r1, RR⟩ := this
  obtain ⟨h2, e2, O, hs⟩ := rmDtor_ok W r1 RR
  simp only
  cases hn : nd h (atFirst c.hd X) with
  | error e => rw [hn] at e1; cases e1
  | ok pn =>
    rw [hn, R.ok_bind] at e1
    rw [R.ok_bind, e1, R.ok_bind]; simp only
    rw [e2, R.ok_bind, hs]
    exact ⟨h2, c1, by simp only [decide_eq_true_eq], O⟩

end STL.DL
