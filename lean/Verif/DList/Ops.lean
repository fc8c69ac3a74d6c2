import Verif.DList.Blocks

/-! # Inserting and erasing. Proofs only. -/

namespace STL.DL
open STL
variable {α : Type}

theorem mem_takeWhile_imp {β : Type} {p : β → Bool} : ∀ {l : List β} {a : β}, a ∈ l.takeWhile p → p a = true
  | [], _, h => by simp at h
  | b :: l, a, h => by
    by_cases hb : p b
    · rw [List.takeWhile_cons_of_pos hb] at h
      rcases List.mem_cons.1 h with rfl | h
      · exact hb
      · exact mem_takeWhile_imp h
    · rw [List.takeWhile_cons_of_neg hb] at h; simp at h

/-- Every position of a list splits it. -/
theorem pos_split {hd p : Nat} {X : List (Nat × α)} (hnd : (hd :: ids X).Nodup) (hp : p = hd ∨ p ∈ ids X) :
    X = bef X p ++ fro X p ∧ atFirst hd (fro X p) = p ∧ p ∉ ids (bef X p) := by
  refine ⟨(List.takeWhile_append_dropWhile).symm, ?_, ?_⟩
  · unfold fro
    induction X with
    | nil => simp at hp; simp [atFirst, hp]
    | cons a X ih =>
      by_cases ha : a.1 = p
      · simp [ha, atFirst]
      · simp only [List.dropWhile_cons, bne_iff_ne, ne_eq, ha, not_false_eq_true, ↓reduceIte]
        apply ih
        · simp [ids] at hnd ⊢; tauto
        · simp [ids] at hp ⊢; rcases hp with h | h | h
          · exact Or.inl h
          · exact absurd h.symm ha
          · exact Or.inr h
  · unfold bef
    simp only [ids, List.mem_map, not_exists, not_and]
    intro a ha
    have := mem_takeWhile_imp ha
    simpa using this

theorem bef_app {p : Nat} {A B : List (Nat × α)} (hA : p ∉ ids A) : bef (A ++ B) p = A ++ bef B p := by
  unfold bef
  rw [List.takeWhile_append_of_pos]
  intro a ha; simp; rintro rfl; exact hA (List.mem_map_of_mem ha)

theorem fro_app {p : Nat} {A B : List (Nat × α)} (hA : p ∉ ids A) : fro (A ++ B) p = fro B p := by
  unfold fro
  rw [List.dropWhile_append_of_pos]
  intro a ha; simp; rintro rfl; exact hA (List.mem_map_of_mem ha)

theorem bef_cons {a : Nat × α} {B : List (Nat × α)} : bef (a :: B) a.1 = [] := by simp [bef]
theorem fro_cons {a : Nat × α} {B : List (Nat × α)} : fro (a :: B) a.1 = a :: B := by simp [fro]
theorem bef_none {p : Nat} {A : List (Nat × α)} (hA : p ∉ ids A) : bef A p = A := by have := bef_app (B := []) hA; simpa [bef] using this
theorem fro_none {p : Nat} {A : List (Nat × α)} (hA : p ∉ ids A) : fro A p = [] := by have := fro_app (B := []) hA; simpa [fro] using this

/-- Conversely, a split of a list is given by its position. -/
theorem bef_fro {hd : Nat} {A B : List (Nat × α)} (hnd : (hd :: ids (A ++ B)).Nodup) : bef (A ++ B) (atFirst hd B) = A ∧ fro (A ++ B) (atFirst hd B) = B := by
  have hA : atFirst hd B ∉ ids A := by
    have := atFirst_mem (hd := hd) B; nds at hnd; grind
  rw [bef_app hA, fro_app hA]
  cases B with
  | nil => simp [bef, fro]
  | cons b B => rw [show atFirst hd (b :: B) = b.1 from rfl, bef_cons, fro_cons]; simp

theorem atFirst_cons {d : Nat} {a : Nat × α} {B : List (Nat × α)} : atFirst d (a :: B) = a.1 := rfl
theorem atLast_single {d : Nat} {a : Nat × α} : atLast d [a] = a.1 := rfl

/-! ## Null-terminated chains -/

def NCh (h : Hp α) : Nat → List Nat → Prop
  | p, [] => p = 0
  | p, a :: L => p = a ∧ a ≠ 0 ∧ live h a ∧ NCh h (nx h a) L

theorem NCh.frame {h h' : Hp α} : ∀ {L : List Nat} {p : Nat}, NCh h p L → (∀ q ∈ L, h' q = h q) → NCh h' p L
  | [], _, n, _ => n
  | a :: L, p, ⟨n1, n2, n3, n4⟩, hs =>
    ⟨n1, n2, (live_eq (hs a (by simp))).2 n3, by rw [nx_eq (hs a (by simp))]; exact n4.frame fun q hq => hs q (by simp [hq])⟩

theorem freeLoop_spec : ∀ {L : List Nat} {h : Hp α} {p f : Nat}, NCh h p L → L.Nodup → L.length ≤ f →
    ∃ h', freeLoop f h p = .ok h' ∧ (∀ q ∈ L, h' q = none) ∧ ∀ q, q ∉ L → h' q = h q
  | [], h, p, f, n, _, _ => by
    simp only [NCh] at n; subst n
    refine ⟨h, ?_, by simp, fun _ _ => rfl⟩
    cases f <;> simp [freeLoop]
  | a :: L, h, p, 0, _, _, hf => by simp at hf
  | a :: L, h, p, f + 1, ⟨n1, n2, n3, n4⟩, hnd, hf => by
    subst n1
    rw [List.nodup_cons] at hnd
    obtain ⟨h1, e1, g1, g2⟩ := free_ok n3
    obtain ⟨h', e2, g3, g4⟩ := freeLoop_spec (f := f) (n4.frame (h' := h1) fun q hq => g1 q (by rintro rfl; exact hnd.1 hq)) hnd.2 (by simp at hf; omega)
    refine ⟨h', ?_, ?_, ?_⟩
    · unfold freeLoop; rw [if_neg n2, nd_live n3, R.ok_bind, e1, R.ok_bind, e2]
    · intro q hq
      rcases List.mem_cons.1 hq with rfl | hq
      · rw [g4 _ hnd.1, g2]
      · exact g3 q hq
    · intro q hq; simp at hq; rw [g4 q hq.2, g1 q hq.1]

/-- A chain whose last node has a null `_Next`. -/
theorem nch_of_ch {h : Hp α} {d : Nat} : ∀ {M : List (Nat × α)}, M ≠ [] → Ch h (ids M) → (∀ q ∈ ids M, live h q) → nx h (atLast d M) = 0 → 0 ∉ ids M → NCh h (atFirst d M) (ids M)
  | [], hM, _, _, _, _ => absurd rfl hM
  | [a], _, _, hl, hn, h0 => by
    simp [ids] at h0 hl
    simp only [ids, List.map_cons, List.map_nil, NCh, atFirst]
    simp [atLast, atFirst] at hn
    exact ⟨trivial, fun h => h0 h.symm, hl, hn⟩
  | a :: b :: M, _, c, hl, hn, h0 => by
    have hM : (b :: M) ≠ [] := by simp
    rw [show a :: b :: M = [a] ++ (b :: M) from rfl, block_split (d := d) (by simp) hM] at c
    obtain ⟨c1, c2, k⟩ := c
    rw [show a :: b :: M = [a] ++ (b :: M) from rfl, atLast_app hM] at hn
    have := nch_of_ch hM c2 (fun q hq => hl q (by simp [ids] at hq ⊢; tauto)) hn (by simp [ids] at h0 ⊢; tauto)
    refine ⟨rfl, ?_, hl _ (by simp [ids]), ?_⟩
    · simp [ids] at h0; intro h; exact h0.1 h.symm
    · have e : nx h a.1 = atFirst d (b :: M) := by have := k.n; simpa [atLast, atFirst] using this
      rw [e]; exact this

/-! ## Construction, destruction -/

theorem newHead_ok {h : Hp α} {x : Nat} (hx : h x = none) (h0 : x ≠ 0) : ∃ h', newHead h x = .ok h' ∧ WF h' ⟨x, 0⟩ [] ∧ ∀ q, q ≠ x → h' q = h q := by
  obtain ⟨h1, e1, f1, l1, v1⟩ := alloc_ok (v := none) (h := h) (x := x) (by simp [live, hx]) h0
  obtain ⟨h2, e2, C⟩ := (Chg.refl h1).setN l1 x
  obtain ⟨h3, e3, C⟩ := C.setP l1 x
  refine ⟨h3, by unfold newHead; rw [e1, R.ok_bind, e2, R.ok_bind, e3], ⟨?_, by simp [ids], by simp, rfl⟩, ?_⟩
  · simp only [ids, List.map_nil, List.nil_append]
    exact .cons_cons (C.link l1 l1 (by simp) (by simp)) (.singleton _)
  · intro q hq; rw [C.same (by simp [hq]) (by simp [hq]), f1 q hq]

theorem freeNonHead_ok {h : Hp α} {c : Con} {X : List (Nat × α)} (W : WF h c X) (h0 : h 0 = none) :
    ∃ h', freeNonHead c.size h c.hd = .ok h' ∧ live h' c.hd ∧ (∀ q ∈ ids X, h' q = none) ∧ ∀ q, q ≠ c.hd → q ∉ ids X → h' q = h q := by
  unfold freeNonHead
  rw [nd_live (W.live (Or.inl rfl)), R.ok_bind, W.last]; simp only
  have hnd := W.nd
  have z1 : 0 ∉ ids X := fun hz => W.live (Or.inr hz) h0
  rcases List.eq_nil_or_concat X with rfl | ⟨X', a, e⟩
  · obtain ⟨h1, e1, C⟩ := (Chg.refl h).setN (W.live (Or.inl rfl)) 0
    rw [show atLast c.hd ([] : List (Nat × α)) = c.hd from rfl, e1, R.ok_bind, C.nd (W.live (Or.inl rfl)), R.ok_bind, if_pos rfl]; simp only
    refine ⟨h1, ?_, (C.live _).2 (W.live (Or.inl rfl)), by simp [ids], ?_⟩
    · cases c.size <;> simp [freeLoop]
    · intro q hq _; exact C.same (by simp [hq]) rfl
  · have hX : X ≠ [] := by simp [e]
    have hL := atLast_block (d := c.hd) hX
    have hc : c.hd ∉ ids X := (List.nodup_cons.1 hnd).1
    have hne : c.hd ≠ atLast c.hd X := by rintro h1; rw [← h1] at hL; exact hc hL
    obtain ⟨r1, r2, r3, k1, k2⟩ := (ring3 (A := []) (B := []) hX).1 (by simpa using W.ch)
    obtain ⟨h1, e1, C⟩ := (Chg.refl h).setN (W.live (Or.inr hL)) 0
    rw [e1, R.ok_bind, C.nd (W.live (Or.inl rfl)), R.ok_bind, if_neg hne, W.first]; simp only
    have c2 : Ch h1 (ids X) := C.keep (S := [atLast c.hd X]) (T := []) (by intro q hq; simp at hq; simp [hq]) (by simp) (by simp) r2
      (by intro x hx; simpa using dropLast_ne (List.nodup_cons.1 hnd).2 (last_block hX) hx)
    have n1 := nch_of_ch (d := c.hd) hX c2 (fun q hq => (C.live q).2 (W.live (Or.inr hq))) (by rw [C.nx]; simp) z1
    obtain ⟨h2, e2, g1, g2⟩ := freeLoop_spec (f := c.size) n1 (List.nodup_cons.1 hnd).2 (by rw [W.size]; simp [ids])
    refine ⟨h2, e2, ?_, g1, ?_⟩
    · rw [live_eq (g2 _ hc)]; exact (C.live _).2 (W.live (Or.inl rfl))
    · intro q q1 q2; rw [g2 q q2, C.same _ rfl]; rw [if_neg]; rintro rfl; exact q2 hL

theorem clear_ok {h : Hp α} {c : Con} {X : List (Nat × α)} (W : WF h c X) (h0 : h 0 = none) :
    ∃ h', clear h c = .ok (h', ⟨c.hd, 0⟩) ∧ One h c X h' ⟨c.hd, 0⟩ [] := by
  obtain ⟨h1, e1, l1, g1, g2⟩ := freeNonHead_ok W h0
  obtain ⟨h2, e2, C⟩ := (Chg.refl h1).setN l1 c.hd
  obtain ⟨h3, e3, C⟩ := C.setP l1 c.hd
  have hnd := W.nd
  refine ⟨h3, by unfold clear; rw [e1, R.ok_bind, e2, R.ok_bind, e3]; rfl, ⟨?_, by simp [ids], by simp, rfl⟩, rfl, ?_, ?_, by simp [ids]⟩
  · simp only [ids, List.map_nil, List.nil_append]
    exact .cons_cons (C.link l1 l1 (by simp) (by simp)) (.singleton _)
  · intro q q1 q2 _; rw [C.same (by simp [q1]) (by simp [q1]), g2 q q1 q2]
  · intro q q1 _
    have hq : q ≠ c.hd := by rintro rfl; exact (List.nodup_cons.1 hnd).1 q1
    rw [C.same (by simp [hq]) (by simp [hq]), g1 q q1]

theorem destroy_ok {h : Hp α} {c : Con} {X : List (Nat × α)} (W : WF h c X) (h0 : h 0 = none) :
    ∃ h', destroy h c = .ok h' ∧ (∀ q ∈ c.hd :: ids X, h' q = none) ∧ ∀ q, q ∉ c.hd :: ids X → h' q = h q := by
  obtain ⟨h1, e1, l1, g1, g2⟩ := freeNonHead_ok W h0
  obtain ⟨h2, e2, f1, f2⟩ := free_ok l1
  refine ⟨h2, by unfold destroy; rw [e1, R.ok_bind, e2], ?_, ?_⟩
  · intro q hq
    by_cases hc : q = c.hd
    · rw [hc, f2]
    · rw [f1 q hc]; exact g1 q (by simpa [hc] using hq)
  · intro q hq; simp only [List.mem_cons, not_or] at hq; rw [f1 q hq.1, g2 q hq.1 hq.2]

/-! ## Insertion -/

theorem transferBefore_chg {h : Hp α} {x wh p : Nat} (k : Link h p wh) (lx : live h x) (h1 : x ≠ wh) (h2 : x ≠ p) :
    ∃ h', transferBefore h x wh = .ok h' ∧ Chg h h' (fun q => if q = p then x else if q = x then wh else nx h q) (fun q => if q = wh then x else if q = x then p else pv h q) := by
  unfold transferBefore
  have C := Chg.refl h
  rw [C.nd k.lb, R.ok_bind, k.p]; simp only
  obtain ⟨_, e, C⟩ := C.setN lx wh; rw [e, R.ok_bind]; clear e
  obtain ⟨_, e, C⟩ := C.setP lx p; rw [e, R.ok_bind]; clear e
  obtain ⟨_, e, C⟩ := C.setP k.lb x; rw [e, R.ok_bind]; clear e
  obtain ⟨_, e, C⟩ := C.setN k.la x; rw [e]; clear e
  exact ⟨_, rfl, C⟩

/-- A freshly allocated block is put into a list. -/
theorem One.insert {h h1 h' : Hp α} {c : Con} {A B Q : List (Nat × α)} (W : WF h c (A ++ B)) (fr : ∀ q, q ∉ ids Q → h1 q = h q) (hq : ∀ q ∈ ids Q, h q = none ∧ q ≠ 0)
    (hr : WF h' ⟨c.hd, c.size + Q.length⟩ (A ++ Q ++ B) ∧ ∀ q, q ∉ c.hd :: ids (A ++ Q ++ B) → h' q = h1 q) : One h c (A ++ B) h' ⟨c.hd, c.size + Q.length⟩ (A ++ Q ++ B) where
  wf := hr.1
  hd := rfl
  frame := fun q q1 q2 q3 => by rw [hr.2 q (by simp [q1]; simpa [ids] using q3), fr q (by nds at q3 ⊢; grind)]
  gone := fun q q1 q2 => by exfalso; nds at q1 q2; grind
  new := fun q q1 => by
    by_cases hh : q ∈ ids Q
    · exact Or.inr (hq q hh)
    · left; nds at q1 hh ⊢; grind

/-- The possible outcomes of `_Emplace`. -/
def EmpRes (maxsz : Nat) (A B : List (Nat × α)) (v : α) (x : Option Nat) (X' : List (Nat × α)) (e : Option Exc) (i : Nat) : Prop :=
  if (A ++ B).length = maxsz then X' = A ++ B ∧ e = some .lengthError
  else match x with
    | none => X' = A ++ B ∧ e = some .badAlloc
    | some j => X' = A ++ [(j, v)] ++ B ∧ e = none ∧ i = j

theorem emplace_ok {maxsz : Nat} {h : Hp α} {c : Con} {A B : List (Nat × α)} (W : WF h c (A ++ B)) (v : α) {x : Option Nat} (hx : ∀ i, x = some i → h i = none ∧ i ≠ 0) :
    ∃ h' c' i e X', emplace maxsz h c (atFirst c.hd B) v x = .ok (h', c', i, e) ∧ One h c (A ++ B) h' c' X' ∧
      EmpRes maxsz A B v x X' e i := by
  unfold emplace EmpRes
  rw [← W.size]
  by_cases hm : c.size = maxsz
  · simp only [if_pos hm]; exact ⟨h, c, 0, _, A ++ B, rfl, One.refl W, rfl, rfl⟩
  simp only [if_neg hm]
  cases x with
  | none => exact ⟨h, c, 0, _, A ++ B, rfl, One.refl W, rfl, rfl⟩
  | some j =>
    obtain ⟨hj, hj0⟩ := hx j rfl
    obtain ⟨h1, e1, f1, l1, v1⟩ := alloc_ok (v := some v) (h := h) (x := j) (by simp [live, hj]) hj0
    have hjX : ∀ q, q = c.hd ∨ q ∈ ids (A ++ B) → q ≠ j := by rintro q hq rfl; exact W.live hq hj
    have W1 : WF h1 c (A ++ B) := W.frame fun q hq => f1 q (hjX q hq)
    have k := W1.link
    have a1 := atLast_mem (hd := c.hd) A
    have b1 := atFirst_mem (hd := c.hd) B
    have m1 : j ≠ atFirst c.hd B := by have := hjX (atFirst c.hd B) (by nds; grind); exact this.symm
    have m2 : j ≠ atLast c.hd A := by have := hjX (atLast c.hd A) (by nds; grind); exact this.symm
    obtain ⟨h2, e2, C⟩ := transferBefore_chg k l1 m1 m2
    have r := insert_block (Q := [(j, v)]) W1 (by simp) ⟨.singleton _, by simpa [ids] using l1, by simp [ids], by simpa using v1⟩
      (by intro q hq; simp only [ids, List.map_cons, List.map_nil, List.mem_singleton]; exact hjX q (List.mem_cons.1 hq)) C
      (by simp [atFirst_cons]) (by simp [atLast_single, m2]) (by intro q hq; simp [atLast_single] at hq; simp [hq])
      (by simp [atFirst_cons, m1]) (by simp [atLast_single]) (by intro q hq; simp [atFirst_cons] at hq; simp [hq])
    refine ⟨h2, _, j, none, _, ?_, One.insert (Q := [(j, v)]) W (fun q hq => f1 q (by simpa [ids] using hq)) (by simpa [ids] using ⟨hj, hj0⟩) r, rfl, rfl, rfl⟩
    simp only [List.length_singleton]
    rw [e1, R.ok_bind, e2, R.ok_bind]

/-! ## Erasure -/

theorem cut1_spec {h : Hp α} {c : Con} {A B : List (Nat × α)} {a : Nat × α} (W : WF h c (A ++ [a] ++ B)) :
    Link h (atLast c.hd A) a.1 ∧ Link h a.1 (atFirst c.hd B) ∧ a.1 ≠ atLast c.hd A ∧ a.1 ≠ atFirst c.hd B := by
  obtain ⟨r1, r2, r3, k1, k2⟩ := (ring3 (by simp)).1 W.ch
  rw [atFirst_cons] at k1; rw [atLast_single] at k2
  have hnd := W.nd
  have a1 := atLast_mem (hd := c.hd) A
  have b1 := atFirst_mem (hd := c.hd) B
  refine ⟨k1, k2, ?_, ?_⟩ <;> (nds at hnd; grind)

theorem uncheckedErase_ok {h : Hp α} {c : Con} {A B : List (Nat × α)} {a : Nat × α} (W : WF h c (A ++ [a] ++ B)) :
    ∃ h', uncheckedErase h c a.1 = .ok (h', ⟨c.hd, c.size - 1⟩, atFirst c.hd B) ∧ One h c (A ++ [a] ++ B) h' ⟨c.hd, c.size - 1⟩ (A ++ B) := by
  obtain ⟨k1, k2, m1, m2⟩ := cut1_spec W
  unfold uncheckedErase
  have C := Chg.refl h
  rw [C.nd k1.lb, R.ok_bind, k1.p, k2.n]; simp only
  obtain ⟨_, e, C⟩ := C.setN k1.la (atFirst c.hd B); rw [e, R.ok_bind, C.nd k1.lb, R.ok_bind, k1.p]; simp only; clear e
  obtain ⟨h1, e, C⟩ := C.setP k2.lb (atLast c.hd A); rw [e, R.ok_bind]; clear e
  obtain ⟨h2, e, f1, f2⟩ := free_ok ((C.live a.1).2 k1.lb); rw [e, R.ok_bind]; clear e
  obtain ⟨W', fr⟩ := cut_block W (by simp) C (by simp) (by intro q q1 q2; simp [q1]) (by simp) (by intro q q1 q2; simp [q1])
  exact ⟨h2, rfl, cut_free W W' rfl fr (by simpa [ids] using f2) (by intro q hq; exact f1 q (by simpa [ids] using hq))⟩

theorem eraseAt_ok {h : Hp α} {c : Con} {A B : List (Nat × α)} {a : Nat × α} (W : WF h c (A ++ [a] ++ B)) :
    ∃ h', eraseAt h c a.1 = .ok (h', ⟨c.hd, c.size - 1⟩, atFirst c.hd B) ∧ One h c (A ++ [a] ++ B) h' ⟨c.hd, c.size - 1⟩ (A ++ B) := by
  obtain ⟨k1, k2, m1, m2⟩ := cut1_spec W
  unfold eraseAt unlinkNode
  have C := Chg.refl h
  rw [C.nd k1.lb, R.ok_bind, R.ok_bind, k1.p, k2.n]; simp only
  obtain ⟨_, e, C⟩ := C.setN k1.la (atFirst c.hd B); rw [e, R.ok_bind, C.nd k1.lb, R.ok_bind, k1.p, if_neg m1, k2.n]; simp only; clear e
  obtain ⟨h1, e, C⟩ := C.setP k2.lb (atLast c.hd A); rw [e, R.ok_bind, R.ok_bind]; clear e
  simp only
  obtain ⟨h2, e, f1, f2⟩ := free_ok ((C.live a.1).2 k1.lb); rw [e, R.ok_bind]; clear e
  obtain ⟨W', fr⟩ := cut_block W (by simp) C (by simp) (by intro q q1 q2; simp [q1]) (by simp) (by intro q q1 q2; simp [q1])
  exact ⟨h2, rfl, cut_free W W' rfl fr (by simpa [ids] using f2) (by intro q hq; exact f1 q (by simpa [ids] using hq))⟩

theorem popFront_ok {h : Hp α} {c : Con} {X : List (Nat × α)} (W : WF h c X) (hX : X ≠ []) :
    ∃ h', popFront h c = .ok (h', ⟨c.hd, c.size - 1⟩) ∧ One h c X h' ⟨c.hd, c.size - 1⟩ X.tail := by
  cases X with
  | nil => exact absurd rfl hX
  | cons a X =>
    obtain ⟨h', e, O⟩ := uncheckedErase_ok (A := []) (B := X) (a := a) (by simpa using W)
    refine ⟨h', ?_, by simpa using O⟩
    unfold popFront; rw [nd_live (W.live (Or.inl rfl)), R.ok_bind, W.first, atFirst_cons]; simp only; rw [e, R.ok_bind]

theorem popBack_ok {h : Hp α} {c : Con} {A : List (Nat × α)} {a : Nat × α} (W : WF h c (A ++ [a])) :
    ∃ h', popBack h c = .ok (h', ⟨c.hd, c.size - 1⟩) ∧ One h c (A ++ [a]) h' ⟨c.hd, c.size - 1⟩ A := by
  obtain ⟨h', e, O⟩ := uncheckedErase_ok (A := A) (B := []) (a := a) (by simpa using W)
  refine ⟨h', ?_, by simpa using O⟩
  unfold popBack; rw [nd_live (W.live (Or.inl rfl)), R.ok_bind, W.last, atLast_snoc]; simp only; rw [e, R.ok_bind]

theorem eraseLoop_spec {d last : Nat} : ∀ {M : List (Nat × α)} {h : Hp α} {f : Nat}, M ≠ [] → Ch h (ids M) → (∀ q ∈ ids M, live h q) → (ids M).Nodup → nx h (atLast d M) = last → last ∉ ids M → M.length ≤ f →
    ∃ h', eraseLoop f h (atFirst d M) last = .ok (h', M.length) ∧ (∀ q ∈ ids M, h' q = none) ∧ ∀ q, q ∉ ids M → h' q = h q
  | [], _, _, hM, _, _, _, _, _, _ => absurd rfl hM
  | _ :: _, _, 0, _, _, _, _, _, _, hf => by simp at hf
  | [a], h, f + 1, _, _, hl, _, hn, h0, _ => by
    obtain ⟨h1, e1, g1, g2⟩ := free_ok (hl a.1 (by simp [ids]))
    rw [atLast_single] at hn
    refine ⟨h1, ?_, by simpa [ids] using g2, by intro q hq; exact g1 q (by simpa [ids] using hq)⟩
    unfold eraseLoop
    rw [atFirst_cons, nd_live (hl a.1 (by simp [ids])), R.ok_bind, e1, R.ok_bind, if_pos hn]; rfl
  | a :: b :: M, h, f + 1, _, c, hl, nd, hn, h0, hf => by
    have hM : (b :: M) ≠ [] := by simp
    rw [show a :: b :: M = [a] ++ (b :: M) from rfl, block_split (d := d) (by simp) hM] at c
    obtain ⟨c1, c2, k⟩ := c
    rw [show a :: b :: M = [a] ++ (b :: M) from rfl, atLast_app hM] at hn
    have hla := hl a.1 (by simp [ids])
    obtain ⟨h1, e1, g1, g2⟩ := free_ok hla
    have ha : a.1 ∉ ids (b :: M) := (List.nodup_cons.1 nd).1
    have hs : ∀ q ∈ ids (b :: M), h1 q = h q := fun q hq => g1 q (by rintro rfl; exact ha hq)
    obtain ⟨h', e2, g3, g4⟩ := eraseLoop_spec (f := f) (M := b :: M) (h := h1) hM (ch_same c2 hs) (fun q hq => (live_eq (hs q hq)).2 (hl q (List.mem_cons_of_mem _ hq)))
      (List.nodup_cons.1 nd).2 (by rw [nx_eq (hs _ (atLast_block hM))]; exact hn) (fun hh => h0 (List.mem_cons_of_mem _ hh)) (by simp at hf ⊢; omega)
    have e : nx h a.1 = atFirst d (b :: M) := by have := k.n; rwa [atLast_single] at this
    refine ⟨h', ?_, ?_, ?_⟩
    · unfold eraseLoop
      rw [atFirst_cons, nd_live hla, R.ok_bind, e1, R.ok_bind, e]; simp only
      rw [if_neg, e2, R.ok_bind]; rfl
      intro hh; apply h0; rw [← hh]; exact List.mem_cons_of_mem _ (atFirst_block hM)
    · intro q hq
      rcases List.mem_cons.1 hq with rfl | hq
      · rw [g4 _ ha, g2]
      · exact g3 q hq
    · intro q hq; rw [g4 q (fun hh => hq (List.mem_cons_of_mem _ hh)), g1 q (by rintro rfl; exact hq (by simp [ids]))]

theorem uncheckedEraseRange_ok {h : Hp α} {c : Con} {A M B : List (Nat × α)} (W : WF h c (A ++ M ++ B)) :
    ∃ h', uncheckedEraseRange h c (atFirst c.hd (M ++ B)) (atFirst c.hd B) = .ok (h', ⟨c.hd, c.size - M.length⟩) ∧ One h c (A ++ M ++ B) h' ⟨c.hd, c.size - M.length⟩ (A ++ B) := by
  unfold uncheckedEraseRange
  by_cases hM : M = []
  · subst hM
    rw [List.nil_append, if_pos rfl]
    refine ⟨h, by cases c; simp, ?_⟩
    have := One.refl W
    simpa using this
  obtain ⟨r1, r2, r3, k1, k2⟩ := (ring3 hM).1 W.ch
  have hnd := W.nd
  have a1 := atLast_mem (hd := c.hd) A
  have a2 := atLast_block (d := c.hd) hM
  have b1 := atFirst_mem (hd := c.hd) B
  have b2 := atFirst_block (d := c.hd) hM
  rw [atFirst_app hM, if_neg (by nds at hnd; grind), nd_live k1.lb, R.ok_bind, k1.p]; simp only
  have C := Chg.refl h
  obtain ⟨_, e, C⟩ := C.setN k1.la (atFirst c.hd B); rw [e, R.ok_bind]; clear e
  obtain ⟨h1, e, C⟩ := C.setP k2.lb (atLast c.hd A); rw [e, R.ok_bind]; clear e
  obtain ⟨W', fr⟩ := cut_block W hM C (by simp) (by intro q q1 q2; simp [q1]) (by simp) (by intro q q1 q2; simp [q1])
  have hB : atFirst c.hd B ∉ ids M := by nds at hnd; grind
  have hA : atLast c.hd A ∉ ids M := by nds at hnd; grind
  have c2 : Ch h1 (ids M) := C.keep (S := [atLast c.hd A, atLast c.hd M]) (T := [atFirst c.hd B]) (by intro q hq; simp at hq; simp [hq]) (by intro q hq; simp at hq; simp [hq])
    (by simp [k2.p]) r2 (by
      intro x hx
      have := dropLast_ne (by nds at hnd; exact hnd.2.1.2.1) (last_block (d := c.hd) hM) hx
      have h2 := mem_dropLast hx
      simp only [List.mem_cons, List.not_mem_nil, or_false, not_or]
      exact ⟨fun hh => hA (hh ▸ h2), this⟩)
  obtain ⟨h2, e, f1, f2⟩ := eraseLoop_spec (d := c.hd) (f := c.size) (last := atFirst c.hd B) hM c2 (fun q hq => (C.live q).2 (W.live (Or.inr (by nds at hq ⊢; grind))))
    (by nds at hnd; exact hnd.2.1.2.1) (by rw [C.nx, if_neg (by rintro hh; exact hA (hh ▸ a2)), k2.n]) hB (by rw [W.size]; simp; omega)
  rw [e, R.ok_bind]
  exact ⟨h2, rfl, cut_free W W' rfl fr f1 f2⟩

end STL.DL
