import Verif.DList.World

/-! # The code refines the specification, operation by operation. Proofs only. -/

namespace STL.DL
open STL
variable {α : Type}

theorem upd_same {β : Type} {w : Nat → Option β} {n : Nat} {c : Option β} (h : w n = c) : upd w n c = w := by
  funext m; unfold upd; by_cases hm : m = n
  · subst hm; rw [if_pos rfl, h]
  · rw [if_neg hm]

theorem fin1 {g : Pg α} {s : St α} (I : Inv g s) {n : Nat} {e : Ent α} {c c' : Con} {h' : Hp α} {X' : List (Nat × α)} (hn : s n = some e) (hr : Rel g.h c e) (O : One g.h c e.X h' c' X')
    {f : Ent α → List (Nat × α) → Prop} (hf : f e X') : ∃ s', on s n s' f ∧ Inv ⟨h', upd g.w n (some c')⟩ s' :=
  ⟨_, ⟨e, X', hn, hf, rfl⟩, I.one hn hr O⟩

theorem fin1' {g : Pg α} {s : St α} (I : Inv g s) {n : Nat} {e : Ent α} {c : Con} {h' : Hp α} {X' : List (Nat × α)} (hn : s n = some e) (hc : g.w n = some c) (hr : Rel g.h c e) (O : One g.h c e.X h' c X')
    {f : Ent α → List (Nat × α) → Prop} (hf : f e X') : ∃ s', on s n s' f ∧ Inv ⟨h', g.w⟩ s' := by
  have := fin1 I hn hr O hf
  rwa [upd_same hc] at this

theorem fin2 {g : Pg α} {s : St α} (I : Inv g s) {n m : Nat} {e e2 : Ent α} {c d c' d' : Con} {h' : Hp α} {X' Y' : List (Nat × α)} (hne : n ≠ m) (hn : s n = some e) (hm : s m = some e2)
    (hr : Rel g.h c e) (hr2 : Rel g.h d e2) (T : Two g.h c e.X d e2.X h' c' X' d' Y') {f : Ent α → Ent α → List (Nat × α) → List (Nat × α) → Prop} (hf : f e e2 X' Y') :
    ∃ s', on2 s n m s' f ∧ Inv ⟨h', upd (upd g.w n (some c')) m (some d')⟩ s' :=
  ⟨_, ⟨e, e2, X', Y', hn, hm, hf, rfl⟩, I.two hne hn hm hr hr2 T⟩

/-- The statement for one operation. -/
def StepOk (maxsz : Nat) (g : Pg α) (s : St α) (op : Op α) : Prop := ∃ g' out s', step maxsz g op = .ok (g', out) ∧ sem maxsz s op s' out ∧ Inv g' s'

theorem memAdr {h : Hp α} {c : Con} {e : Ent α} (r : Rel h c e) {p : Nat} (hp : p ∈ adr e) : p ∈ c.hd :: ids e.X := by
  unfold adr at hp; rw [r.hd]; exact hp

section
variable {maxsz : Nat} {g : Pg α} {s : St α} (I : Inv g s)
include I

theorem step_new (n : Nat) (x : Option Nat) (h : pre s (.new n x)) : StepOk maxsz g s (.new n x) := by
  obtain ⟨h1, h2⟩ := h
  cases x with
  | none => exact ⟨g, _, s, rfl, ⟨rfl, rfl⟩, I⟩
  | some x =>
    obtain ⟨a, b⟩ := I.fresh1 h2 x rfl
    obtain ⟨h', e, W, fr⟩ := newHead_ok a b
    refine ⟨⟨h', upd g.w n (some ⟨x, 0⟩)⟩, .none, _, by simp only [step]; rw [e]; rfl, ⟨rfl, rfl⟩, I.newList h1 W ?_ ?_⟩
    · intro q hq; exact fr q (by simpa using hq)
    · intro q hq; simp only [List.map_nil, List.mem_singleton] at hq; subst hq; exact ⟨a, b⟩

theorem step_newRange (n : Nat) (vs : List α) (xs : List Nat) (x : Option Nat) (h : pre s (.newRange n vs xs x)) : StepOk maxsz g s (.newRange n vs xs x) := by
  obtain ⟨h1, h2⟩ := h
  obtain ⟨f1, f2⟩ := I.fresh h2
  obtain ⟨C1, C2⟩ := constructRange_ok vs f1 f2
  by_cases hc : xs.length < vs.length ∨ x = none
  · refine ⟨⟨g.h, g.w⟩, .exc .badAlloc, s, by simp only [step]; rw [C1 hc]; rfl, ?_, I⟩
    cases x with
    | none => exact ⟨rfl, rfl⟩
    | some x =>
      have hlt : xs.length < vs.length := by simpa using hc
      show (if _ then _ else _); rw [if_pos hlt]; exact ⟨rfl, rfl⟩
  · simp only [not_or] at hc
    obtain ⟨hc1, hc2⟩ := hc
    obtain ⟨x, rfl⟩ := Option.ne_none_iff_exists'.1 hc2
    obtain ⟨h', e, W, fr⟩ := C2 x rfl hc1
    refine ⟨⟨h', upd g.w n (some ⟨x, vs.length⟩)⟩, .none, _, by simp only [step]; rw [e]; rfl, ?_, I.newList h1 W fr ?_⟩
    · show (if _ then _ else _); rw [if_neg hc1]; exact ⟨rfl, rfl⟩
    · intro q hq
      refine f2 q ?_
      rcases List.mem_cons.1 hq with rfl | hq
      · simp
      · obtain ⟨a, ha, rfl⟩ := List.mem_map.1 hq
        exact List.mem_append_left _ (List.of_mem_zip ha).1

theorem step_newMove (n m : Nat) (x : Option Nat) (h : pre s (.newMove n m x)) : StepOk maxsz g s (.newMove n m x) := by
  obtain ⟨h1, ⟨e2, h2⟩, h3⟩ := h
  obtain ⟨d, hd, hr⟩ := I.some_ m e2 h2
  cases x with
  | none => exact ⟨g, _, s, rfl, ⟨rfl, rfl⟩, I⟩
  | some x =>
    have ab := I.fresh1 h3 x rfl
    obtain ⟨h', e, W, fr⟩ := newHead_ok ab.1 ab.2
    refine ⟨⟨h', upd (upd g.w n (some d)) m (some ⟨x, 0⟩)⟩, .none, _, by simp only [step]; rw [conOf_ok hd, R.ok_bind, e]; rfl, ⟨rfl, rfl⟩, I.movedTo h1 h2 hr W fr ab⟩

theorem step_destroy (n : Nat) (h : pre s (.destroy n)) : StepOk maxsz g s (.destroy n) := by
  obtain ⟨e, h1⟩ := h
  obtain ⟨c, hc, hr⟩ := I.some_ n e h1
  obtain ⟨h', e1, gn, fr⟩ := destroy_ok hr.wf I.zero
  have ha : c.hd :: ids e.X = adr e := by unfold adr; rw [hr.hd]
  rw [ha] at gn fr
  exact ⟨⟨h', upd g.w n none⟩, .none, _, by simp only [step]; rw [conOf_ok hc, R.ok_bind, e1]; rfl, ⟨rfl, rfl⟩, I.destroyed h1 gn fr⟩

/-- A single insertion. -/
theorem emp_fin {n : Nat} {e : Ent α} {c : Con} {p : Nat} (hn : s n = some e) (hr : Rel g.h c e) (hp : p ∈ adr e) (v : α) {x : Option Nat} (hx : ∀ i, x = some i → fresh s [i]) :
    ∃ h' c' i o, emplace maxsz g.h c p v x = .ok (h', c', i, o) ∧ ∃ s', on s n s' (inserted1 maxsz p v x (outI i o)) ∧ Inv ⟨h', upd g.w n (some c')⟩ s' := by
  have W := hr.wf
  obtain ⟨s1, s2, s3⟩ := pos_split W.nd (List.mem_cons.1 (memAdr hr hp))
  have W' : WF g.h c (bef e.X p ++ fro e.X p) := by rw [← s1]; exact W
  obtain ⟨h', c', i, o, X', e1, O, E⟩ := emplace_ok (maxsz := maxsz) W' v (I.fresh1 hx)
  rw [← s1] at O
  rw [s2] at e1
  refine ⟨h', c', i, o, e1, fin1 I hn hr O ?_⟩
  unfold EmpRes at E; rw [← s1] at E
  unfold inserted1
  split at E
  · rename_i hm; rw [if_pos hm]; obtain ⟨rfl, rfl⟩ := E; exact ⟨rfl, rfl⟩
  · rename_i hm; rw [if_neg hm]
    cases x with
    | none => obtain ⟨rfl, rfl⟩ := E; exact ⟨rfl, rfl⟩
    | some x => obtain ⟨rfl, rfl, rfl⟩ := E; exact ⟨rfl, rfl⟩

theorem step_emplace (n p : Nat) (v : α) (x : Option Nat) (h : pre s (.emplace n p v x)) : StepOk maxsz g s (.emplace n p v x) := by
  obtain ⟨⟨e, h1, hp⟩, hx⟩ := h
  obtain ⟨c, hc, hr⟩ := I.some_ n e h1
  obtain ⟨h', c', i, o, e1, s', a, b⟩ := emp_fin I (maxsz := maxsz) h1 hr hp v hx
  exact ⟨_, _, s', by simp only [step]; rw [conOf_ok hc, R.ok_bind, e1]; rfl, a, b⟩

theorem step_pushFront (n : Nat) (v : α) (x : Option Nat) (h : pre s (.pushFront n v x)) : StepOk maxsz g s (.pushFront n v x) := by
  obtain ⟨⟨e, h1⟩, hx⟩ := h
  obtain ⟨c, hc, hr⟩ := I.some_ n e h1
  have hp : atFirst e.hd e.X ∈ adr e := by
    unfold adr; rw [List.mem_cons]; exact atFirst_mem _
  obtain ⟨h', c', i, o, e1, s', ⟨e0, X', a1, a2, a3⟩, b⟩ := emp_fin I (maxsz := maxsz) h1 hr hp v hx
  refine ⟨⟨h', upd g.w n (some c')⟩, outI i o, s', ?_, ⟨e0, X', a1, ?_, a3⟩, b⟩
  · simp only [step, pushFront]
    rw [conOf_ok hc, R.ok_bind, nd_live (hr.wf.live (Or.inl rfl)), R.ok_bind]
    simp only; rw [hr.wf.first, hr.hd, e1]; rfl
  · rw [h1] at a1; injection a1 with a1; subst a1; exact a2

theorem step_pushBack (n : Nat) (v : α) (x : Option Nat) (h : pre s (.pushBack n v x)) : StepOk maxsz g s (.pushBack n v x) := by
  obtain ⟨⟨e, h1⟩, hx⟩ := h
  obtain ⟨c, hc, hr⟩ := I.some_ n e h1
  have hp : e.hd ∈ adr e := by unfold adr; simp
  obtain ⟨h', c', i, o, e1, s', ⟨e0, X', a1, a2, a3⟩, b⟩ := emp_fin I (maxsz := maxsz) h1 hr hp v hx
  refine ⟨⟨h', upd g.w n (some c')⟩, outI i o, s', ?_, ⟨e0, X', a1, ?_, a3⟩, b⟩
  · simp only [step, pushBack]
    rw [conOf_ok hc, R.ok_bind, hr.hd, e1]; rfl
  · rw [h1] at a1; injection a1 with a1; subst a1; exact a2

theorem step_popFront (n : Nat) (h : pre s (.popFront n)) : StepOk maxsz g s (.popFront n) := by
  obtain ⟨e, h1, hX⟩ := h
  obtain ⟨c, hc, hr⟩ := I.some_ n e h1
  obtain ⟨h', e1, O⟩ := popFront_ok hr.wf hX
  obtain ⟨s', a, b⟩ := fin1 I h1 hr O (f := fun e X' => X' = e.X.tail ∧ (Out.none : Out α) = .none) ⟨rfl, rfl⟩
  exact ⟨_, _, s', by simp only [step]; rw [conOf_ok hc, R.ok_bind, e1]; rfl, a, b⟩

theorem step_popBack (n : Nat) (h : pre s (.popBack n)) : StepOk maxsz g s (.popBack n) := by
  obtain ⟨e, h1, hX⟩ := h
  obtain ⟨c, hc, hr⟩ := I.some_ n e h1
  have hs := List.dropLast_append_getLast hX
  have W : WF g.h c (e.X.dropLast ++ [e.X.getLast hX]) := by rw [hs]; exact hr.wf
  obtain ⟨h', e1, O⟩ := popBack_ok W
  rw [hs] at O
  obtain ⟨s', a, b⟩ := fin1 I h1 hr O (f := fun e X' => X' = e.X.dropLast ∧ (Out.none : Out α) = .none) ⟨rfl, rfl⟩
  exact ⟨_, _, s', by simp only [step]; rw [conOf_ok hc, R.ok_bind, e1]; rfl, a, b⟩

theorem ins_fin {n : Nat} {e : Ent α} {c : Con} {p : Nat} (hn : s n = some e) (hr : Rel g.h c e) (hp : p ∈ adr e) (vs : List α) {xs : List Nat} (hx : fresh s xs) :
    ∃ h' c' i o, insertRange g.h c p vs xs = .ok (h', c', i, o) ∧ ∃ s', on s n s' (inserted p vs xs (outI i o)) ∧ Inv ⟨h', upd g.w n (some c')⟩ s' := by
  have W := hr.wf
  obtain ⟨s1, s2, s3⟩ := pos_split W.nd (List.mem_cons.1 (memAdr hr hp))
  have W' : WF g.h c (bef e.X p ++ fro e.X p) := by rw [← s1]; exact W
  obtain ⟨f1, f2⟩ := I.fresh hx
  obtain ⟨h', c', i, o, X', e1, O, E⟩ := insertRange_ok W' vs f1 f2
  rw [← s1] at O
  rw [s2] at e1
  refine ⟨h', c', i, o, e1, fin1 I hn hr O ?_⟩
  unfold InsRes at E; rw [← s1, s2] at E
  unfold inserted
  split at E
  · rename_i hm; rw [if_pos hm]; obtain ⟨rfl, rfl⟩ := E; exact ⟨rfl, rfl⟩
  · rename_i hm; rw [if_neg hm]; obtain ⟨rfl, rfl, rfl⟩ := E; exact ⟨rfl, rfl⟩

theorem step_insertRange (n p : Nat) (vs : List α) (xs : List Nat) (h : pre s (.insertRange n p vs xs)) : StepOk maxsz g s (.insertRange n p vs xs) := by
  obtain ⟨⟨e, h1, hp⟩, hx⟩ := h
  obtain ⟨c, hc, hr⟩ := I.some_ n e h1
  obtain ⟨h', c', i, o, e1, s', a, b⟩ := ins_fin I h1 hr hp vs hx
  exact ⟨_, _, s', by simp only [step]; rw [conOf_ok hc, R.ok_bind, e1]; rfl, a, b⟩

theorem step_insertN (n p count : Nat) (v : α) (xs : List Nat) (h : pre s (.insertN n p count v xs)) : StepOk maxsz g s (.insertN n p count v xs) := by
  obtain ⟨⟨e, h1, hp⟩, hx⟩ := h
  obtain ⟨c, hc, hr⟩ := I.some_ n e h1
  obtain ⟨h', c', i, o, e1, s', a, b⟩ := ins_fin I h1 hr hp (List.replicate count v) hx
  exact ⟨_, _, s', by simp only [step]; rw [conOf_ok hc, R.ok_bind, insertN_eq, e1]; rfl, a, b⟩

omit I in
theorem fro_at {hd p : Nat} {X : List (Nat × α)} (hnd : (hd :: ids X).Nodup) (hp : p ∈ ids X) : ∃ a T, fro X p = a :: T ∧ a.1 = p := by
  obtain ⟨_, s2, _⟩ := pos_split hnd (Or.inr hp)
  cases hf : fro X p with
  | nil =>
    rw [hf] at s2; simp only [atFirst] at s2; subst s2
    exact absurd hp (List.nodup_cons.1 hnd).1
  | cons a T => rw [hf] at s2; exact ⟨a, T, rfl, s2⟩

theorem step_eraseAt (n p : Nat) (h : pre s (.eraseAt n p)) : StepOk maxsz g s (.eraseAt n p) := by
  obtain ⟨e, h1, hp⟩ := h
  obtain ⟨c, hc, hr⟩ := I.some_ n e h1
  have W := hr.wf
  obtain ⟨s1, _, _⟩ := pos_split W.nd (Or.inr hp)
  obtain ⟨a, T, hf, ha⟩ := fro_at W.nd hp
  have hX : bef e.X p ++ [a] ++ T = e.X := by rw [List.append_assoc, List.singleton_append, ← hf, ← s1]
  have W' : WF g.h c (bef e.X p ++ [a] ++ T) := by rw [hX]; exact W
  obtain ⟨h', e1, O⟩ := eraseAt_ok W'
  rw [hX] at O; rw [ha] at e1
  have hout : (Out.it (atFirst c.hd T) : Out α) = .it (atFirst e.hd (fro e.X p).tail) := by rw [hf, hr.hd]; rfl
  obtain ⟨s', a, b⟩ := fin1 I h1 hr O (f := fun e X' => X' = bef e.X p ++ (fro e.X p).tail ∧ (Out.it (atFirst c.hd T) : Out α) = .it (atFirst e.hd (fro e.X p).tail))
    ⟨by rw [hf]; rfl, hout⟩
  exact ⟨_, _, s', by simp only [step]; rw [conOf_ok hc, R.ok_bind, e1]; rfl, a, b⟩

theorem step_eraseRange (n p q : Nat) (h : pre s (.eraseRange n p q)) : StepOk maxsz g s (.eraseRange n p q) := by
  obtain ⟨e, h1, hp, hq⟩ := h
  obtain ⟨c, hc, hr⟩ := I.some_ n e h1
  have W := hr.wf
  rw [← hr.hd] at hq
  obtain ⟨s1, s2, s3⟩ := range_split W.nd (memAdr hr hp) hq
  have W' : WF g.h c (bef e.X p ++ range e.X p q ++ fro (fro e.X p) q) := by rw [← s1]; exact W
  obtain ⟨h', e1, O⟩ := uncheckedEraseRange_ok W'
  rw [← s1] at O; rw [s2, s3] at e1
  obtain ⟨s', a, b⟩ := fin1 I h1 hr O (f := fun e X' => X' = without e.X p q ∧ (Out.it q : Out α) = .it q) ⟨rfl, rfl⟩
  exact ⟨_, _, s', by simp only [step]; rw [conOf_ok hc, R.ok_bind, e1]; rfl, a, b⟩

theorem step_clear (n : Nat) (h : pre s (.clear n)) : StepOk maxsz g s (.clear n) := by
  obtain ⟨e, h1⟩ := h
  obtain ⟨c, hc, hr⟩ := I.some_ n e h1
  obtain ⟨h', e1, O⟩ := clear_ok hr.wf I.zero
  obtain ⟨s', a, b⟩ := fin1 I h1 hr O (f := fun _ X' => X' = [] ∧ (Out.none : Out α) = .none) ⟨rfl, rfl⟩
  exact ⟨_, _, s', by simp only [step]; rw [conOf_ok hc, R.ok_bind, e1]; rfl, a, b⟩

theorem step_resize (n count : Nat) (v : α) (xs : List Nat) (h : pre s (.resize n count v xs)) : StepOk maxsz g s (.resize n count v xs) := by
  obtain ⟨⟨e, h1⟩, hx⟩ := h
  obtain ⟨c, hc, hr⟩ := I.some_ n e h1
  obtain ⟨f1, f2⟩ := I.fresh hx
  obtain ⟨h', c', o, X', e1, O, E⟩ := resize_ok hr.wf count v f1 f2
  obtain ⟨s', a, b⟩ := fin1 I h1 hr O (f := fun e X' => if xs.length < count - e.X.length then X' = e.X ∧ outX (α := α) o = .exc .badAlloc
      else X' = e.X.take count ++ xs.zip (List.replicate (count - e.X.length) v) ∧ outX (α := α) o = .none) (by
    unfold ResRes at E
    split at E
    · rename_i hm; rw [if_pos hm]; obtain ⟨rfl, rfl⟩ := E; exact ⟨rfl, rfl⟩
    · rename_i hm; rw [if_neg hm]; obtain ⟨rfl, rfl⟩ := E; exact ⟨rfl, rfl⟩)
  exact ⟨_, _, s', by simp only [step]; rw [conOf_ok hc, R.ok_bind, e1]; rfl, a, b⟩

omit I in
theorem asg_fin {X' : List (Nat × α)} {e : Ent α} {vs : List α} {xs : List Nat} {o : Option Exc} (E : AsgRes [] e.X vs xs X' o) : assigned vs xs (outX o) e X' := by
  unfold AsgRes at E
  unfold assigned
  split at E
  · rename_i hm; rw [if_pos hm]; obtain ⟨rfl, rfl⟩ := E; exact ⟨rfl, rfl⟩
  · rename_i hm; rw [if_neg hm]; obtain ⟨rfl, rfl⟩ := E; exact ⟨rfl, rfl⟩

theorem step_assignRange (n : Nat) (vs : List α) (xs : List Nat) (h : pre s (.assignRange n vs xs)) : StepOk maxsz g s (.assignRange n vs xs) := by
  obtain ⟨⟨e, h1⟩, hx⟩ := h
  obtain ⟨c, hc, hr⟩ := I.some_ n e h1
  obtain ⟨f1, f2⟩ := I.fresh hx
  obtain ⟨h', c', o, X', e1, O, E⟩ := assignRange_ok hr.wf vs f1 f2
  obtain ⟨s', a, b⟩ := fin1 I h1 hr O (f := assigned vs xs (outX o)) (asg_fin E)
  exact ⟨_, _, s', by simp only [step]; rw [conOf_ok hc, R.ok_bind, e1]; rfl, a, b⟩

theorem step_assignN (n count : Nat) (v : α) (xs : List Nat) (h : pre s (.assignN n count v xs)) : StepOk maxsz g s (.assignN n count v xs) := by
  obtain ⟨⟨e, h1⟩, hx⟩ := h
  obtain ⟨c, hc, hr⟩ := I.some_ n e h1
  obtain ⟨f1, f2⟩ := I.fresh hx
  obtain ⟨h', c', o, X', e1, O, E⟩ := assignN_ok hr.wf count v f1 f2
  obtain ⟨s', a, b⟩ := fin1 I h1 hr O (f := assigned (List.replicate count v) xs (outX o)) (asg_fin E)
  exact ⟨_, _, s', by simp only [step]; rw [conOf_ok hc, R.ok_bind, e1]; rfl, a, b⟩

theorem step_swap (n m : Nat) (h : pre s (.swap n m)) : StepOk maxsz g s (.swap n m) := by
  obtain ⟨⟨e, h1⟩, e2, h2⟩ := h
  obtain ⟨c, hc, hr⟩ := I.some_ n e h1
  obtain ⟨d, hd, hr2⟩ := I.some_ m e2 h2
  by_cases hnm : n = m
  · subst hnm
    refine ⟨g, .none, s, by simp only [step]; rw [conOf_ok hc, R.ok_bind, R.ok_bind, if_pos trivial], ⟨?_, rfl⟩, I⟩
    funext q; by_cases hq : q = n <;> simp [hq]
  · refine ⟨_, .none, _, by simp only [step]; rw [conOf_ok hc, R.ok_bind, conOf_ok hd, R.ok_bind, if_neg hnm], ⟨?_, rfl⟩, I.swapped hnm h1 h2 hc hd hr hr2⟩
    funext q; unfold upd
    by_cases hq : q = n
    · subst hq; simp [hnm, h2]
    · by_cases hq2 : q = m
      · subst hq2; simp [hq, h1]
      · simp [hq, hq2]

theorem step_moveAssign (n m : Nat) (h : pre s (.moveAssign n m)) : StepOk maxsz g s (.moveAssign n m) := by
  obtain ⟨⟨e, h1⟩, e2, h2⟩ := h
  obtain ⟨c, hc, hr⟩ := I.some_ n e h1
  obtain ⟨d, hd, hr2⟩ := I.some_ m e2 h2
  by_cases hnm : n = m
  · subst hnm
    refine ⟨g, .none, s, by simp only [step]; rw [conOf_ok hc, R.ok_bind, R.ok_bind, if_pos trivial], ⟨by rw [if_pos rfl], rfl⟩, I⟩
  · obtain ⟨h', e1, O⟩ := clear_ok hr.wf I.zero
    have J := I.one h1 hr O
    have hmn : m ≠ n := fun h => hnm h.symm
    have k2 : upd s n (some ⟨e.hd, []⟩) m = some e2 := by rw [upd_ne hmn, h2]
    have w2 : upd g.w n (some ⟨c.hd, 0⟩) m = some d := by rw [upd_ne hmn, hd]
    obtain ⟨d', hd', hr2'⟩ := J.some_ m e2 k2
    simp only at hd' hr2'
    rw [w2] at hd'; injection hd' with hd'; subst hd'
    have K := J.swapped hnm upd_self k2 upd_self w2 ⟨hr.hd, O.wf⟩ hr2'
    have ee : ∀ {β : Type} (f : Nat → Option β) (a b b' : Option β), upd (upd (upd f n a) n b) m b' = upd (upd f n b) m b' := by
      intro β f a b b'; funext q; unfold upd; by_cases h1 : q = m <;> by_cases h2 : q = n <;> simp [h1, h2]
    simp only [ee] at K
    refine ⟨_, .none, _, by simp only [step]; rw [conOf_ok hc, R.ok_bind, conOf_ok hd, R.ok_bind, if_neg hnm, e1, R.ok_bind], ⟨?_, rfl⟩, K⟩
    rw [if_neg hnm]; exact ⟨e, e2, h1, h2, rfl⟩

omit I in
theorem spl_fin {p : Nat} {M Y0 X' Y' : List (Nat × α)} {e e2 : Ent α} {o : Option Exc} (E : SplRes maxsz p e.X e2.X M Y0 X' Y' o) : moved maxsz p M Y0 (outX o) e e2 X' Y' := by
  unfold SplRes at E
  unfold moved
  split at E
  · rename_i hm; rw [if_pos hm]; obtain ⟨rfl, rfl, rfl⟩ := E; exact ⟨rfl, rfl, rfl⟩
  · rename_i hm; rw [if_neg hm]; obtain ⟨rfl, rfl, rfl⟩ := E; exact ⟨rfl, rfl, rfl⟩

theorem step_spliceAll (n p m : Nat) (h : pre s (.spliceAll n p m)) : StepOk maxsz g s (.spliceAll n p m) := by
  obtain ⟨hnm, ⟨e, h1, hp⟩, e2, h2⟩ := h
  obtain ⟨c, hc, hr⟩ := I.some_ n e h1
  obtain ⟨d, hd, hr2⟩ := I.some_ m e2 h2
  obtain ⟨h', c', d', o, X', Y', e1, T, E⟩ := spliceAll_ok (maxsz := maxsz) hr.wf (memAdr hr hp) hr2.wf (I.apart hnm h1 h2 hr hr2)
  obtain ⟨s', a, b⟩ := fin2 I hnm h1 h2 hr hr2 T (f := fun e e' => moved maxsz p e'.X [] (outX o) e e') (spl_fin E)
  exact ⟨_, _, s', by simp only [step]; rw [conOf_ok hc, R.ok_bind, conOf_ok hd, R.ok_bind, e1]; rfl, a, b⟩

theorem step_spliceOne (n p m i : Nat) (h : pre s (.spliceOne n p m i)) : StepOk maxsz g s (.spliceOne n p m i) := by
  obtain ⟨⟨e, h1, hp⟩, e2, h2, hi⟩ := h
  obtain ⟨c, hc, hr⟩ := I.some_ n e h1
  by_cases hnm : n = m
  · subst hnm
    rw [h1] at h2; injection h2 with h2; subst h2
    obtain ⟨h', e1, O⟩ := spliceOneSelf_ok hr.wf (memAdr hr hp) hi
    obtain ⟨s', a, b⟩ := fin1' I h1 hc hr O (f := fun e X' => (X' = if p = i then e.X else putAt (bef e.X i ++ (fro e.X i).tail) p ((fro e.X i).take 1)) ∧ (Out.none : Out α) = .none) ⟨rfl, rfl⟩
    refine ⟨_, .none, s', by simp only [step]; rw [conOf_ok hc, R.ok_bind, R.ok_bind, if_pos trivial, e1]; rfl, ?_, b⟩
    show (if n = n then _ else _); rw [if_pos rfl]; exact a
  · obtain ⟨d, hd, hr2⟩ := I.some_ m e2 h2
    obtain ⟨h', c', d', o, X', Y', e1, T, E⟩ := spliceOne_ok (maxsz := maxsz) hr.wf (memAdr hr hp) hr2.wf (I.apart hnm h1 h2 hr hr2) hi
    obtain ⟨s', a, b⟩ := fin2 I hnm h1 h2 hr hr2 T (f := fun e e' => moved maxsz p ((fro e'.X i).take 1) (bef e'.X i ++ (fro e'.X i).tail) (outX o) e e') (spl_fin E)
    refine ⟨_, _, s', by simp only [step]; rw [conOf_ok hc, R.ok_bind, conOf_ok hd, R.ok_bind, if_neg hnm, e1]; rfl, ?_, b⟩
    show (if n = m then _ else _); rw [if_neg hnm]; exact a

theorem step_spliceRange (n p m i j : Nat) (h : pre s (.spliceRange n p m i j)) : StepOk maxsz g s (.spliceRange n p m i j) := by
  obtain ⟨⟨e, h1, hp⟩, e2, h2, hi, hj, hpm⟩ := h
  obtain ⟨c, hc, hr⟩ := I.some_ n e h1
  by_cases hnm : n = m
  · subst hnm
    rw [h1] at h2; injection h2 with h2; subst h2
    rw [← hr.hd] at hj
    obtain ⟨h', e1, O⟩ := spliceRangeSelf_ok hr.wf (memAdr hr hp) (memAdr hr hi) hj (hpm rfl)
    obtain ⟨s', a, b⟩ := fin1' I h1 hc hr O (f := fun e X' => X' = putAt (without e.X i j) p (range e.X i j) ∧ (Out.none : Out α) = .none) ⟨rfl, rfl⟩
    refine ⟨_, .none, s', by simp only [step]; rw [conOf_ok hc, R.ok_bind, R.ok_bind, if_pos trivial, e1]; rfl, ?_, b⟩
    show (if n = n then _ else _); rw [if_pos rfl]; exact a
  · obtain ⟨d, hd, hr2⟩ := I.some_ m e2 h2
    rw [← hr2.hd] at hj
    obtain ⟨h', c', d', o, X', Y', e1, T, E⟩ := spliceRange_ok (maxsz := maxsz) hr.wf (memAdr hr hp) hr2.wf (I.apart hnm h1 h2 hr hr2) (memAdr hr2 hi) hj
    obtain ⟨s', a, b⟩ := fin2 I hnm h1 h2 hr hr2 T (f := fun e e' => moved maxsz p (range e'.X i j) (without e'.X i j) (outX o) e e') (spl_fin E)
    refine ⟨_, _, s', by simp only [step]; rw [conOf_ok hc, R.ok_bind, conOf_ok hd, R.ok_bind, if_neg hnm, e1]; rfl, ?_, b⟩
    show (if n = m then _ else _); rw [if_neg hnm]; exact a

theorem Inv.nz : ¬ DL.live g.h 0 := fun h => h I.zero

theorem step_removeIf (n : Nat) (pred : α → Bool) (k : Nat) (h : pre s (.removeIf n pred k)) : StepOk maxsz g s (.removeIf n pred k) := by
  obtain ⟨e, h1⟩ := h
  obtain ⟨c, hc, hr⟩ := I.some_ n e h1
  obtain ⟨h', c', e1, O⟩ := removeIf_ok (pred := fun _ a => .ok (pred a)) (pr := pred) (k := k) (fun _ _ _ => rfl) I.nz hr.wf
  obtain ⟨s', a, b⟩ := fin1 I h1 hr O (f := fun e X' => X' = (e.X.take k).filter (fun a => !pred a.2) ++ e.X.drop k ∧
      (if k < e.X.length then (Out.exc .user : Out α) else .num (e.X.countP (fun a => pred a.2))) = if k < e.X.length then .exc .user else .num (e.X.countP (fun a => pred a.2))) ⟨rfl, rfl⟩
  obtain ⟨e0, X0, a1, ⟨a2, _⟩, a4⟩ := a
  refine ⟨_, _, s', by simp only [step]; rw [conOf_ok hc, R.ok_bind, e1]; rfl, ⟨e0, X0, a1, ⟨a2, ?_⟩, a4⟩, b⟩
  rw [h1] at a1; injection a1 with a1; subst a1
  by_cases hk : k < e.X.length
  · simp only [if_pos hk]; rfl
  · simp only [if_neg hk]; rw [List.take_of_length_le (by omega)]; rfl

theorem step_removeEq (n : Nat) (eq : α → α → Bool) (m p : Nat) (h : pre s (.removeEq n eq m p)) : StepOk maxsz g s (.removeEq n eq m p) := by
  obtain ⟨⟨e, h1⟩, e2, h2, hp⟩ := h
  obtain ⟨c, hc, hr⟩ := I.some_ n e h1
  obtain ⟨d, hd, hr2⟩ := I.some_ m e2 h2
  obtain ⟨⟨p', v⟩, hv, hpp⟩ := List.mem_map.1 hp
  simp only at hpp; subst hpp
  obtain ⟨h', c', e1, O⟩ := removeIf_ok (pred := fun h a => do let v ← valAt h p'; .ok (eq a v)) (pr := fun a => eq a v) (k := c.size + 1) (by
    intro h' V u
    rw [valAt_ok ((V.live _).2 (hr2.wf.live (Or.inr hp))) ((V.vl _).trans (hr2.wf.val _ hv))]; rfl) I.nz hr.wf
  have hsz := hr.wf.size
  rw [List.take_of_length_le (by omega), List.drop_of_length_le (by omega), List.append_nil] at O
  rw [List.take_of_length_le (by omega), if_neg (by omega)] at e1
  obtain ⟨s', ⟨e0, X0, a1, ⟨a2, _⟩, a4⟩, b⟩ := fin1 I h1 hr O (f := fun e X' => X' = e.X.filter (fun b => !eq b.2 v) ∧ True) ⟨rfl, trivial⟩
  have h1' := h1
  rw [a1] at h1'; injection h1' with h1'; subst h1'
  exact ⟨_, _, s', by simp only [step]; rw [conOf_ok hc, R.ok_bind, e1]; rfl, ⟨e2, v, h2, hv, e0, X0, a1, ⟨a2, rfl⟩, a4⟩, b⟩

theorem step_unique (n : Nat) (eq : α → α → Bool) (k : Nat) (h : pre s (.unique n eq k)) : StepOk maxsz g s (.unique n eq k) := by
  obtain ⟨e, h1⟩ := h
  obtain ⟨c, hc, hr⟩ := I.some_ n e h1
  obtain ⟨h', c', e1, O⟩ := unique_ok (eq := eq) (k := k) I.nz hr.wf
  obtain ⟨s', ⟨e0, X0, a1, ⟨a2, _⟩, a4⟩, b⟩ := fin1 I h1 hr O (f := fun e X' => X' = uniqL eq k e.X ∧ True) ⟨rfl, trivial⟩
  have h1' := h1
  rw [a1] at h1'; injection h1' with h1'; subst h1'
  refine ⟨_, _, s', by simp only [step]; rw [conOf_ok hc, R.ok_bind, e1]; rfl, ⟨e0, X0, a1, ⟨?_, ?_⟩, a4⟩, b⟩
  · rw [a2]; cases e0.X <;> rfl
  · rw [a2]; by_cases hk : k < e0.X.length - 1
    · simp only [if_pos hk]; rfl
    · simp only [if_neg hk]; rfl

theorem step_merge (n m : Nat) (lt : α → α → Bool) (k : Nat) (h : pre s (.merge n m lt k)) : StepOk maxsz g s (.merge n m lt k) := by
  obtain ⟨hlt, e, e2, h1, h2, sX, sY⟩ := h
  obtain ⟨c, hc, hr⟩ := I.some_ n e h1
  obtain ⟨d, hd, hr2⟩ := I.some_ m e2 h2
  by_cases hnm : n = m
  · subst hnm
    refine ⟨g, .none, s, by simp only [step]; rw [conOf_ok hc, R.ok_bind, R.ok_bind, if_pos trivial], ?_, I⟩
    show (if n = n then _ else _); rw [if_pos rfl]; exact ⟨rfl, rfl⟩
  · obtain ⟨h', c', d', o, X', Y', e1, T, E⟩ := merge_ok (maxsz := maxsz) (k := k) hlt hr.wf hr2.wf (I.apart hnm h1 h2 hr hr2) sX sY
    obtain ⟨s', a, b⟩ := fin2 I hnm h1 h2 hr hr2 T (f := fun e e' X Y =>
      if maxsz - e.X.length < e'.X.length then X = e.X ∧ Y = e'.X ∧ outX (α := α) o = .exc .lengthError
      else Y = [] ∧ (outX (α := α) o = .none ∧ StablySorted lt (e.X ++ e'.X) X ∨ k < e.X.length + e'.X.length - 1 ∧ outX (α := α) o = .exc .user ∧ X.Perm (e.X ++ e'.X))) (by
      unfold MrgRes3 at E
      split at E
      · rename_i hm; rw [if_pos hm]; obtain ⟨rfl, rfl, rfl⟩ := E; exact ⟨rfl, rfl, rfl⟩
      · rename_i hm; rw [if_neg hm]
        refine ⟨E.1, ?_⟩
        rcases E.2 with ⟨rfl, q⟩ | ⟨q1, rfl, q2⟩
        · exact Or.inl ⟨rfl, q⟩
        · exact Or.inr ⟨q1, rfl, q2⟩)
    refine ⟨_, _, s', by simp only [step]; rw [conOf_ok hc, R.ok_bind, conOf_ok hd, R.ok_bind, if_neg hnm, e1]; rfl, ?_, b⟩
    show (if n = m then _ else _); rw [if_neg hnm]; exact a

theorem step_sort (n : Nat) (lt : α → α → Bool) (k : Nat) (h : pre s (.sort n lt k)) : StepOk maxsz g s (.sort n lt k) := by
  obtain ⟨hlt, e, h1⟩ := h
  obtain ⟨c, hc, hr⟩ := I.some_ n e h1
  obtain ⟨h', o, Y, e1, O, E⟩ := sort_ok hlt (k := k) hr.wf
  obtain ⟨s', a, b⟩ := fin1' I h1 hc hr O (f := fun e X' =>
      outX (α := α) o = .none ∧ StablySorted lt e.X X' ∨ k < e.X.length * (Nat.log2 e.X.length + 1) ∧ outX (α := α) o = .exc .user ∧ X'.Perm e.X) (by
    rcases E with ⟨rfl, q⟩ | ⟨q1, rfl, q2⟩
    · exact Or.inl ⟨rfl, q⟩
    · exact Or.inr ⟨q1, rfl, q2⟩)
  exact ⟨_, _, s', by simp only [step]; rw [conOf_ok hc, R.ok_bind, e1]; rfl, a, b⟩

theorem step_reverse (n : Nat) (h : pre s (.reverse n)) : StepOk maxsz g s (.reverse n) := by
  obtain ⟨e, h1⟩ := h
  obtain ⟨c, hc, hr⟩ := I.some_ n e h1
  obtain ⟨h', e1, O⟩ := reverse_ok hr.wf
  obtain ⟨s', a, b⟩ := fin1' I h1 hc hr O (f := fun e X' => X' = e.X.reverse ∧ (Out.none : Out α) = .none) ⟨rfl, rfl⟩
  exact ⟨_, _, s', by simp only [step]; rw [conOf_ok hc, R.ok_bind, e1]; rfl, a, b⟩

theorem step_size (n : Nat) (h : pre s (.size n)) : StepOk maxsz g s (.size n) := by
  obtain ⟨e, h1⟩ := h
  obtain ⟨c, hc, hr⟩ := I.some_ n e h1
  exact ⟨g, .num c.size, s, by simp only [step]; rw [conOf_ok hc, R.ok_bind], ⟨e, h1, rfl, by rw [hr.wf.size]⟩, I⟩

theorem step_begin (n : Nat) (h : pre s (.begin n)) : StepOk maxsz g s (.begin n) := by
  obtain ⟨e, h1⟩ := h
  obtain ⟨c, hc, hr⟩ := I.some_ n e h1
  exact ⟨g, .it (nx g.h c.hd), s, by simp only [step]; rw [conOf_ok hc, R.ok_bind, nd_live (hr.wf.live (Or.inl rfl)), R.ok_bind],
    ⟨e, h1, rfl, by rw [hr.wf.first, hr.hd]⟩, I⟩

theorem step_next (n p : Nat) (h : pre s (.next n p)) : StepOk maxsz g s (.next n p) := by
  obtain ⟨e, h1, hp⟩ := h
  obtain ⟨c, hc, hr⟩ := I.some_ n e h1
  have W := hr.wf
  obtain ⟨s1, _, _⟩ := pos_split W.nd (Or.inr hp)
  obtain ⟨a, T, hf, ha⟩ := fro_at W.nd hp
  have W' : WF g.h c (bef e.X p ++ a :: T) := by rw [← hf, ← s1]; exact W
  refine ⟨g, .it (nx g.h p), s, by simp only [step, next]; rw [conOf_ok hc, R.ok_bind, nd_live (W.live (Or.inr hp)), R.ok_bind, R.ok_bind], ⟨e, h1, rfl, ?_⟩, I⟩
  rw [← ha, W'.next, ha, hf, hr.hd]; rfl

theorem step_prev (n p : Nat) (h : pre s (.prev n p)) : StepOk maxsz g s (.prev n p) := by
  obtain ⟨e, h1, hp, _⟩ := h
  obtain ⟨c, hc, hr⟩ := I.some_ n e h1
  have W := hr.wf
  obtain ⟨s1, s2, _⟩ := pos_split W.nd (List.mem_cons.1 (memAdr hr hp))
  have W' : WF g.h c (bef e.X p ++ fro e.X p) := by rw [← s1]; exact W
  refine ⟨g, .it (pv g.h p), s, by simp only [step, prev]; rw [conOf_ok hc, R.ok_bind, nd_live (W.live (List.mem_cons.1 (memAdr hr hp))), R.ok_bind, R.ok_bind], ⟨e, h1, rfl, ?_⟩, I⟩
  have := W'.prev
  rw [s2, hr.hd] at this
  rw [this]; rfl

theorem step_deref (n p : Nat) (h : pre s (.deref n p)) : StepOk maxsz g s (.deref n p) := by
  obtain ⟨e, h1, hp⟩ := h
  obtain ⟨c, hc, hr⟩ := I.some_ n e h1
  obtain ⟨⟨p', v⟩, hv, hpp⟩ := List.mem_map.1 hp
  simp only at hpp; subst hpp
  exact ⟨g, .val v, s, by simp only [step]; rw [conOf_ok hc, R.ok_bind, valAt_ok (hr.wf.live (Or.inr hp)) (hr.wf.val _ hv), R.ok_bind], ⟨e, v, h1, hv, rfl, rfl⟩, I⟩

theorem step_write (n p : Nat) (v : α) (h : pre s (.write n p v)) : StepOk maxsz g s (.write n p v) := by
  obtain ⟨e, h1, hp⟩ := h
  obtain ⟨c, hc, hr⟩ := I.some_ n e h1
  have W := hr.wf
  obtain ⟨s1, _, _⟩ := pos_split W.nd (Or.inr hp)
  obtain ⟨a, T, hf, ha⟩ := fro_at W.nd hp
  rw [hf] at s1
  have W' : WF g.h c (bef e.X p ++ a :: T) := by rw [← s1]; exact W
  obtain ⟨h', e1, O⟩ := setV_ok W' v
  rw [← s1] at O; rw [ha] at e1 O
  have hm : bef e.X p ++ (p, v) :: T = e.X.map (fun a => if a.1 = p then (p, v) else a) := by
    have hnd := (List.nodup_cons.1 W'.nd).2
    conv_rhs => rw [s1]
    rw [List.map_append, List.map_cons, if_pos ha]
    unfold ids at hnd
    rw [List.map_append, List.map_cons, List.nodup_append, List.nodup_cons] at hnd
    obtain ⟨_, ⟨d2, _⟩, d4⟩ := hnd
    congr 1
    · symm; conv_rhs => rw [← List.map_id (bef e.X p)]
      apply List.map_congr_left
      intro b hb
      rw [if_neg]; rfl
      rintro rfl
      exact d4 b.1 (List.mem_map_of_mem hb) a.1 (by simp) ha.symm
    · congr 1
      symm; conv_rhs => rw [← List.map_id T]
      apply List.map_congr_left
      intro b hb
      rw [if_neg]; rfl
      rintro rfl
      exact d2 (ha ▸ List.mem_map_of_mem hb)
  obtain ⟨s', a, b⟩ := fin1' I h1 hc hr O (f := fun e X' => X' = e.X.map (fun a => if a.1 = p then (p, v) else a) ∧ (Out.none : Out α) = .none) ⟨hm, rfl⟩
  exact ⟨_, _, s', by simp only [step]; rw [conOf_ok hc, R.ok_bind, e1]; rfl, a, b⟩

end

theorem step_ok {maxsz : Nat} {g : Pg α} {s : St α} (I : Inv g s) (op : Op α) (h : pre s op) : StepOk maxsz g s op := by
  cases op with
  | new n x => exact step_new I n x h
  | newRange n vs xs x => exact step_newRange I n vs xs x h
  | newMove n m x => exact step_newMove I n m x h
  | destroy n => exact step_destroy I n h
  | emplace n p v x => exact step_emplace I n p v x h
  | pushFront n v x => exact step_pushFront I n v x h
  | pushBack n v x => exact step_pushBack I n v x h
  | popFront n => exact step_popFront I n h
  | popBack n => exact step_popBack I n h
  | insertRange n p vs xs => exact step_insertRange I n p vs xs h
  | insertN n p count v xs => exact step_insertN I n p count v xs h
  | eraseAt n p => exact step_eraseAt I n p h
  | eraseRange n p q => exact step_eraseRange I n p q h
  | clear n => exact step_clear I n h
  | resize n count v xs => exact step_resize I n count v xs h
  | assignRange n vs xs => exact step_assignRange I n vs xs h
  | assignN n count v xs => exact step_assignN I n count v xs h
  | swap n m => exact step_swap I n m h
  | moveAssign n m => exact step_moveAssign I n m h
  | spliceAll n p m => exact step_spliceAll I n p m h
  | spliceOne n p m i => exact step_spliceOne I n p m i h
  | spliceRange n p m i j => exact step_spliceRange I n p m i j h
  | removeIf n pred k => exact step_removeIf I n pred k h
  | removeEq n eq m p => exact step_removeEq I n eq m p h
  | unique n eq k => exact step_unique I n eq k h
  | merge n m lt k => exact step_merge I n m lt k h
  | sort n lt k => exact step_sort I n lt k h
  | reverse n => exact step_reverse I n h
  | size n => exact step_size I n h
  | begin n => exact step_begin I n h
  | next n p => exact step_next I n p h
  | prev n p => exact step_prev I n p h
  | deref n p => exact step_deref I n p h
  | write n p v => exact step_write I n p v h

theorem inv_start : Inv (start : Pg α) (fun _ => none) :=
  ⟨(fun _ _ h => by cases h), (fun _ _ => rfl), (fun _ _ _ _ _ h => by cases h), (fun _ h => absurd rfl h), rfl⟩

theorem run_ok {maxsz : Nat} {c : Client α} : ∀ {g : Pg α} {s : St α}, Inv g s → Legal maxsz s c → ∃ g' tr s', run maxsz g c = .ok (g', tr) ∧ SpecRun maxsz s c tr s' ∧ Inv g' s' := by
  induction c with
  | done => intro g s I _; exact ⟨g, [], s, rfl, .done, I⟩
  | call op k ih =>
    intro g s I L
    obtain ⟨g1, out, s1, e1, S1, I1⟩ := step_ok I op L.1
    obtain ⟨g2, tr, s2, e2, S2, I2⟩ := ih out I1 (L.2 s1 out S1)
    exact ⟨g2, (op, out) :: tr, s2, by simp only [run]; rw [e1, R.ok_bind, e2]; rfl, .call L.1 S1 S2, I2⟩

end STL.DL
