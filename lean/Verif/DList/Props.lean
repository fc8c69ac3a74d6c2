import Verif.DList.Step

/-!
# Property C26: `list` over every history

The specification is `Verif/DList/Spec.lean`: lists of identified elements.
-/

namespace STL.DL
open STL
variable {α : Type}

/-- `for (it = begin(); it != end(); ++it) visit(*it)`, collecting address and value. -/
def walk (h : Hp α) (hd : Nat) : Nat → Nat → R (List (Nat × α))
  | 0, _ => .error .fuel
  | f + 1, p =>
    if p = hd then .ok []
    else do
      let v ← valAt h p
      let q ← next h p
      let r ← walk h hd f q
      .ok ((p, v) :: r)

/-- `for (it = end(); it != begin();) visit(*--it)`. -/
def walkBack (h : Hp α) (b : Nat) : Nat → Nat → R (List (Nat × α))
  | 0, _ => .error .fuel
  | f + 1, p =>
    if p = b then .ok []
    else do
      let q ← prev h p
      let v ← valAt h q
      let r ← walkBack h b f q
      .ok ((q, v) :: r)

theorem walk_spec {h : Hp α} {c : Con} : ∀ {f : Nat} {A B : List (Nat × α)}, WF h c (A ++ B) → B.length < f → walk h c.hd f (atFirst c.hd B) = .ok B
  | 0, _, _, _, hf => by omega
  | f + 1, A, [], W, hf => by simp [walk, atFirst]
  | f + 1, A, b :: B, W, hf => by
    have hm : b.1 ∈ ids (A ++ b :: B) := by simp
    have hne : b.1 ≠ c.hd := by
      intro hh; exact (List.nodup_cons.1 W.nd).1 (hh ▸ hm)
    unfold walk
    rw [show atFirst c.hd (b :: B) = b.1 from rfl, if_neg hne, valAt_ok (W.live (Or.inr hm)) (W.val b (by simp)), R.ok_bind]
    unfold next
    rw [nd_live (W.live (Or.inr hm)), R.ok_bind, R.ok_bind, W.next, walk_spec (A := A ++ [b]) (by simpa using W) (by simp at hf; omega), R.ok_bind]

theorem walkBack_spec {h : Hp α} {c : Con} : ∀ {f : Nat} {A B : List (Nat × α)}, WF h c (A.reverse ++ B) → A.length < f →
    walkBack h (atFirst c.hd (A.reverse ++ B)) f (atFirst c.hd B) = .ok A
  | 0, _, _, _, hf => by omega
  | f + 1, [], B, W, hf => by simp [walkBack]
  | f + 1, a :: A, B, W, hf => by
    have hnd := W.nd
    have hX : (a :: A).reverse ++ B = A.reverse ++ (a :: B) := by simp
    have hm : a.1 ∈ ids ((a :: A).reverse ++ B) := by simp
    have hne : atFirst c.hd B ≠ atFirst c.hd ((a :: A).reverse ++ B) := by
      have hl : atFirst c.hd ((a :: A).reverse ++ B) ∈ ids (a :: A).reverse := by
        rw [atFirst_app (by simp)]; exact atFirst_block (by simp)
      intro hh
      rw [← hh] at hl
      unfold ids at hnd hl
      rw [List.map_append] at hnd
      rcases atFirst_mem (hd := c.hd) B with e' | e'
      · rw [e'] at hl; nds at hnd; grind
      · unfold ids at e'; nds at hnd; grind
    have hp : pv h (atFirst c.hd B) = a.1 := by rw [W.prev]; simp [atLast, atFirst]
    have hl : live h (atFirst c.hd B) := W.link.lb
    unfold walkBack
    rw [if_neg hne]
    unfold prev
    rw [nd_live hl, R.ok_bind, R.ok_bind, hp, valAt_ok (W.live (Or.inr hm)) (W.val a (by simp)), R.ok_bind]
    rw [hX] at W ⊢
    rw [show a.1 = atFirst c.hd (a :: B) from rfl, walkBack_spec (A := A) W (by simp at hf; omega), R.ok_bind]
    rfl

/-- **C26.** Take any history of operations on any number of `list` objects: constructions, moves, insertions of one, `n` or a range of
elements, erasures, `resize`, `assign`, `swap`, all forms of `splice` (also within one list), `remove`, `remove_if`, `unique`, `merge`,
`sort`, `reverse` and iterator movements, issued by a caller that respects the preconditions and may look at the results; the allocator may
fail and predicates may throw at any call. The code never does anything undefined, it returns results that the sequence specification
allows, and afterwards every list has the size and, traversed forwards or backwards, exactly the elements (the same objects at the same
addresses in the same order) of the specified sequence, and exactly the nodes of live lists are allocated. -/
theorem C26_history (maxsz : Nat) (c : Client α) (hc : Legal maxsz (fun _ => none) c) :
    ∃ g tr s, run maxsz start c = .ok (g, tr) ∧ SpecRun maxsz (fun _ => none) c tr s ∧
      (∀ n e, s n = some e → ∃ d b, g.w n = some d ∧ d.hd = e.hd ∧ d.size = e.X.length ∧
        step maxsz g (.begin n) = .ok (g, .it b) ∧
        walk g.h d.hd (d.size + 1) b = .ok e.X ∧ walkBack g.h b (d.size + 1) d.hd = .ok e.X.reverse) ∧
      (∀ n, s n = none → g.w n = none) ∧
      (∀ q, g.h q ≠ none ↔ used s q) := by
  obtain ⟨g, tr, s, e1, S, I⟩ := run_ok inv_start hc
  refine ⟨g, tr, s, e1, S, ?_, I.none_, fun q => ⟨I.leak q, I.live⟩⟩
  intro n e hn
  obtain ⟨d, hd, hR⟩ := I.some_ n e hn
  refine ⟨d, atFirst d.hd e.X, hd, hR.hd, hR.wf.size, ?_, ?_, ?_⟩
  · simp only [step]; rw [conOf_ok hd, R.ok_bind, nd_live (hR.wf.live (Or.inl rfl)), R.ok_bind, hR.wf.first]
  · exact walk_spec (A := []) hR.wf (by rw [hR.wf.size]; omega)
  · have := walkBack_spec (c := d) (h := g.h) (f := d.size + 1) (A := e.X.reverse) (B := []) (by simpa using hR.wf) (by rw [hR.wf.size]; simp)
    simpa [atFirst] using this

/-- **C26, links.** In every reachable state the links of every list are mutually inverse: `p->next->prev == p` and `p->prev->next == p` for the
head and every element. -/
theorem C26_links (maxsz : Nat) (c : Client α) (hc : Legal maxsz (fun _ => none) c) :
    ∃ g tr s, run maxsz start c = .ok (g, tr) ∧ SpecRun maxsz (fun _ => none) c tr s ∧
      ∀ n e, s n = some e → ∀ p ∈ adr e, ∃ q r, next g.h p = .ok q ∧ prev g.h q = .ok p ∧ prev g.h p = .ok r ∧ next g.h r = .ok p := by
  obtain ⟨g, tr, s, e1, S, I⟩ := run_ok inv_start hc
  refine ⟨g, tr, s, e1, S, ?_⟩
  intro n e hn p hp
  obtain ⟨d, hd, hR⟩ := I.some_ n e hn
  have W := hR.wf
  have key : ∀ a b, Link g.h a b → next g.h a = .ok b ∧ prev g.h b = .ok a := by
    intro a b k
    unfold next prev
    rw [nd_live k.la, nd_live k.lb, R.ok_bind, R.ok_bind]
    exact ⟨by simp only; rw [k.n], by simp only; rw [k.p]⟩
  have hp' := List.mem_cons.1 (memAdr hR hp)
  obtain ⟨s1, s2, s3⟩ := pos_split W.nd hp'
  have W1 : WF g.h d (bef e.X p ++ fro e.X p) := by rw [← s1]; exact W
  have k1 := W1.link
  rw [s2] at k1
  have k2 : ∃ q, Link g.h p q := by
    rcases hp' with rfl | hp'
    · exact ⟨_, WF.link (A := []) W⟩
    · obtain ⟨a, T, hf, ha⟩ := fro_at W.nd hp'
      have W2 : WF g.h d ((bef e.X p ++ [a]) ++ T) := by rw [List.append_assoc, List.singleton_append, ← hf, ← s1]; exact W
      have k := W2.link
      rw [atLast_snoc, ha] at k
      exact ⟨_, k⟩
  obtain ⟨q, k2⟩ := k2
  exact ⟨q, _, (key _ _ k2).1, (key _ _ k2).2, (key _ _ k1).2, (key _ _ k1).1⟩

/-! ## Consequences of the specification -/

/-- Everything that is in a list: where and what. -/
def elem (s : St α) (a : Nat × α) : Prop := ∃ n e, s n = some e ∧ a ∈ e.X

/-- Operations that only rearrange. -/
def rearranges : Op α → Prop
  | .swap _ _ | .spliceAll _ _ _ | .spliceOne _ _ _ _ | .spliceRange _ _ _ _ _ | .merge _ _ _ _ | .sort _ _ _ | .reverse _ | .newMove _ _ _ => True
  | _ => False

theorem bf (X : List (Nat × α)) (p : Nat) : bef X p ++ fro X p = X := List.takeWhile_append_dropWhile

theorem mem_bf {X : List (Nat × α)} {p : Nat} {a : Nat × α} : a ∈ X ↔ a ∈ bef X p ∨ a ∈ fro X p := by
  rw [← List.mem_append, bf]

theorem mem_putAt {X M : List (Nat × α)} {p : Nat} {a : Nat × α} : a ∈ putAt X p M ↔ a ∈ X ∨ a ∈ M := by
  unfold putAt; simp only [List.mem_append]; rw [mem_bf (X := X) (p := p)]; tauto

theorem mem_range {X : List (Nat × α)} {p q : Nat} {a : Nat × α} : a ∈ X ↔ a ∈ without X p q ∨ a ∈ range X p q := by
  unfold without range; rw [mem_bf (X := X) (p := p), mem_bf (X := fro X p) (p := q)]; simp only [List.mem_append]; tauto

theorem mem_tail1 {Y : List (Nat × α)} {i : Nat} {a : Nat × α} : a ∈ Y ↔ a ∈ bef Y i ++ (fro Y i).tail ∨ a ∈ (fro Y i).take 1 := by
  rw [mem_bf (X := Y) (p := i), List.mem_append]
  cases fro Y i <;> simp; tauto

theorem elem_on {s s' : St α} {n : Nat} {f : Ent α → List (Nat × α) → Prop} (h : on s n s' f) (hf : ∀ e X', f e X' → ∀ a, a ∈ X' ↔ a ∈ e.X) (a : Nat × α) : elem s' a ↔ elem s a := by
  obtain ⟨e, X', h1, h2, rfl⟩ := h
  have := hf e X' h2 a
  constructor
  · rintro ⟨m, e', hm, ha⟩
    by_cases hmn : m = n
    · subst hmn; rw [upd_self] at hm; injection hm with hm; subst hm; exact ⟨m, e, h1, this.1 ha⟩
    · rw [upd_ne hmn] at hm; exact ⟨m, e', hm, ha⟩
  · rintro ⟨m, e', hm, ha⟩
    by_cases hmn : m = n
    · subst hmn; rw [h1] at hm; injection hm with hm; subst hm; exact ⟨m, _, upd_self, this.2 ha⟩
    · exact ⟨m, e', by rw [upd_ne hmn]; exact hm, ha⟩

theorem elem_on2 {s s' : St α} {n m : Nat} (hnm : n ≠ m) {f : Ent α → Ent α → List (Nat × α) → List (Nat × α) → Prop} (h : on2 s n m s' f)
    (hf : ∀ e e' X Y, f e e' X Y → ∀ a, a ∈ X ∨ a ∈ Y ↔ a ∈ e.X ∨ a ∈ e'.X) (a : Nat × α) : elem s' a ↔ elem s a := by
  obtain ⟨e, e', X, Y, h1, h2, h3, rfl⟩ := h
  have := hf e e' X Y h3 a
  constructor
  · rintro ⟨k, e0, hk, ha⟩
    have hh : a ∈ X ∨ a ∈ Y → elem s a := by
      intro hh; rcases this.1 hh with q | q
      · exact ⟨n, e, h1, q⟩
      · exact ⟨m, e', h2, q⟩
    by_cases hkm : k = m
    · subst hkm; rw [upd_self] at hk; injection hk with hk; subst hk; exact hh (Or.inr ha)
    · rw [upd_ne hkm] at hk
      by_cases hkn : k = n
      · subst hkn; rw [upd_self] at hk; injection hk with hk; subst hk; exact hh (Or.inl ha)
      · rw [upd_ne hkn] at hk; exact ⟨k, e0, hk, ha⟩
  · rintro ⟨k, e0, hk, ha⟩
    have hh : a ∈ e.X ∨ a ∈ e'.X → elem (upd (upd s n (some ⟨e.hd, X⟩)) m (some ⟨e'.hd, Y⟩)) a := by
      intro hh; rcases this.2 hh with q | q
      · exact ⟨n, _, by rw [upd_ne hnm]; exact upd_self, q⟩
      · exact ⟨m, _, upd_self, q⟩
    by_cases hkm : k = m
    · subst hkm; rw [h2] at hk; injection hk with hk; subst hk; exact hh (Or.inr ha)
    · by_cases hkn : k = n
      · subst hkn; rw [h1] at hk; injection hk with hk; subst hk; exact hh (Or.inl ha)
      · exact ⟨k, e0, by rw [upd_ne hkm, upd_ne hkn]; exact hk, ha⟩

theorem moved_mem {maxsz p : Nat} {M Y0 X Y : List (Nat × α)} {out : Out α} {e e' : Ent α} (h : moved maxsz p M Y0 out e e' X Y) (a : Nat × α) (hm : a ∈ e'.X ↔ a ∈ Y0 ∨ a ∈ M) :
    a ∈ X ∨ a ∈ Y ↔ a ∈ e.X ∨ a ∈ e'.X := by
  unfold moved at h
  split at h
  · rw [h.1, h.2.1]
  · rw [h.1, h.2.1, mem_putAt, hm]; tauto

/-- **C26, identity.** `splice` in all forms, `merge`, `sort`, `reverse`, `swap` and move construction create, destroy, copy and change no
element: exactly the same objects (address and value) are in lists before and after, even if the comparator throws. So iterators and
references to them stay valid. -/
theorem C26_identity (maxsz : Nat) (s s' : St α) (op : Op α) (out : Out α) (ho : rearranges op) (hp : pre s op) (h : sem maxsz s op s' out) (a : Nat × α) : elem s' a ↔ elem s a := by
  cases op with
  | swap n m =>
    obtain ⟨rfl, _⟩ := h
    constructor
    · rintro ⟨k, e, hk, ha⟩
      simp only at hk
      split at hk
      · exact ⟨m, e, hk, ha⟩
      · split at hk
        · exact ⟨n, e, hk, ha⟩
        · exact ⟨k, e, hk, ha⟩
    · rintro ⟨k, e, hk, ha⟩
      by_cases h1 : k = n
      · subst h1
        by_cases h2 : m = k
        · subst h2; exact ⟨m, e, by simp [hk], ha⟩
        · exact ⟨m, e, by simp [h2, hk], ha⟩
      · by_cases h2 : k = m
        · subst h2; exact ⟨n, e, by simp [hk], ha⟩
        · exact ⟨k, e, by simp [h1, h2, hk], ha⟩
  | spliceAll n p m => exact elem_on2 hp.1 h (fun e e' X Y hm a => moved_mem hm a (by simp)) a
  | spliceOne n p m i =>
    by_cases hnm : n = m
    · subst hnm
      have h : (if n = n then _ else _) := h
      rw [if_pos rfl] at h
      refine elem_on h ?_ a
      rintro e X' ⟨rfl, _⟩ a
      split
      · rfl
      · rw [mem_putAt, ← mem_tail1]
    · have h : (if n = m then _ else _) := h
      rw [if_neg hnm] at h
      exact elem_on2 hnm h (fun e e' X Y hm a => moved_mem hm a mem_tail1) a
  | spliceRange n p m i j =>
    by_cases hnm : n = m
    · subst hnm
      have h : (if n = n then _ else _) := h
      rw [if_pos rfl] at h
      refine elem_on h ?_ a
      rintro e X' ⟨rfl, _⟩ a
      rw [mem_putAt, ← mem_range]
    · have h : (if n = m then _ else _) := h
      rw [if_neg hnm] at h
      exact elem_on2 hnm h (fun e e' X Y hm a => moved_mem hm a mem_range) a
  | merge n m lt k =>
    by_cases hnm : n = m
    · subst hnm
      have h : (if n = n then _ else _) := h
      rw [if_pos rfl] at h; obtain ⟨rfl, _⟩ := h; rfl
    · have h : (if n = m then _ else _) := h
      rw [if_neg hnm] at h
      refine elem_on2 hnm h ?_ a
      intro e e' X Y hm a
      split at hm
      · rw [hm.1, hm.2.1]
      · obtain ⟨rfl, hm⟩ := hm
        have hP : X.Perm (e.X ++ e'.X) := by
          rcases hm with ⟨_, q, _⟩ | ⟨_, _, q⟩ <;> exact q
        rw [hP.mem_iff]; simp
  | sort n lt k =>
    refine elem_on h ?_ a
    intro e X' hm a
    have hP : X'.Perm e.X := by
      rcases hm with ⟨_, q, _⟩ | ⟨_, _, q⟩ <;> exact q
    exact hP.mem_iff
  | reverse n =>
    refine elem_on h ?_ a
    rintro e X' ⟨rfl, _⟩ a; simp
  | newMove n m x =>
    cases x with
    | none => obtain ⟨rfl, _⟩ := h; rfl
    | some x =>
      obtain ⟨rfl, _⟩ := h
      obtain ⟨hn, ⟨e2, hm⟩, _⟩ := hp
      have hne : n ≠ m := by rintro rfl; rw [hn] at hm; cases hm
      constructor
      · rintro ⟨k, e, hk, ha⟩
        by_cases h1 : k = m
        · subst h1; rw [upd_self] at hk; injection hk with hk; subst hk; cases ha
        · rw [upd_ne h1] at hk
          by_cases h2 : k = n
          · subst h2; rw [upd_self] at hk; exact ⟨m, e, hk, ha⟩
          · rw [upd_ne h2] at hk; exact ⟨k, e, hk, ha⟩
      · rintro ⟨k, e, hk, ha⟩
        by_cases h1 : k = m
        · subst h1; exact ⟨n, e, by rw [upd_ne hne, upd_self]; exact hk, ha⟩
        · by_cases h2 : k = n
          · subst h2; rw [hn] at hk; cases hk
          · exact ⟨k, e, by rw [upd_ne h1, upd_ne h2]; exact hk, ha⟩
  | _ => exact absurd ho (by simp [rearranges])

theorem upd_ent {s : St α} {n : Nat} {e : Ent α} (h : s n = some e) : upd s n (some ⟨e.hd, e.X⟩) = s := upd_same h

/-- **C26, exceptions.** When an operation reports that memory or `max_size` is exhausted, everything is as it was before the call. The only
exception is `assign`, which may have replaced values. -/
theorem C26_strong_guarantee (maxsz : Nat) (s s' : St α) (op : Op α) (out : Out α) (h : sem maxsz s op s' out) (ho : out = .exc .badAlloc ∨ out = .exc .lengthError)
    (ha : ∀ n vs xs, op ≠ .assignRange n vs xs) (hb : ∀ n c v xs, op ≠ .assignN n c v xs) : s' = s := by
  have one : ∀ {n : Nat} {f : Ent α → List (Nat × α) → Prop}, on s n s' f → (∀ e X', f e X' → X' = e.X) → s' = s := by
    rintro n f ⟨e, X', h1, h2, rfl⟩ hf
    rw [hf e X' h2]; exact upd_ent h1
  have two : ∀ {n m : Nat} {f : Ent α → Ent α → List (Nat × α) → List (Nat × α) → Prop}, on2 s n m s' f → (∀ e e' X Y, f e e' X Y → X = e.X ∧ Y = e'.X) → s' = s := by
    rintro n m f ⟨e, e', X, Y, h1, h2, h3, rfl⟩ hf
    rw [(hf e e' X Y h3).1, (hf e e' X Y h3).2, upd_ent h1, upd_ent h2]
  have ins1 : ∀ {p : Nat} {v : α} {x : Option Nat} {e : Ent α} {X' : List (Nat × α)}, inserted1 maxsz p v x out e X' → X' = e.X := by
    intro p v x e X' hi
    unfold inserted1 at hi
    split at hi
    · exact hi.1
    · cases x with
      | none => exact hi.1
      | some x => obtain ⟨_, rfl⟩ := hi; rcases ho with ho | ho <;> cases ho
  have ins : ∀ {p : Nat} {vs : List α} {xs : List Nat} {e : Ent α} {X' : List (Nat × α)}, inserted p vs xs out e X' → X' = e.X := by
    intro p vs xs e X' hi
    unfold inserted at hi
    split at hi
    · exact hi.1
    · obtain ⟨_, rfl⟩ := hi; rcases ho with ho | ho <;> cases ho
  have mvd : ∀ {p : Nat} {M Y0 : List (Nat × α)} {e e' : Ent α} {X Y : List (Nat × α)}, moved maxsz p M Y0 out e e' X Y → X = e.X ∧ Y = e'.X := by
    intro p M Y0 e e' X Y hi
    unfold moved at hi
    split at hi
    · exact ⟨hi.1, hi.2.1⟩
    · obtain ⟨_, _, rfl⟩ := hi; rcases ho with ho | ho <;> cases ho
  have no : ∀ {P : Prop}, out = .none → P := by rintro P rfl; rcases ho with ho | ho <;> cases ho
  cases op with
  | new n x => cases x with
    | none => exact h.1
    | some x => exact no h.2
  | newRange n vs xs x => cases x with
    | none => exact h.1
    | some x =>
      have h : (if _ then _ else _) := h
      split at h
      · exact h.1
      · exact no h.2
  | newMove n m x => cases x with
    | none => exact h.1
    | some x => exact no h.2
  | destroy n => exact no h.2
  | emplace n p v x => exact one h fun e X' hi => ins1 hi
  | pushFront n v x => exact one h fun e X' hi => ins1 hi
  | pushBack n v x => exact one h fun e X' hi => ins1 hi
  | popFront n => exact one h fun e X' hi => no hi.2
  | popBack n => exact one h fun e X' hi => no hi.2
  | insertRange n p vs xs => exact one h fun e X' hi => ins hi
  | insertN n p count v xs => exact one h fun e X' hi => ins hi
  | eraseAt n p => exact one h fun e X' hi => by obtain ⟨_, rfl⟩ := hi; rcases ho with ho | ho <;> cases ho
  | eraseRange n p q => exact one h fun e X' hi => by obtain ⟨_, rfl⟩ := hi; rcases ho with ho | ho <;> cases ho
  | clear n => exact one h fun e X' hi => no hi.2
  | resize n count v xs =>
    refine one h fun e X' hi => ?_
    split at hi
    · exact hi.1
    · exact no hi.2
  | assignRange n vs xs => exact absurd rfl (ha n vs xs)
  | assignN n count v xs => exact absurd rfl (hb n count v xs)
  | swap n m => exact no h.2
  | moveAssign n m => exact no h.2
  | spliceAll n p m => exact two h fun e e' X Y hi => mvd hi
  | spliceOne n p m i =>
    have h : (if n = m then _ else _) := h
    split at h
    · exact one h fun e X' hi => no hi.2
    · exact two h fun e e' X Y hi => mvd hi
  | spliceRange n p m i j =>
    have h : (if n = m then _ else _) := h
    split at h
    · exact one h fun e X' hi => no hi.2
    · exact two h fun e e' X Y hi => mvd hi
  | removeIf n pred k =>
    refine one h fun e X' hi => ?_
    obtain ⟨_, hi⟩ := hi
    split at hi <;> subst hi <;> rcases ho with ho | ho <;> cases ho
  | removeEq n eq m p =>
    obtain ⟨_, _, _, _, h⟩ := h
    exact one h fun e X' hi => by obtain ⟨_, rfl⟩ := hi; rcases ho with ho | ho <;> cases ho
  | unique n eq k =>
    refine one h fun e X' hi => ?_
    obtain ⟨_, hi⟩ := hi
    split at hi <;> subst hi <;> rcases ho with ho | ho <;> cases ho
  | merge n m lt k =>
    have h : (if n = m then _ else _) := h
    split at h
    · exact h.1
    · refine two h fun e e' X Y hi => ?_
      split at hi
      · exact ⟨hi.1, hi.2.1⟩
      · obtain ⟨_, ⟨q, _⟩ | ⟨_, rfl, _⟩⟩ := hi
        · exact no q
        · rcases ho with ho | ho <;> cases ho
  | sort n lt k =>
    refine one h fun e X' hi => ?_
    rcases hi with ⟨q, _⟩ | ⟨_, rfl, _⟩
    · exact no q
    · rcases ho with ho | ho <;> cases ho
  | reverse n => exact one h fun e X' hi => no hi.2
  | size n => obtain ⟨e, _, rfl, _⟩ := h; rfl
  | begin n => obtain ⟨e, _, rfl, _⟩ := h; rfl
  | next n p => obtain ⟨e, _, rfl, _⟩ := h; rfl
  | prev n p => obtain ⟨e, _, rfl, _⟩ := h; rfl
  | deref n p => obtain ⟨e, _, _, _, rfl, _⟩ := h; rfl
  | write n p v => exact one h fun e X' hi => no hi.2

/-- **C26, complexity.** With a comparator that never throws after `n * (log2 n + 1)` calls, `sort` always completes: it makes at most that many
comparisons; `merge` makes at most `size() + other.size() - 1`. -/
theorem C26_sort_completes (maxsz : Nat) (s s' : St α) (n k : Nat) (lt : α → α → Bool) (out : Out α) (e : Ent α) (hn : s n = some e) (hk : e.X.length * (Nat.log2 e.X.length + 1) ≤ k)
    (h : sem maxsz s (.sort n lt k) s' out) : out = .none ∧ ∃ Y, s' = upd s n (some ⟨e.hd, Y⟩) ∧ StablySorted lt e.X Y := by
  obtain ⟨e0, Y, h1, h2, rfl⟩ := h
  rw [hn] at h1; injection h1 with h1; subst h1
  rcases h2 with ⟨q, q'⟩ | ⟨q, _⟩
  · exact ⟨q, Y, rfl, q'⟩
  · omega

/-- The result of a stable sort is unique. -/
theorem C26_stably_sorted_unique (lt : α → α → Bool) (o : SWO lt) (X Y Z : List (Nat × α)) (h1 : StablySorted lt X Y) (h2 : StablySorted lt X Z) : Y = Z := by
  obtain ⟨p1, s1, f1⟩ := h1
  obtain ⟨p2, s2, f2⟩ := h2
  have hf : ∀ v, Y.filter (fun a => !lt a.2 v && !lt v a.2) = Z.filter (fun a => !lt a.2 v && !lt v a.2) := fun v => (f1 v).trans (f2 v).symm
  have hP : Y.Perm Z := p1.trans p2.symm
  clear p1 p2 f1 f2 X
  induction Y generalizing Z with
  | nil => exact (List.Perm.nil_eq hP)
  | cons a Y ih =>
    cases Z with
    | nil => exact absurd hP.length_eq (by simp)
    | cons b Z =>
      have hirr : ∀ v, lt v v = false := o.irrefl
      have hab : lt a.2 b.2 = false := by
        have : a ∈ b :: Z := hP.mem_iff.1 (by simp)
        rcases List.mem_cons.1 this with rfl | h
        · exact hirr _
        · exact (List.pairwise_cons.1 s2).1 a h
      have hba : lt b.2 a.2 = false := by
        have : b ∈ a :: Y := hP.mem_iff.2 (by simp)
        rcases List.mem_cons.1 this with rfl | h
        · exact hirr _
        · exact (List.pairwise_cons.1 s1).1 b h
      have h0 := hf a.2
      rw [List.filter_cons_of_pos (by simp [hirr]), List.filter_cons_of_pos (by simp [hab, hba])] at h0
      injection h0 with h0 _
      subst h0
      congr 1
      refine ih Z (List.pairwise_cons.1 s1).2 (List.pairwise_cons.1 s2).2 ?_ ((List.perm_cons a).1 hP)
      intro v
      have := hf v
      rw [List.filter_cons, List.filter_cons] at this
      split at this
      · injection this
      · exact this

/-! ## The theorems are not vacuous: a caller that meets the preconditions -/

/-- `list<int> a{1, 3}, b{2}; a.merge(b); a.sort(greater{}); a.reverse(); a.clear();` -/
def demo : Client Nat :=
  .call (.newRange 1 [1, 3] [101, 102] (some 100)) fun _ => .call (.new 2 (some 200)) fun _ => .call (.pushBack 2 2 (some 201)) fun _ =>
  .call (.merge 1 2 (fun a b => decide (a < b)) 9) fun _ => .call (.sort 1 (fun a b => decide (b < a)) 100) fun _ => .call (.reverse 1) fun _ => .call (.clear 1) fun _ => .done

theorem demo_swo : SWO (fun a b : Nat => decide (a < b)) := ⟨by simp, by simp; omega, by simp; omega⟩
theorem demo_swo' : SWO (fun a b : Nat => decide (b < a)) := ⟨by simp, by simp; omega, by simp; omega⟩

theorem demo_legal : Legal 1000 (fun _ => none) demo := by
  refine ⟨⟨rfl, by simp [fresh, used]⟩, ?_⟩
  rintro s1 _ h1
  simp only [sem, List.length_cons, List.length_nil, lt_irrefl, if_false] at h1
  obtain ⟨rfl, _⟩ := h1
  have hu : ∀ q, used (upd (fun _ => none) 1 (some ⟨100, [(101, 1), (102, 3)]⟩) : St Nat) q → q < 103 := by
    rintro q ⟨n, e, h1, h2⟩
    unfold upd at h1; split at h1
    · injection h1 with h1; subst h1; simp [adr] at h2; omega
    · cases h1
  refine ⟨⟨rfl, ?_⟩, ?_⟩
  · rintro i ⟨rfl⟩
    exact ⟨by simp, by simp only [List.mem_singleton]; rintro x rfl; exact ⟨by omega, fun h => by have := hu _ h; omega⟩⟩
  rintro s2 _ ⟨rfl, _⟩
  refine ⟨⟨⟨_, rfl⟩, ?_⟩, ?_⟩
  · rintro i ⟨rfl⟩
    refine ⟨by simp, ?_⟩
    simp only [List.mem_singleton]; rintro x rfl
    refine ⟨by omega, ?_⟩
    rintro ⟨n, e, h1, h2⟩
    unfold upd at h1; split at h1
    · injection h1 with h1; subst h1; simp [adr] at h2
    · exact absurd (hu 201 ⟨n, e, h1, h2⟩) (by omega)
  rintro s3 _ ⟨e, X', h1, h2, rfl⟩
  injection h1 with h1; subst h1
  simp only [inserted1, List.length_nil] at h2
  rw [if_neg (by simp)] at h2
  obtain ⟨rfl, _⟩ := h2
  refine ⟨⟨demo_swo, _, _, rfl, rfl, by simp [Sorted], by simp [Sorted, putAt, bef, fro]⟩, ?_⟩
  intro s4 _ h
  simp only [sem] at h
  rw [if_neg (by simp)] at h
  obtain ⟨e, e', X, Y, h1, h2, h3, rfl⟩ := h
  refine ⟨⟨demo_swo', _, rfl⟩, ?_⟩
  rintro s5 _ ⟨e, X', h1, h2, rfl⟩
  refine ⟨⟨_, rfl⟩, ?_⟩
  rintro s6 _ ⟨e, X', h1, h2, rfl⟩
  exact ⟨⟨_, rfl⟩, fun _ _ _ => trivial⟩

example : ∃ g tr s, run 1000 start demo = .ok (g, tr) ∧ SpecRun 1000 (fun _ => none) demo tr s := by
  obtain ⟨g, tr, s, h1, h2, _⟩ := C26_history 1000 demo demo_legal
  exact ⟨g, tr, s, h1, h2⟩

end STL.DL
