import Verif.RBTree.Search

/-! # The member functions on one container. Proofs only. -/

namespace STL.RBT
open STL
variable {α κ : Type}

theorem Foc.frame {hd : Nat} {h h' : Hp α} {C : Cx α} {t : T α} (F : Foc hd h C t) (hs : ∀ q, q = hd ∨ q ∈ (inord C t).map Prod.fst → h' q = h q) : Foc hd h' C t := by
  have hs' : ∀ q, q = hd ∨ q ∈ idl C ∨ q ∈ ids t ∨ q ∈ idr C → h' q = h q := by
    intro q hq; apply hs; simpa [inord, idl, idr, ids, or_assoc] using hq
  refine ⟨⟨F.at_.ctx.congr ?_ ?_ ?_, F.at_.sub.congr ?_, F.at_.nodup⟩, F.bal, F.root⟩
  · intro q hq; exact hs' q (by tauto)
  · intro q hq; exact hs' q (by tauto)
  · exact hs' hd (Or.inl rfl)
  · intro q hq; exact hs' q (by tauto)

theorem Place.frame {hd : Nat} {h h' : Hp α} {p : Nat} {b : Bool} {A B : List (Nat × α)} (P : Place hd h p b A B)
    (hs : ∀ q, q = hd ∨ q ∈ (A ++ B).map Prod.fst → h' q = h q) : Place hd h' p b A B := by
  obtain ⟨C, F, e1, e2, e3, e4⟩ := P.ex
  refine ⟨C, F.frame ?_, e1, e2, e3, e4⟩
  rw [show inord C .nil = A ++ B by rw [← e1, ← e2]; simp [inord, items]]; exact hs

theorem Place.insert {hd f : Nat} {h : Hp α} {p : Nat} {b : Bool} {A B : List (Nat × α)} {x : Nat} {v : α} {pp : Nat} (P : Place hd h p b A B)
    (hx : h x = some ⟨hd, pp, hd, true, false, some v⟩) (hx2 : x ≠ hd) (hx3 : x ∉ (A ++ B).map Prod.fst) (hf : hb (A.length + B.length) < f) :
    ∃ h', insertNode hd f h p b x = .ok h' ∧ WF hd h' (A ++ (x, v) :: B) ∧ Same hd (A ++ (x, v) :: B) h h' := by
  obtain ⟨C, F, rfl, rfl, rfl, rfl⟩ := P.ex
  have hI : inord C .nil = itL C ++ itR C := by simp [inord, items]
  have hlen := F.len
  rw [hI, List.length_append] at hlen
  exact insertNode_spec F hx hx2 (by rw [hI]; exact hx3) (by omega)

/-- a new node -/
theorem alloc_ok {h : Hp α} {x : Nat} {n : Node α} (hx : h x = none) : ∃ h', alloc h x n = .ok h' ∧ h' x = some n ∧ ∀ q, q ≠ x → h' q = h q :=
  ⟨put h x n, by simp [alloc, hx], by simp [put], fun q hq => by simp [put, hq]⟩

theorem free_ok {h : Hp α} {x : Nat} {n : Node α} (hx : h x = some n) : ∃ h', free h x = .ok h' ∧ h' x = none ∧ ∀ q, q ≠ x → h' q = h q :=
  ⟨_, by unfold free; rw [nd_some hx]; rfl, by simp, fun q hq => by simp [hq]⟩

theorem WF.fresh {hd : Nat} {h : Hp α} {X : List (Nat × α)} (W : WF hd h X) {x : Nat} (hx : h x = none) : x ≠ hd ∧ x ∉ X.map Prod.fst := by
  constructor
  · rintro rfl; obtain ⟨r, e⟩ := W.head; rw [hx] at e; cases e
  · intro hm; obtain ⟨⟨q, v⟩, h1, rfl⟩ := List.mem_map.1 hm; obtain ⟨n, e, -⟩ := W.mem h1; rw [hx] at e; cases e

/-- a new node put in its place -/
theorem Place.emplace {hd f : Nat} {h : Hp α} {p : Nat} {b : Bool} {A B : List (Nat × α)} {x : Nat} (v : α) (P : Place hd h p b A B) (W : WF hd h (A ++ B))
    (hx : h x = none) (hf : hb (A.length + B.length) < f) :
    ∃ h1 h', alloc h x ⟨hd, hd, hd, true, false, some v⟩ = .ok h1 ∧ insertNode hd f h1 p b x = .ok h' ∧ WF hd h' (A ++ (x, v) :: B) ∧
      Same hd (A ++ (x, v) :: B) h h' ∧ WF hd h1 (A ++ B) := by
  obtain ⟨h1, e1, x1, f1⟩ := alloc_ok (n := ⟨hd, hd, hd, true, false, some v⟩) hx
  obtain ⟨n1, n2⟩ := W.fresh hx
  have hs : ∀ q, q = hd ∨ q ∈ (A ++ B).map Prod.fst → h1 q = h q := by
    intro q hq; apply f1; rintro rfl; tauto
  obtain ⟨h', e2, W2, S2⟩ := (P.frame hs).insert x1 n1 n2 hf
  refine ⟨h1, h', e1, e2, W2, ?_, W.frame hs⟩
  intro q hq hq2; rw [S2 q hq hq2, f1 q]; rintro rfl; simp at hq2

/-! ## unique keys -/

/-- the result of `insert`/`emplace` into a container with unique keys -/
inductive UIns (key : α → κ) (lt : κ → κ → Bool) (hd maxsz : Nat) (X : List (Nat × α)) (x : Option Nat) (v : α) : Nat → Bool → Option Exc → List (Nat × α) → Prop
  | dup {p w} : (p, w) ∈ X → lt (key w) (key v) = false → lt (key v) (key w) = false → UIns key lt hd maxsz X x v p false none X
  | full : maxsz = X.length → (∀ a ∈ X, ¬ (lt (key a.2) (key v) = false ∧ lt (key v) (key a.2) = false)) → UIns key lt hd maxsz X x v hd false (some .lengthError) X
  | nomem : x = none → maxsz ≠ X.length → (∀ a ∈ X, ¬ (lt (key a.2) (key v) = false ∧ lt (key v) (key a.2) = false)) → UIns key lt hd maxsz X x v hd false (some .badAlloc) X
  | ins {i A B} : x = some i → maxsz ≠ X.length → X = A ++ B → Around key lt (key v) A B → UIns key lt hd maxsz X x v i true none (A ++ (i, v) :: B)

theorem around_nodup {key : α → κ} {lt : κ → κ → Bool} {k : κ} {A B : List (Nat × α)} (h : Around key lt k A B) :
    ∀ a ∈ A ++ B, ¬ (lt (key a.2) k = false ∧ lt k (key a.2) = false) := by
  rintro a ha ⟨h1, h2⟩
  rcases List.mem_append.1 ha with ha | ha
  · rw [h.1 a ha] at h1; cases h1
  · rw [h.2 a ha] at h2; cases h2

theorem SrtU.ins {key : α → κ} {lt : κ → κ → Bool} (o : SWO lt) {A B : List (Nat × α)} {x : Nat} {v : α} (h : SrtU key lt (A ++ B)) (hA : Around key lt (key v) A B) :
    SrtU key lt (A ++ (x, v) :: B) := by
  rw [SrtU, List.pairwise_append] at h ⊢
  refine ⟨h.1, List.pairwise_cons.2 ⟨fun b hb => hA.2 b hb, h.2.1⟩, ?_⟩
  intro a ha b hb
  rcases List.mem_cons.1 hb with rfl | hb
  · exact hA.1 a ha
  · exact h.2.2 a ha b hb

theorem Srt.ins {key : α → κ} {lt : κ → κ → Bool} {A B : List (Nat × α)} {x : Nat} {v : α} (h : Srt key lt (A ++ B)) (hA : ∀ a ∈ A, lt (key v) (key a.2) = false)
    (hB : ∀ b ∈ B, lt (key b.2) (key v) = false) : Srt key lt (A ++ (x, v) :: B) := by
  rw [Srt, List.pairwise_append] at h ⊢
  refine ⟨h.1, List.pairwise_cons.2 ⟨fun b hb => hB b hb, h.2.1⟩, ?_⟩
  intro a ha b hb
  rcases List.mem_cons.1 hb with rfl | hb
  · exact hA a ha
  · exact h.2.2 a ha b hb

/-- a container holding `X` -/
structure CWF (h : Hp α) (c : Con) (X : List (Nat × α)) : Prop where
  wf : WF c.hd h X
  size : c.size = X.length

theorem emplaceUnique_spec {key : α → κ} {lt : κ → κ → Bool} (o : SWO lt) {maxsz f : Nat} {h : Hp α} {c : Con} {X : List (Nat × α)} (v : α) (x : Option Nat)
    (W : CWF h c X) (hS : SrtU key lt X) (hx : ∀ i, x = some i → h i = none) (hf : hb X.length < f) :
    ∃ h' c' p b e X', emplaceUnique key lt maxsz f h c v x = .ok (h', c', p, b, e) ∧ UIns key lt c.hd maxsz X x v p b e X' ∧ CWF h' c' X' ∧ c'.hd = c.hd ∧ SrtU key lt X' ∧
      Same c.hd X' h h' := by
  obtain ⟨r, d, e1, e2, hh⟩ := lower_unique o (key v) W.wf hS hf
  unfold emplaceUnique
  rw [e1, R.ok_bind, e2, R.ok_bind]
  rcases hh with ⟨rfl, w, h1, h2, h3⟩ | ⟨rfl, A, B, rfl, hAr, P⟩
  · exact ⟨h, c, r.bound, false, none, X, rfl, .dup h1 h2 h3, W, rfl, hS, Same.refl⟩
  · rw [if_neg (by simp)]
    by_cases hm : maxsz = c.size
    · rw [if_pos hm]
      exact ⟨h, c, c.hd, false, _, _, rfl, .full (hm.trans W.size) (around_nodup hAr), W, rfl, hS, Same.refl⟩
    · rw [if_neg hm]
      cases x with
      | none => exact ⟨h, c, c.hd, false, _, _, rfl, .nomem rfl (by rw [← W.size]; exact hm) (around_nodup hAr), W, rfl, hS, Same.refl⟩
      | some i =>
        obtain ⟨h1, h', a1, a2, W', S', -⟩ := P.emplace (f := f) v W.wf (hx i rfl) (by simpa using hf)
        refine ⟨h', ⟨c.hd, c.size + 1⟩, i, true, none, _, ?_, .ins rfl (by rw [← W.size]; exact hm) rfl hAr, ⟨W', ?_⟩, rfl, hS.ins o hAr, S'⟩
        · simp only; rw [a1, R.ok_bind, a2, R.ok_bind]
        · simp [W.size]; omega

theorem emplaceHintUnique_spec {key : α → κ} {lt : κ → κ → Bool} (o : SWO lt) {maxsz f : Nat} {h : Hp α} {c : Con} {H1 H2 : List (Nat × α)} (v : α) (x : Option Nat)
    (W : CWF h c (H1 ++ H2)) (hS : SrtU key lt (H1 ++ H2)) (hx : ∀ i, x = some i → h i = none) (hf : hb (H1 ++ H2).length < f) :
    ∃ h' c' p b e X', emplaceHintUnique key lt maxsz f h c (firstId c.hd H2) v x = .ok (h', c', p, b, e) ∧ UIns key lt c.hd maxsz (H1 ++ H2) x v p b e X' ∧ CWF h' c' X' ∧ c'.hd = c.hd ∧
      SrtU key lt X' ∧ Same c.hd X' h h' := by
  obtain ⟨r, e1, hh⟩ := findHintUnique_spec o (key v) W.wf hS hf
  unfold emplaceHintUnique
  rw [e1, R.ok_bind]
  rcases hh with ⟨hd0, w, h1, h2, h3⟩ | ⟨hd0, A, B, eX, hAr, P⟩
  · rw [if_pos hd0]; exact ⟨h, c, r.parent, false, none, _, rfl, .dup h1 h2 h3, W, rfl, hS, Same.refl⟩
  · rw [if_neg (by simp [hd0])]
    rw [eX] at W hS hf ⊢
    by_cases hm : maxsz = c.size
    · rw [if_pos hm]
      exact ⟨h, c, c.hd, false, _, _, rfl, .full (hm.trans W.size) (around_nodup hAr), W, rfl, hS, Same.refl⟩
    · rw [if_neg hm]
      cases x with
      | none => exact ⟨h, c, c.hd, false, _, _, rfl, .nomem rfl (by rw [← W.size]; exact hm) (around_nodup hAr), W, rfl, hS, Same.refl⟩
      | some i =>
        obtain ⟨h1, h', a1, a2, W', S', -⟩ := P.emplace (f := f) v W.wf (hx i rfl) (by simpa using hf)
        refine ⟨h', ⟨c.hd, c.size + 1⟩, i, true, none, _, ?_, .ins rfl (by rw [← W.size]; exact hm) rfl hAr, ⟨W', ?_⟩, rfl, hS.ins o hAr, S'⟩
        · simp only; rw [a1, R.ok_bind, a2, R.ok_bind]
        · simp [W.size]; omega

/-! ## equivalent keys allowed -/

/-- the result of `insert`/`emplace` into a `multiset`/`multimap`; `Pos A B`: the allowed positions -/
inductive MIns (Pos : List (Nat × α) → List (Nat × α) → Prop) (hd maxsz : Nat) (X : List (Nat × α)) (x : Option Nat) (v : α) : Nat → Bool → Option Exc → List (Nat × α) → Prop
  | full : maxsz = X.length → MIns Pos hd maxsz X x v hd false (some .lengthError) X
  | nomem : x = none → MIns Pos hd maxsz X x v hd false (some .badAlloc) X
  | ins {i A B} : x = some i → maxsz ≠ X.length → X = A ++ B → Pos A B → MIns Pos hd maxsz X x v i true none (A ++ (i, v) :: B)

theorem alloc_free {h h1 : Hp α} {i : Nat} {n : Node α} (hx : h i = none) (hx1 : h1 i = some n) (f1 : ∀ q, q ≠ i → h1 q = h q) : free h1 i = .ok h := by
  obtain ⟨h2, e, x2, f2⟩ := free_ok hx1
  rw [e]; congr 1; funext q
  by_cases hq : q = i
  · rw [hq, x2, hx]
  · rw [f2 q hq, f1 q hq]

theorem emplaceMulti_spec {key : α → κ} {lt : κ → κ → Bool} (o : SWO lt) {maxsz f : Nat} {h : Hp α} {c : Con} {X : List (Nat × α)} (v : α) (x : Option Nat)
    (W : CWF h c X) (hS : Srt key lt X) (hx : ∀ i, x = some i → h i = none) (hf : hb X.length < f) :
    ∃ h' c' p b e X', emplaceMulti key lt maxsz f h c v x = .ok (h', c', p, b, e) ∧
      MIns (fun A B => (∀ a ∈ A, lt (key v) (key a.2) = false) ∧ (∀ b ∈ B, lt (key v) (key b.2) = true)) c.hd maxsz X x v p b e X' ∧ CWF h' c' X' ∧ c'.hd = c.hd ∧ Srt key lt X' ∧
      Same c.hd X' h h' := by
  unfold emplaceMulti
  cases x with
  | none => exact ⟨h, c, c.hd, false, _, X, rfl, .nomem rfl, W, rfl, hS, Same.refl⟩
  | some i =>
    obtain ⟨h1, e1, x1, f1⟩ := alloc_ok (n := ⟨c.hd, c.hd, c.hd, true, false, some v⟩) (hx i rfl)
    obtain ⟨A, E, B, rfl, hA, hE, hB⟩ := srt_split o (key v) hS
    obtain ⟨n1, n2⟩ := W.wf.fresh (hx i rfl)
    have hs : ∀ q, q = c.hd ∨ q ∈ (A ++ (E ++ B)).map Prod.fst → h1 q = h q := by intro q hq; apply f1; rintro rfl; tauto
    have W1 := W.wf.frame hs
    have hAE : ∀ a ∈ A ++ E, lt (key v) (key a.2) = false := by
      intro a ha; rcases List.mem_append.1 ha with ha | ha
      · exact o.asymm (hA a ha)
      · exact (hE a ha).2
    rw [← List.append_assoc] at W1 hS n2
    have hf' : hb ((A ++ E).length + B.length) < f := by simpa [Nat.add_assoc] using hf
    obtain ⟨r, e2, P, -⟩ := findUpper_spec key lt (key v) W1 hf' hAE hB
    simp only
    rw [e1, R.ok_bind, e2, R.ok_bind]
    by_cases hm : maxsz = c.size
    · rw [if_pos hm, alloc_free (hx i rfl) x1 f1, R.ok_bind]
      exact ⟨h, c, c.hd, false, _, _, rfl, .full (hm.trans W.size), W, rfl, by rw [← List.append_assoc]; exact hS, Same.refl⟩
    · rw [if_neg hm]
      obtain ⟨h', e3, W', S'⟩ := P.insert x1 n1 n2 hf'
      refine ⟨h', ⟨c.hd, c.size + 1⟩, i, true, none, _, by rw [e3, R.ok_bind], .ins rfl (by rw [← W.size]; exact hm) (by simp) ⟨hAE, hB⟩, ⟨W', ?_⟩, rfl,
        hS.ins hAE (fun b hb => o.asymm (hB b hb)), ?_⟩
      · simp [W.size]; omega
      · intro q hq hq2; rw [S' q hq hq2, f1 q]; rintro rfl; simp at hq2

theorem emplaceHintMulti_spec {key : α → κ} {lt : κ → κ → Bool} (o : SWO lt) {maxsz f : Nat} {h : Hp α} {c : Con} {H1 H2 : List (Nat × α)} (v : α) (x : Option Nat)
    (W : CWF h c (H1 ++ H2)) (hS : Srt key lt (H1 ++ H2)) (hx : ∀ i, x = some i → h i = none) (hf : hb (H1 ++ H2).length < f) :
    ∃ h' c' p b e X', emplaceHintMulti key lt maxsz f h c (firstId c.hd H2) v x = .ok (h', c', p, b, e) ∧
      MIns (MPlace key lt (key v) H1 H2) c.hd maxsz (H1 ++ H2) x v p b e X' ∧ CWF h' c' X' ∧ c'.hd = c.hd ∧ Srt key lt X' ∧ Same c.hd X' h h' := by
  unfold emplaceHintMulti
  cases x with
  | none => exact ⟨h, c, c.hd, false, _, _, rfl, .nomem rfl, W, rfl, hS, Same.refl⟩
  | some i =>
    obtain ⟨h1, e1, x1, f1⟩ := alloc_ok (n := ⟨c.hd, c.hd, c.hd, true, false, some v⟩) (hx i rfl)
    obtain ⟨n1, n2⟩ := W.wf.fresh (hx i rfl)
    have hs : ∀ q, q = c.hd ∨ q ∈ (H1 ++ H2).map Prod.fst → h1 q = h q := by intro q hq; apply f1; rintro rfl; tauto
    obtain ⟨r, A, B, e2, hd0, P, hM⟩ := findHintMulti_spec o (key v) (W.wf.frame hs) hS hf
    simp only
    rw [e1, R.ok_bind, e2, R.ok_bind]
    have hX : H1 ++ H2 = A ++ B := hM.1
    by_cases hm : maxsz = c.size
    · rw [if_pos hm, alloc_free (hx i rfl) x1 f1, R.ok_bind]
      exact ⟨h, c, c.hd, false, _, _, rfl, .full (hm.trans W.size), W, rfl, hS, Same.refl⟩
    · rw [if_neg hm]
      obtain ⟨h', e3, W', S'⟩ := P.insert (f := f) x1 n1 (by rw [← hX]; exact n2) (by rw [hX] at hf; simpa using hf)
      refine ⟨h', ⟨c.hd, c.size + 1⟩, i, true, none, _, by rw [e3, R.ok_bind], .ins rfl (by rw [← W.size]; exact hm) hX hM, ⟨W', ?_⟩, rfl, ?_, ?_⟩
      · have := W.size; rw [hX] at this; simp [this]; omega
      · rw [hX] at hS
        rcases hM.2 with ⟨-, a, b⟩ | ⟨-, a, b⟩ | ⟨-, a, b⟩
        · exact hS.ins a b
        · exact hS.ins a (fun x hx => o.asymm (b x hx))
        · exact hS.ins (fun x hx => o.asymm (a x hx)) b
      · intro q hq hq2; rw [S' q hq hq2, f1 q]; rintro rfl; simp at hq2

/-! ## erasing -/

theorem eraseAt_spec {f : Nat} {h : Hp α} {c : Con} {A B : List (Nat × α)} {e : Nat} {v : α} (W : CWF h c (A ++ (e, v) :: B)) (hf : hb (A.length + B.length + 1) + 2 ≤ f) :
    ∃ h' c', eraseAt f h c e = .ok (h', c', firstId c.hd B) ∧ CWF h' c' (A ++ B) ∧ c'.hd = c.hd ∧ h' e = none ∧ Same c.hd (A ++ (e, v) :: B) h h' := by
  obtain ⟨h1, n, e1, W1, n1, -, -, S1⟩ := extract_spec W.wf hf
  obtain ⟨h2, e2, x2, f2⟩ := free_ok n1
  have hnd := W.wf.nodup
  simp only [List.map_append, List.map_cons] at hnd
  nds at hnd
  have he : e ≠ c.hd := by grind
  refine ⟨h2, dec c, ?_, ⟨W1.frame ?_, ?_⟩, rfl, x2, ?_⟩
  · unfold eraseAt; rw [W.wf.next (by omega), R.ok_bind, e1, R.ok_bind, e2, R.ok_bind]
  · intro q hq; apply f2; rintro rfl
    rcases hq with rfl | hq
    · exact he rfl
    · simp only [List.map_append, List.mem_append] at hq; grind
  · have := W.size; simp only [List.length_append, List.length_cons] at this; simp [dec, this]
  · intro q h1 h2'; rw [f2 q, S1 q h1 h2']; rintro rfl; simp at h2'

theorem hb_mono {m n : Nat} (h : m ≤ n) : hb m ≤ hb n := by
  unfold hb
  have : Nat.log2 (m + 1) ≤ Nat.log2 (n + 1) := (Nat.le_log2 (by omega)).2 ((Nat.log2_self_le (by omega)).trans (by omega))
  omega

theorem eraseLoop_spec {g : Nat} : ∀ {f : Nat} {h : Hp α} {c : Con} {A M B : List (Nat × α)}, CWF h c (A ++ (M ++ B)) → hb (A.length + (M.length + B.length)) + 2 ≤ g → M.length < f →
    ∃ h' c', eraseLoop g f h c (firstId c.hd (M ++ B)) (firstId c.hd B) = .ok (h', c') ∧ CWF h' c' (A ++ B) ∧ c'.hd = c.hd ∧ (∀ a ∈ M, h' a.1 = none) ∧ Same c.hd (A ++ (M ++ B)) h h'
  | 0, _, _, _, _, _, _, _, hf => by omega
  | f + 1, h, c, A, [], B, W, hg, hf => ⟨h, c, by simp [eraseLoop], W, rfl, by simp, Same.refl⟩
  | f + 1, h, c, A, (e, v) :: M, B, W, hg, hf => by
    have hne : e ≠ firstId c.hd B := by
      have hnd := W.wf.nodup
      rcases firstId_mem c.hd B with e' | ⟨w, e'⟩
      · rw [e']; simp only [List.map_append, List.cons_append, List.map_cons] at hnd; nds at hnd; grind
      · rintro h0
        have : e ∈ B.map Prod.fst := List.mem_map.2 ⟨_, e', h0.symm⟩
        simp only [List.map_append, List.cons_append, List.map_cons] at hnd; nds at hnd; grind
    have hg' : hb (A.length + (M ++ B).length + 1) + 2 ≤ g := by
      rw [List.length_append]; rw [List.length_cons] at hg; rw [show A.length + (M.length + B.length) + 1 = A.length + (M.length + 1 + B.length) by omega]; exact hg
    obtain ⟨h1, c1, e1, W1, d1, n1, S1⟩ := eraseAt_spec (B := M ++ B) W hg'
    obtain ⟨h2, c2, e2, W2, d2, n2, S2⟩ := eraseLoop_spec (f := f) W1 ((Nat.add_le_add_right (hb_mono (by simp)) 2).trans hg) (by simp at hf; omega)
    refine ⟨h2, c2, ?_, W2, by rw [d2, d1], ?_, ?_⟩
    · unfold eraseLoop
      rw [List.cons_append, show firstId c.hd ((e, v) :: (M ++ B)) = e from rfl, if_pos hne, W.wf.next (B := M ++ B) (by omega), R.ok_bind, e1, R.ok_bind]
      simp only
      rw [d1] at e2; exact e2
    · have hnd := W.wf.nodup
      intro a ha
      rcases List.mem_cons.1 ha with rfl | ha
      · rw [S2 e ?_ ?_, n1]
        · rw [d1]; simp only [List.map_append, List.cons_append, List.map_cons] at hnd; nds at hnd; grind
        · simp only [List.map_append, List.cons_append, List.map_cons] at hnd ⊢; nds at hnd ⊢; grind
      · exact n2 a ha
    · intro q q1 q2
      rw [S2 q (by rw [d1]; exact q1) (by simp at q2 ⊢; tauto), S1 q q1 (by simpa using q2)]

theorem eraseTree_spec {hd : Nat} : ∀ (t : T α) {h : Hp α} {par : Nat} {n : Node α} (f : Nat), Lk hd h par t → h hd = some n → n.nil = true → (hd :: ids t).Nodup → ht t < f →
    ∃ h', eraseTree f h (ptr hd t) = .ok h' ∧ (∀ q ∈ ids t, h' q = none) ∧ (∀ q, q ∉ ids t → h' q = h q)
  | .nil, h, par, n, f, _, h0, hn, _, hf => by
    obtain ⟨f, rfl⟩ : ∃ g, f = g + 1 := ⟨f - 1, by omega⟩
    exact ⟨h, by unfold eraseTree; rw [ptr_nil, nd_some h0, R.ok_bind, if_pos hn], by simp [ids_nil], fun _ _ => rfl⟩
  | .node i v c l r, h, par, n, f, ⟨a, b, d⟩, h0, hn, hnd, hf => by
    obtain ⟨f, rfl⟩ : ∃ g, f = g + 1 := ⟨f - 1, by omega⟩
    simp only [ht] at hf
    nds at hnd
    obtain ⟨h1, e1, p1, q1⟩ := eraseTree_spec r f d h0 hn (by nds; grind) (by omega)
    have a1 : h1 i = some ⟨ptr hd l, par, ptr hd r, c, false, some v⟩ := by rw [q1 i (by grind), a]
    obtain ⟨h2, e2, p2, q2⟩ := free_ok a1
    obtain ⟨h3, e3, p3, q3⟩ := eraseTree_spec l f (n := n) (h := h2) (b.congr (by grind)) (by rw [q2 hd (by grind), q1 hd (by grind), h0]) hn (by nds; grind) (by omega)
    refine ⟨h3, ?_, ?_, ?_⟩
    · unfold eraseTree; rw [ptr_node, nd_some a, R.ok_bind]; simp only [Bool.false_eq_true, if_false]
      rw [e1, R.ok_bind, nd_some a1, R.ok_bind, e2, R.ok_bind]; exact e3
    · nds; grind
    · nds; grind

theorem clear_spec {f : Nat} {h : Hp α} {c : Con} {X : List (Nat × α)} (W : CWF h c X) (hf : hb X.length < f) :
    ∃ h' c', clear f h c = .ok (h', c') ∧ CWF h' c' [] ∧ c'.hd = c.hd ∧ (∀ a ∈ X, h' a.1 = none) ∧ Same c.hd X h h' := by
  obtain ⟨t, F, e⟩ := W.wf.foc
  have hlen := F.len
  rw [e] at hlen
  have hnd := F.at_.nodup
  have hh : h c.hd = some ⟨_, ptr c.hd t, _, false, true, none⟩ := F.at_.head
  have hids : ids t = X.map Prod.fst := by rw [← e]; simp [inord, itL, itR, ids]
  nds at hnd
  obtain ⟨h1, e1, p1, q1⟩ := eraseTree_spec t f F.at_.sub hh rfl (by nds; grind) (by simp at hlen; omega)
  obtain ⟨h2, e2, y2, f2⟩ := setP_ok' (h := h1) (p := c.hd) (v := c.hd) (by rw [q1 c.hd (by grind), hh])
  obtain ⟨h3, e3, y3, f3⟩ := setL_ok' (v := c.hd) y2
  obtain ⟨h4, e4, y4, f4⟩ := setR_ok' (v := c.hd) y3
  have hq : ∀ q, q ≠ c.hd → h4 q = h1 q := fun q h => by rw [f4 q h, f3 q h, f2 q h]
  refine ⟨h4, ⟨c.hd, 0⟩, ?_, ⟨⟨.nil, 0, ⟨?_, trivial, by simp [idl_nil, idr_nil, ids_nil]⟩, rfl, rfl, rfl⟩, rfl⟩, rfl, ?_, ?_⟩
  · unfold clear; rw [nd_some hh, R.ok_bind]; simp only; rw [e1, R.ok_bind, e2, R.ok_bind, e3, R.ok_bind, e4, R.ok_bind]
  · simp only [LkC, ptr_nil]; rw [y4]; rfl
  · intro a ha
    have : a.1 ∈ ids t := by rw [hids]; exact List.mem_map_of_mem ha
    rw [hq a.1 (by grind), p1 _ this]
  · intro q h1 h2; rw [hq q h1, q1 q (by rw [hids]; exact h2)]

theorem destroy_spec {f : Nat} {h : Hp α} {c : Con} {X : List (Nat × α)} (W : CWF h c X) (hf : hb X.length < f) :
    ∃ h', destroy f h c = .ok h' ∧ h' c.hd = none ∧ (∀ a ∈ X, h' a.1 = none) ∧ Same c.hd X h h' := by
  obtain ⟨t, F, e⟩ := W.wf.foc
  have hlen := F.len
  rw [e] at hlen
  have hnd := F.at_.nodup
  have hh : h c.hd = some ⟨_, ptr c.hd t, _, false, true, none⟩ := F.at_.head
  have hids : ids t = X.map Prod.fst := by rw [← e]; simp [inord, itL, itR, ids]
  nds at hnd
  obtain ⟨h1, e1, p1, q1⟩ := eraseTree_spec t f F.at_.sub hh rfl (by nds; grind) (by simp at hlen; omega)
  obtain ⟨h2, e2, y2, f2⟩ := free_ok (h := h1) (x := c.hd) (by rw [q1 c.hd (by grind), hh])
  refine ⟨h2, ?_, y2, ?_, ?_⟩
  · unfold destroy; rw [nd_some hh, R.ok_bind]; simp only; rw [e1, R.ok_bind, e2]
  · intro a ha
    have : a.1 ∈ ids t := by rw [hids]; exact List.mem_map_of_mem ha
    rw [f2 a.1 (by grind), p1 _ this]
  · intro q h1 h2'; rw [f2 q h1, q1 q (by rw [hids]; exact h2')]

theorem newCon_spec {h : Hp α} {x : Nat} (hx : h x = none) : ∃ h', newCon h x = .ok (h', ⟨x, 0⟩) ∧ CWF h' ⟨x, 0⟩ [] ∧ ∀ q, q ≠ x → h' q = h q := by
  obtain ⟨h1, e1, x1, f1⟩ := alloc_ok (n := ⟨x, x, x, false, true, none⟩) hx
  refine ⟨h1, by unfold newCon; rw [e1, R.ok_bind], ⟨⟨.nil, 0, ⟨?_, trivial, by simp [idl_nil, idr_nil, ids_nil]⟩, rfl, rfl, rfl⟩, rfl⟩, f1⟩
  simp only [LkC, ptr_nil]; rw [x1]; rfl

theorem eraseRange_spec {g f : Nat} {h : Hp α} {c : Con} {A M B : List (Nat × α)} (W : CWF h c (A ++ (M ++ B))) (hg : hb (A.length + (M.length + B.length)) + 2 ≤ g) (hf : M.length < f) :
    ∃ h' c', eraseRange g f h c (firstId c.hd (M ++ B)) (firstId c.hd B) = .ok (h', c') ∧ CWF h' c' (A ++ B) ∧ c'.hd = c.hd ∧ (∀ a ∈ M, h' a.1 = none) ∧ Same c.hd (A ++ (M ++ B)) h h' := by
  obtain ⟨r, hh⟩ := W.wf.head
  have hln : ∃ n, h (firstId c.hd B) = some n ∧ (n.nil = true ↔ B = []) := by
    cases B with
    | nil => exact ⟨_, hh, by simp⟩
    | cons b B => obtain ⟨n, a, b', -⟩ := W.wf.mem (q := b.1) (v := b.2) (by simp); exact ⟨n, a, by simp [b']⟩
  obtain ⟨ln, hln, hlnil⟩ := hln
  unfold eraseRange
  rw [nd_some hh, R.ok_bind, nd_some hln, R.ok_bind]; simp only
  by_cases hc : firstId c.hd (M ++ B) = firstId c.hd (A ++ (M ++ B)) ∧ ln.nil = true
  · rw [if_pos hc]
    obtain ⟨h1, h2⟩ := hc
    have hB := hlnil.1 h2
    subst hB
    have hA : A = [] := by
      rw [List.append_nil] at *
      cases A with
      | nil => rfl
      | cons a A =>
        exfalso
        have hnd := W.wf.nodup
        rcases firstId_mem c.hd M with e' | ⟨w, e'⟩
        · rw [e'] at h1; simp only [List.cons_append, firstId, List.head?_cons] at h1; rw [h1] at hnd; simp at hnd
        · have : a.1 ∈ M.map Prod.fst := by rw [h1] at e'; exact List.mem_map.2 ⟨_, e', rfl⟩
          simp only [List.map_append, List.cons_append, List.map_cons] at hnd; nds at hnd; grind
    subst hA
    obtain ⟨h', c', e1, W1, d1, n1, S1⟩ := clear_spec (f := g) W (by simp at hg ⊢; omega)
    exact ⟨h', c', e1, W1, d1, by simpa using n1, S1⟩
  · rw [if_neg hc]; exact eraseLoop_spec W hg hf

theorem dist_spec {g : Nat} {hd : Nat} {h : Hp α} : ∀ {f : Nat} {A M B : List (Nat × α)}, WF hd h (A ++ (M ++ B)) → hb (A.length + (M.length + B.length)) ≤ g → M.length < f →
    dist g h f (firstId hd (M ++ B)) (firstId hd B) = .ok M.length
  | 0, _, _, _, _, _, hf => by omega
  | f + 1, A, [], B, W, hg, hf => by simp [dist]
  | f + 1, A, (e, v) :: M, B, W, hg, hf => by
    have hne : e ≠ firstId hd B := by
      have hnd := W.nodup
      rcases firstId_mem hd B with e' | ⟨w, e'⟩
      · rw [e']; simp only [List.map_append, List.cons_append, List.map_cons] at hnd; nds at hnd; grind
      · rintro h0
        have : e ∈ B.map Prod.fst := List.mem_map.2 ⟨_, e', h0.symm⟩
        simp only [List.map_append, List.cons_append, List.map_cons] at hnd; nds at hnd; grind
    unfold dist
    have hl : A.length + (M ++ B).length + 1 = A.length + (((e, v) :: M).length + B.length) := by simp; omega
    rw [List.cons_append, show firstId hd ((e, v) :: (M ++ B)) = e from rfl, if_pos hne, WF.next (B := M ++ B) W (by rw [hl]; exact hg), R.ok_bind]
    rw [dist_spec (f := f) (A := A ++ [(e, v)]) (by simpa using W) (by
      rw [show (A ++ [(e, v)]).length + (M.length + B.length) = A.length + (((e, v) :: M).length + B.length) by simp; omega]; exact hg) (by simp at hf; omega)]
    rfl

end STL.RBT
