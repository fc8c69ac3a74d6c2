import Verif.RBTree.Ops
import Verif.RBTree.Spec

/-! # The member functions against the list specification, for one or two containers. Proofs only. -/

namespace STL.RBT
open STL
variable {α κ : Type}

theorem atFirst_eq (hd : Nat) (X : List (Nat × α)) : atFirst hd X = firstId hd X := by cases X <;> rfl

theorem atFirst_rev (hd : Nat) (X : List (Nat × α)) : atFirst hd X.reverse = lastId hd X := by
  rw [atFirst_eq]; unfold firstId lastId; rw [List.head?_reverse]

/-- splitting by a predicate -/
theorem tw_dw {β : Type} {p : β → Bool} : ∀ {A B : List β}, (∀ a ∈ A, p a = true) → (∀ b ∈ B, p b = false) →
    (A ++ B).takeWhile p = A ∧ (A ++ B).dropWhile p = B
  | [], [], _, _ => by simp
  | [], b :: B, _, h => by have := h b (by simp); simp [this]
  | a :: A, B, h1, h2 => by
    have := h1 a (by simp)
    have ih := tw_dw (A := A) (B := B) (fun a ha => h1 a (by simp [ha])) h2
    simp [this, ih]

theorem upIns_eq {key : α → κ} {lt : κ → κ → Bool} {A B : List (Nat × α)} {a : Nat × α} (hA : ∀ x ∈ A, lt (key a.2) (key x.2) = false) (hB : ∀ x ∈ B, lt (key a.2) (key x.2) = true) :
    upIns key lt a (A ++ B) = A ++ a :: B := by
  have := tw_dw (p := fun b => !(lt (key a.2) (key b.2))) (A := A) (B := B) (fun x hx => by simp [hA x hx]) (fun x hx => by simp [hB x hx])
  unfold upIns; rw [this.1, this.2]

theorem loIns_eq {key : α → κ} {lt : κ → κ → Bool} {A B : List (Nat × α)} {a : Nat × α} (hA : ∀ x ∈ A, lt (key x.2) (key a.2) = true) (hB : ∀ x ∈ B, lt (key x.2) (key a.2) = false) :
    loIns key lt a (A ++ B) = A ++ a :: B := by
  have := tw_dw (p := fun b => lt (key b.2) (key a.2)) (A := A) (B := B) hA hB
  unfold loIns; rw [this.1, this.2]

theorem upIns_around {key : α → κ} {lt : κ → κ → Bool} (o : SWO lt) {A B : List (Nat × α)} {a : Nat × α} (h : Around key lt (key a.2) A B) :
    upIns key lt a (A ++ B) = A ++ a :: B := upIns_eq (fun x hx => o.asymm (h.1 x hx)) h.2

/-- positions -/
theorem bef_fro {X A B : List (Nat × α)} {p : Nat} (h : X = A ++ B) (hA : p ∉ A.map Prod.fst) (hB : ∀ b, B.head? = some b → b.1 = p) : bef X p = A ∧ fro X p = B := by
  subst h
  unfold bef fro
  induction A with
  | nil =>
    cases B with
    | nil => simp
    | cons b B => have := hB b rfl; simp [this]
  | cons a A ih =>
    simp only [List.map_cons, List.mem_cons, not_or] at hA
    have h1 : (a.1 != p) = true := by simp; exact fun h => hA.1 h.symm
    simp [h1, ih hA.2]

theorem WF.pos {hd : Nat} {h : Hp α} {X : List (Nat × α)} {p : Nat} (W : WF hd h X) (hp : p = hd ∨ p ∈ X.map Prod.fst) :
    ∃ A B, X = A ++ B ∧ bef X p = A ∧ fro X p = B ∧ p = firstId hd B := by
  have hnd := W.nodup
  rcases hp with rfl | hp
  · rw [List.nodup_cons] at hnd
    obtain ⟨e1, e2⟩ := bef_fro (X := X) (A := X) (B := []) (by simp) hnd.1 (by simp)
    exact ⟨X, [], by simp, e1, e2, rfl⟩
  · obtain ⟨a, ha, rfl⟩ := List.mem_map.1 hp
    obtain ⟨A, B, rfl⟩ := List.append_of_mem ha
    have hA : a.1 ∉ A.map Prod.fst := by
      simp only [List.map_append, List.map_cons] at hnd; nds at hnd; grind
    obtain ⟨e1, e2⟩ := bef_fro (p := a.1) rfl hA (B := a :: B) (by simp)
    exact ⟨A, a :: B, rfl, e1, e2, rfl⟩

theorem WF.pos_mem {hd : Nat} {h : Hp α} {X : List (Nat × α)} {p : Nat} (W : WF hd h X) (hp : p ∈ X.map Prod.fst) :
    ∃ A v B, X = A ++ (p, v) :: B ∧ bef X p = A ∧ fro X p = (p, v) :: B := by
  obtain ⟨A, B, h1, h2, h3, h4⟩ := W.pos (Or.inr hp)
  cases B with
  | nil =>
    exfalso
    have hnd := W.nodup
    rw [show firstId hd ([] : List (Nat × α)) = hd from rfl] at h4
    rw [h4] at hp; rw [List.nodup_cons] at hnd; exact hnd.1 hp
  | cons b B => rw [show firstId hd (b :: B) = b.1 from rfl] at h4; subst h4; exact ⟨A, b.2, B, h1, h2, h3⟩

/-- the elements equivalent to `k` in a sorted sequence -/
theorem eqv_split {key : α → κ} {lt : κ → κ → Bool} (o : SWO lt) {k : κ} {A E B : List (Nat × α)} (hA : ∀ a ∈ A, lt (key a.2) k = true)
    (hE : ∀ a ∈ E, lt (key a.2) k = false ∧ lt k (key a.2) = false) (hB : ∀ b ∈ B, lt k (key b.2) = true) :
    (∀ a ∈ A, eqv key lt k a = false) ∧ (∀ a ∈ E, eqv key lt k a = true) ∧ (∀ a ∈ B, eqv key lt k a = false) := by
  refine ⟨fun a ha => ?_, fun a ha => ?_, fun a ha => ?_⟩
  · simp [eqv, hA a ha]
  · simp [eqv, hE a ha]
  · simp [eqv, hB a ha]

theorem filt_eqv {β : Type} {p : β → Bool} {A E B : List β} (hA : ∀ a ∈ A, p a = false) (hE : ∀ a ∈ E, p a = true) (hB : ∀ a ∈ B, p a = false) :
    (A ++ (E ++ B)).filter (fun a => !(p a)) = A ++ B ∧ (A ++ (E ++ B)).countP p = E.length ∧ (A ++ (E ++ B)).find? p = E.head? ∧ (A ++ (E ++ B)).any p = !E.isEmpty := by
  have h1 : A.filter (fun a => !(p a)) = A := List.filter_eq_self.2 (by simpa using hA)
  have h2 : E.filter (fun a => !(p a)) = [] := List.filter_eq_nil_iff.2 (by simpa using hE)
  have h3 : B.filter (fun a => !(p a)) = B := List.filter_eq_self.2 (by simpa using hB)
  have c1 : A.countP p = 0 := List.countP_eq_zero.2 (by simpa using hA)
  have c2 : E.countP p = E.length := List.countP_eq_length.2 (by simpa using hE)
  have c3 : B.countP p = 0 := List.countP_eq_zero.2 (by simpa using hB)
  have f1 : A.find? p = none := List.find?_eq_none.2 (by simpa using hA)
  have f3 : B.find? p = none := List.find?_eq_none.2 (by simpa using hB)
  have a1 : A.any p = false := by simpa [List.any_eq_false] using hA
  have a3 : B.any p = false := by simpa [List.any_eq_false] using hB
  refine ⟨by simp only [List.filter_append, h1, h2, h3, List.nil_append], by simp only [List.countP_append, c1, c2, c3]; omega, ?_, ?_⟩
  · rw [List.find?_append, f1, List.find?_append, f3]
    cases E with
    | nil => rfl
    | cons e E => simp [hE e (by simp)]
  · rw [List.any_append, a1, List.any_append, a3]
    cases E with
    | nil => rfl
    | cons e E => simp [hE e (by simp)]

theorem hb_perm {A E B : List (Nat × α)} {X : List (Nat × α)} (e : X = A ++ (E ++ B)) : hb (A.length + (E.length + B.length)) = hb X.length := by subst e; simp

/-- all searches at once -/
theorem searches {key : α → κ} {lt : κ → κ → Bool} (o : SWO lt) {hd g : Nat} {h : Hp α} {X : List (Nat × α)} (k : κ) (W : WF hd h X) (hS : Srt key lt X) (hf : hb X.length < g) :
    (∃ r, findLower key lt hd g h k = .ok r ∧ r.bound = atFirst hd (X.dropWhile (fun a => lt (key a.2) k))) ∧
    (∃ r, findUpper key lt hd g h k = .ok r ∧ r.bound = atFirst hd (X.dropWhile (fun a => !(lt k (key a.2))))) ∧
    eqrange key lt hd g h k = .ok (atFirst hd (X.dropWhile (fun a => lt (key a.2) k)), atFirst hd (X.dropWhile (fun a => !(lt k (key a.2))))) ∧
    find key lt hd g h k = .ok (match X.find? (eqv key lt k) with | some a => a.1 | none => hd) ∧
    contains key lt hd g h k = .ok (X.any (eqv key lt k)) := by
  obtain ⟨A, E, B, rfl, hA, hE, hB⟩ := srt_split o k hS
  obtain ⟨i1, i2, i3⟩ := eqv_split o hA hE hB
  obtain ⟨q1, q2, q3, q4⟩ := filt_eqv i1 i2 i3
  have hEB : ∀ b ∈ E ++ B, lt (key b.2) k = false := by
    intro b hb; rcases List.mem_append.1 hb with hb | hb
    · exact (hE b hb).1
    · exact o.asymm (hB b hb)
  have hAE : ∀ b ∈ A ++ E, lt k (key b.2) = false := by
    intro b hb; rcases List.mem_append.1 hb with hb | hb
    · exact o.asymm (hA b hb)
    · exact (hE b hb).2
  have d1 := (tw_dw (p := fun a : Nat × α => lt (key a.2) k) hA hEB).2
  have d2 := (tw_dw (p := fun a : Nat × α => !(lt k (key a.2))) (A := A ++ E) (B := B) (fun a ha => by simp [hAE a ha]) (fun b hb => by simp [hB b hb])).2
  rw [List.append_assoc] at d2
  rw [d1, d2, atFirst_eq, atFirst_eq]
  obtain ⟨r, e1, P1, b1⟩ := findLower_spec key lt k W (by simpa using hf) hA hEB
  have W' := W; rw [← List.append_assoc] at W'
  obtain ⟨r', e1', P1', b1'⟩ := findUpper_spec key lt k W' (by simpa [Nat.add_assoc] using hf) hAE hB
  have dup := isDup_spec key lt k W
  have hdup : isDup key lt h (firstId hd (E ++ B)) k = .ok (!E.isEmpty) := by
    rw [dup]; cases E with
    | cons e E => simp [(hE e (by simp)).2]
    | nil => cases B with
      | nil => simp
      | cons b B => simp [hB b (by simp)]
  refine ⟨⟨r, e1, b1⟩, ⟨r', e1', b1'⟩, ?_, ?_, ?_⟩
  · exact eqrange_spec key lt k (fun a ha => o.asymm ha) W (by simpa using hf) hA hE hB
  · unfold find; rw [e1, R.ok_bind, b1, hdup, R.ok_bind, q3]
    cases E with
    | nil => simp
    | cons e E => simp [firstId]
  · unfold contains; rw [e1, R.ok_bind, b1, hdup, q4]

theorem eraseKey_spec {key : α → κ} {lt : κ → κ → Bool} (o : SWO lt) {g f : Nat} {h : Hp α} {c : Con} {X : List (Nat × α)} (k : κ) (W : CWF h c X) (hS : Srt key lt X)
    (hg : hb X.length + 2 ≤ g) (hf : X.length < f) :
    ∃ h' c', eraseKey key lt g f h c k = .ok (h', c', X.countP (eqv key lt k)) ∧ CWF h' c' (X.filter (fun a => !(eqv key lt k a))) ∧ c'.hd = c.hd ∧
      (∀ q ∈ X.map Prod.fst, q ∉ (X.filter (fun a => !(eqv key lt k a))).map Prod.fst → h' q = none) ∧ Same c.hd X h h' := by
  obtain ⟨A, E, B, rfl, hA, hE, hB⟩ := srt_split o k hS
  obtain ⟨i1, i2, i3⟩ := eqv_split o hA hE hB
  obtain ⟨q1, q2, q3, q4⟩ := filt_eqv i1 i2 i3
  have hg' : hb (A.length + (E.length + B.length)) + 2 ≤ g := by simpa using hg
  have hf' : E.length < f := by simp at hf; omega
  have e1 := eqrange_spec key lt (f := g) k (fun a ha => o.asymm ha) W.wf (by omega) hA hE hB
  have e2 := dist_spec (f := f) W.wf (g := g) (by omega) hf'
  obtain ⟨h', c', e3, W', d', n', S'⟩ := eraseRange_spec W hg' hf'
  rw [q1, q2]
  refine ⟨h', c', ?_, W', d', ?_, S'⟩
  · unfold eraseKey; rw [e1, R.ok_bind]; simp only; rw [e2, R.ok_bind, e3, R.ok_bind]
  · intro q hq hq2
    simp only [List.map_append, List.mem_append, not_or] at hq hq2
    rcases hq with hq | hq | hq
    · exact absurd hq hq2.1
    · obtain ⟨a, ha, rfl⟩ := List.mem_map.1 hq; exact n' a ha
    · exact absurd hq hq2.2

theorem count_spec {key : α → κ} {lt : κ → κ → Bool} (o : SWO lt) {multi : Bool} {g f : Nat} {h : Hp α} {c : Con} {X : List (Nat × α)} (k : κ) (W : CWF h c X) (hS : Srt key lt X)
    (hU : multi = false → SrtU key lt X) (hg : hb X.length + 2 ≤ g) (hf : X.length < f) :
    count key lt multi g f h c k = .ok (X.countP (eqv key lt k)) := by
  obtain ⟨-, -, -, -, hc⟩ := searches o (g := g) k W.wf hS (by omega)
  obtain ⟨A, E, B, rfl, hA, hE, hB⟩ := srt_split o k hS
  obtain ⟨i1, i2, i3⟩ := eqv_split o hA hE hB
  obtain ⟨q1, q2, q3, q4⟩ := filt_eqv i1 i2 i3
  unfold count
  cases multi with
  | true =>
    have hg' : hb (A.length + (E.length + B.length)) + 2 ≤ g := by simpa using hg
    have hf' : E.length < f := by simp at hf; omega
    rw [if_pos rfl, eqrange_spec key lt (f := g) k (fun a ha => o.asymm ha) W.wf (by omega) hA hE hB, R.ok_bind]
    simp only
    rw [dist_spec (f := f) W.wf (g := g) (by omega) hf', q2]
  | false =>
    rw [if_neg (by simp), hc, R.ok_bind, q4, q2]
    cases E with
    | nil => simp
    | cons e E => cases E with
      | nil => simp
      | cons e' E =>
        exfalso
        have := hU rfl
        rw [SrtU, List.pairwise_append] at this
        have h2 := this.2.1
        rw [List.cons_append, List.pairwise_cons] at h2
        have h3 := h2.1 e' (by simp)
        obtain ⟨u1, u2⟩ := hE e (by simp)
        obtain ⟨v1, v2⟩ := hE e' (by simp)
        have := o.equiv_trans _ _ _ u1 u2 v2 v1
        rw [h3] at this; exact absurd this.1 (by simp)

/-! ## merge -/

/-- `B` sorted as its kind demands -/
def SrtM (key : α → κ) (lt : κ → κ → Bool) (multi : Bool) (X : List (Nat × α)) : Prop := if multi then Srt key lt X else SrtU key lt X

theorem SrtM.srt {key : α → κ} {lt : κ → κ → Bool} (o : SWO lt) {m : Bool} {X : List (Nat × α)} (h : SrtM key lt m X) : Srt key lt X := by
  cases m with
  | true => exact h
  | false => exact SrtU.srt o h

theorem SrtM.sub {key : α → κ} {lt : κ → κ → Bool} {m : Bool} {X Y : List (Nat × α)} (h : SrtM key lt m X) (hs : Y.Sublist X) : SrtM key lt m Y := by
  cases m with
  | true => exact List.Pairwise.sublist hs h
  | false => exact List.Pairwise.sublist hs h

/-- one search for the place of a new element -/
theorem place_new {key : α → κ} {lt : κ → κ → Bool} (o : SWO lt) {multi : Bool} {hd g : Nat} {h : Hp α} {D : List (Nat × α)} (a : Nat × α) (W : WF hd h D) (hS : SrtM key lt multi D)
    (hg : hb D.length < g) :
    ∃ r d, (if multi then do
          let r ← findUpper key lt hd g h (key a.2)
          .ok (r, false)
        else do
          let r ← findLower key lt hd g h (key a.2)
          let d ← isDup key lt h r.bound (key a.2)
          .ok (r, d) : R (Found × Bool)) = .ok (r, d) ∧
      ((multi = false ∧ D.any (eqv key lt (key a.2)) = true ∧ d = true ∧ D.find? (eqv key lt (key a.2)) = (D.find? (eqv key lt (key a.2))) ∧
          ∃ b, D.find? (eqv key lt (key a.2)) = some b ∧ r.bound = b.1) ∨
       (¬ (multi = false ∧ D.any (eqv key lt (key a.2)) = true) ∧ (multi = false → D.find? (eqv key lt (key a.2)) = none) ∧ d = false ∧
          ∃ A B, D = A ++ B ∧ upIns key lt a D = A ++ a :: B ∧ SrtM key lt multi (A ++ a :: B) ∧ Place hd h r.parent r.right A B)) := by
  obtain ⟨A, E, B, rfl, hA, hE, hB⟩ := srt_split o (key a.2) (hS.srt o)
  obtain ⟨i1, i2, i3⟩ := eqv_split o hA hE hB
  obtain ⟨q1, q2, q3, q4⟩ := filt_eqv i1 i2 i3
  have hEB : ∀ b ∈ E ++ B, lt (key b.2) (key a.2) = false := by
    intro b hb; rcases List.mem_append.1 hb with hb | hb
    · exact (hE b hb).1
    · exact o.asymm (hB b hb)
  have hAE : ∀ b ∈ A ++ E, lt (key a.2) (key b.2) = false := by
    intro b hb; rcases List.mem_append.1 hb with hb | hb
    · exact o.asymm (hA b hb)
    · exact (hE b hb).2
  cases multi with
  | true =>
    have W' := W; rw [← List.append_assoc] at W'
    have hS' := hS; rw [← List.append_assoc] at hS'
    obtain ⟨r', e1', P1', b1'⟩ := findUpper_spec key lt (key a.2) W' (by simpa [Nat.add_assoc] using hg) hAE hB
    refine ⟨r', false, by rw [if_pos rfl, e1', R.ok_bind], Or.inr ⟨by simp, by simp, rfl, A ++ E, B, by simp, ?_, ?_, P1'⟩⟩
    · rw [← List.append_assoc]; exact upIns_eq hAE hB
    · exact Srt.ins hS' hAE (fun b hb => o.asymm (hB b hb))
  | false =>
    obtain ⟨r, e1, P1, b1⟩ := findLower_spec key lt (key a.2) W (by simpa using hg) hA hEB
    have dup := isDup_spec key lt (key a.2) W
    rw [if_neg (by simp), e1, R.ok_bind, b1]
    cases E with
    | cons e E =>
      refine ⟨r, true, by rw [dup]; simp [(hE e (by simp)).2]; rfl, Or.inl ⟨rfl, by rw [q4]; rfl, rfl, rfl, e, by rw [q3]; rfl, b1⟩⟩
    | nil =>
      refine ⟨r, false, ?_, Or.inr ⟨by rw [q4]; simp, fun _ => by rw [q3]; rfl, rfl, A, B, rfl, ?_, ?_, P1⟩⟩
      · rw [dup]; cases B with
        | nil => rfl
        | cons b B => simp [hB b (by simp)]; rfl
      · exact upIns_around o ⟨hA, hB⟩
      · exact SrtU.ins o hS ⟨hA, hB⟩

theorem mergeLoop_spec {key : α → κ} {lt : κ → κ → Bool} (o : SWO lt) {multi : Bool} {maxsz g : Nat} : ∀ {f : Nat} {h : Hp α} {c that : Con} {D K S : List (Nat × α)},
    CWF h c D → CWF h that (K ++ S) → SrtM key lt multi D → (∀ q, q = c.hd ∨ q ∈ D.map Prod.fst → ¬ (q = that.hd ∨ q ∈ (K ++ S).map Prod.fst)) →
    hb (D.length + (K ++ S).length) + 2 ≤ g → S.length < f →
    ∃ h' c' that', mergeLoop key lt multi maxsz g f h c that (firstId that.hd S) = .ok (h', c', that', (mergeSpec key lt multi maxsz D K S).2.2) ∧
      CWF h' c' (mergeSpec key lt multi maxsz D K S).1 ∧ CWF h' that' (mergeSpec key lt multi maxsz D K S).2.1 ∧ c'.hd = c.hd ∧ that'.hd = that.hd ∧
      SrtM key lt multi (mergeSpec key lt multi maxsz D K S).1 ∧ (mergeSpec key lt multi maxsz D K S).2.1.Sublist (K ++ S) ∧
      ((mergeSpec key lt multi maxsz D K S).1 ++ (mergeSpec key lt multi maxsz D K S).2.1).Perm (D ++ (K ++ S)) ∧
      (∀ q, q ≠ c.hd → q ≠ that.hd → q ∉ D.map Prod.fst → q ∉ (K ++ S).map Prod.fst → h' q = h q)
  | 0, _, _, _, _, _, _, _, _, _, _, _, hf => by omega
  | f + 1, h, c, that, D, K, [], W1, W2, hS, hd, hg, hf => by
    obtain ⟨r, e⟩ := W2.wf.head
    refine ⟨h, c, that, ?_, W1, by simpa [mergeSpec] using W2, rfl, rfl, hS, by simp [mergeSpec], by simp [mergeSpec], fun _ _ _ _ _ => rfl⟩
    unfold mergeLoop; rw [show firstId that.hd ([] : List (Nat × α)) = that.hd from rfl, nd_some e]; rfl
  | f + 1, h, c, that, D, K, a :: S, W1, W2, hS, hd, hg, hf => by
    obtain ⟨n, m1, m2, m3⟩ := W2.wf.mem (q := a.1) (v := a.2) (by simp)
    have hDle : hb D.length + 2 ≤ g := (Nat.add_le_add_right (hb_mono (by omega)) 2).trans hg
    have hKle : hb (K.length + S.length + 1) + 2 ≤ g := (Nat.add_le_add_right (hb_mono (by simp; omega)) 2).trans hg
    have hnext := WF.next (e := a.1) (v := a.2) (A := K) (B := S) (f := g) W2.wf (by omega)
    obtain ⟨r, d, e1, hh⟩ := place_new o a W1.wf hS (g := g) (by omega)
    unfold mergeLoop mergeSpec
    rw [show firstId that.hd (a :: S) = a.1 from rfl, nd_some m1, R.ok_bind, if_neg (by simp [m2]), hnext, R.ok_bind, keyAt_ok m1 m3, R.ok_bind, e1, R.ok_bind]
    simp only
    rcases hh with ⟨c1, c2, c3, -, -⟩ | ⟨c1, -, c3, A, B, eD, eI, hSI, P⟩
    · rw [if_pos c3, if_pos ⟨c1, c2⟩]
      have HH := mergeLoop_spec (maxsz := maxsz) (g := g) o (f := f) (K := K ++ [a]) (S := S) W1 (by simpa using W2) hS (by simpa using hd) (by simpa using hg) (by simp at hf; omega)
      obtain ⟨h', c', t', r1, r2, r3, r4, r5, r6, r7, r8, r9⟩ := HH
      exact ⟨h', c', t', r1, r2, r3, r4, r5, r6, by simpa using r7, by simpa using r8, fun q x1 x2 x3 x4 => r9 q x1 x2 x3 (by simpa using x4)⟩
    · rw [if_neg (by simp [c3]), if_neg c1]
      by_cases hm : maxsz = c.size
      · rw [if_pos hm, if_pos (by rw [hm, W1.size])]
        exact ⟨h, c, that, rfl, W1, W2, rfl, rfl, hS, List.Sublist.refl _, List.Perm.refl _, fun _ _ _ _ _ => rfl⟩
      · rw [if_neg hm, if_neg (by rw [← W1.size]; exact hm)]
        obtain ⟨h1, n1, x1, W2', y1, y2, y3, S1⟩ := extract_spec (e := a.1) (v := a.2) (A := K) (B := S) W2.wf hKle
        obtain ⟨h2, x2, z2, f2⟩ := setL_ok' (v := c.hd) y1
        obtain ⟨h3, x3, z3, f3⟩ := setR_ok' (v := c.hd) z2
        obtain ⟨h4, x4, z4, f4⟩ := setC_ok' (c := true) z3
        have hfr : ∀ q, q ≠ a.1 → h4 q = h1 q := fun q hq => by rw [f4 q hq, f3 q hq, f2 q hq]
        have hnd := W2.wf.nodup
        have ha1 : a.1 ∈ (K ++ a :: S).map Prod.fst := by simp
        have hac : a.1 ≠ c.hd := fun hq => hd a.1 (Or.inl hq) (Or.inr ha1)
        have haD : a.1 ∉ D.map Prod.fst := fun hq => hd a.1 (Or.inr hq) (Or.inr ha1)
        have P' : Place c.hd h4 r.parent r.right A B := by
          apply P.frame
          rw [← eD]
          intro q hq
          have hn := hd q hq
          rw [not_or] at hn
          have : q ≠ a.1 := by rintro rfl; exact hn.2 ha1
          rw [hfr q this, S1 q hn.1 hn.2]
        rw [y2, y3] at z4
        obtain ⟨h5, x5, W5, S5⟩ := P'.insert (f := g) z4 hac (by rw [← eD]; exact haD) (by
          have : A.length + B.length = D.length := by rw [eD]; simp
          rw [this]; omega)
        rw [← eI] at W5 hSI S5
        have hlenI : (upIns key lt a D).length = D.length + 1 := by rw [eI, eD]; simp; omega
        have hpI : (upIns key lt a D).Perm (a :: D) := by rw [eI, eD]; exact List.perm_middle
        have hmI : ∀ q, q ∈ (upIns key lt a D).map Prod.fst ↔ q = a.1 ∨ q ∈ D.map Prod.fst := by
          intro q; rw [(hpI.map Prod.fst).mem_iff]; simp
        simp only [List.map_append, List.map_cons] at hnd
        have hK : ∀ q, q = that.hd ∨ q ∈ (K ++ S).map Prod.fst → q ≠ a.1 ∧ q ≠ c.hd ∧ q ∉ D.map Prod.fst := by
          intro q hq
          have hq' : q = that.hd ∨ q ∈ (K ++ a :: S).map Prod.fst := by
            rcases hq with hq | hq
            · exact Or.inl hq
            · right; simp only [List.map_append, List.map_cons, List.mem_append, List.mem_cons] at hq ⊢; tauto
          refine ⟨?_, fun hc => hd q (Or.inl hc) hq', fun hc => hd q (Or.inr hc) hq'⟩
          rintro rfl
          simp only [List.map_append, List.mem_append] at hq
          nds at hnd; grind
        have W6 : CWF h5 (dec that) (K ++ S) := by
          refine ⟨(W2'.frame ?_), ?_⟩
          · intro q hq
            obtain ⟨k1, k2, k3⟩ := hK q hq
            rw [S5 q k2 (by rw [hmI]; tauto), hfr q k1]
          · have := W2.size; simp only [List.length_append, List.length_cons] at this; simp [dec, this]
        have HH := mergeLoop_spec (maxsz := maxsz) (g := g) o (f := f) (c := ⟨c.hd, c.size + 1⟩) (that := dec that) (K := K) (S := S) ⟨W5, by rw [hlenI]; simp [W1.size]⟩ W6 hSI ?_ ?_ (by simp at hf; omega)
        · obtain ⟨h', c', t', r1, r2, r3, r4, r5, r6, r7, r8, r9⟩ := HH
          refine ⟨h', c', t', ?_, r2, r3, r4, r5, r6, r7.trans (by simp), ?_, ?_⟩
          · rw [x1, R.ok_bind, x2, R.ok_bind, x3, R.ok_bind, x4, R.ok_bind, x5, R.ok_bind]; exact r1
          · refine r8.trans ((hpI.append_right _).trans ?_)
            have hp : (D ++ (K ++ a :: S)).Perm (a :: (D ++ (K ++ S))) := by
              rw [← List.append_assoc, ← List.append_assoc]; exact List.perm_middle
            exact hp.symm
          · intro q u1 u2 u3 u4
            have u5 : q ≠ a.1 := by rintro rfl; exact u4 ha1
            have u6 : q ∉ (K ++ S).map Prod.fst := by simp only [List.map_append, List.map_cons, List.mem_append, List.mem_cons] at u4 ⊢; tauto
            rw [r9 q u1 u2 (by rw [hmI]; tauto) u6, S5 q u1 (by rw [hmI]; tauto), hfr q u5, S1 q u2 u4]
        · intro q hq hq2
          obtain ⟨k1, k2, k3⟩ := hK q hq2
          rw [hmI] at hq; rcases hq with hq | hq | hq
          · exact k2 hq
          · exact k1 hq
          · exact k3 hq
        · rw [hlenI, show D.length + 1 + (K ++ S).length = D.length + (K ++ a :: S).length by simp; omega]; exact hg

end STL.RBT
