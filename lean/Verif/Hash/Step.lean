import Verif.Hash.Place

/-! # One operation: the code refines the specification. Proofs only. -/

namespace STL.UH
open STL STL.DL
variable {α K : Type}

def StepOk (P : Par α K) (g : Pg α) (s : St α) (op : Op α K) : Prop := ∃ g' out s', step P g op = .ok (g', out) ∧ sem P s op s' out ∧ Rep P g' s'

/-- What the three ways of insertion have to deliver. -/
def EmpOk (P : Par α K) (s : St α) (viaKey : Bool) (hint : Option Nat) (v : α) (e : Env) (r : R (Hp α × Tab × Nat × Bool × Option Exc)) : Prop :=
  ∃ h' t' p b x s', r = .ok (h', t', p, b, x) ∧ Rep P ⟨h', t'⟩ s' ∧ sem P s (.emplace viaKey hint v e) s' (outE p b x)

theorem emp_place {P : Par α K} (g : Good P) {h1 : Hp α} {t : Tab} {s : St α} {x : Nat} {v : α} (I : Rep P ⟨h1, t⟩ { s with H := (x, v) :: s.H }) (hxH : x ∉ ids s.H)
    {viaKey : Bool} {hint : Option Nat} {e : Env} (hex : e.x = some x) (hh : ∀ p, hint = some p → p = s.hd ∨ p ∈ ids s.X)
    (hu : P.multi = false → s.X.filter (eqk P (P.kfn v)) = []) {tgt : Nat}
    (ht : t.lf.need (t.con.size + 1) t.maxidx = false → ∃ o, Found P hint t.mask t.con.hd (P.kfn v) s.X (tgt, o)) :
    EmpOk P s viaKey hint v e (do
      let r ← placeNode P (look P hint (P.kfn v)) h1 t (P.hash (P.kfn v)) tgt x e.vok e.thr
      orFree x r) := by
  obtain ⟨h2, t2, ex, s2, e2, I2, r2⟩ := placeNode_ok g I (x := x) (v := v) (by simp) (hint := hint) hh hu ht e.vok e.thr
  rw [e2, R.ok_bind]
  obtain ⟨h3, t3, p, b, s3, e3, I3, r3⟩ := orFree_ok (s := s) I2 hxH r2
  refine ⟨h3, t3, p, b, ex, s3, e3, I3, ?_⟩
  cases ex with
  | none =>
    obtain ⟨rfl, rfl, h1, h2⟩ := r3
    exact ⟨hex, hu, h1, h2⟩
  | some ex =>
    simp only at r3
    refine ⟨?_, fun hm _ => hu hm⟩
    rw [hex]; exact r3

theorem emplaceMulti_ok {P : Par α K} (g : Good P) (hm : P.multi = true) {h : Hp α} {t : Tab} {s : St α} (I : Rep P ⟨h, t⟩ s) {viaKey : Bool} {hint : Option Nat} {v : α} {e : Env}
    (hp : pre P s (.emplace viaKey hint v e)) : EmpOk P s viaKey hint v e (emplaceMulti P hint h t v e) := by
  have hlf : s.lf = t.lf := I.lf
  have hsz : t.con.size = s.X.length := I.size
  have hhd : s.hd = t.con.hd := I.hd
  have mf : ¬ P.multi = false := by simp [hm]
  unfold emplaceMulti
  by_cases hz : t.con.size = P.maxSize
  · rw [if_pos hz]
    exact ⟨h, t, 0, false, _, s, rfl, I, ⟨rfl, Or.inl (by rw [← hsz, hz])⟩, fun h => absurd h mf⟩
  rw [if_neg hz]
  cases hx : e.x with
  | none => exact ⟨h, t, 0, false, _, s, rfl, I, ⟨rfl, Or.inl (by simp [hx])⟩, fun h => absurd h mf⟩
  | some x =>
    simp only
    obtain ⟨x0, hxa⟩ := hp.2 x hx
    have hxH : x ∉ ids s.H := fun h => hxa (mem_adr.2 (Or.inr (Or.inr h)))
    obtain ⟨h1, e1, I1⟩ := I.alloc x0 hxa v
    rw [e1, R.ok_bind]
    by_cases hn : t.lf.need (t.con.size + 1) t.maxidx = true
    · rw [if_pos hn]
      exact emp_place g I1 hxH hx hp.1 (fun h => absurd h mf) (fun h => by rw [hn] at h; simp at h)
    · rw [if_neg hn]
      obtain ⟨r, er, f⟩ := look_ok g I1.tok (hint := hint) (P.kfn v) (by intro p hp'; have := hp.1 p hp'; rw [hhd] at this; exact this)
      simp only at er
      rw [er, R.ok_bind]
      exact emp_place g I1 hxH hx hp.1 (fun h => absurd h mf) (fun _ => ⟨r.2, f⟩)

theorem emplaceUnique_ok {P : Par α K} (g : Good P) (hm : P.multi = false) {h : Hp α} {t : Tab} {s : St α} (I : Rep P ⟨h, t⟩ s) {viaKey : Bool} {hint : Option Nat} {v : α} {e : Env}
    (hp : pre P s (.emplace viaKey hint v e)) : EmpOk P s viaKey hint v e (emplaceUnique P hint h t v e) := by
  have hlf : s.lf = t.lf := I.lf
  have hsz : t.con.size = s.X.length := I.size
  have hhd : s.hd = t.con.hd := I.hd
  have hpre : ∀ p, hint = some p → p = t.con.hd ∨ p ∈ ids s.X := by intro p hp'; have := hp.1 p hp'; rw [hhd] at this; exact this
  unfold emplaceUnique
  simp only
  obtain ⟨r, er, f⟩ := look_ok g I.tok (hint := hint) (P.kfn v) hpre
  simp only at er
  rw [er, R.ok_bind]
  cases hr : r.2 with
  | some d =>
    simp only
    exact ⟨h, t, d, false, none, s, rfl, I, hm, rfl, uniq_grp I hm (f.yes d hr)⟩
  | none =>
    have hno := f.no hr
    simp only
    by_cases hz : t.con.size = P.maxSize
    · rw [if_pos hz]
      exact ⟨h, t, 0, false, _, s, rfl, I, ⟨rfl, Or.inl (by rw [← hsz, hz])⟩, fun _ _ => hno⟩
    rw [if_neg hz]
    cases hx : e.x with
    | none => exact ⟨h, t, 0, false, _, s, rfl, I, ⟨rfl, Or.inl (by simp [hx])⟩, fun _ _ => hno⟩
    | some x =>
      simp only
      obtain ⟨x0, hxa⟩ := hp.2 x hx
      have hxH : x ∉ ids s.H := fun h => hxa (mem_adr.2 (Or.inr (Or.inr h)))
      obtain ⟨h1, e1, I1⟩ := I.alloc x0 hxa v
      rw [e1, R.ok_bind]
      exact emp_place g I1 hxH hx hp.1 (fun _ => hno) (fun _ => ⟨r.2, f⟩)

theorem emplaceUniqueNode_ok {P : Par α K} (g : Good P) (hm : P.multi = false) {h : Hp α} {t : Tab} {s : St α} (I : Rep P ⟨h, t⟩ s) {hint : Option Nat} {v : α} {e : Env}
    (hp : pre P s (.emplace false hint v e)) : EmpOk P s false hint v e (emplaceUniqueNode P hint h t v e) := by
  have hlf : s.lf = t.lf := I.lf
  have hsz : t.con.size = s.X.length := I.size
  have hhd : s.hd = t.con.hd := I.hd
  have hpre : ∀ p, hint = some p → p = t.con.hd ∨ p ∈ ids s.X := by intro p hp'; have := hp.1 p hp'; rw [hhd] at this; exact this
  unfold emplaceUniqueNode
  cases hx : e.x with
  | none => exact ⟨h, t, 0, false, _, s, rfl, I, ⟨rfl, Or.inl (by simp [hx])⟩, fun _ h => by simp at h⟩
  | some x =>
    simp only
    obtain ⟨x0, hxa⟩ := hp.2 x hx
    have hxH : x ∉ ids s.H := fun h => hxa (mem_adr.2 (Or.inr (Or.inr h)))
    obtain ⟨h1, e1, I1⟩ := I.alloc x0 hxa v
    rw [e1, R.ok_bind]
    obtain ⟨r, er, f⟩ := look_ok g I1.tok (hint := hint) (P.kfn v) hpre
    simp only at er
    rw [er, R.ok_bind]
    have fr : ∃ h2, free h1 x = .ok h2 ∧ Rep P ⟨h2, t⟩ s := by
      obtain ⟨h2, e2, I2⟩ := I1.free (x := x) (by simp [ids])
      simp only [drop_head hxH] at I2
      exact ⟨h2, e2, I2⟩
    cases hr : r.2 with
    | some d =>
      simp only
      obtain ⟨h2, e2, I2⟩ := fr
      rw [e2, R.ok_bind]
      exact ⟨h2, t, d, false, none, s, rfl, I2, hm, rfl, uniq_grp I hm (f.yes d hr)⟩
    | none =>
      have hno : s.X.filter (eqk P (P.kfn v)) = [] := f.no hr
      simp only
      by_cases hz : t.con.size = P.maxSize
      · rw [if_pos hz]
        obtain ⟨h2, e2, I2⟩ := fr
        rw [e2, R.ok_bind]
        exact ⟨h2, t, 0, false, _, s, rfl, I2, ⟨rfl, Or.inl (by rw [← hsz, hz])⟩, fun _ _ => hno⟩
      rw [if_neg hz]
      exact emp_place g I1 hxH hx hp.1 (fun _ => hno) (fun _ => ⟨r.2, f⟩)

theorem step_emplace {P : Par α K} (g : Good P) {pg : Pg α} {s : St α} (I : Rep P pg s) {viaKey : Bool} {hint : Option Nat} {v : α} {e : Env} (hp : pre P s (.emplace viaKey hint v e)) :
    StepOk P pg s (.emplace viaKey hint v e) := by
  have key : ∀ r, EmpOk P s viaKey hint v e r → ∃ g' out s', (do
      let r ← r
      .ok (⟨r.1, r.2.1⟩, outE r.2.2.1 r.2.2.2.1 r.2.2.2.2) : R (Pg α × Out α)) = .ok (g', out) ∧ sem P s (.emplace viaKey hint v e) s' out ∧ Rep P g' s' := by
    rintro r ⟨h', t', p, b, x, s', rfl, I', hs⟩
    exact ⟨_, _, s', rfl, hs, I'⟩
  unfold StepOk step
  simp only
  cases hm : P.multi with
  | true => rw [if_pos (by rfl)]; exact key _ (emplaceMulti_ok g hm I hp)
  | false =>
    rw [if_neg (by simp)]
    cases viaKey with
    | true => rw [if_pos (by rfl)]; exact key _ (emplaceUnique_ok g hm I hp)
    | false => rw [if_neg (by simp)]; exact key _ (emplaceUniqueNode_ok g hm I hp)

theorem step_insertNode {P : Par α K} (g : Good P) {pg : Pg α} {s : St α} (I : Rep P pg s) {hint : Option Nat} {x : Nat} {vok : Bool} {thr : Option Nat} (hp : pre P s (.insertNode hint x vok thr)) :
    StepOk P pg s (.insertNode hint x vok thr) := by
  obtain ⟨h, t⟩ := pg
  have hlf : s.lf = t.lf := I.lf
  have hsz : t.con.size = s.X.length := I.size
  have hhd : s.hd = t.con.hd := I.hd
  have hpre : ∀ p, hint = some p → p = t.con.hd ∨ p ∈ ids s.X := by intro p hp'; have := hp.1 p hp'; rw [hhd] at this; exact this
  have hx := hp.2
  simp only [ids, List.mem_map] at hx
  obtain ⟨⟨x', v⟩, hx, rfl⟩ := hx
  unfold StepOk step insertNode
  simp only
  rw [I.val hx, R.ok_bind]
  obtain ⟨r, er, f⟩ := look_ok g I.tok (hint := hint) (P.kfn v) hpre
  simp only at er
  rw [er, R.ok_bind]
  cases hd : (if P.multi = true then none else r.2) with
  | some d =>
    simp only
    have hm : P.multi = false := by cases hm : P.multi <;> simp [hm] at hd ⊢
    have hr : r.2 = some d := by rw [if_neg (by simp [hm])] at hd; exact hd
    exact ⟨_, _, s, rfl, ⟨v, hx, hm, rfl, uniq_grp I hm (f.yes d hr)⟩, I⟩
  | none =>
    have hno : P.multi = false → s.X.filter (eqk P (P.kfn v)) = [] := fun hm => f.no (by rw [if_neg (by simp [hm])] at hd; exact hd)
    simp only
    by_cases hz : t.con.size = P.maxSize
    · rw [if_pos hz]
      exact ⟨_, _, s, rfl, ⟨v, hx, ⟨rfl, Or.inl (by rw [← hsz, hz])⟩, hno⟩, I⟩
    rw [if_neg hz]
    obtain ⟨h2, t2, ex, s2, e2, I2, r2⟩ := placeNode_ok g I hx (hint := hint) hp.1 hno (fun _ => ⟨r.2, f⟩) vok thr
    rw [e2, R.ok_bind]
    cases ex with
    | none => exact ⟨_, _, s2, rfl, ⟨v, hx, rfl, hno, r2.1, r2.2⟩, I2⟩
    | some ex => exact ⟨_, _, s2, rfl, ⟨v, hx, r2, hno⟩, I2⟩

/-! ## Erasing -/

/-- Positions. -/
theorem split_at {hd : Nat} {X : List (Nat × α)} (hn : (hd :: ids X).Nodup) {p : Nat} (hp : p ∈ ids X) : ∃ A a B, X = A ++ [a] ++ B ∧ a.1 = p ∧ bef X p = A ∧ fro X p = a :: B := by
  simp only [ids, List.mem_map] at hp
  obtain ⟨a, ha, rfl⟩ := hp
  obtain ⟨A, B, e⟩ := List.append_of_mem ha
  have := bef_fro (hd := hd) (A := A) (B := a :: B) (by rw [← e]; exact hn)
  rw [atFirst_cons, ← e] at this
  exact ⟨A, a, B, by rw [e]; simp, rfl, this.1, this.2⟩

theorem Rep.oneX {P : Par α K} {h h' : Hp α} {t : Tab} {s : St α} {X' : List (Nat × α)} {n : Nat} {vec' : List Nat} (I : Rep P ⟨h, t⟩ s) (O : One h t.con s.X h' ⟨t.con.hd, n⟩ X')
    (B : BOK P t.mask t.con.hd vec' X') (hs : ∀ k, (X'.filter (eqk P k)).length ≤ (s.X.filter (eqk P k)).length) :
    Rep P ⟨h', { t with con := ⟨t.con.hd, n⟩, vec := vec' }⟩ { s with X := X' } := by
  have T := I.tok
  have := I.one (t' := { t with con := ⟨t.con.hd, n⟩, vec := vec' }) O ⟨O.wf, B, fun hm k => Nat.le_trans (hs k) (T.uniq hm k), T.pow, T.mask⟩ rfl
  have e : s.nb = t.maxidx := I.nb
  rw [show ({ s with X := X' } : St α) = { s with X := X', nb := t.maxidx } by rw [← e]]
  exact this

theorem sub_filter {X Y : List (Nat × α)} (h : X.Sublist Y) (p : Nat × α → Bool) : (X.filter p).length ≤ (Y.filter p).length := (h.filter _).length_le

theorem step_eraseAt {P : Par α K} {pg : Pg α} {s : St α} (I : Rep P pg s) {p : Nat} (hp : p ∈ ids s.X) : StepOk P pg s (.eraseAt p) := by
  obtain ⟨h, t⟩ := pg
  have hhd : s.hd = t.con.hd := I.hd
  obtain ⟨A, a, B, e, rfl, e1, e2⟩ := split_at I.hXX hp
  have W := I.tok.wf; simp only at W; rw [e] at W
  have K := I.tok.ok; simp only at K; rw [e] at K
  obtain ⟨h', vec', e3, O, B', l⟩ := eraseAt_ok W K
  unfold StepOk step
  simp only
  rw [e3, R.ok_bind]
  rw [← e] at O
  refine ⟨_, _, _, rfl, ⟨rfl, ?_⟩, ?_⟩
  · rw [e2, hhd]; rfl
  · rw [e1, e2]
    exact I.oneX O B' (fun k => sub_filter (by rw [e]; simp) _)

theorem step_eraseRange {P : Par α K} {pg : Pg α} {s : St α} (I : Rep P pg s) {p q : Nat} (hp : pre P s (.eraseRange p q)) : StepOk P pg s (.eraseRange p q) := by
  obtain ⟨h, t⟩ := pg
  have hhd : s.hd = t.con.hd := I.hd
  have hn := I.hXX
  obtain ⟨hp1, hq⟩ := hp
  obtain ⟨A, Y, e, e1, e2, e3⟩ : ∃ A Y, s.X = A ++ Y ∧ p = atFirst s.hd Y ∧ bef s.X p = A ∧ fro s.X p = Y := by
    rcases hp1 with rfl | hp1
    · refine ⟨s.X, [], by simp, rfl, ?_, ?_⟩
      · exact bef_none (List.nodup_cons.1 hn).1
      · exact fro_none (List.nodup_cons.1 hn).1
    · obtain ⟨A, a, B, e, rfl, h1, h2⟩ := split_at hn hp1
      exact ⟨A, a :: B, by rw [e]; simp, rfl, h1, h2⟩
  have hnY : (s.hd :: ids Y).Nodup := by
    rw [e] at hn; simp only [ids, List.map_append, List.nodup_cons, List.nodup_append, List.mem_append] at hn ⊢; tauto
  rw [e3] at hq
  obtain ⟨M, B, e4, e5, e6⟩ : ∃ M B, Y = M ++ B ∧ q = atFirst s.hd B ∧ fro Y q = B := by
    rcases hq with rfl | hq
    · exact ⟨Y, [], by simp, rfl, fro_none (List.nodup_cons.1 hnY).1⟩
    · obtain ⟨M, b, B, e, rfl, h1, h2⟩ := split_at hnY hq
      exact ⟨M, b :: B, by rw [e]; simp, rfl, h2⟩
  subst e4
  have eX : s.X = A ++ M ++ B := by rw [e]; simp
  have W := I.tok.wf; simp only at W; rw [eX] at W
  have K := I.tok.ok; simp only at K; rw [eX] at K
  obtain ⟨h', vec', e7, O, B', l⟩ := eraseRange_ok W K
  unfold StepOk step
  simp only
  rw [← hhd, ← e1, ← e5] at e7
  rw [e7, R.ok_bind]
  rw [← eX] at O
  refine ⟨_, _, _, rfl, ⟨rfl, rfl⟩, ?_⟩
  unfold without
  rw [e2, e3, e6, show (⟨s.hd, t.con.size - M.length⟩ : Con) = ⟨t.con.hd, t.con.size - M.length⟩ by rw [hhd]]
  exact I.oneX O B' (fun k => sub_filter (by rw [eX]; simp) _)

theorem drop_grp {P : Par α K} {k : K} {A G C : List (Nat × α)} (hA : ∀ a ∈ A, eqk P k a = false) (hG : ∀ a ∈ G, eqk P k a = true) (hC : ∀ a ∈ C, eqk P k a = false) :
    (A ++ G ++ C).filter (fun a => !P.eq k (P.kfn a.2)) = A ++ C := by
  have e1 : A.filter (fun a => !P.eq k (P.kfn a.2)) = A := List.filter_eq_self.2 (by intro a ha; have := hA a ha; simp [eqk] at this; simp [this])
  have e2 : C.filter (fun a => !P.eq k (P.kfn a.2)) = C := List.filter_eq_self.2 (by intro a ha; have := hC a ha; simp [eqk] at this; simp [this])
  have e3 : G.filter (fun a => !P.eq k (P.kfn a.2)) = [] := List.filter_eq_nil_iff.2 (by intro a ha; have := hG a ha; simp [eqk] at this; simp [this])
  rw [List.filter_append, List.filter_append, e1, e2, e3]; simp

/-- The elements with the key, and the others. -/
theorem key_split {P : Par α K} {mask hd : Nat} {vec : List Nat} {X : List (Nat × α)} (B : BOK P mask hd vec X) (k : K) :
    ∃ A C, X = A ++ X.filter (eqk P k) ++ C ∧ A ++ C = X.filter (fun a => !P.eq k (P.kfn a.2)) := by
  obtain ⟨A, C, e, hA, hC⟩ := (B.grp k).split
  refine ⟨A, C, e, ?_⟩
  have h1 : ∀ a ∈ X.filter (eqk P k), eqk P k a = true := fun a ha => (List.mem_filter.1 ha).2
  generalize X.filter (eqk P k) = G at *
  rw [e]; exact (drop_grp hA h1 hC).symm

theorem step_eraseKey {P : Par α K} (g : Good P) {pg : Pg α} {s : St α} (I : Rep P pg s) {k : K} : StepOk P pg s (.eraseKey k) := by
  obtain ⟨h, t⟩ := pg
  have hhd : s.hd = t.con.hd := I.hd
  have T := I.tok; simp only at T
  obtain ⟨A, C, e, ef⟩ := key_split T.ok k
  have W := T.wf
  have K' := T.ok
  unfold StepOk step eraseKey
  simp only
  cases hm : P.multi with
  | true =>
    rw [if_pos rfl]
    obtain ⟨q, e1, e2⟩ := equalRange_ok g T.wf T.ok T.uniq k
    rw [e1, R.ok_bind]
    simp only
    by_cases h0 : s.X.filter (eqk P k) = []
    · unfold eqEnd at e2; rw [if_pos h0] at e2
      have hr : eraseRange P h t (atFirst t.con.hd (s.X.filter (eqk P k))) q = .ok (h, t) := by
        unfold eraseRange; rw [if_pos (by rw [h0, e2]; rfl)]
      rw [hr, R.ok_bind, R.ok_bind]
      refine ⟨_, _, s, rfl, ⟨?_, rfl⟩, I⟩
      rw [← ef, show A ++ C = s.X by rw [e, h0]; simp]
    · unfold eqEnd at e2; rw [if_neg h0] at e2
      obtain ⟨A2, C2, e3, rfl⟩ := e2
      have hCA : A2 ++ C2 = A ++ C := by
        rw [ef]
        have h1 : ∀ a ∈ s.X.filter (eqk P k), eqk P k a = true := fun a ha => (List.mem_filter.1 ha).2
        have hl := congrArg (List.filter (eqk P k)) e3
        generalize s.X.filter (eqk P k) = G at *
        rw [List.filter_append, List.filter_append, filter_all h1] at hl
        have hl' := congrArg List.length hl
        simp only [List.length_append] at hl'
        have a0 : A2.filter (eqk P k) = [] := List.eq_nil_of_length_eq_zero (by omega)
        have c0 : C2.filter (eqk P k) = [] := List.eq_nil_of_length_eq_zero (by omega)
        rw [filter_none] at a0 c0
        rw [e3]; exact (drop_grp a0 h1 c0).symm
      have hf : atFirst t.con.hd (s.X.filter (eqk P k)) = atFirst t.con.hd (s.X.filter (eqk P k) ++ C2) := by rw [atFirst_app', if_neg h0]
      obtain ⟨h', vec', e7, O, B', l⟩ := eraseRange_ok (P := P) (t := t) (A := A2) (M := s.X.filter (eqk P k)) (B := C2) (by rw [← e3]; exact W) (by rw [← e3]; exact K')
      rw [hf, e7, R.ok_bind, R.ok_bind]
      rw [← e3] at O
      refine ⟨_, _, _, rfl, ⟨rfl, rfl⟩, ?_⟩
      rw [← ef, ← hCA]
      refine I.oneX O B' (fun k' => sub_filter ?_ _)
      rw [hCA, ef]; exact List.filter_sublist
  | false =>
    rw [if_neg (by simp)]
    obtain ⟨r, e1, f⟩ := findLast_ok g T.wf T.ok k
    rw [e1, R.ok_bind]
    have f' := f.found g (hint := none) (by simp)
    cases hr : r.2 with
    | none =>
      have h0 := f'.no hr
      refine ⟨_, _, s, rfl, ⟨?_, ?_⟩, I⟩
      · rw [← ef, show A ++ C = s.X by rw [e, h0]; simp]
      · show _ = Out.num (s.X.filter (eqk P k)).length
        rw [h0]; rfl
    | some d =>
      obtain ⟨u, hu⟩ := uniq_grp I hm (f'.yes d hr)
      have hu : s.X.filter (eqk P k) = [(d, u)] := hu
      have hk : P.eq k (P.kfn u) = true := by
        have : (d, u) ∈ s.X.filter (eqk P k) := by rw [hu]; simp
        exact (List.mem_filter.1 this).2
      rw [hu] at e
      rw [e] at W K'
      obtain ⟨h', vec', e3, O, B', l⟩ := eraseNode_ok W K'
      simp only at e3 ⊢
      rw [g.hash _ _ hk, e3, R.ok_bind, R.ok_bind]
      rw [← e] at O
      refine ⟨_, _, _, rfl, ⟨rfl, ?_⟩, ?_⟩
      · show _ = Out.num (s.X.filter (eqk P k)).length
        rw [hu]; rfl
      · rw [← ef]
        exact I.oneX O B' (fun k' => sub_filter (by rw [e]; simp) _)

theorem step_clear {P : Par α K} {pg : Pg α} {s : St α} (I : Rep P pg s) : StepOk P pg s .clear := by
  obtain ⟨h, t⟩ := pg
  have T := I.tok; simp only at T
  obtain ⟨h', vec', e, O, B, l⟩ := clearTab_ok (P := P) (t := t) (Dn := s.X) (Td := []) (by simpa using T.wf) T.ok I.zero
  unfold StepOk step; simp only
  rw [e, R.ok_bind]
  rw [List.append_nil] at O
  exact ⟨_, _, _, rfl, ⟨rfl, rfl⟩, I.oneX O B (fun k => by simp)⟩

/-! ## Rehashing -/

theorem rehash_ok {P : Par α K} (g : Good P) {h : Hp α} {t : Tab} {s : St α} (I : Rep P ⟨h, t⟩ s) (n : Nat) (vok : Bool) (thr : Option Nat) :
    ∃ h' t' e s', rehash P h t n vok thr = .ok (h', t', e) ∧ rehashed P n vok thr s s' (outR e) ∧ Rep P ⟨h', t'⟩ s' := by
  have hlf : s.lf = t.lf := I.lf
  have hsz : t.con.size = s.X.length := I.size
  have hnb : s.nb = t.maxidx := I.nb
  have T := I.tok; simp only at T
  have h8 := T.eight
  unfold rehash
  simp only
  rw [hsz, ← hlf, ← hnb]
  by_cases hb : max (s.lf.minBk s.X.length) n ≤ s.nb
  · rw [if_pos hb]
    exact ⟨h, t, none, s, rfl, ⟨fun _ => rfl, by omega, by omega, Nat.le_refl _, rfl, fun _ => rfl⟩, I⟩
  rw [if_neg hb]
  obtain ⟨h1, t1, e, X1, e1, T1, O, l1, R1⟩ := forcedRehash_ok g T I.zero (buckets := max (s.lf.minBk s.X.length) n) (by omega) vok thr
  have I1 := I.one O T1 l1
  rw [e1]
  cases e with
  | some e =>
    cases e <;> simp only [RehashRes] at R1
    · obtain ⟨rfl, rfl, hv⟩ := R1
      exact ⟨_, _, _, _, rfl, ⟨by rw [← hnb], hv⟩, I1⟩
    · obtain ⟨rfl, rfl, hv⟩ := R1
      exact ⟨_, _, _, _, rfl, ⟨by rw [← hnb], hv⟩, I1⟩
    · obtain ⟨rfl, hv⟩ := R1
      exact ⟨_, _, _, _, rfl, ⟨rfl, hv⟩, I1⟩
  | none =>
    simp only [RehashRes] at R1
    refine ⟨_, _, _, _, rfl, ?_, I1⟩
    have h2 := R1.2
    exact ⟨R1.1, show n ≤ t1.maxidx by omega, show _ ≤ t1.maxidx by omega, show _ ≤ t1.maxidx by omega, rfl, fun h => absurd h hb⟩

theorem step_rehash {P : Par α K} (g : Good P) {pg : Pg α} {s : St α} (I : Rep P pg s) {n : Nat} {vok : Bool} {thr : Option Nat} : StepOk P pg s (.rehash n vok thr) := by
  obtain ⟨h, t⟩ := pg
  obtain ⟨h', t', e, s', e1, r, I'⟩ := rehash_ok g I n vok thr
  unfold StepOk step; simp only
  rw [e1, R.ok_bind]
  exact ⟨_, _, s', rfl, r, I'⟩

theorem step_reserve {P : Par α K} (g : Good P) {pg : Pg α} {s : St α} (I : Rep P pg s) {n : Nat} {vok : Bool} {thr : Option Nat} : StepOk P pg s (.reserve n vok thr) := by
  obtain ⟨h, t⟩ := pg
  obtain ⟨h', t', e, s', e1, r, I'⟩ := rehash_ok g I (s.lf.minBk n) vok thr
  unfold StepOk step reserve; simp only
  rw [← show s.lf = t.lf from I.lf, e1, R.ok_bind]
  exact ⟨_, _, s', rfl, r, I'⟩

/-! ## Node handles -/

theorem step_extractAt {P : Par α K} {pg : Pg α} {s : St α} (I : Rep P pg s) {p : Nat} (hp : p ∈ ids s.X) : StepOk P pg s (.extractAt p) := by
  obtain ⟨h, t⟩ := pg
  obtain ⟨A, a, B, e, rfl, e1, e2⟩ := split_at I.hXX hp
  obtain ⟨vec', h', e3, e4, I'⟩ := I.take e
  unfold StepOk step extractAt bucket; simp only
  have W := I.tok.wf; simp only at W
  rw [WF.valAt (a := a) W (by rw [e]; simp), R.ok_bind, e3, R.ok_bind]
  simp only
  rw [e4, R.ok_bind, R.ok_bind]
  refine ⟨_, _, _, rfl, ⟨a.2, by rw [e]; simp, rfl, rfl⟩, ?_⟩
  rw [e1, e2]; exact I'

theorem step_extractKey {P : Par α K} (g : Good P) {pg : Pg α} {s : St α} (I : Rep P pg s) {k : K} : StepOk P pg s (.extractKey k) := by
  obtain ⟨h, t⟩ := pg
  have T := I.tok; simp only at T
  have W := T.wf
  have hhd : s.hd = t.con.hd := I.hd
  have key : ∀ r, r = (match s.X.filter (eqk P k) with | [] => none | a :: _ => some a.1) → ∃ g' out s', (do
      let r ← (match r with
        | none => .ok (h, t, none)
        | some p => do
          let t ← eraseBucket h t p (P.hash k &&& t.mask)
          let r ← unlinkNode h t.con p
          .ok (r.1, { t with con := r.2 }, some p) : R (Hp α × Tab × Option Nat))
      .ok (⟨r.1, r.2.1⟩, .node r.2.2) : R (Pg α × Out α)) = .ok (g', out) ∧ sem P s (.extractKey k) s' out ∧ Rep P g' s' := by
    intro r hr
    unfold sem; simp only
    have eg : grp P k s.X = s.X.filter (eqk P k) := rfl
    rw [eg]
    cases hG : s.X.filter (eqk P k) with
    | nil => rw [hG] at hr; subst hr; exact ⟨_, _, s, rfl, ⟨rfl, rfl⟩, I⟩
    | cons a G =>
      rw [hG] at hr; subst hr
      have ha : a ∈ s.X.filter (eqk P k) := by rw [hG]; simp
      obtain ⟨h1, h2⟩ := List.mem_filter.1 ha
      obtain ⟨A, a', B, e, e0, e1, e2⟩ := split_at I.hXX (mem_ids h1)
      have : a' = a := nodup_inj (List.nodup_cons.1 I.hXX).2 (by rw [e]; simp) h1 e0
      subst this
      obtain ⟨vec', h', e3, e4, I'⟩ := I.take e
      simp only
      rw [g.hash _ _ h2, e3, R.ok_bind]
      simp only
      rw [e4, R.ok_bind, R.ok_bind]
      refine ⟨_, _, _, rfl, ⟨rfl, rfl⟩, ?_⟩
      rw [e1, e2]; exact I'
  unfold StepOk step extractKey; simp only
  cases hm : P.multi with
  | true =>
    rw [if_pos rfl, findFirst_ok g T.wf T.ok k, R.ok_bind, R.ok_bind]
    apply key
    have hfd := first_hd (hd := t.con.hd) (X := s.X) (Y := s.X.filter (eqk P k)) W.nd (fun q hq => filter_ids hq)
    cases hG : s.X.filter (eqk P k) with
    | nil => simp [atFirst]
    | cons a G => rw [hG] at hfd; simp only; rw [if_neg (fun h => by simpa using hfd.1 h)]; rfl
  | false =>
    rw [if_neg (by simp)]
    obtain ⟨r, e1, f⟩ := findLast_ok g T.wf T.ok k
    rw [e1, R.ok_bind, R.ok_bind]
    apply key
    have f' := f.found g (hint := none) (by simp)
    cases hr : r.2 with
    | none => rw [f'.no hr]
    | some d =>
      obtain ⟨u, hu⟩ := uniq_grp I hm (f'.yes d hr)
      have hu : s.X.filter (eqk P k) = [(d, u)] := hu
      rw [hu]

theorem step_dropNode {P : Par α K} {pg : Pg α} {s : St α} (I : Rep P pg s) {x : Nat} (hx : x ∈ ids s.H) : StepOk P pg s (.dropNode x) := by
  obtain ⟨h, t⟩ := pg
  obtain ⟨h', e, I'⟩ := I.free hx
  unfold StepOk step; simp only
  rw [e, R.ok_bind]
  exact ⟨_, _, _, rfl, ⟨rfl, rfl⟩, I'⟩

theorem step_writeNode {P : Par α K} {pg : Pg α} {s : St α} (I : Rep P pg s) {x : Nat} {v : α} (hx : x ∈ ids s.H) : StepOk P pg s (.writeNode x v) := by
  obtain ⟨h, t⟩ := pg
  have lx : live h x := I.hLive hx
  have hd := I.hX hx
  have hxm := hx
  simp only [ids, List.mem_map] at hxm
  obtain ⟨⟨x', u⟩, hu, rfl⟩ := hxm
  obtain ⟨l, eu⟩ := I.han _ hu
  simp only at hx lx hd eu ⊢
  obtain ⟨h', eh⟩ : ∃ h', h' = put h x' ⟨nx h x', pv h x', some v⟩ := ⟨_, rfl⟩
  have e1 : setV h x' v = .ok h' := by unfold setV; rw [nd_live lx, R.ok_bind]; simp only [eu]; rw [eh]
  have fr : ∀ q, q ≠ x' → h' q = h q := fun q hq => by simp [eh, put, hq]
  unfold StepOk step; simp only
  rw [e1, R.ok_bind]
  have eids : ids (s.H.map fun a => if a.1 = x' then (x', v) else a) = ids s.H := by
    unfold ids; rw [List.map_map]; apply List.map_congr_left; intro a _; simp only [Function.comp]; split <;> simp_all
  refine ⟨_, _, _, rfl, ⟨rfl, rfl⟩, I.tok.frame ?_, I.hd, I.nb, I.lf, ?_, ?_, ?_, ?_⟩
  · rintro q (rfl | h1) <;> apply fr
    · rintro e; exact hd.1 (e ▸ I.hd.symm)
    · rintro rfl; exact hd.2 h1
  · intro a ha
    simp only [List.mem_map] at ha
    obtain ⟨b, hb, rfl⟩ := ha
    by_cases hbx : b.1 = x'
    · rw [if_pos hbx]; simp only; rw [eh]
      exact ⟨live_put.2 (Or.inl rfl), by rw [vl_put, if_pos rfl]⟩
    · rw [if_neg hbx]
      have e := vl_congr (fr b.1 hbx)
      rw [e.1, e.2]; exact I.han b hb
  · have hn := I.nd; unfold adr at hn ⊢; simp only; rw [eids]; exact hn
  · intro q hq
    have : q ∈ adr s := by
      by_cases hqx : q = x'
      · subst hqx; rw [mem_adr]; exact Or.inr (Or.inr hx)
      · have hq' : h' q ≠ none := hq
        rw [fr q hqx] at hq'; exact I.cover q hq'
    rw [mem_adr] at this ⊢; simp only; rw [eids]; exact this
  · show h' 0 = none
    rw [fr 0 (by rintro rfl; exact lx I.zero)]; exact I.zero

/-! ## Observation -/

theorem inBucket_eq {P : Par α K} {h : Hp α} {t : Tab} {X : List (Nat × α)} (T : TOK P h t X) (b : Nat) : inBucket P t.maxidx b X = X.filter (inB P t.mask b) := by
  obtain ⟨n, _, e⟩ := T.pow
  have hm := T.mask
  unfold inBucket inB
  congr 1; funext a
  rw [show t.mask = 2 ^ n - 1 by omega, e, Nat.and_two_pow_sub_one_eq_mod]

theorem range_mid {hd : Nat} {A M B : List (Nat × α)} (hn : (hd :: ids (A ++ M ++ B)).Nodup) (hM : M ≠ []) : range (A ++ M ++ B) (atFirst hd M) (atFirst hd B) = M := by
  unfold range
  have e : atFirst hd M = atFirst hd (M ++ B) := by rw [atFirst_app', if_neg hM]
  rw [e, List.append_assoc, (bef_fro (by rw [← List.append_assoc]; exact hn)).2]
  exact (bef_fro (hd := hd) (by simp only [ids, List.map_append, List.nodup_cons, List.nodup_append, List.mem_append] at hn ⊢; grind)).1

theorem range_hd {hd : Nat} {X : List (Nat × α)} (hn : (hd :: ids X).Nodup) : range X hd hd = [] := by
  unfold range; rw [fro_none (List.nodup_cons.1 hn).1]; rfl

theorem step_find {P : Par α K} (g : Good P) {pg : Pg α} {s : St α} (I : Rep P pg s) {k : K} : StepOk P pg s (.find k) := by
  obtain ⟨h, t⟩ := pg
  have T := I.tok; simp only at T
  have hhd : s.hd = t.con.hd := I.hd
  have key : find P h t k = .ok (atFirst t.con.hd (s.X.filter (eqk P k))) := by
    unfold find
    cases hm : P.multi with
    | true => rw [if_pos rfl]; exact findFirst_ok g T.wf T.ok k
    | false =>
      rw [if_neg (by simp)]
      obtain ⟨r, e1, f⟩ := findLast_ok g T.wf T.ok k
      rw [e1, R.ok_bind]
      have f' := f.found g (hint := none) (by simp)
      cases hr : r.2 with
      | none => simp only; rw [f'.no hr]; rfl
      | some d =>
        obtain ⟨u, hu⟩ := uniq_grp I hm (f'.yes d hr)
        have hu : s.X.filter (eqk P k) = [(d, u)] := hu
        simp only; rw [hu]; rfl
  unfold StepOk step; simp only
  rw [key, R.ok_bind]
  refine ⟨_, _, s, rfl, ⟨rfl, ?_⟩, I⟩
  rw [hhd]; rfl

theorem step_contains {P : Par α K} (g : Good P) {pg : Pg α} {s : St α} (I : Rep P pg s) {k : K} : StepOk P pg s (.contains k) := by
  obtain ⟨h, t⟩ := pg
  have T := I.tok; simp only at T
  obtain ⟨r, e1, f⟩ := findLast_ok g T.wf T.ok k
  unfold StepOk step contains; simp only
  rw [e1, R.ok_bind, R.ok_bind]
  refine ⟨_, _, s, rfl, ⟨rfl, ?_⟩, I⟩
  have := f.dup
  show Out.bool _ = Out.bool (decide (s.X.filter (eqk P k) ≠ []))
  congr 1
  cases hr : r.2.isSome
  · rw [hr] at this; simp only [Bool.false_eq_true, false_iff, ne_eq, not_not] at this; simp [this]
  · rw [hr] at this; simp only [true_iff] at this; rw [decide_eq_true this]

theorem step_count {P : Par α K} (g : Good P) {pg : Pg α} {s : St α} (I : Rep P pg s) {k : K} : StepOk P pg s (.count k) := by
  obtain ⟨h, t⟩ := pg
  have T := I.tok; simp only at T
  have key : count P h t k = .ok (s.X.filter (eqk P k)).length := by
    unfold count
    cases hm : P.multi with
    | true =>
      rw [if_pos rfl]
      obtain ⟨q, e1, e2⟩ := equalRange_ok g T.wf T.ok T.uniq k
      rw [e1, R.ok_bind]
    | false =>
      rw [if_neg (by simp)]
      obtain ⟨r, e1, f⟩ := findLast_ok g T.wf T.ok k
      rw [e1, R.ok_bind]
      have f' := f.found g (hint := none) (by simp)
      cases hr : r.2 with
      | none => rw [f'.no hr]; rfl
      | some d =>
        obtain ⟨u, hu⟩ := uniq_grp I hm (f'.yes d hr)
        have hu : s.X.filter (eqk P k) = [(d, u)] := hu
        rw [hu]; rfl
  unfold StepOk step; simp only
  rw [key, R.ok_bind]
  exact ⟨_, _, s, rfl, ⟨rfl, rfl⟩, I⟩

theorem step_equalRange {P : Par α K} (g : Good P) {pg : Pg α} {s : St α} (I : Rep P pg s) {k : K} : StepOk P pg s (.equalRange k) := by
  obtain ⟨h, t⟩ := pg
  have T := I.tok; simp only at T
  have hhd : s.hd = t.con.hd := I.hd
  have hn := I.hXX
  obtain ⟨q, e1, e2⟩ := equalRange_ok g T.wf T.ok T.uniq k
  unfold StepOk step; simp only
  rw [e1, R.ok_bind]
  refine ⟨_, _, s, rfl, ⟨rfl, _, _, rfl, ?_⟩, I⟩
  show range s.X _ q = s.X.filter (eqk P k) ∧ (s.X.filter (eqk P k) = [] → _)
  unfold eqEnd at e2
  by_cases h0 : s.X.filter (eqk P k) = []
  · rw [if_pos h0] at e2; rw [h0, e2, ← hhd]
    refine ⟨range_hd hn, fun _ => ⟨rfl, rfl⟩⟩
  · rw [if_neg h0] at e2
    obtain ⟨A, C, e3, rfl⟩ := e2
    refine ⟨?_, fun h => absurd h h0⟩
    rw [e3] at hn
    simp only
    generalize s.X.filter (eqk P k) = G at *
    rw [e3, ← hhd]; exact range_mid hn h0

theorem lt_nb {P : Par α K} {h : Hp α} {t : Tab} {s : St α} (I : Rep P ⟨h, t⟩ s) {b : Nat} (hb : b < s.nb) : b ≤ t.mask := by
  have := I.tok.mask; have e : s.nb = t.maxidx := I.nb; simp only at this; omega

theorem bucket_split {P : Par α K} {h : Hp α} {t : Tab} {s : St α} (I : Rep P ⟨h, t⟩ s) (b : Nat) : inBucket P s.nb b s.X = s.X.filter (inB P t.mask b) := by
  rw [show s.nb = t.maxidx from I.nb]; exact inBucket_eq I.tok b

theorem step_beginB {P : Par α K} {pg : Pg α} {s : St α} (I : Rep P pg s) {b : Nat} (hb : b < s.nb) : StepOk P pg s (.beginB b) := by
  obtain ⟨h, t⟩ := pg
  unfold StepOk step beginB; simp only
  rw [shl1, vget_ok (I.tok.ok.lo b (lt_nb I hb)), R.ok_bind]
  refine ⟨_, _, s, rfl, ⟨rfl, ?_⟩, I⟩
  rw [bucket_split I, show s.hd = t.con.hd from I.hd]

/-- the end of a bucket -/
theorem endB_ok {P : Par α K} {h : Hp α} {t : Tab} {X A C : List (Nat × α)} (T : TOK P h t X) {b : Nat} (hb : b ≤ t.mask) (e : X = A ++ X.filter (inB P t.mask b) ++ C) :
    endB h t b = .ok (if X.filter (inB P t.mask b) = [] then t.con.hd else atFirst t.con.hd C) := by
  have W := T.wf
  unfold endB
  rw [shl1, vget_ok (T.ok.hi b hb), R.ok_bind]
  by_cases hF : X.filter (inB P t.mask b) = []
  · rw [if_pos hF, hF]; simp [atLast, atFirst]
  · rw [if_pos (fun hh => hF ((last_hd W.nd fun q hq => filter_ids hq).1 hh)), if_neg hF]
    generalize X.filter (inB P t.mask b) = F at *
    rcases List.eq_nil_or_concat F with h0 | ⟨F', w, rfl⟩
    · exact absurd h0 hF
    rw [List.concat_eq_append] at *
    rw [atLast_snoc, WF.ndAt (A := A ++ F') (a := w) (B := C) (by rw [e] at W; simpa using W), R.ok_bind]

theorem step_endB {P : Par α K} {pg : Pg α} {s : St α} (I : Rep P pg s) {b : Nat} (hb : b < s.nb) : StepOk P pg s (.endB b) := by
  obtain ⟨h, t⟩ := pg
  have T := I.tok; simp only at T
  have hhd : s.hd = t.con.hd := I.hd
  have hn := I.hXX
  obtain ⟨A, C, e, _, _⟩ := (T.ok.cont b).split
  unfold StepOk step; simp only
  rw [endB_ok T (lt_nb I hb) e, R.ok_bind]
  refine ⟨_, _, s, rfl, ⟨rfl, _, rfl, ?_⟩, I⟩
  rw [bucket_split I]
  by_cases hF : s.X.filter (inB P t.mask b) = []
  · rw [if_pos hF, hF, ← hhd]; exact ⟨range_hd hn, fun _ => rfl⟩
  · rw [if_neg hF]
    refine ⟨?_, fun h => absurd h hF⟩
    rw [e] at hn
    generalize s.X.filter (inB P t.mask b) = G at *
    rw [e, ← hhd]; exact range_mid hn hF

theorem step_bucketSize {P : Par α K} {pg : Pg α} {s : St α} (I : Rep P pg s) {b : Nat} (hb : b < s.nb) : StepOk P pg s (.bucketSize b) := by
  obtain ⟨h, t⟩ := pg
  have T := I.tok; simp only at T
  have hb' := lt_nb I hb
  have W := T.wf
  have key : bucketSize h t b = .ok (s.X.filter (inB P t.mask b)).length := by
    obtain ⟨A, C, e, _, _⟩ := (T.ok.cont b).split
    unfold bucketSize
    rw [shl1, vget_ok (T.ok.lo b hb'), R.ok_bind]
    by_cases hF : s.X.filter (inB P t.mask b) = []
    · rw [hF, if_pos (by rfl)]; rfl
    · rw [if_neg (fun hh => hF ((first_hd W.nd fun q hq => filter_ids hq).1 hh)), vget_ok (T.ok.hi b hb'), R.ok_bind]
      have hl : (s.X.filter (inB P t.mask b)).length ≤ s.X.length := List.length_filter_le _ _
      have hsz := W.size
      generalize s.X.filter (inB P t.mask b) = F at *
      rcases List.eq_nil_or_concat F with h0 | ⟨F', w, rfl⟩
      · exact absurd h0 hF
      rw [List.concat_eq_append] at *
      rw [atLast_snoc]
      have := dist_spec (f := t.con.size + 1) (A := A) (M := F') (N := [w] ++ C) (by rw [e] at W; simpa using W) (by rw [hsz]; simp at hl; omega)
      rw [show atFirst t.con.hd (F' ++ ([w] ++ C)) = atFirst t.con.hd (F' ++ [w]) by rw [← List.append_assoc, atFirst_app', if_neg (by simp)], show atFirst t.con.hd ([w] ++ C) = w.1 from rfl] at this
      rw [this, R.ok_bind]; simp
  unfold StepOk step; simp only
  rw [key, R.ok_bind]
  refine ⟨_, _, s, rfl, ⟨rfl, ?_⟩, I⟩
  rw [bucket_split I]

theorem step_next {P : Par α K} {pg : Pg α} {s : St α} (I : Rep P pg s) {p : Nat} (hp : p ∈ ids s.X) : StepOk P pg s (.next p) := by
  obtain ⟨h, t⟩ := pg
  obtain ⟨A, a, B, e, rfl, e1, e2⟩ := split_at I.hXX hp
  have W := I.tok.wf; simp only at W; rw [e] at W
  unfold StepOk step next; simp only
  rw [WF.ndAt W, R.ok_bind, R.ok_bind]
  refine ⟨_, _, s, rfl, ⟨rfl, ?_⟩, I⟩
  rw [e2, show s.hd = t.con.hd from I.hd]; rfl

theorem step_deref {P : Par α K} {pg : Pg α} {s : St α} (I : Rep P pg s) {p : Nat} (hp : p ∈ ids s.X) : StepOk P pg s (.deref p) := by
  obtain ⟨h, t⟩ := pg
  simp only [ids, List.mem_map] at hp
  obtain ⟨a, ha, rfl⟩ := hp
  unfold StepOk step; simp only
  rw [WF.valAt I.tok.wf ha, R.ok_bind]
  exact ⟨_, _, s, rfl, ⟨a.2, ha, rfl, rfl⟩, I⟩

/-! ## Assignment to an element -/

theorem atFirst_map {hd : Nat} {X : List (Nat × α)} {f : Nat × α → Nat × α} (h : ∀ a ∈ X, (f a).1 = a.1) : atFirst hd (X.map f) = atFirst hd X := by
  cases X with
  | nil => rfl
  | cons a X => exact h a (by simp)

theorem atLast_map {hd : Nat} {X : List (Nat × α)} {f : Nat × α → Nat × α} (h : ∀ a ∈ X, (f a).1 = a.1) : atLast hd (X.map f) = atLast hd X := by
  rcases List.eq_nil_or_concat X with rfl | ⟨Y, a, rfl⟩
  · rfl
  · rw [List.concat_eq_append, List.map_append, List.map_cons, List.map_nil, atLast_snoc, atLast_snoc]; exact h a (by simp)

theorem filter_map_eq {X : List (Nat × α)} {f : Nat × α → Nat × α} {p : Nat × α → Bool} (h : ∀ a ∈ X, p (f a) = p a) : (X.map f).filter p = (X.filter p).map f := by
  rw [List.filter_map]; congr 1
  apply List.filter_congr; intro a ha; exact h a ha

theorem Contig.map {X : List (Nat × α)} {f : Nat × α → Nat × α} {p : Nat × α → Bool} (c : Contig p X) (h : ∀ a ∈ X, p (f a) = p a) : Contig p (X.map f) := by
  obtain ⟨A, B, C, e, h1, h2, h3⟩ := c
  subst e
  refine ⟨A.map f, B.map f, C.map f, by simp, ?_, ?_, ?_⟩ <;> intro a ha <;> simp only [List.mem_map] at ha <;> obtain ⟨b, hb, rfl⟩ := ha
  · rw [h b (by simp [hb]), h1 b hb]
  · rw [h b (by simp [hb]), h2 b hb]
  · rw [h b (by simp [hb]), h3 b hb]

theorem step_write {P : Par α K} {pg : Pg α} {s : St α} (I : Rep P pg s) {p : Nat} {v : α} (hp : pre P s (.write p v)) : StepOk P pg s (.write p v) := by
  obtain ⟨h, t⟩ := pg
  obtain ⟨u, hu, hk⟩ := hp
  obtain ⟨A, a, B, e, e0, e1, e2⟩ := split_at I.hXX (mem_ids hu)
  have hau : a = (p, u) := nodup_inj (List.nodup_cons.1 I.hXX).2 (by rw [e]; simp) hu e0
  subst hau
  have T := I.tok; simp only at T
  have hn := I.hXX
  have e : s.X = A ++ (p, u) :: B := by rw [e]; simp
  have W := T.wf; rw [e] at W
  obtain ⟨h', e3, O⟩ := setV_ok W v
  simp only at e3 O
  have em : (s.X.map fun a => if a.1 = p then (p, v) else a) = A ++ (p, v) :: B := by
    have q1 : ∀ a ∈ A, a.1 ≠ p := by
      intro a ha h; rw [e] at hn
      have := mem_ids ha
      simp only [ids, List.map_append, List.map_cons, List.nodup_cons, List.nodup_append, List.mem_cons] at hn this; grind
    have q2 : ∀ a ∈ B, a.1 ≠ p := by
      intro a ha h; rw [e] at hn
      have := mem_ids ha
      simp only [ids, List.map_append, List.map_cons, List.nodup_cons, List.nodup_append, List.mem_cons] at hn this; grind
    rw [e, List.map_append, List.map_cons, if_pos rfl, List.map_congr_left (g := id) (by intro a ha; simp [q1 a ha]), List.map_congr_left (g := id) (l := B) (by intro a ha; simp [q2 a ha])]; simp
  have hid : ∀ a ∈ s.X, ((fun a => if a.1 = p then (p, v) else a : Nat × α → Nat × α) a).1 = a.1 := by intro a _; simp only; split <;> simp_all
  have hkf : ∀ a ∈ s.X, P.kfn ((fun a => if a.1 = p then (p, v) else a : Nat × α → Nat × α) a).2 = P.kfn a.2 := by
    intro a ha; simp only; split
    · rename_i h
      have := nodup_inj (List.nodup_cons.1 hn).2 ha hu h
      subst this; exact hk.symm
    · rfl
  unfold StepOk step; simp only
  rw [e3, R.ok_bind]
  refine ⟨_, _, _, rfl, ⟨rfl, rfl⟩, ?_⟩
  rw [← em, ← e] at O
  generalize hf : (fun a => if a.1 = p then (p, v) else a : Nat × α → Nat × α) = f at *
  have hb : ∀ b, ∀ a ∈ s.X, inB P t.mask b (f a) = inB P t.mask b a := by intro b a ha; unfold inB; rw [hkf a ha]
  have hq : ∀ k, ∀ a ∈ s.X, eqk P k (f a) = eqk P k a := by intro k a ha; unfold eqk; rw [hkf a ha]
  have := I.oneX (n := t.con.size) (vec' := t.vec) O ⟨?_, ?_, ?_, ?_⟩ (fun k => by rw [filter_map_eq (hq k)]; simp)
  · exact this
  · intro b hb'; rw [filter_map_eq (hb b), atFirst_map (fun a ha => hid a (List.mem_filter.1 ha).1)]; exact T.ok.lo b hb'
  · intro b hb'; rw [filter_map_eq (hb b), atLast_map (fun a ha => hid a (List.mem_filter.1 ha).1)]; exact T.ok.hi b hb'
  · intro b; exact (T.ok.cont b).map (hb b)
  · intro k; exact (T.ok.grp k).map (hq k)

theorem step_ok {P : Par α K} (g : Good P) {pg : Pg α} {s : St α} (I : Rep P pg s) {op : Op α K} (hp : pre P s op) : StepOk P pg s op := by
  cases op with
  | emplace => exact step_emplace g I hp
  | insertNode => exact step_insertNode g I hp
  | extractAt => exact step_extractAt I hp
  | extractKey => exact step_extractKey g I
  | dropNode => exact step_dropNode I hp
  | writeNode => exact step_writeNode I hp
  | eraseAt => exact step_eraseAt I hp
  | eraseRange => exact step_eraseRange I hp
  | eraseKey => exact step_eraseKey g I
  | clear => exact step_clear I
  | rehash => exact step_rehash g I
  | reserve => exact step_reserve g I
  | maxLoad lf => exact ⟨_, _, { s with lf := lf }, rfl, ⟨rfl, rfl⟩, ⟨I.tok.wf, I.tok.ok, I.tok.uniq, I.tok.pow, I.tok.mask⟩, I.hd, I.nb, rfl, I.han, I.nd, I.cover, I.zero⟩
  | find => exact step_find g I
  | contains => exact step_contains g I
  | count => exact step_count g I
  | equalRange => exact step_equalRange g I
  | size => exact ⟨pg, _, s, rfl, ⟨rfl, by rw [I.size]⟩, I⟩
  | bucketCount => exact ⟨pg, _, s, rfl, ⟨rfl, by rw [I.nb]⟩, I⟩
  | bucket k =>
    refine ⟨pg, _, s, rfl, ⟨rfl, ?_⟩, I⟩
    obtain ⟨n, _, e⟩ := I.tok.pow
    have hm := I.tok.mask
    unfold bucket
    rw [show pg.t.mask = 2 ^ n - 1 by omega, I.nb, e, Nat.and_two_pow_sub_one_eq_mod]
  | beginB => exact step_beginB I hp
  | endB => exact step_endB I hp
  | bucketSize => exact step_bucketSize I hp
  | begin =>
    refine ⟨pg, _, s, ?_, ⟨rfl, rfl⟩, I⟩
    unfold step; simp only
    rw [WF.ndHd I.tok.wf, R.ok_bind, I.hd]
  | next => exact step_next I hp
  | deref => exact step_deref I hp
  | write => exact step_write I hp

theorem run_ok {P : Par α K} (g : Good P) (c : Client α K) : ∀ {pg : Pg α} {s : St α}, Rep P pg s → Legal P s c →
    ∃ pg' tr s', run P pg c = .ok (pg', tr) ∧ SpecRun P s c tr s' ∧ Rep P pg' s' := by
  induction c with
  | done => intro pg s I _; exact ⟨pg, [], s, rfl, .done, I⟩
  | call op k ih =>
    intro pg s I L
    obtain ⟨g1, out, s1, e1, h1, I1⟩ := step_ok g I L.1
    obtain ⟨g2, tr, s2, e2, h2, I2⟩ := ih out I1 (L.2 s1 out h1)
    refine ⟨g2, (op, out) :: tr, s2, ?_, .call L.1 h1 h2, I2⟩
    unfold run
    rw [e1, R.ok_bind, e2, R.ok_bind]

theorem init_ok (P : Par α K) (x : Nat) (h0 : x ≠ 0) (lf : LF) : ∃ h : Hp α, newHead (fun _ => none) x = .ok h ∧ Rep P ⟨h, newTab ⟨x, 0⟩ lf⟩ (empty x lf) := by
  obtain ⟨h, e, W, fr⟩ := newHead_ok (α := α) (h := fun _ => none) (x := x) rfl h0
  refine ⟨h, e, ⟨W, BOK.empty (show 2 * 7 + 1 < 8 * 2 by omega), by simp [empty], ⟨3, by omega, rfl⟩, rfl⟩, rfl, rfl, rfl, by simp [empty], by simp [adr, empty], ?_, ?_⟩
  · intro q hq
    rw [mem_adr]; by_contra hh; exact hq (fr q (fun e => hh (Or.inl e)))
  · exact fr 0 (Ne.symm h0)

end STL.UH
