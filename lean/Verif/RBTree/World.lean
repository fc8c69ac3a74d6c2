import Verif.RBTree.Ops2

/-! # All containers of a program: the code refines the list specification. Proofs only. -/

namespace STL.RBT
open STL
variable {α κ : Type}

theorem find_unique {key : α → κ} {lt : κ → κ → Bool} (o : SWO lt) {X : List (Nat × α)} (hS : SrtU key lt X) {k : κ} {a : Nat × α} (ha : a ∈ X) (he : eqv key lt k a = true) :
    X.find? (eqv key lt k) = some a := by
  obtain ⟨A, B, rfl⟩ := List.append_of_mem ha
  rw [SrtU, List.pairwise_append] at hS
  have hA : A.find? (eqv key lt k) = none := by
    apply List.find?_eq_none.2
    intro b hb
    have := hS.2.2 b hb a (by simp)
    simp only [eqv, Bool.and_eq_true, Bool.not_eq_true'] at he ⊢
    rintro ⟨h1, h2⟩
    have := o.equiv_trans _ _ _ h1 h2 he.2 he.1
    simp_all
  rw [List.find?_append, hA]; simp [he]

/-- the common shape of an insertion -/
def InsOK (key : α → κ) (lt : κ → κ → Bool) (h : Hp α) (c : Con) (m : Bool) (x : Option Nat) (run : R (Hp α × Con × Nat × Bool × Option Exc)) (res : List (Nat × α) × Out) (X : List (Nat × α)) : Prop :=
  ∃ h' c' r, run = .ok (h', c', r) ∧ outIns r = res.2 ∧ CWF h' c' res.1 ∧ c'.hd = c.hd ∧ SrtM key lt m res.1 ∧ Same c.hd res.1 h h' ∧
    (∀ q ∈ res.1.map Prod.fst, q ∈ X.map Prod.fst ∨ x = some q) ∧ (∀ q ∈ X.map Prod.fst, q ∈ res.1.map Prod.fst)

theorem uins_ok {key : α → κ} {lt : κ → κ → Bool} (o : SWO lt) {maxsz : Nat} {h : Hp α} {c : Con} {X : List (Nat × α)} {v : α} {x : Option Nat} {run : R (Hp α × Con × Nat × Bool × Option Exc)}
    {put : Nat × α → List (Nat × α) → List (Nat × α)} (hS : SrtU key lt X)
    (H : ∃ h' c' p b e X', run = .ok (h', c', p, b, e) ∧ UIns key lt c.hd maxsz X x v p b e X' ∧ CWF h' c' X' ∧ c'.hd = c.hd ∧ SrtU key lt X' ∧ Same c.hd X' h h') :
    InsOK key lt h c false x run (insSpec key lt maxsz false ⟨c.hd, false, X⟩ v x put) X := by
  obtain ⟨h', c', p, b, e, X', r1, hU, W', hd', hS', S'⟩ := H
  have hno : (∀ a ∈ X, ¬ (lt (key a.2) (key v) = false ∧ lt (key v) (key a.2) = false)) → X.find? (eqv key lt (key v)) = none := by
    intro hh; apply List.find?_eq_none.2; intro a ha; have := hh a ha; simpa [eqv] using this
  refine ⟨h', c', (p, b, e), r1, ?_⟩
  unfold insSpec
  rw [if_neg (by simp), if_neg (by simp)]
  simp only
  cases hU with
  | @dup p w h1 h2 h3 =>
    rw [find_unique o hS h1 (by simp [eqv, h2, h3])]
    exact ⟨rfl, W', hd', hS', S', fun q hq => Or.inl hq, fun q hq => hq⟩
  | full h1 h2 =>
    rw [hno h2, if_pos h1]
    exact ⟨rfl, W', hd', hS', S', fun q hq => Or.inl hq, fun q hq => hq⟩
  | nomem h1 h2 h3 =>
    subst h1
    rw [hno h3, if_neg h2]
    exact ⟨rfl, W', hd', hS', S', fun q hq => Or.inl hq, fun q hq => hq⟩
  | @ins i A B h1 h2 h3 h4 =>
    subst h1 h3
    have h5 : (A ++ B).find? (eqv key lt (key v)) = none := hno (around_nodup h4)
    rw [h5, if_neg h2]; simp only
    rw [upIns_around o h4]
    refine ⟨rfl, W', hd', hS', S', ?_, ?_⟩
    · intro q; simp; tauto
    · intro q; simp; tauto

theorem mins_ok {key : α → κ} {lt : κ → κ → Bool} {Pos : List (Nat × α) → List (Nat × α) → Prop} {maxsz : Nat} {h : Hp α} {c : Con} {X : List (Nat × α)} {v : α} {x : Option Nat}
    {run : R (Hp α × Con × Nat × Bool × Option Exc)} {put : Nat × α → List (Nat × α) → List (Nat × α)} {slow : Bool} (hp : ∀ i A B, X = A ++ B → Pos A B → put (i, v) X = A ++ (i, v) :: B)
    (hex : ∀ e, x = none → run = .ok e → e.2.2.2.2 = some .badAlloc)
    (H : ∃ h' c' p b e X', run = .ok (h', c', p, b, e) ∧ MIns Pos c.hd maxsz X x v p b e X' ∧ CWF h' c' X' ∧ c'.hd = c.hd ∧ Srt key lt X' ∧ Same c.hd X' h h') :
    InsOK key lt h c true x run (insSpec key lt maxsz slow ⟨c.hd, true, X⟩ v x put) X := by
  obtain ⟨h', c', p, b, e, X', r1, hU, W', hd', hS', S'⟩ := H
  refine ⟨h', c', (p, b, e), r1, ?_⟩
  unfold insSpec
  rw [if_pos rfl]
  cases hU with
  | full h1 =>
    cases x with
    | none => exact absurd (hex _ rfl r1) (by simp)
    | some i =>
      simp only
      rw [if_pos h1]; exact ⟨rfl, W', hd', hS', S', fun q hq => Or.inl hq, fun q hq => hq⟩
  | nomem h1 => subst h1; exact ⟨rfl, W', hd', hS', S', fun q hq => Or.inl hq, fun q hq => hq⟩
  | @ins i A B h1 h2 h3 h4 =>
    subst h1
    simp only
    rw [if_neg h2, hp _ A B h3 h4]
    refine ⟨rfl, W', hd', hS', S', ?_, ?_⟩
    · intro q; rw [h3]; simp; tauto
    · intro q; rw [h3]; simp; tauto

theorem slow_ok {key : α → κ} {lt : κ → κ → Bool} (o : SWO lt) {maxsz f : Nat} {h : Hp α} {c : Con} {X : List (Nat × α)} (v : α) (x : Option Nat)
    {put : Nat × α → List (Nat × α) → List (Nat × α)} (W : CWF h c X) (hS : SrtU key lt X) (hx : ∀ i, x = some i → h i = none) (hf : hb X.length < f) :
    InsOK key lt h c false x (emplaceUniqueSlow key lt maxsz f h c v x) (insSpec key lt maxsz true ⟨c.hd, false, X⟩ v x put) X := by
  have hkeep : ∀ (q : Nat), q ∈ X.map Prod.fst → q ∈ X.map Prod.fst ∨ x = some q := fun q hq => Or.inl hq
  unfold emplaceUniqueSlow insSpec
  rw [if_neg (by simp)]
  cases x with
  | none =>
    rw [if_pos ⟨rfl, rfl⟩]
    exact ⟨h, c, _, rfl, rfl, W, rfl, hS, Same.refl, hkeep, fun q hq => hq⟩
  | some i =>
    rw [if_neg (by simp)]
    obtain ⟨h1, e1, x1, f1⟩ := alloc_ok (n := ⟨c.hd, c.hd, c.hd, true, false, some v⟩) (hx i rfl)
    obtain ⟨n1, n2⟩ := W.wf.fresh (hx i rfl)
    have hs : ∀ q, q = c.hd ∨ q ∈ X.map Prod.fst → h1 q = h q := by intro q hq; apply f1; rintro rfl; tauto
    obtain ⟨r, d, e2, hh⟩ := place_new (multi := false) o (i, v) (W.wf.frame hs) hS hf
    rw [if_neg (by simp)] at e2
    have e3 : ∃ r0, findLower key lt c.hd f h1 (key v) = .ok r0 := by
      cases hfl : findLower key lt c.hd f h1 (key v) with
      | ok r0 => exact ⟨r0, rfl⟩
      | error e => rw [show key (i, v).2 = key v from rfl, hfl] at e2; cases e2
    obtain ⟨r0, e3⟩ := e3
    rw [show key (i, v).2 = key v from rfl, e3, R.ok_bind] at e2
    have e4 : ∃ d0, isDup key lt h1 r0.bound (key v) = .ok d0 := by
      cases hfl : isDup key lt h1 r0.bound (key v) with
      | ok r0 => exact ⟨r0, rfl⟩
      | error e => rw [hfl] at e2; cases e2
    obtain ⟨d0, e4⟩ := e4
    rw [e4, R.ok_bind] at e2
    injection e2 with e2; injection e2 with e2 e2'
    subst e2 e2'
    simp only
    rw [e1, R.ok_bind, e3, R.ok_bind, e4, R.ok_bind]
    rcases hh with ⟨-, -, c3, -, b, c4, c5⟩ | ⟨-, c2, c3, A, B, eD, eI, hSI, P⟩
    · rw [if_pos c3, show eqv key lt (key v) = eqv key lt (key (i, v).2) from rfl, c4, alloc_free (hx i rfl) x1 f1, R.ok_bind]
      exact ⟨h, c, _, rfl, by simp [outIns, c5], W, rfl, hS, Same.refl, hkeep, fun q hq => hq⟩
    · rw [if_neg (by simp [c3]), show eqv key lt (key v) = eqv key lt (key (i, v).2) from rfl, c2 rfl]
      simp only
      by_cases hm : maxsz = c.size
      · rw [if_pos hm, if_pos (by rw [hm, W.size]), alloc_free (hx i rfl) x1 f1, R.ok_bind]
        exact ⟨h, c, _, rfl, rfl, W, rfl, hS, Same.refl, hkeep, fun q hq => hq⟩
      · rw [if_neg hm, if_neg (by rw [← W.size]; exact hm)]
        obtain ⟨h', e5, W', S'⟩ := P.insert (f := f) x1 n1 (by rw [← eD]; exact n2) (by rw [eD] at hf; simpa using hf)
        rw [eI]
        refine ⟨h', ⟨c.hd, c.size + 1⟩, (i, true, none), by rw [e5, R.ok_bind], rfl, ⟨W', ?_⟩, rfl, hSI, ?_, ?_, ?_⟩
        · have := W.size; rw [eD] at this; simp at this; simp [this]; omega
        · intro q hq hq2; rw [S' q hq hq2, f1 q]; rintro rfl; simp at hq2
        · intro q; rw [eD]; simp; tauto
        · intro q; rw [eD]; simp; tauto

theorem hintIns_eq {key : α → κ} {lt : κ → κ → Bool} (o : SWO lt) {X H1 H2 A B : List (Nat × α)} {hint i : Nat} {v : α} (hS : Srt key lt X) (e1 : bef X hint = H1) (e2 : fro X hint = H2)
    (eX : X = H1 ++ H2) (hM : MPlace key lt (key v) H1 H2 A B) : hintIns key lt hint (i, v) X = A ++ (i, v) :: B := by
  unfold hintIns
  rw [e1, e2]
  obtain ⟨eAB, hM⟩ := hM
  have eX' : X = A ++ B := eX.trans eAB
  rw [eX] at hS
  rcases hM with ⟨rfl, h1, h2⟩ | ⟨⟨b, hb1, hb2⟩, h1, h2⟩ | ⟨⟨b, hb1, hb2⟩, h1, h2⟩
  · have : B = H2 := by simpa using eAB.symm
    subst this
    rw [if_neg (by simpa using h1), if_neg (by simpa using h2)]
  · rw [if_pos (by simp; exact ⟨b.1, b.2, hb1, hb2⟩), eX', upIns_eq h1 h2]
  · rw [if_neg ?_, if_pos (by simp; exact ⟨b.1, b.2, hb1, hb2⟩), eX', loIns_eq h1 h2]
    simp only [List.any_eq_true, not_exists, not_and]
    intro a ha ha2
    rw [Srt, List.pairwise_append] at hS
    have := hS.2.2 a ha b hb1
    rw [o.trans _ _ _ hb2 ha2] at this; cases this

theorem emplace_ok {key : α → κ} {lt : κ → κ → Bool} (o : SWO lt) {maxsz f : Nat} {h : Hp α} {c : Con} {m slow : Bool} {X : List (Nat × α)} (v : α) (x : Option Nat)
    (W : CWF h c X) (hS : SrtM key lt m X) (hx : ∀ i, x = some i → h i = none) (hf : hb X.length < f) :
    InsOK key lt h c m x (if m then emplaceMulti key lt maxsz f h c v x else if slow then emplaceUniqueSlow key lt maxsz f h c v x else emplaceUnique key lt maxsz f h c v x)
      (insSpec key lt maxsz slow ⟨c.hd, m, X⟩ v x (upIns key lt)) X := by
  cases m with
  | true =>
    rw [if_pos rfl]
    refine mins_ok (fun i A B e h => ?_) ?_ (emplaceMulti_spec o v x W hS hx hf)
    · rw [e]; exact upIns_eq h.1 h.2
    · rintro e rfl he; simp only [emplaceMulti] at he; injection he with he; subst he; rfl
  | false =>
    rw [if_neg (by simp)]
    cases slow with
    | true => rw [if_pos rfl]; exact slow_ok o v x W hS hx hf
    | false => rw [if_neg (by simp)]; exact uins_ok o hS (emplaceUnique_spec o v x W hS hx hf)

theorem emplaceHint_ok {key : α → κ} {lt : κ → κ → Bool} (o : SWO lt) {maxsz f : Nat} {h : Hp α} {c : Con} {m : Bool} {X : List (Nat × α)} {hint : Nat} (v : α) (x : Option Nat)
    (W : CWF h c X) (hS : SrtM key lt m X) (hx : ∀ i, x = some i → h i = none) (hf : hb X.length < f) (hh : hint = c.hd ∨ hint ∈ X.map Prod.fst) :
    InsOK key lt h c m x (if m then emplaceHintMulti key lt maxsz f h c hint v x else emplaceHintUnique key lt maxsz f h c hint v x)
      (insSpec key lt maxsz false ⟨c.hd, m, X⟩ v x (hintIns key lt hint)) X := by
  obtain ⟨H1, H2, eX, e1, e2, e3⟩ := W.wf.pos hh
  cases m with
  | true =>
    rw [if_pos rfl]
    have HH := emplaceHintMulti_spec (H1 := H1) (H2 := H2) (maxsz := maxsz) (f := f) o v x (by rw [← eX]; exact W) (by rw [← eX]; exact hS) hx (by rw [← eX]; exact hf)
    rw [← eX, ← e3] at HH
    refine mins_ok (fun i A B e h => hintIns_eq o hS e1 e2 eX h) ?_ HH
    rintro e rfl he; simp only [emplaceHintMulti] at he; injection he with he; subst he; rfl
  | false =>
    rw [if_neg (by simp)]
    have HH := emplaceHintUnique_spec (H1 := H1) (H2 := H2) (maxsz := maxsz) (f := f) o v x (by rw [← eX]; exact W) (by rw [← eX]; exact hS) hx (by rw [← eX]; exact hf)
    rw [← eX, ← e3] at HH
    exact uins_ok o hS HH

/-! ## the invariant -/

/-- A container object against its specification. -/
structure Rel (key : α → κ) (lt : κ → κ → Bool) (h : Hp α) (c : W) (e : Ent α) : Prop where
  hd : c.c.hd = e.hd
  multi : c.multi = e.multi
  wf : CWF h c.c e.X
  srt : SrtM key lt e.multi e.X

structure Inv (key : α → κ) (lt : κ → κ → Bool) (g : Pg α) (s : St α) : Prop where
  some_ : ∀ n e, s n = some e → ∃ c, g.w n = some c ∧ Rel key lt g.h c e
  none_ : ∀ n, s n = none → g.w n = none
  disj : ∀ n n' e e', n ≠ n' → s n = some e → s n' = some e' → ∀ q ∈ adr e, q ∉ adr e'
  leak : ∀ q, g.h q ≠ none → used s q

theorem mem_adr {e : Ent α} {q : Nat} : q ∈ adr e ↔ q = e.hd ∨ q ∈ e.X.map Prod.fst := by simp [adr]

theorem Rel.live {key : α → κ} {lt : κ → κ → Bool} {h : Hp α} {c : W} {e : Ent α} (r : Rel key lt h c e) {q : Nat} (hq : q ∈ adr e) : h q ≠ none := by
  rcases mem_adr.1 hq with rfl | hq
  · obtain ⟨x, hx⟩ := r.wf.wf.head; rw [r.hd] at hx; rw [hx]; simp
  · obtain ⟨⟨a, v⟩, ha, rfl⟩ := List.mem_map.1 hq
    obtain ⟨n, hn, -⟩ := r.wf.wf.mem ha; rw [hn]; simp

theorem Rel.frame {key : α → κ} {lt : κ → κ → Bool} {h h' : Hp α} {c : W} {e : Ent α} (r : Rel key lt h c e) (hs : ∀ q ∈ adr e, h' q = h q) : Rel key lt h' c e :=
  ⟨r.hd, r.multi, ⟨r.wf.wf.frame (fun q hq => hs q (mem_adr.2 (by rw [← r.hd]; exact hq))), r.wf.size⟩, r.srt⟩

theorem upd_self {β : Type} {s : Nat → Option β} {n : Nat} {e : Option β} : upd s n e n = e := by simp [upd]
theorem upd_ne {β : Type} {s : Nat → Option β} {n m : Nat} {e : Option β} (h : m ≠ n) : upd s n e m = s m := by simp [upd, h]

/-- Changing one container keeps the invariant. -/
theorem Inv.upd1 {key : α → κ} {lt : κ → κ → Bool} {g : Pg α} {s : St α} (I : Inv key lt g s) {n : Nat} {e e' : Ent α} {h' : Hp α} {c' : W} (hn : s n = some e)
    (hR : Rel key lt h' c' e') (hnew : ∀ q ∈ adr e', q ∈ adr e ∨ g.h q = none) (hfr : ∀ q, q ∉ adr e → q ∉ adr e' → h' q = g.h q)
    (hrem : ∀ q ∈ adr e, q ∉ adr e' → h' q = none) : Inv key lt ⟨h', upd g.w n (some c')⟩ (upd s n (some e')) := by
  have hfresh : ∀ m e2, m ≠ n → s m = some e2 → ∀ q ∈ adr e2, q ∉ adr e ∧ q ∉ adr e' := by
    intro m e2 hm he2 q hq
    have h1 := I.disj m n e2 e hm he2 hn q hq
    refine ⟨h1, fun h2 => ?_⟩
    rcases hnew q h2 with h3 | h3
    · exact h1 h3
    · obtain ⟨c2, -, r2⟩ := I.some_ m e2 he2; exact r2.live hq h3
  refine ⟨?_, ?_, ?_, ?_⟩
  · intro m e2 he2
    by_cases hm : m = n
    · subst hm; rw [upd_self] at he2; injection he2 with he2; subst he2; exact ⟨c', upd_self, hR⟩
    · rw [upd_ne hm] at he2
      obtain ⟨c2, hc2, r2⟩ := I.some_ m e2 he2
      exact ⟨c2, by simp only; rw [upd_ne hm, hc2], r2.frame fun q hq => by obtain ⟨a, b⟩ := hfresh m e2 hm he2 q hq; exact hfr q a b⟩
  · intro m hm0
    by_cases hm : m = n
    · subst hm; rw [upd_self] at hm0; cases hm0
    · rw [upd_ne hm] at hm0; simp only; rw [upd_ne hm, I.none_ m hm0]
  · intro m m' e1 e2 hne h1 h2 q hq hq2
    by_cases hm : m = n
    · subst hm; rw [upd_self] at h1; injection h1 with h1; subst h1; rw [upd_ne (Ne.symm hne)] at h2
      exact (hfresh m' e2 (Ne.symm hne) h2 q hq2).2 hq
    · by_cases hm' : m' = n
      · subst hm'; rw [upd_self] at h2; injection h2 with h2; subst h2; rw [upd_ne hm] at h1
        exact (hfresh m e1 hm h1 q hq).2 hq2
      · rw [upd_ne hm] at h1; rw [upd_ne hm'] at h2; exact I.disj m m' e1 e2 hne h1 h2 q hq hq2
  · intro q hq
    by_cases h1 : q ∈ adr e'
    · exact ⟨n, e', upd_self, h1⟩
    · by_cases h2 : q ∈ adr e
      · exact absurd (hrem q h2 h1) hq
      · rw [show (Pg.h ⟨h', upd g.w n (some c')⟩) q = h' q from rfl, hfr q h2 h1] at hq
        obtain ⟨m, e2, hm, hq2⟩ := I.leak q hq
        refine ⟨m, e2, ?_, hq2⟩
        rw [upd_ne, hm]; rintro rfl; rw [hn] at hm; injection hm with hm; subst hm; exact h2 hq2

theorem Inv.same {key : α → κ} {lt : κ → κ → Bool} {g : Pg α} {s : St α} (I : Inv key lt g s) {n : Nat} {e : Ent α} (hn : s n = some e) : upd s n (some e) = s := by
  funext m; by_cases hm : m = n
  · subst hm; rw [upd_self, hn]
  · rw [upd_ne hm]

theorem used_dead {key : α → κ} {lt : κ → κ → Bool} {g : Pg α} {s : St α} (I : Inv key lt g s) {q : Nat} (h : ¬ used s q) : g.h q = none := by
  cases hq : g.h q with
  | none => rfl
  | some x => exact absurd (I.leak q (by simp [hq])) h

theorem conOf_ok {w : Nat → Option W} {n : Nat} {c : W} (h : w n = some c) : conOf w n = .ok c := by unfold conOf; rw [h]

theorem fu_hb (n : Nat) : fu n = hb n + 3 := rfl

/-- Updating one container whose head and kind stay. -/
theorem Inv.one {key : α → κ} {lt : κ → κ → Bool} {g : Pg α} {s : St α} (I : Inv key lt g s) {n : Nat} {e : Ent α} {c : W} {h' : Hp α} {c' : Con} {X' : List (Nat × α)}
    (hn : s n = some e) (hR : Rel key lt g.h c e) (hd : c'.hd = c.c.hd) (W' : CWF h' c' X') (hS : SrtM key lt e.multi X')
    (hnew : ∀ q ∈ X'.map Prod.fst, q ∈ e.X.map Prod.fst ∨ g.h q = none) (hfr : ∀ q, q ≠ e.hd → q ∉ e.X.map Prod.fst → q ∉ X'.map Prod.fst → h' q = g.h q)
    (hrem : ∀ q ∈ e.X.map Prod.fst, q ∉ X'.map Prod.fst → h' q = none) : Inv key lt ⟨h', upd g.w n (some ⟨c', c.multi⟩)⟩ (upd s n (some ⟨e.hd, e.multi, X'⟩)) := by
  have hnd := hR.wf.wf.nodup
  rw [hR.hd, List.nodup_cons] at hnd
  refine I.upd1 hn ⟨by rw [hd]; exact hR.hd, hR.multi, W', hS⟩ ?_ ?_ ?_
  · intro q hq
    rcases mem_adr.1 hq with h | h
    · exact Or.inl (mem_adr.2 (Or.inl h))
    · rcases hnew q h with h | h
      · exact Or.inl (mem_adr.2 (Or.inr h))
      · exact Or.inr h
  · intro q h1 h2
    rw [mem_adr, not_or] at h1 h2
    exact hfr q h1.1 h1.2 h2.2
  · intro q h1 h2
    rw [mem_adr] at h1; rw [mem_adr, not_or] at h2
    rcases h1 with h1 | h1
    · exact absurd h1 h2.1
    · exact hrem q h1 h2.2

theorem step_new {key : α → κ} {lt : κ → κ → Bool} {g : Pg α} {s : St α} (I : Inv key lt g s) {n x : Nat} {m : Bool} (h1 : s n = none) (h2 : ¬ used s x) :
    ∃ h', newCon g.h x = .ok (h', ⟨x, 0⟩) ∧ Inv key lt ⟨h', upd g.w n (some ⟨⟨x, 0⟩, m⟩)⟩ (upd s n (some ⟨x, m, []⟩)) := by
  obtain ⟨h', e1, W', f'⟩ := newCon_spec (used_dead I h2)
  have hne : ∀ m e2, m ≠ n → s m = some e2 → x ∉ adr e2 := fun m e2 _ he hx => h2 ⟨m, e2, he, hx⟩
  refine ⟨h', e1, ?_, ?_, ?_, ?_⟩
  · intro k e he
    by_cases hk : k = n
    · subst hk; rw [upd_self] at he; injection he with he; subst he
      refine ⟨_, upd_self, rfl, rfl, W', ?_⟩
      cases m <;> exact List.Pairwise.nil
    · rw [upd_ne hk] at he
      obtain ⟨c, hc, r⟩ := I.some_ k e he
      exact ⟨c, by simp only; rw [upd_ne hk, hc], r.frame fun q hq => f' q (by rintro rfl; exact hne k e hk he hq)⟩
  · intro k hk0
    by_cases hk : k = n
    · subst hk; rw [upd_self] at hk0; cases hk0
    · rw [upd_ne hk] at hk0; simp only; rw [upd_ne hk, I.none_ k hk0]
  · intro k k' e e' hkk he he' q hq hq'
    by_cases hk : k = n
    · subst hk; rw [upd_self] at he; injection he with he; subst he; rw [upd_ne (Ne.symm hkk)] at he'
      simp [adr] at hq; subst hq; exact hne k' e' (Ne.symm hkk) he' hq'
    · by_cases hk' : k' = n
      · subst hk'; rw [upd_self] at he'; injection he' with he'; subst he'; rw [upd_ne hk] at he
        simp [adr] at hq'; subst hq'; exact hne k e hk he hq
      · rw [upd_ne hk] at he; rw [upd_ne hk'] at he'; exact I.disj k k' e e' hkk he he' q hq hq'
  · intro q hq
    by_cases hx : q = x
    · exact ⟨n, _, upd_self, by simp [adr, hx]⟩
    · obtain ⟨k, e, he, hqe⟩ := I.leak q (by rw [← f' q hx]; exact hq)
      refine ⟨k, e, ?_, hqe⟩
      rw [upd_ne, he]; rintro rfl; rw [h1] at he; cases he

theorem step_destroy {key : α → κ} {lt : κ → κ → Bool} {g : Pg α} {s : St α} (I : Inv key lt g s) {n : Nat} {e : Ent α} {c : W} (hn : s n = some e) (hR : Rel key lt g.h c e) :
    ∃ h', destroy (fu c.c.size) g.h c.c = .ok h' ∧ Inv key lt ⟨h', upd g.w n none⟩ (upd s n none) := by
  obtain ⟨h', e1, n1, n2, S'⟩ := destroy_spec hR.wf (f := fu c.c.size) (by rw [hR.wf.size, fu_hb]; omega)
  have hdead : ∀ q ∈ adr e, h' q = none := by
    intro q hq; rcases mem_adr.1 hq with rfl | hq
    · rw [← hR.hd]; exact n1
    · obtain ⟨a, ha, rfl⟩ := List.mem_map.1 hq; exact n2 a ha
  have hlive : ∀ q, q ∉ adr e → h' q = g.h q := by
    intro q hq; rw [mem_adr, not_or] at hq; exact S' q (by rw [hR.hd]; exact hq.1) hq.2
  refine ⟨h', e1, ?_, ?_, ?_, ?_⟩
  · intro k e2 he
    by_cases hk : k = n
    · subst hk; rw [upd_self] at he; cases he
    · rw [upd_ne hk] at he
      obtain ⟨c2, hc, r⟩ := I.some_ k e2 he
      exact ⟨c2, by simp only; rw [upd_ne hk, hc], r.frame fun q hq => hlive q (I.disj k n e2 e hk he hn q hq)⟩
  · intro k hk0
    by_cases hk : k = n
    · subst hk; exact upd_self
    · rw [upd_ne hk] at hk0; simp only; rw [upd_ne hk, I.none_ k hk0]
  · intro k k' e1 e2 hkk he he' q hq hq'
    by_cases hk : k = n
    · subst hk; rw [upd_self] at he; cases he
    · by_cases hk' : k' = n
      · subst hk'; rw [upd_self] at he'; cases he'
      · rw [upd_ne hk] at he; rw [upd_ne hk'] at he'; exact I.disj k k' e1 e2 hkk he he' q hq hq'
  · intro q hq
    by_cases hx : q ∈ adr e
    · exact absurd (hdead q hx) hq
    · obtain ⟨k, e2, he, hqe⟩ := I.leak q (by rw [← hlive q hx]; exact hq)
      refine ⟨k, e2, ?_, hqe⟩
      rw [upd_ne, he]; rintro rfl; rw [hn] at he; injection he with he; subst he; exact hx hqe

theorem step_swap {key : α → κ} {lt : κ → κ → Bool} {g : Pg α} {s : St α} (I : Inv key lt g s) {n m : Nat} {e e' : Ent α} {c c' : W} (hn : s n = some e) (hm : s m = some e')
    (hR : Rel key lt g.h c e) (hR' : Rel key lt g.h c' e') (hmu : e.multi = e'.multi) :
    Inv key lt ⟨g.h, fun q => if q = n then some ⟨c'.c, c.multi⟩ else if q = m then some ⟨c.c, c'.multi⟩ else g.w q⟩ (fun q => if q = n then s m else if q = m then s n else s q) := by
  have mapn : ∀ k, ∃ k0, (if k = n then s m else if k = m then s n else s k) = s k0 ∧ (k = n → k0 = m) ∧ (k ≠ n → k = m → k0 = n) ∧ (k ≠ n → k ≠ m → k0 = k) := by
    intro k
    by_cases h1 : k = n
    · exact ⟨m, by rw [if_pos h1], fun _ => rfl, fun h => absurd h1 h, fun h => absurd h1 h⟩
    · by_cases h2 : k = m
      · exact ⟨n, by rw [if_neg h1, if_pos h2], fun h => absurd h h1, fun _ _ => rfl, fun _ h => absurd h2 h⟩
      · exact ⟨k, by rw [if_neg h1, if_neg h2], fun h => absurd h h1, fun _ h => absurd h h2, fun _ _ => rfl⟩
  refine ⟨?_, ?_, ?_, ?_⟩
  · intro k e2 he
    simp only at he ⊢
    by_cases h1 : k = n
    · rw [if_pos h1, hm] at he; injection he with he; subst he; rw [if_pos h1]
      exact ⟨_, rfl, hR'.hd, by simp only; rw [hR.multi, hmu], hR'.wf, hR'.srt⟩
    · rw [if_neg h1] at he ⊢
      by_cases h2 : k = m
      · rw [if_pos h2, hn] at he; injection he with he; subst he; rw [if_pos h2]
        exact ⟨_, rfl, hR.hd, by simp only; rw [hR'.multi, hmu], hR.wf, hR.srt⟩
      · rw [if_neg h2] at he ⊢; exact I.some_ k e2 he
  · intro k hk
    simp only at hk ⊢
    by_cases h1 : k = n
    · rw [if_pos h1, hm] at hk; cases hk
    · rw [if_neg h1] at hk ⊢
      by_cases h2 : k = m
      · rw [if_pos h2, hn] at hk; cases hk
      · rw [if_neg h2] at hk ⊢; exact I.none_ k hk
  · intro k k' e1 e2 hkk he he' q hq hq'
    obtain ⟨k0, a1, a2, a3, a4⟩ := mapn k
    obtain ⟨k0', b1, b2, b3, b4⟩ := mapn k'
    rw [a1] at he; rw [b1] at he'
    refine I.disj k0 k0' e1 e2 ?_ he he' q hq hq'
    by_cases h1 : k = n <;> by_cases h2 : k' = n <;> by_cases h3 : k = m <;> by_cases h4 : k' = m <;> simp_all <;> grind
  · intro q hq
    obtain ⟨k, e2, he, hqe⟩ := I.leak q hq
    by_cases h1 : k = n
    · subst h1
      by_cases h2 : m = k
      · subst h2; exact ⟨m, e2, by simp [he], hqe⟩
      · exact ⟨m, e2, by simp [h2, he], hqe⟩
    · by_cases h2 : k = m
      · subst h2; exact ⟨n, e2, by simp [he], hqe⟩
      · exact ⟨k, e2, by simp [h1, h2, he], hqe⟩

theorem step_merge {key : α → κ} {lt : κ → κ → Bool} (o : SWO lt) {maxsz : Nat} {g : Pg α} {s : St α} (I : Inv key lt g s) {n m : Nat} {e e' : Ent α} {c d : W} (hne : n ≠ m) (hn : s n = some e)
    (hm : s m = some e') (hR : Rel key lt g.h c e) (hR' : Rel key lt g.h d e') :
    ∃ h' c' d', merge key lt c.multi maxsz (fu (c.c.size + d.c.size)) (d.c.size + 1) g.h c.c d.c = .ok (h', c', d', (mergeSpec key lt e.multi maxsz e.X [] e'.X).2.2) ∧
      Inv key lt ⟨h', upd (upd g.w n (some ⟨c', c.multi⟩)) m (some ⟨d', d.multi⟩)⟩
        (upd (upd s n (some ⟨e.hd, e.multi, (mergeSpec key lt e.multi maxsz e.X [] e'.X).1⟩)) m (some ⟨e'.hd, e'.multi, (mergeSpec key lt e.multi maxsz e.X [] e'.X).2.1⟩)) := by
  have hdj : ∀ q, q = c.c.hd ∨ q ∈ e.X.map Prod.fst → ¬ (q = d.c.hd ∨ q ∈ e'.X.map Prod.fst) := by
    intro q h1 h2
    rw [hR.hd] at h1; rw [hR'.hd] at h2
    exact I.disj n m e e' hne hn hm q (mem_adr.2 h1) (mem_adr.2 h2)
  have HH := mergeLoop_spec (maxsz := maxsz) (g := fu (c.c.size + d.c.size)) (f := d.c.size + 1) (K := []) (S := e'.X) o hR.wf (by simpa using hR'.wf) hR.srt (by simpa using hdj)
    (by rw [hR.wf.size, hR'.wf.size, fu_hb]; simp) (by rw [hR'.wf.size]; omega)
  obtain ⟨h', c', d', r1, r2, r3, r4, r5, r6, r7, r8, r9⟩ := HH
  rw [List.nil_append] at r7 r8 r9
  obtain ⟨L, hL⟩ : ∃ L, L = mergeSpec key lt e.multi maxsz e.X [] e'.X := ⟨_, rfl⟩
  rw [← hL] at r1 r2 r3 r6 r7 r8 ⊢
  obtain ⟨r, hh⟩ := hR'.wf.wf.head
  refine ⟨h', c', d', ?_, ?_⟩
  · unfold merge; rw [nd_some hh, R.ok_bind, hR.multi]; exact r1
  have hids : ∀ q, (q ∈ L.1.map Prod.fst ∨ q ∈ L.2.1.map Prod.fst) ↔ (q ∈ e.X.map Prod.fst ∨ q ∈ e'.X.map Prod.fst) := by
    intro q; have := (r8.map Prod.fst).mem_iff (a := q); simpa [List.map_append, List.mem_append] using this
  have hR1 : Rel key lt h' ⟨c', c.multi⟩ ⟨e.hd, e.multi, L.1⟩ := ⟨by rw [r4]; exact hR.hd, hR.multi, r2, r6⟩
  have hR2 : Rel key lt h' ⟨d', d.multi⟩ ⟨e'.hd, e'.multi, L.2.1⟩ := ⟨by rw [r5]; exact hR'.hd, hR'.multi, r3, hR'.srt.sub r7⟩
  have hadr : ∀ q, (q ∈ adr (⟨e.hd, e.multi, L.1⟩ : Ent α) ∨ q ∈ adr (⟨e'.hd, e'.multi, L.2.1⟩ : Ent α)) ↔ (q ∈ adr e ∨ q ∈ adr e') := by
    intro q; have := hids q; simp only [mem_adr]; tauto
  have hfr : ∀ q, q ∉ adr e → q ∉ adr e' → h' q = g.h q := by
    intro q h1 h2; rw [mem_adr, not_or] at h1 h2
    exact r9 q (by rw [hR.hd]; exact h1.1) (by rw [hR'.hd]; exact h2.1) h1.2 h2.2
  have hnd : (adr (⟨e.hd, e.multi, L.1⟩ : Ent α) ++ adr (⟨e'.hd, e'.multi, L.2.1⟩ : Ent α)).Nodup := by
    have p1 : (adr (⟨e.hd, e.multi, L.1⟩ : Ent α) ++ adr (⟨e'.hd, e'.multi, L.2.1⟩ : Ent α)).Perm (adr e ++ adr e') := by
      have p := (r8.map Prod.fst)
      simp only [List.map_append] at p
      unfold adr
      simp only [List.cons_append]
      refine List.Perm.cons _ ?_
      exact (List.perm_middle.trans (List.Perm.cons _ p)).trans List.perm_middle.symm
    rw [p1.nodup_iff, List.nodup_append]
    refine ⟨?_, ?_, ?_⟩
    · have := hR.wf.wf.nodup; rw [hR.hd] at this; exact this
    · have := hR'.wf.wf.nodup; rw [hR'.hd] at this; exact this
    · intro a ha b hb hab; subst hab; exact I.disj n m e e' hne hn hm a ha hb
  rw [List.nodup_append] at hnd
  have hother : ∀ k e2, k ≠ n → k ≠ m → s k = some e2 → ∀ q ∈ adr e2, ¬ (q ∈ adr e ∨ q ∈ adr e') := by
    intro k e2 h1 h2 h3 q hq h4
    rcases h4 with h4 | h4
    · exact I.disj k n e2 e h1 h3 hn q hq h4
    · exact I.disj k m e2 e' h2 h3 hm q hq h4
  have val : ∀ k, upd (upd s n (some ⟨e.hd, e.multi, L.1⟩)) m (some ⟨e'.hd, e'.multi, L.2.1⟩) k =
      if k = m then some ⟨e'.hd, e'.multi, L.2.1⟩ else if k = n then some ⟨e.hd, e.multi, L.1⟩ else s k := fun k => rfl
  have valw : ∀ k, upd (upd g.w n (some ⟨c', c.multi⟩)) m (some ⟨d', d.multi⟩) k =
      if k = m then some ⟨d', d.multi⟩ else if k = n then some ⟨c', c.multi⟩ else g.w k := fun k => rfl
  refine ⟨?_, ?_, ?_, ?_⟩
  · intro k e2 he
    rw [val] at he
    simp only [valw]
    by_cases h1 : k = m
    · rw [if_pos h1] at he ⊢; injection he with he; subst he; exact ⟨_, rfl, hR2⟩
    · rw [if_neg h1] at he ⊢
      by_cases h2 : k = n
      · rw [if_pos h2] at he ⊢; injection he with he; subst he; exact ⟨_, rfl, hR1⟩
      · rw [if_neg h2] at he ⊢
        obtain ⟨c2, hc2, rr⟩ := I.some_ k e2 he
        exact ⟨c2, hc2, rr.frame fun q hq => by
          have := hother k e2 h2 h1 he q hq; rw [not_or] at this; exact hfr q this.1 this.2⟩
  · intro k hk
    rw [val] at hk
    simp only [valw]
    by_cases h1 : k = m
    · rw [if_pos h1] at hk; cases hk
    · rw [if_neg h1] at hk ⊢
      by_cases h2 : k = n
      · rw [if_pos h2] at hk; cases hk
      · rw [if_neg h2] at hk ⊢; exact I.none_ k hk
  · intro k k' e1 e2 hkk he he' q hq hq'
    rw [val] at he he'
    have cls : ∀ k e1, (if k = m then some (⟨e'.hd, e'.multi, L.2.1⟩ : Ent α) else if k = n then some ⟨e.hd, e.multi, L.1⟩ else s k) = some e1 →
        (k = m ∧ e1 = ⟨e'.hd, e'.multi, L.2.1⟩) ∨ (k = n ∧ e1 = ⟨e.hd, e.multi, L.1⟩) ∨ (k ≠ m ∧ k ≠ n ∧ s k = some e1) := by
      intro k e1 he
      by_cases h1 : k = m
      · rw [if_pos h1] at he; injection he with he; exact Or.inl ⟨h1, he.symm⟩
      · rw [if_neg h1] at he
        by_cases h2 : k = n
        · rw [if_pos h2] at he; injection he with he; exact Or.inr (Or.inl ⟨h2, he.symm⟩)
        · rw [if_neg h2] at he; exact Or.inr (Or.inr ⟨h1, h2, he⟩)
    rcases cls k e1 he with ⟨a1, rfl⟩ | ⟨a1, rfl⟩ | ⟨a1, a2, a3⟩ <;> rcases cls k' e2 he' with ⟨b1, rfl⟩ | ⟨b1, rfl⟩ | ⟨b1, b2, b3⟩
    · exact hkk (a1.trans b1.symm)
    · exact hnd.2.2 q hq' q hq rfl
    · exact hother k' e2 b2 b1 b3 q hq' ((hadr q).1 (Or.inr hq))
    · exact hnd.2.2 q hq q hq' rfl
    · exact hkk (a1.trans b1.symm)
    · exact hother k' e2 b2 b1 b3 q hq' ((hadr q).1 (Or.inl hq))
    · exact hother k e1 a2 a1 a3 q hq ((hadr q).1 (Or.inr hq'))
    · exact hother k e1 a2 a1 a3 q hq ((hadr q).1 (Or.inl hq'))
    · exact I.disj k k' e1 e2 hkk a3 b3 q hq hq'
  · intro q hq
    by_cases h1 : q ∈ adr e ∨ q ∈ adr e'
    · rcases (hadr q).2 h1 with h2 | h2
      · exact ⟨n, _, by rw [val, if_neg hne, if_pos rfl], h2⟩
      · exact ⟨m, _, by rw [val, if_pos rfl], h2⟩
    · have h1' := h1
      rw [not_or] at h1
      obtain ⟨k, e2, he, hqe⟩ := I.leak q (by rw [← hfr q h1.1 h1.2]; exact hq)
      refine ⟨k, e2, ?_, hqe⟩
      have hkm : k ≠ m := by rintro rfl; rw [hm] at he; injection he with he; subst he; exact h1.2 hqe
      have hkn : k ≠ n := by rintro rfl; rw [hn] at he; injection he with he; subst he; exact h1.1 hqe
      rw [val, if_neg hkm, if_neg hkn, he]

theorem on_some {s : St α} {n : Nat} {e : Ent α} (hn : s n = some e) (f : Ent α → List (Nat × α) × Out) : on s n f = (upd s n (some ⟨e.hd, e.multi, (f e).1⟩), (f e).2) := by
  unfold on; rw [hn]

theorem Inv.query {key : α → κ} {lt : κ → κ → Bool} {g : Pg α} {s : St α} (I : Inv key lt g s) {n : Nat} {e : Ent α} (hn : s n = some e) : Inv key lt g (upd s n (some ⟨e.hd, e.multi, e.X⟩)) := by
  have : (⟨e.hd, e.multi, e.X⟩ : Ent α) = e := by cases e; rfl
  rw [this, I.same hn]; exact I

theorem step_ok {key : α → κ} {lt : κ → κ → Bool} (o : SWO lt) {maxsz : Nat} {g : Pg α} {s : St α} (I : Inv key lt g s) (op : Op α κ) (hp : pre s op) :
    ∃ g', step key lt maxsz g op = .ok (g', (sem key lt maxsz s op).2) ∧ Inv key lt g' (sem key lt maxsz s op).1 := by
  cases op with
  | new n m x =>
    obtain ⟨h', e1, I'⟩ := step_new (m := m) I hp.1 hp.2
    exact ⟨_, by simp only [step]; rw [e1, R.ok_bind]; rfl, I'⟩
  | destroy n =>
    obtain ⟨e, hn⟩ := hp
    obtain ⟨c, hc, hR⟩ := I.some_ n e hn
    obtain ⟨h', e1, I'⟩ := step_destroy I hn hR
    exact ⟨_, by simp only [step]; rw [conOf_ok hc, R.ok_bind, e1, R.ok_bind]; rfl, I'⟩
  | emplace n v slow x =>
    obtain ⟨⟨e, hn⟩, hx⟩ := hp
    obtain ⟨c, hc, hR⟩ := I.some_ n e hn
    have HH := emplace_ok (maxsz := maxsz) (slow := slow) (f := fu c.c.size) o v x hR.wf hR.srt (fun i hi => used_dead I (hx i hi)) (by rw [hR.wf.size, fu_hb]; omega)
    obtain ⟨h', c', r, e1, e2, W', hd', hS', S', n1, n2⟩ := HH
    simp only [sem]
    rw [on_some hn]
    have he : (⟨c.c.hd, e.multi, e.X⟩ : Ent α) = e := by rw [hR.hd]
    rw [he] at e2 W' hS' S' n1 n2
    refine ⟨_, ?_, I.one hn hR hd' W' hS' ?_ ?_ ?_⟩
    · simp only [step]; rw [conOf_ok hc, R.ok_bind, hR.multi, e1, R.ok_bind]; simp only; rw [e2]
    · intro q hq; rcases n1 q hq with h | h
      · exact Or.inl h
      · exact Or.inr (used_dead I (hx q h))
    · intro q h1 h2 h3; exact S' q (by rw [hR.hd]; exact h1) h3
    · intro q h1 h2; exact absurd (n2 q h1) h2
  | emplaceHint n hint v x =>
    obtain ⟨⟨e, hn, hh⟩, hx⟩ := hp
    obtain ⟨c, hc, hR⟩ := I.some_ n e hn
    have HH := emplaceHint_ok (maxsz := maxsz) (f := fu c.c.size) o v x hR.wf hR.srt (fun i hi => used_dead I (hx i hi)) (by rw [hR.wf.size, fu_hb]; omega) (by rw [hR.hd]; exact mem_adr.1 hh)
    obtain ⟨h', c', r, e1, e2, W', hd', hS', S', n1, n2⟩ := HH
    simp only [sem]
    rw [on_some hn]
    have he : (⟨c.c.hd, e.multi, e.X⟩ : Ent α) = e := by rw [hR.hd]
    rw [he] at e2 W' hS' S' n1 n2
    refine ⟨_, ?_, I.one hn hR hd' W' hS' ?_ ?_ ?_⟩
    · simp only [step]; rw [conOf_ok hc, R.ok_bind, hR.multi, e1, R.ok_bind]; simp only; rw [e2]
    · intro q hq; rcases n1 q hq with h | h
      · exact Or.inl h
      · exact Or.inr (used_dead I (hx q h))
    · intro q h1 h2 h3; exact S' q (by rw [hR.hd]; exact h1) h3
    · intro q h1 h2; exact absurd (n2 q h1) h2
  | eraseAt n p =>
    obtain ⟨e, hn, hpm⟩ := hp
    obtain ⟨c, hc, hR⟩ := I.some_ n e hn
    obtain ⟨A, v, B, eX, b1, b2⟩ := hR.wf.wf.pos_mem hpm
    have W := hR.wf; rw [eX] at W
    obtain ⟨h', c', e1, W', hd', n1, S'⟩ := eraseAt_spec (f := fu c.c.size) W (by
      rw [hR.wf.size, eX, fu_hb, show (A ++ (p, v) :: B).length = A.length + B.length + 1 by simp; omega]; omega)
    simp only [sem]
    rw [on_some hn]
    simp only
    rw [b1, b2, List.tail_cons, atFirst_eq]
    refine ⟨_, ?_, I.one hn hR hd' W' (hR.srt.sub (by rw [eX]; simp)) ?_ ?_ ?_⟩
    · simp only [step]; rw [conOf_ok hc, R.ok_bind, e1, R.ok_bind]; simp only; rw [hR.hd]
    · intro q hq; left; rw [eX]; simp at hq ⊢; tauto
    · intro q h1 h2 h3; rw [eX] at h2; exact S' q (by rw [hR.hd]; exact h1) h2
    · intro q h1 h2; rw [eX] at h1
      have : q = p := by simp only [List.map_append, List.map_cons, List.mem_append, List.mem_cons, not_or] at h1 h2; tauto
      rw [this]; exact n1
  | eraseRange n p q =>
    obtain ⟨e, hn, hpm, hq⟩ := hp
    obtain ⟨c, hc, hR⟩ := I.some_ n e hn
    obtain ⟨A, B, eX, b1, b2, b3⟩ := hR.wf.wf.pos (by rw [hR.hd]; exact mem_adr.1 hpm)
    have hq' : q = c.c.hd ∨ q ∈ e.X.map Prod.fst := by
      rw [hR.hd]; rcases hq with hq | hq
      · exact Or.inl hq
      · right; rw [b2] at hq; rw [eX]; simp at hq ⊢; tauto
    obtain ⟨A2, B2, eX2, d1, d2, d3⟩ := hR.wf.wf.pos hq'
    have hM : ∃ M, B = M ++ B2 := by
      have hnd := hR.wf.wf.nodup
      rcases hq with rfl | hq
      · cases B2 with
        | nil => exact ⟨B, by simp⟩
        | cons x B2 =>
          exfalso
          rw [show firstId c.c.hd (x :: B2) = x.1 from rfl] at d3
          rw [eX2, hR.hd, d3] at hnd; simp at hnd
      · rw [b2] at hq
        cases B2 with
        | nil => exact ⟨B, by simp⟩
        | cons x B2 =>
          rw [show firstId c.c.hd (x :: B2) = x.1 from rfl] at d3
          obtain ⟨y, hy, hy2⟩ := List.mem_map.1 hq
          obtain ⟨M, N, rfl⟩ := List.append_of_mem hy
          have : q ∉ (A ++ M).map Prod.fst := by
            rw [eX] at hnd; simp only [List.map_append, List.map_cons] at hnd ⊢; nds at hnd ⊢; grind
          obtain ⟨f1, f2⟩ := bef_fro (X := e.X) (A := A ++ M) (B := y :: N) (p := q) (by rw [eX]; simp) this (by simpa using hy2)
          rw [d2] at f2
          exact ⟨M, by rw [f2]⟩
    obtain ⟨M, rfl⟩ := hM
    have W := hR.wf; rw [eX] at W
    obtain ⟨h', c', e1, W', hd', n1, S'⟩ := eraseRange_spec (g := fu c.c.size) (f := c.c.size + 1) W (by
      rw [hR.wf.size, eX, fu_hb, show (A ++ (M ++ B2)).length = A.length + (M.length + B2.length) by simp]; omega) (by rw [hR.wf.size, eX]; simp; omega)
    simp only [sem]
    rw [on_some hn]
    simp only
    rw [b1, d2]
    refine ⟨_, ?_, I.one hn hR hd' W' (hR.srt.sub (by rw [eX]; simp)) ?_ ?_ ?_⟩
    · simp only [step]; rw [conOf_ok hc, R.ok_bind, b3, d3, e1, R.ok_bind]
    · intro q hq; left; rw [eX]; simp at hq ⊢; tauto
    · intro q h1 h2 h3; rw [eX] at h2; exact S' q (by rw [hR.hd]; exact h1) h2
    · intro q h1 h2; rw [eX] at h1
      have : q ∈ M.map Prod.fst := by simp only [List.map_append, List.mem_append, not_or] at h1 h2; tauto
      obtain ⟨a, ha, rfl⟩ := List.mem_map.1 this; exact n1 a ha
  | eraseKey n k =>
    obtain ⟨e, hn⟩ := hp
    obtain ⟨c, hc, hR⟩ := I.some_ n e hn
    obtain ⟨h', c', e1, W', hd', n1, S'⟩ := eraseKey_spec o (g := fu c.c.size) (f := c.c.size + 1) k hR.wf (hR.srt.srt o) (by rw [hR.wf.size, fu_hb]; omega) (by rw [hR.wf.size]; omega)
    simp only [sem]
    rw [on_some hn]
    refine ⟨_, ?_, I.one hn hR hd' W' (hR.srt.sub List.filter_sublist) ?_ ?_ ?_⟩
    · simp only [step]; rw [conOf_ok hc, R.ok_bind, e1, R.ok_bind]
    · intro q hq; left; exact (List.filter_sublist.map Prod.fst).subset hq
    · intro q h1 h2 h3; exact S' q (by rw [hR.hd]; exact h1) h2
    · intro q h1 h2; exact n1 q h1 h2
  | clear n =>
    obtain ⟨e, hn⟩ := hp
    obtain ⟨c, hc, hR⟩ := I.some_ n e hn
    obtain ⟨h', c', e1, W', hd', n1, S'⟩ := clear_spec (f := fu c.c.size) hR.wf (by rw [hR.wf.size, fu_hb]; omega)
    simp only [sem]
    rw [on_some hn]
    refine ⟨_, ?_, I.one hn hR hd' W' (hR.srt.sub (List.nil_sublist _)) ?_ ?_ ?_⟩
    · simp only [step]; rw [conOf_ok hc, R.ok_bind, e1, R.ok_bind]
    · intro q hq; simp at hq
    · intro q h1 h2 h3; exact S' q (by rw [hR.hd]; exact h1) h2
    · intro q h1 h2; obtain ⟨a, ha, rfl⟩ := List.mem_map.1 h1; exact n1 a ha
  | merge n m =>
    obtain ⟨hne, ⟨e, hn⟩, ⟨e', hm⟩⟩ := hp
    obtain ⟨c, hc, hR⟩ := I.some_ n e hn
    obtain ⟨d, hd, hR'⟩ := I.some_ m e' hm
    obtain ⟨h', c', d', e1, I'⟩ := step_merge (maxsz := maxsz) o I hne hn hm hR hR'
    simp only [sem]
    rw [hn, hm]
    exact ⟨_, by simp only [step]; rw [conOf_ok hc, R.ok_bind, conOf_ok hd, R.ok_bind, e1, R.ok_bind], I'⟩
  | swap n m =>
    obtain ⟨e, e', hn, hm, hmu⟩ := hp
    obtain ⟨c, hc, hR⟩ := I.some_ n e hn
    obtain ⟨d, hd, hR'⟩ := I.some_ m e' hm
    exact ⟨_, by simp only [step]; rw [conOf_ok hc, R.ok_bind, conOf_ok hd, R.ok_bind]; rfl, step_swap I hn hm hR hR' hmu⟩
  | find n k =>
    obtain ⟨e, hn⟩ := hp
    obtain ⟨c, hc, hR⟩ := I.some_ n e hn
    obtain ⟨q1, q2, q3, q4, q5⟩ := searches o (g := fu c.c.size) k hR.wf.wf (hR.srt.srt o) (by rw [hR.wf.size, fu_hb]; omega)
    refine ⟨g, ?_, by simp only [sem]; rw [on_some hn]; exact I.query hn⟩
    simp only [step, sem]; rw [conOf_ok hc, R.ok_bind, q4, R.ok_bind, on_some hn, hR.hd]; simp only; cases e.X.find? (eqv key lt k) <;> rfl
  | count n k =>
    obtain ⟨e, hn⟩ := hp
    obtain ⟨c, hc, hR⟩ := I.some_ n e hn
    have hU : c.multi = false → SrtU key lt e.X := by
      intro h; have := hR.srt; rw [← hR.multi, h] at this; exact this
    have q := count_spec o (multi := c.multi) (g := fu c.c.size) (f := c.c.size + 1) k hR.wf (hR.srt.srt o) hU (by rw [hR.wf.size, fu_hb]; omega) (by rw [hR.wf.size]; omega)
    refine ⟨g, ?_, by simp only [sem]; rw [on_some hn]; exact I.query hn⟩
    simp only [step, sem]; rw [conOf_ok hc, R.ok_bind, q, R.ok_bind, on_some hn]
  | contains n k =>
    obtain ⟨e, hn⟩ := hp
    obtain ⟨c, hc, hR⟩ := I.some_ n e hn
    obtain ⟨q1, q2, q3, q4, q5⟩ := searches o (g := fu c.c.size) k hR.wf.wf (hR.srt.srt o) (by rw [hR.wf.size, fu_hb]; omega)
    refine ⟨g, ?_, by simp only [sem]; rw [on_some hn]; exact I.query hn⟩
    simp only [step, sem]; rw [conOf_ok hc, R.ok_bind, q5, R.ok_bind, on_some hn]
  | lowerBound n k =>
    obtain ⟨e, hn⟩ := hp
    obtain ⟨c, hc, hR⟩ := I.some_ n e hn
    obtain ⟨⟨r, q1, q1'⟩, q2, q3, q4, q5⟩ := searches o (g := fu c.c.size) k hR.wf.wf (hR.srt.srt o) (by rw [hR.wf.size, fu_hb]; omega)
    refine ⟨g, ?_, by simp only [sem]; rw [on_some hn]; exact I.query hn⟩
    simp only [step, sem]; rw [conOf_ok hc, R.ok_bind, q1, R.ok_bind, on_some hn, q1', hR.hd]
  | upperBound n k =>
    obtain ⟨e, hn⟩ := hp
    obtain ⟨c, hc, hR⟩ := I.some_ n e hn
    obtain ⟨q1, ⟨r, q2, q2'⟩, q3, q4, q5⟩ := searches o (g := fu c.c.size) k hR.wf.wf (hR.srt.srt o) (by rw [hR.wf.size, fu_hb]; omega)
    refine ⟨g, ?_, by simp only [sem]; rw [on_some hn]; exact I.query hn⟩
    simp only [step, sem]; rw [conOf_ok hc, R.ok_bind, q2, R.ok_bind, on_some hn, q2', hR.hd]
  | equalRange n k =>
    obtain ⟨e, hn⟩ := hp
    obtain ⟨c, hc, hR⟩ := I.some_ n e hn
    obtain ⟨q1, q2, q3, q4, q5⟩ := searches o (g := fu c.c.size) k hR.wf.wf (hR.srt.srt o) (by rw [hR.wf.size, fu_hb]; omega)
    refine ⟨g, ?_, by simp only [sem]; rw [on_some hn]; exact I.query hn⟩
    simp only [step, sem]; rw [conOf_ok hc, R.ok_bind, q3, R.ok_bind, on_some hn, hR.hd]
  | begin n =>
    obtain ⟨e, hn⟩ := hp
    obtain ⟨c, hc, hR⟩ := I.some_ n e hn
    obtain ⟨r, hh⟩ := hR.wf.wf.head
    refine ⟨g, ?_, by simp only [sem]; rw [on_some hn]; exact I.query hn⟩
    simp only [step, sem]; rw [conOf_ok hc, R.ok_bind, nd_some hh, R.ok_bind, on_some hn, hR.hd]; simp only [atFirst_eq]
  | next n p =>
    obtain ⟨e, hn, hpm⟩ := hp
    obtain ⟨c, hc, hR⟩ := I.some_ n e hn
    obtain ⟨A, v, B, eX, b1, b2⟩ := hR.wf.wf.pos_mem hpm
    have W := hR.wf; rw [eX] at W
    have q := W.wf.next (f := fu c.c.size) (by
      rw [hR.wf.size, eX, fu_hb, show (A ++ (p, v) :: B).length = A.length + B.length + 1 by simp; omega]; omega)
    refine ⟨g, ?_, by simp only [sem]; rw [on_some hn]; exact I.query hn⟩
    simp only [step, sem]; rw [conOf_ok hc, R.ok_bind, q, R.ok_bind, on_some hn, hR.hd]; simp only [atFirst_eq, b2, List.tail_cons]
  | prev n p =>
    obtain ⟨e, hn, hpm, hne⟩ := hp
    obtain ⟨c, hc, hR⟩ := I.some_ n e hn
    refine ⟨g, ?_, by simp only [sem]; rw [on_some hn]; exact I.query hn⟩
    simp only [step, sem]
    rw [conOf_ok hc, R.ok_bind, on_some hn]
    simp only
    rcases mem_adr.1 hpm with rfl | hpm
    · have hnd := hR.wf.wf.nodup
      rw [List.nodup_cons, hR.hd] at hnd
      obtain ⟨b1, b2⟩ := bef_fro (X := e.X) (A := e.X) (B := []) (p := e.hd) (by simp) hnd.1 (by simp)
      rw [b1, atFirst_rev]
      have := hR.wf.wf.prev_end (f := fu c.c.size); rw [hR.hd] at this
      rw [this, R.ok_bind]
    · obtain ⟨A, v, B, eX, b1, b2⟩ := hR.wf.wf.pos_mem hpm
      have W := hR.wf; rw [eX] at W
      have q := W.wf.prev (f := fu c.c.size) (by
        rw [hR.wf.size, eX, fu_hb, show (A ++ (p, v) :: B).length = A.length + B.length + 1 by simp; omega]; omega)
      rw [q, R.ok_bind, b1, atFirst_rev, hR.hd]

theorem inv_start {key : α → κ} {lt : κ → κ → Bool} : Inv key lt (start : Pg α) (fun _ => none) :=
  ⟨fun _ _ h => (by cases h), fun _ _ => rfl, fun _ _ _ _ _ h => (by cases h), fun _ h => absurd rfl h⟩

theorem steps_ok {key : α → κ} {lt : κ → κ → Bool} (o : SWO lt) {maxsz : Nat} {s s' : St α} {ops : List (Op α κ)} {outs : List Out} (hr : SpecRun key lt maxsz s ops outs s') :
    ∀ {g : Pg α}, Inv key lt g s → ∃ g', steps key lt maxsz g ops = .ok (g', outs) ∧ Inv key lt g' s' := by
  induction hr with
  | nil => intro g I; exact ⟨g, rfl, I⟩
  | @cons s op ops outs s' hp _ ih =>
    intro g I
    obtain ⟨g1, e1, I1⟩ := step_ok (maxsz := maxsz) o I op hp
    obtain ⟨g2, e2, I2⟩ := ih I1
    exact ⟨g2, by unfold steps; rw [e1, R.ok_bind]; simp only; rw [e2, R.ok_bind], I2⟩

end STL.RBT
