import Verif.DList.Reverse

/-! # All lists of a program: the code refines the specification. Proofs only. -/

namespace STL.DL
open STL
variable {α : Type}

/-- A list object against its specification. -/
structure Rel (h : Hp α) (c : Con) (e : Ent α) : Prop where
  hd : c.hd = e.hd
  wf : WF h c e.X

structure Inv (g : Pg α) (s : St α) : Prop where
  some_ : ∀ n e, s n = some e → ∃ c, g.w n = some c ∧ Rel g.h c e
  none_ : ∀ n, s n = none → g.w n = none
  disj : ∀ n n' e e', n ≠ n' → s n = some e → s n' = some e' → ∀ q ∈ adr e, q ∉ adr e'
  leak : ∀ q, g.h q ≠ none → used s q
  zero : g.h 0 = none

theorem Rel.live {h : Hp α} {c : Con} {e : Ent α} (r : Rel h c e) {q : Nat} (hq : q ∈ adr e) : h q ≠ none := by
  unfold adr at hq; rw [← r.hd] at hq; exact r.wf.live (List.mem_cons.1 hq)

theorem Rel.frame {h h' : Hp α} {c : Con} {e : Ent α} (r : Rel h c e) (hs : ∀ q ∈ adr e, h' q = h q) : Rel h' c e :=
  ⟨r.hd, r.wf.frame fun q hq => hs q (by unfold adr; rw [← r.hd]; exact List.mem_cons.2 hq)⟩

theorem Inv.unused {g : Pg α} {s : St α} (I : Inv g s) {q : Nat} (hq : ¬ used s q) : g.h q = none := by
  by_contra h; exact hq (I.leak q h)

theorem Inv.live {g : Pg α} {s : St α} (I : Inv g s) {q : Nat} (hq : used s q) : g.h q ≠ none := by
  obtain ⟨n, e, h1, h2⟩ := hq
  obtain ⟨c, _, r⟩ := I.some_ n e h1
  exact r.live h2

theorem Inv.fresh {g : Pg α} {s : St α} (I : Inv g s) {xs : List Nat} (hf : fresh s xs) : xs.Nodup ∧ ∀ x ∈ xs, g.h x = none ∧ x ≠ 0 :=
  ⟨hf.1, fun x hx => ⟨I.unused (hf.2 x hx).2, (hf.2 x hx).1⟩⟩

theorem Inv.fresh1 {g : Pg α} {s : St α} (I : Inv g s) {x : Option Nat} (hf : ∀ i, x = some i → DL.fresh s [i]) : ∀ i, x = some i → g.h i = none ∧ i ≠ 0 :=
  fun i hi => (I.fresh (hf i hi)).2 i (by simp)

theorem upd_self {β : Type} {s : Nat → Option β} {n : Nat} {e : Option β} : upd s n e n = e := by simp [upd]
theorem upd_ne {β : Type} {s : Nat → Option β} {n m : Nat} {e : Option β} (h : m ≠ n) : upd s n e m = s m := by simp [upd, h]

theorem conOf_ok {w : Nat → Option Con} {n : Nat} {c : Con} (h : w n = some c) : conOf w n = .ok c := by simp [conOf, h]

/-- Identities that lists named by `T` own. -/
def Own (T : Nat → Prop) (s : St α) (q : Nat) : Prop := ∃ m e, T m ∧ s m = some e ∧ q ∈ adr e

/-- Changing the lists named by `T` keeps the invariant. -/
theorem Inv.update {g : Pg α} {s s' : St α} (I : Inv g s) (T : Nat → Prop) {h' : Hp α} {w' : Nat → Option Con}
    (hs : ∀ m, ¬ T m → s' m = s m ∧ w' m = g.w m)
    (hsome : ∀ m e, T m → s' m = some e → ∃ c, w' m = some c ∧ Rel h' c e)
    (hnone : ∀ m, T m → s' m = none → w' m = none)
    (hdisj : ∀ n n' e e', T n → T n' → n ≠ n' → s' n = some e → s' n' = some e' → ∀ q ∈ adr e, q ∉ adr e')
    (hnew : ∀ q, Own T s' q → Own T s q ∨ g.h q = none ∧ q ≠ 0)
    (hfr : ∀ q, ¬ Own T s q → ¬ Own T s' q → h' q = g.h q)
    (hgone : ∀ q, Own T s q → ¬ Own T s' q → h' q = none) : Inv ⟨h', w'⟩ s' := by
  -- a list that is not touched owns nothing of the others
  have sep : ∀ m e, ¬ T m → s m = some e → ∀ q ∈ adr e, ¬ Own T s q ∧ ¬ Own T s' q := by
    intro m e hm he q hq
    have h1 : ¬ Own T s q := by
      rintro ⟨m', e', t1, t2, t3⟩
      exact I.disj m m' e e' (by rintro rfl; exact hm t1) he t2 q hq t3
    refine ⟨h1, fun h2 => ?_⟩
    rcases hnew q h2 with h | h
    · exact h1 h
    · exact I.live ⟨m, e, he, hq⟩ h.1
  refine ⟨?_, ?_, ?_, ?_, ?_⟩
  · intro n e hn
    by_cases hT : T n
    · exact hsome n e hT hn
    · obtain ⟨e1, e2⟩ := hs n hT
      rw [e1] at hn
      obtain ⟨c, hc, r⟩ := I.some_ n e hn
      exact ⟨c, by simp only; rw [e2, hc], r.frame fun q hq => hfr q (sep n e hT hn q hq).1 (sep n e hT hn q hq).2⟩
  · intro n hn
    by_cases hT : T n
    · exact hnone n hT hn
    · obtain ⟨e1, e2⟩ := hs n hT
      rw [e1] at hn
      simp only; rw [e2]; exact I.none_ n hn
  · intro n n' e e' hne hn hn' q hq hq'
    by_cases hT : T n
    · by_cases hT' : T n'
      · exact hdisj n n' e e' hT hT' hne hn hn' q hq hq'
      · rw [(hs n' hT').1] at hn'
        exact (sep n' e' hT' hn' q hq').2 ⟨n, e, hT, hn, hq⟩
    · rw [(hs n hT).1] at hn
      by_cases hT' : T n'
      · exact (sep n e hT hn q hq).2 ⟨n', e', hT', hn', hq'⟩
      · rw [(hs n' hT').1] at hn'
        exact I.disj n n' e e' hne hn hn' q hq hq'
  · intro q hq
    simp only at hq
    by_cases h2 : Own T s' q
    · obtain ⟨m, e, _, t2, t3⟩ := h2; exact ⟨m, e, t2, t3⟩
    · by_cases h1 : Own T s q
      · exact absurd (hgone q h1 h2) hq
      · rw [hfr q h1 h2] at hq
        obtain ⟨m, e, t2, t3⟩ := I.leak q hq
        by_cases hT : T m
        · exact absurd ⟨m, e, hT, t2, t3⟩ h1
        · exact ⟨m, e, by rw [(hs m hT).1]; exact t2, t3⟩
  · simp only
    have h1 : ¬ Own T s 0 := by
      rintro ⟨m, e, _, t2, t3⟩; exact I.live ⟨m, e, t2, t3⟩ I.zero
    have h2 : ¬ Own T s' 0 := by
      intro h2
      rcases hnew 0 h2 with h | h
      · exact h1 h
      · exact h.2 rfl
    rw [hfr 0 h1 h2]; exact I.zero

theorem own1 {n : Nat} {s : St α} {e : Ent α} (hn : s n = some e) (q : Nat) : Own (fun m => m = n) s q ↔ q ∈ adr e := by
  constructor
  · rintro ⟨m, e', rfl, t2, t3⟩; rw [hn] at t2; injection t2 with t2; subst t2; exact t3
  · intro h; exact ⟨n, e, rfl, hn, h⟩

theorem own1_none {n : Nat} {s : St α} (hn : s n = none) (q : Nat) : ¬ Own (fun m => m = n) s q := by
  rintro ⟨m, e', rfl, t2, t3⟩; rw [hn] at t2; cases t2

theorem own2 {n n' : Nat} {s : St α} {e e' : Ent α} (hn : s n = some e) (hn' : s n' = some e') (q : Nat) : Own (fun m => m = n ∨ m = n') s q ↔ q ∈ adr e ∨ q ∈ adr e' := by
  constructor
  · rintro ⟨m, e1, rfl | rfl, t2, t3⟩
    · rw [hn] at t2; injection t2 with t2; subst t2; exact Or.inl t3
    · rw [hn'] at t2; injection t2 with t2; subst t2; exact Or.inr t3
  · rintro (h | h)
    · exact ⟨n, e, Or.inl rfl, hn, h⟩
    · exact ⟨n', e', Or.inr rfl, hn', h⟩

/-- One list is modified. -/
theorem Inv.one {g : Pg α} {s : St α} (I : Inv g s) {n : Nat} {e : Ent α} {c c' : Con} {h' : Hp α} {X' : List (Nat × α)} (hn : s n = some e) (hr : Rel g.h c e) (O : One g.h c e.X h' c' X') :
    Inv ⟨h', upd g.w n (some c')⟩ (upd s n (some ⟨e.hd, X'⟩)) := by
  have hn' : upd s n (some ⟨e.hd, X'⟩) n = some ⟨e.hd, X'⟩ := upd_self
  have hrel : Rel h' c' ⟨e.hd, X'⟩ := ⟨O.hd.trans hr.hd, O.wf⟩
  have hh := hr.hd
  refine I.update (fun m => m = n) ?_ ?_ ?_ ?_ ?_ ?_ ?_
  · intro m hm; exact ⟨upd_ne hm, upd_ne hm⟩
  · rintro m e' rfl he; rw [hn'] at he; injection he with he; subst he; exact ⟨c', upd_self, hrel⟩
  · rintro m rfl he; rw [hn'] at he; cases he
  · rintro m m' _ _ rfl rfl hne; exact absurd rfl hne
  · intro q hq
    rw [own1 hn'] at hq; rw [own1 hn]
    unfold adr at hq ⊢; simp only [List.mem_cons] at hq ⊢
    rcases hq with rfl | hq
    · exact Or.inl (Or.inl rfl)
    · rcases O.new q hq with h | h
      · exact Or.inl (Or.inr h)
      · exact Or.inr h
  · intro q h1 h2
    rw [own1 hn] at h1; rw [own1 hn'] at h2
    unfold adr at h1 h2; simp only [List.mem_cons, not_or] at h1 h2
    exact O.frame q (by rw [hh]; exact h1.1) h1.2 h2.2
  · intro q h1 h2
    rw [own1 hn] at h1; rw [own1 hn'] at h2
    unfold adr at h1 h2; simp only [List.mem_cons, not_or] at h1 h2
    exact O.gone q (by tauto) h2.2

/-- Two lists exchange elements. -/
theorem Inv.two {g : Pg α} {s : St α} (I : Inv g s) {n m : Nat} {e e2 : Ent α} {c d c' d' : Con} {h' : Hp α} {X' Y' : List (Nat × α)} (hne : n ≠ m) (hn : s n = some e) (hm : s m = some e2)
    (hr : Rel g.h c e) (hr2 : Rel g.h d e2) (T : Two g.h c e.X d e2.X h' c' X' d' Y') :
    Inv ⟨h', upd (upd g.w n (some c')) m (some d')⟩ (upd (upd s n (some ⟨e.hd, X'⟩)) m (some ⟨e2.hd, Y'⟩)) := by
  have hn' : upd (upd s n (some ⟨e.hd, X'⟩)) m (some ⟨e2.hd, Y'⟩) n = some ⟨e.hd, X'⟩ := by rw [upd_ne hne, upd_self]
  have hm' : upd (upd s n (some ⟨e.hd, X'⟩)) m (some ⟨e2.hd, Y'⟩) m = some ⟨e2.hd, Y'⟩ := upd_self
  have h1 := hr.hd
  have h2 := hr2.hd
  have hrel : Rel h' c' ⟨e.hd, X'⟩ := ⟨T.hd.trans h1, T.wf⟩
  have hrel2 : Rel h' d' ⟨e2.hd, Y'⟩ := ⟨T.hd2.trans h2, T.wf2⟩
  have key : ∀ q, Own (fun x => x = n ∨ x = m) (upd (upd s n (some ⟨e.hd, X'⟩)) m (some ⟨e2.hd, Y'⟩)) q ↔ Own (fun x => x = n ∨ x = m) s q := by
    intro q
    rw [own2 hn' hm', own2 hn hm]
    have := T.mem q
    unfold adr; simp only [List.mem_cons]; tauto
  refine I.update (fun x => x = n ∨ x = m) ?_ ?_ ?_ ?_ ?_ ?_ ?_
  · intro x hx; simp only [not_or] at hx; exact ⟨by rw [upd_ne hx.2, upd_ne hx.1], by rw [upd_ne hx.2, upd_ne hx.1]⟩
  · rintro x e' (rfl | rfl) he
    · rw [hn'] at he; injection he with he; subst he; exact ⟨c', by rw [upd_ne hne, upd_self], hrel⟩
    · rw [hm'] at he; injection he with he; subst he; exact ⟨d', upd_self, hrel2⟩
  · rintro x (rfl | rfl) he
    · rw [hn'] at he; cases he
    · rw [hm'] at he; cases he
  · have ap := T.apart
    unfold Apart at ap
    have hX : c'.hd :: ids X' = adr ⟨e.hd, X'⟩ := by unfold adr; rw [hrel.hd]
    have hY : d'.hd :: ids Y' = adr ⟨e2.hd, Y'⟩ := by unfold adr; rw [hrel2.hd]
    rw [hX, hY] at ap
    rintro x x' a b (rfl | rfl) (rfl | rfl) hxx ha hb q q1 q2
    · exact hxx rfl
    · rw [hn'] at ha; rw [hm'] at hb; injection ha with ha; injection hb with hb; subst ha hb
      exact ap q q1 q2
    · rw [hm'] at ha; rw [hn'] at hb; injection ha with ha; injection hb with hb; subst ha hb
      exact ap q q2 q1
    · exact hxx rfl
  · intro q hq; exact Or.inl ((key q).1 hq)
  · intro q q1 _
    rw [own2 hn hm] at q1
    unfold adr at q1; rw [← h1, ← h2, not_or] at q1
    exact T.frame q q1.1 q1.2
  · intro q q1 q2; exact absurd ((key q).2 q1) q2

theorem Inv.apart {g : Pg α} {s : St α} (I : Inv g s) {n m : Nat} {e e2 : Ent α} {c d : Con} (hne : n ≠ m) (hn : s n = some e) (hm : s m = some e2)
    (hr : Rel g.h c e) (hr2 : Rel g.h d e2) : Apart c e.X d e2.X := by
  intro q q1 q2
  exact I.disj n m e e2 hne hn hm q (by unfold adr; rw [← hr.hd]; exact q1) (by unfold adr; rw [← hr2.hd]; exact q2)

/-- A new list. -/
theorem Inv.newList {g : Pg α} {s : St α} (I : Inv g s) {n x : Nat} {k : Nat} {h' : Hp α} {X : List (Nat × α)} (hn : s n = none) (W : WF h' ⟨x, k⟩ X) (fr : ∀ q, q ∉ x :: ids X → h' q = g.h q)
    (hx : ∀ q ∈ x :: ids X, g.h q = none ∧ q ≠ 0) : Inv ⟨h', upd g.w n (some ⟨x, k⟩)⟩ (upd s n (some ⟨x, X⟩)) := by
  have hn' : upd s n (some ⟨x, X⟩) n = some ⟨x, X⟩ := upd_self
  refine I.update (fun m => m = n) ?_ ?_ ?_ ?_ ?_ ?_ ?_
  · intro m hm; exact ⟨upd_ne hm, upd_ne hm⟩
  · rintro m e' rfl he; rw [hn'] at he; injection he with he; subst he; exact ⟨_, upd_self, ⟨rfl, W⟩⟩
  · rintro m rfl he; rw [hn'] at he; cases he
  · rintro m m' _ _ rfl rfl hne; exact absurd rfl hne
  · intro q hq; rw [own1 hn'] at hq; exact Or.inr (hx q hq)
  · intro q _ h2; rw [own1 hn'] at h2; exact fr q h2
  · intro q h1 _; exact absurd h1 (own1_none hn q)

theorem Inv.destroyed {g : Pg α} {s : St α} (I : Inv g s) {n : Nat} {e : Ent α} {h' : Hp α} (hn : s n = some e) (h1 : ∀ q ∈ adr e, h' q = none) (h2 : ∀ q, q ∉ adr e → h' q = g.h q) :
    Inv ⟨h', upd g.w n none⟩ (upd s n none) := by
  have hn' : upd s n none n = none := upd_self
  refine I.update (fun m => m = n) ?_ ?_ ?_ ?_ ?_ ?_ ?_
  · intro m hm; exact ⟨upd_ne hm, upd_ne hm⟩
  · rintro m e' rfl he; rw [hn'] at he; cases he
  · rintro m rfl he; exact upd_self
  · rintro m m' _ _ rfl rfl hne; exact absurd rfl hne
  · intro q hq; exact absurd hq (own1_none hn' q)
  · intro q q1 _; rw [own1 hn] at q1; exact h2 q q1
  · intro q q1 _; rw [own1 hn] at q1; exact h1 q q1

theorem Inv.swapped {g : Pg α} {s : St α} (I : Inv g s) {n m : Nat} {e e2 : Ent α} {c d : Con} (hne : n ≠ m) (hn : s n = some e) (hm : s m = some e2) (hc : g.w n = some c) (hd : g.w m = some d)
    (hr : Rel g.h c e) (hr2 : Rel g.h d e2) : Inv ⟨g.h, upd (upd g.w n (some d)) m (some c)⟩ (upd (upd s n (some e2)) m (some e)) := by
  have hn' : upd (upd s n (some e2)) m (some e) n = some e2 := by rw [upd_ne hne, upd_self]
  have hm' : upd (upd s n (some e2)) m (some e) m = some e := upd_self
  have key : ∀ q, Own (fun x => x = n ∨ x = m) (upd (upd s n (some e2)) m (some e)) q ↔ Own (fun x => x = n ∨ x = m) s q := by
    intro q; rw [own2 hn' hm', own2 hn hm]; tauto
  refine I.update (fun x => x = n ∨ x = m) ?_ ?_ ?_ ?_ ?_ ?_ ?_
  · intro x hx; simp only [not_or] at hx; exact ⟨by rw [upd_ne hx.2, upd_ne hx.1], by rw [upd_ne hx.2, upd_ne hx.1]⟩
  · rintro x e' (rfl | rfl) he
    · rw [hn'] at he; injection he with he; subst he; exact ⟨d, by rw [upd_ne hne, upd_self], hr2⟩
    · rw [hm'] at he; injection he with he; subst he; exact ⟨c, upd_self, hr⟩
  · rintro x (rfl | rfl) he
    · rw [hn'] at he; cases he
    · rw [hm'] at he; cases he
  · rintro x x' a b (rfl | rfl) (rfl | rfl) hxx ha hb q q1 q2
    · exact hxx rfl
    · rw [hn'] at ha; rw [hm'] at hb; injection ha with ha; injection hb with hb; subst ha hb
      exact I.disj _ _ _ _ hne.symm hm hn q q1 q2
    · rw [hm'] at ha; rw [hn'] at hb; injection ha with ha; injection hb with hb; subst ha hb
      exact I.disj _ _ _ _ hne hn hm q q1 q2
    · exact hxx rfl
  · intro q hq; exact Or.inl ((key q).1 hq)
  · intro q _ _; rfl
  · intro q q1 q2; exact absurd ((key q).2 q1) q2

/-- Renaming: the new list `n` takes over from `m`, which gets a new empty one. -/
theorem Inv.movedTo {g : Pg α} {s : St α} (I : Inv g s) {n m x : Nat} {e2 : Ent α} {d : Con} {h' : Hp α} (hn : s n = none) (hm : s m = some e2)
    (hr2 : Rel g.h d e2) (W : WF h' ⟨x, 0⟩ []) (fr : ∀ q, q ≠ x → h' q = g.h q) (hx : g.h x = none ∧ x ≠ 0) :
    Inv ⟨h', upd (upd g.w n (some d)) m (some ⟨x, 0⟩)⟩ (upd (upd s n (s m)) m (some ⟨x, []⟩)) := by
  have hne : n ≠ m := by rintro rfl; rw [hn] at hm; cases hm
  have hn' : upd (upd s n (s m)) m (some ⟨x, []⟩) n = some e2 := by rw [upd_ne hne, upd_self, hm]
  have hm' : upd (upd s n (s m)) m (some ⟨x, []⟩) m = some ⟨x, []⟩ := upd_self
  have hxe : x ∉ adr e2 := fun hh => hr2.live hh hx.1
  have key : ∀ q, Own (fun x => x = n ∨ x = m) (upd (upd s n (s m)) m (some ⟨x, []⟩)) q ↔ q ∈ adr e2 ∨ q = x := by
    intro q; rw [own2 hn' hm']; simp [adr]
  have key0 : ∀ q, Own (fun x => x = n ∨ x = m) s q ↔ q ∈ adr e2 := by
    intro q
    constructor
    · rintro ⟨y, e', rfl | rfl, t2, t3⟩
      · rw [hn] at t2; cases t2
      · rw [hm] at t2; injection t2 with t2; subst t2; exact t3
    · intro h; exact ⟨m, e2, Or.inr rfl, hm, h⟩
  refine I.update (fun x => x = n ∨ x = m) ?_ ?_ ?_ ?_ ?_ ?_ ?_
  · intro x hx; simp only [not_or] at hx; exact ⟨by rw [upd_ne hx.2, upd_ne hx.1], by rw [upd_ne hx.2, upd_ne hx.1]⟩
  · rintro y e' (rfl | rfl) he
    · rw [hn'] at he; injection he with he; subst he; exact ⟨d, by rw [upd_ne hne, upd_self], hr2.frame fun q hq => fr q (by rintro rfl; exact hxe hq)⟩
    · rw [hm'] at he; injection he with he; subst he; exact ⟨_, upd_self, rfl, W⟩
  · rintro x (rfl | rfl) he
    · rw [hn'] at he; cases he
    · rw [hm'] at he; cases he
  · rintro y y' a b (rfl | rfl) (rfl | rfl) hxx ha hb q q1 q2
    · exact hxx rfl
    · rw [hn'] at ha; rw [hm'] at hb; injection ha with ha; injection hb with hb; subst ha hb
      simp [adr] at q2; subst q2; exact hxe q1
    · rw [hm'] at ha; rw [hn'] at hb; injection ha with ha; injection hb with hb; subst ha hb
      simp [adr] at q1; subst q1; exact hxe q2
    · exact hxx rfl
  · intro q hq; rw [key] at hq; rw [key0]
    rcases hq with h | rfl
    · exact Or.inl h
    · exact Or.inr hx
  · intro q _ q2; rw [key] at q2; exact fr q (by tauto)
  · intro q q1 q2; rw [key] at q2; rw [key0] at q1; tauto

end STL.DL
