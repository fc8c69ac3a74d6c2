import Verif.Variant.Hoare

/-! # The operations of `variant`. Proofs only. -/

namespace STL.Var
open STL

variable {V β γ : Type} {P : Par V} {g : Gs V}

theorem all_imp {a b : Nat → Bool} (h : ∀ i, a i = true → b i = true) (ha : all P a = true) : all P b = true := by
  unfold all at *
  rw [List.all_eq_true] at *
  exact fun i hi => h i (ha i hi)

theorem Does.visit {Q : β → Gs V → Prop} {E : Exc → Gs V → Prop} {l : Nm} {f : Option Nat → M V β} (hn : P.n < 2 ^ 31) (hl : Whole g l)
    (h1 : g l = .vless → Does P (f none) g Q E) (h2 : ∀ i x, g l = .has i x → i < P.n → Does P (f (some i)) g Q E) :
    Does P (Var.index l >>= fun idx => rawVisit P idx f) g Q E := by
  refine Does.index hn hl ?_
  rcases hl with hl | ⟨i, x, hl⟩
  · rw [hl]
    show Does P (rawVisit P npos f) g Q E
    rw [rawVisit_npos]
    exact h1 hl
  · refine Does.lt Obj.has hl fun hi => ?_
    rw [hl]
    show Does P (rawVisit P i f) g Q E
    rw [rawVisit_lt hn hi]
    exact h2 i x hl hi

theorem Does.range {Q : β → Gs V → Prop} {E : Exc → Gs V → Prop} {m : M V β} (h : (∀ k i x, g k = .has i x → i < P.n) → Does P m g Q E) : Does P m g Q E := by
  intro w hw
  refine h (fun k i x hk => ?_) w hw
  have := hw k
  rw [hk] at this
  exact Obj.has.lt this

section
variable {Q : Unit → Gs V → Prop} {E : Exc → Gs V → Prop}

theorem Does.ctorIn {k : Nm} {i : Nat} {x : V} {nt : Bool} (hn : P.n < 2 ^ 31) (ht : k ≠ .t) (hi : i < P.n) (hk : g k = .absent)
    (h : Q () (upd g k (.has i x))) (hE : nt = false → E .user g) : Does P (Var.ctorIn P k i x nt) g Q E := by
  unfold Var.ctorIn
  refine Does.newBase ht hk (Does.bind (Does.onExc (Does.ctorArg hi (.inr ⟨ht, by simp⟩) ?_ fun h1 => ?_)))
  · exact Does.setIndex (x := x) hn ht (by simp) (by simpa using h)
  · refine Does.endStorage (by simp) ?_
    rw [upd_upd, upd_self _ _ _ hk]
    exact hE h1

theorem Does.emplaceArg {k : Nm} {i : Nat} {x : V} {nt : Bool} (hn : P.n < 2 ^ 31) (ht : k ≠ .t) (hi : i < P.n) (hk : g k = .vless)
    (h : Q () (upd g k (.has i x))) (hE : nt = false → E .user g) : Does P (Var.emplaceArg P k i x nt) g Q E := by
  unfold Var.emplaceArg
  refine Does.checkValueless hk (Does.bind (Does.ctorArg hi (.inr ⟨ht, hk⟩) ?_ hE))
  exact Does.setIndex (x := x) hn ht (by simp) (by simpa using h)

theorem Does.emplaceMove {C : Nat → V → Gh V} (hC : Obj C) {k l : Nm} {i : Nat} {x : V} (hn : P.n < 2 ^ 31) (ht : k ≠ .t) (hk : g k = .vless) (hl : g l = C i x)
    (h : Q () (upd (upd g k (.has i x)) l (C i (P.moved i x)))) (hE : P.nmc i = false → ∀ b, E .user (upd g l (C i b))) :
    Does P (Var.emplaceMove P k l i) g Q E := by
  unfold Var.emplaceMove
  have hf : Free g k := .inr ⟨ht, hk⟩
  have hne := hf.ne hC hl
  refine Does.checkValueless hk (Does.bind (Does.ctorMove hC hf hl ?_ hE))
  refine Does.setIndex (x := x) hn ht (by rw [upd_ne _ _ (Ne.symm hne)]; simp) ?_
  rwa [upd_comm _ _ _ hne, upd_upd]

theorem Does.emplace {k : Nm} {i : Nat} {x : V} {nt : Bool} (hn : P.n < 2 ^ 31) (ht : k ≠ .t) (hi : i < P.n) (hk : Whole g k)
    (h : Q () (upd g k (.has i x))) (hE : nt = false → E .user (upd g k .vless)) : Does P (Var.emplace P k i x nt) g Q E := by
  unfold Var.emplace
  refine Does.reset hn ht hk (Does.emplaceArg hn ht hi (by simp) ?_ hE)
  simpa using h

theorem direct_false {i : Nat} {nt : Bool} (h : ¬ direct P i nt = true) : nt = false ∧ P.nmc i = true := by
  unfold direct at h
  cases nt <;> cases hm : P.nmc i <;> simp_all

theorem direct_true {i : Nat} {nt : Bool} (h : direct P i nt = true) (hn : nt = false) : P.nmc i = false := by
  unfold direct at h
  cases nt <;> cases hm : P.nmc i <;> simp_all

theorem Whole.upd_ne {k l : Nm} {a : Gh V} (h : Whole g k) (hne : k ≠ l) : Whole (upd g l a) k := by
  unfold Whole
  rwa [Var.upd_ne _ _ hne]

theorem Does.assignArg {k : Nm} {i : Nat} {x : V} {ntc nta : Bool} (hn : P.n < 2 ^ 31) (hkt : k ≠ .t) (htt : g .t = .absent) (hi : i < P.n) (hk : Whole g k)
    (h : Q () (upd g k (.has i x))) (hE1 : ∀ y, g k = .has i y → nta = false → ∀ a, E .user (upd g k (.has i a)))
    (hE2 : (g k).idx ≠ i → ntc = false → P.nmc i = true → E .user g)
    (hE3 : (g k).idx ≠ i → ntc = false → P.nmc i = false → E .user (upd g k .vless)) : Does P (Var.assignArg P k i x ntc nta) g Q E := by
  unfold Var.assignArg
  refine Does.index hn hk ?_
  split
  · next h1 =>
    rcases hk with hk | ⟨j, y, hk⟩
    · rw [hk] at h1
      unfold Gh.idx npos at h1
      dsimp only at h1
      omega
    · rw [hk] at h1
      have : j = i := h1
      subst this
      exact Does.asgArg hk h (hE1 y hk)
  · next h1 =>
    split
    · next h2 =>
      refine Does.reset hn hkt hk (Does.emplaceArg hn hkt hi (by simp) ?_ fun h3 => hE3 h1 h3 (direct_true h2 h3))
      simpa using h
    · next h2 =>
      obtain ⟨h3, h4⟩ := direct_false h2
      refine Does.bind (Does.ctorArg hi (.inl ⟨rfl, htt⟩) ?_ fun h5 => hE2 h1 h5 h4)
      refine Does.bind (Does.onExc ?_)
      refine Does.reset hn hkt (hk.upd_ne hkt) ?_
      refine Does.emplaceMove Obj.built (x := x) hn hkt (by simp) (by rw [upd_ne _ _ (Ne.symm hkt)]; simp) ?_ fun h6 => by rw [h4] at h6; cases h6
      refine Does.dtorT (i := i) (x := P.moved i x) (by simp) ?_
      rw [upd_upd, upd_upd, upd_comm _ _ _ hkt, upd_upd, upd_self _ _ _ htt]
      exact h

theorem Does.constructCopy {k l : Nm} {r : Option Nat} (hn : P.n < 2 ^ 31) (ht : k ≠ .t) (hk : g k = .vless)
    (h0 : r = none → Q () g) (h : ∀ i, r = some i → ∃ x, g l = .has i x ∧ Q () (upd g k (.has i x)) ∧ (P.ncc i = false → E .user g)) :
    Does P (Var.constructCopy P k l r) g Q E := by
  unfold Var.constructCopy
  refine Does.checkValueless hk ?_
  cases r with
  | none => exact Does.pure (h0 rfl)
  | some i =>
    obtain ⟨x, h1, h2, h3⟩ := h i rfl
    refine Does.bind (Does.ctorCopy Obj.has (.inr ⟨ht, hk⟩) h1 ?_ h3)
    exact Does.setIndex (x := x) hn ht (by simp) (by simpa using h2)

theorem Does.constructMove {k l : Nm} {r : Option Nat} (hn : P.n < 2 ^ 31) (ht : k ≠ .t) (hk : g k = .vless)
    (h0 : r = none → Q () g) (h : ∀ i, r = some i → ∃ x, g l = .has i x ∧ Q () (upd (upd g k (.has i x)) l (.has i (P.moved i x))) ∧
      (P.nmc i = false → ∀ b, E .user (upd g l (.has i b)))) :
    Does P (Var.constructMove P k l r) g Q E := by
  unfold Var.constructMove
  refine Does.checkValueless hk ?_
  cases r with
  | none => exact Does.pure (h0 rfl)
  | some i =>
    obtain ⟨x, h1, h2, h3⟩ := h i rfl
    have hf : Free g k := .inr ⟨ht, hk⟩
    have hne := hf.ne Obj.has h1
    refine Does.bind (Does.ctorMove Obj.has hf h1 ?_ h3)
    refine Does.setIndex (x := x) hn ht (by rw [upd_ne _ _ (Ne.symm hne)]; simp) ?_
    rwa [upd_comm _ _ _ hne, upd_upd]

/-- The state of a moved-from variant. -/
def Gh.leave (P : Par V) : Gh V → Gh V
  | .has i x => .has i (P.moved i x)
  | a => a

theorem Does.copyCtor {k l : Nm} (ok : P.Ok) (hkt : k ≠ .t) (hlt : l ≠ .t) (hk : g k = .absent) (hl : Whole g l)
    (h : Q () (upd g k (g l))) (hE : ∀ i x, g l = .has i x → P.ncc i = false → E .user g) : Does P (Var.copyCtor P k l) g Q E := by
  have hn := ok.lt
  have hne : l ≠ k := by
    rintro rfl
    rcases hl with hl | ⟨i, x, hl⟩ <;> rw [hk] at hl <;> cases hl
  unfold Var.copyCtor
  split
  · next ha =>
    refine Does.newBase hkt hk (Does.bytes hn (all_imp ok.tcc ha) (.inl (by simp)) (hl.upd_ne hne) hkt hlt ?_)
    rw [upd_upd, upd_ne _ _ hne]
    exact h
  · refine Does.newBase hkt hk (Does.onExc (Does.visit hn (hl.upd_ne hne) ?_ ?_))
    · intro h1
      rw [upd_ne _ _ hne] at h1
      exact Does.constructCopy hn hkt (by simp) (fun _ => by rwa [h1] at h) fun i hi => by cases hi
    · intro i x h1 h2
      rw [upd_ne _ _ hne] at h1
      refine Does.constructCopy hn hkt (by simp) (fun hi => by cases hi) fun j hj => ?_
      cases hj
      refine ⟨x, by rw [upd_ne _ _ hne]; exact h1, by rw [upd_upd]; rwa [h1] at h, fun h3 => ?_⟩
      refine Does.destruct hn (.inl (by simp)) ?_
      rw [upd_upd, upd_self _ _ _ hk]
      exact hE i x h1 h3

theorem Does.moveCtor {k l : Nm} (ok : P.Ok) (hkt : k ≠ .t) (hlt : l ≠ .t) (hk : g k = .absent) (hl : Whole g l)
    (h : Q () (upd (upd g k (g l)) l ((g l).leave P))) (hE : ∀ i x, g l = .has i x → P.nmc i = false → ∀ b, E .user (upd g l (.has i b))) :
    Does P (Var.moveCtor P k l) g Q E := by
  have hn := ok.lt
  have hne : l ≠ k := by
    rintro rfl
    rcases hl with hl | ⟨i, x, hl⟩ <;> rw [hk] at hl <;> cases hl
  refine Does.range fun hr => ?_
  unfold Var.moveCtor
  split
  · next ha =>
    refine Does.newBase hkt hk (Does.bytes hn (all_imp (fun i hi => (ok.tmc i hi).1) ha) (.inl (by simp)) (hl.upd_ne hne) hkt hlt ?_)
    rw [upd_upd, upd_ne _ _ hne]
    have : (g l).leave P = upd g k (g l) l := by
      rw [upd_ne _ _ hne]
      rcases hl with hl | ⟨i, x, hl⟩
      · rw [hl]
        rfl
      · rw [hl]
        unfold Gh.leave
        dsimp only
        rw [(ok.tmc i (all_eq ha (hr _ _ _ hl))).2]
    rw [this, upd_self _ _ _ rfl] at h
    exact h
  · refine Does.newBase hkt hk (Does.onExc (Does.visit hn (hl.upd_ne hne) ?_ ?_))
    · intro h1
      rw [upd_ne _ _ hne] at h1
      refine Does.constructMove hn hkt (by simp) (fun _ => ?_) fun i hi => by cases hi
      rw [h1] at h
      rwa [upd_self (upd g k .vless) l] at h
      rw [upd_ne _ _ hne, h1]
      rfl
    · intro i x h1 h2
      rw [upd_ne _ _ hne] at h1
      refine Does.constructMove hn hkt (by simp) (fun hi => by cases hi) fun j hj => ?_
      cases hj
      refine ⟨x, by rw [upd_ne _ _ hne]; exact h1, by rw [upd_upd]; rw [h1] at h; exact h, fun h3 b => ?_⟩
      refine Does.destruct hn (.inl (by rw [upd_ne _ _ (Ne.symm hne)]; simp)) ?_
      rw [upd_comm _ _ _ hne, upd_upd, upd_self g k _ hk]
      exact hE i x h1 h3 b

/-- A reset that ends a visit. -/
theorem Does.reset' {k : Nm} (hn : P.n < 2 ^ 31) (ht : k ≠ .t) (hk : Whole g k) (h : Q () (upd g k .vless)) : Does P (Var.reset P k) g Q E := by
  have h1 : Var.reset P k = (Var.reset P k >>= fun u => Pure.pure u) := by
    funext w
    show _ = M.bind _ _ w
    unfold M.bind
    cases Var.reset P k w <;> rfl
  rw [h1]
  exact Does.reset hn ht hk (Does.pure h)

theorem Does.resetAt' {k : Nm} {i : Nat} {x : V} (ht : k ≠ .t) (hk : g k = .has i x) (h : Q () (upd g k .vless)) : Does P (Var.resetAt P k i) g Q E := by
  have h1 : Var.resetAt P k i = (Var.resetAt P k i >>= fun u => Pure.pure u) := by
    funext w
    show _ = M.bind _ _ w
    unfold M.bind
    cases Var.resetAt P k i w <;> rfl
  rw [h1]
  exact Does.resetAt ht hk (Does.pure h)

theorem idx_has {k : Nm} {i : Nat} (hn : P.n < 2 ^ 31) (hi : i < P.n) (hk : Whole g k) (h : (g k).idx = i) : ∃ y, g k = .has i y := by
  rcases hk with hk | ⟨j, y, hk⟩
  · rw [hk] at h
    unfold Gh.idx npos at h
    dsimp only at h
    omega
  · rw [hk] at h
    have h : j = i := h
    exact ⟨y, by rw [hk, h]⟩

theorem Does.copyAssign {k l : Nm} (ok : P.Ok) (hkt : k ≠ .t) (hlt : l ≠ .t) (htt : g .t = .absent) (hk : Whole g k) (hl : Whole g l)
    (h : Q () (upd g k (g l)))
    (hE1 : ∀ i x y, g k = .has i x → g l = .has i y → P.nca i = false → ∀ a, E .user (upd g k (.has i a)))
    (hE2 : ∀ i y, g l = .has i y → (g k).idx ≠ i → P.ncc i = false → P.nmc i = true → E .user g)
    (hE3 : ∀ i y, g l = .has i y → (g k).idx ≠ i → P.ncc i = false → P.nmc i = false → E .user (upd g k .vless)) :
    Does P (Var.copyAssign P k l) g Q E := by
  have hn := ok.lt
  unfold Var.copyAssign
  split
  · next ha =>
    exact Does.bytes hn (all_imp (fun i hi => by simp at hi; exact hi.1.1) ha) hk hl hkt hlt h
  · refine Does.visit hn hl (fun h1 => ?_) fun i x h1 hi => ?_
    · unfold assignCopy
      exact Does.reset' hn hkt hk (by rwa [h1] at h)
    · unfold assignCopy
      dsimp only
      rw [h1] at h
      refine Does.read hn hk fun c hc _ _ => ?_
      rw [hc]
      split
      · next h2 =>
        obtain ⟨y, hy⟩ := idx_has hn hi hk h2
        exact Does.asgCopy hy h1 h (hE1 i y x hy h1)
      · next h2 =>
        have hne : l ≠ k := by
          rintro rfl
          rw [h1] at h2
          exact h2 rfl
        split
        · next h3 =>
          refine Does.reset hn hkt hk (Does.bind (Does.ctorCopy Obj.has (.inr ⟨hkt, by simp⟩) (by rw [upd_ne _ _ hne]; exact h1) ?_ fun h4 =>
            hE3 i x h1 h2 h4 (direct_true h3 h4)))
          exact Does.setIndex (x := x) hn hkt (by simp) (by simpa using h)
        · next h3 =>
          obtain ⟨h4, h5⟩ := direct_false h3
          refine Does.bind (Does.ctorCopy Obj.has (.inl ⟨rfl, htt⟩) h1 ?_ fun h6 => hE2 i x h1 h2 h6 h5)
          unfold viaTemp
          refine Does.bind (Does.onExc (Does.reset hn hkt (hk.upd_ne hkt) ?_))
          refine Does.ctorMove Obj.built (x := x) (.inr ⟨hkt, by simp⟩) (by rw [upd_ne _ _ (Ne.symm hkt)]; simp) ?_ fun h6 => by rw [h5] at h6; cases h6
          refine Does.bind (Does.dtorT (i := i) (x := P.moved i x) (by simp) ?_)
          refine Does.setIndex (x := x) hn hkt (by rw [upd_ne _ _ hkt, upd_ne _ _ hkt]; simp) ?_
          rw [upd_upd, upd_upd, upd_comm _ _ _ hkt, upd_upd, upd_upd, upd_comm _ _ _ (Ne.symm hkt), upd_self _ .t _ (by rw [upd_ne _ _ (Ne.symm hkt)]; exact htt)]
          exact h

theorem Does.moveAssign {k l : Nm} (ok : P.Ok) (hkt : k ≠ .t) (hlt : l ≠ .t) (hk : Whole g k) (hl : Whole g l)
    (h0 : g l = .vless → Q () (upd g k .vless))
    (h1 : ∀ i y, k = l → g l = .has i y → Q () (upd g k (.has i (P.selfMoved i y))))
    (h2 : ∀ i x y, k ≠ l → g k = .has i x → g l = .has i y → Q () (upd (upd g k (.has i y)) l (.has i (P.movedA i y))))
    (h3 : ∀ i y, g l = .has i y → (g k).idx ≠ i → Q () (upd (upd g k (.has i y)) l (.has i (P.moved i y))))
    (hE1 : ∀ i x y, g k = .has i x → g l = .has i y → P.nma i = false → ∀ a b, E .user (upd (upd g l (.has i b)) k (.has i a)))
    (hE2 : ∀ i y, g l = .has i y → (g k).idx ≠ i → P.nmc i = false → ∀ b, E .user (upd (upd g k .vless) l (.has i b))) :
    Does P (Var.moveAssign P k l) g Q E := by
  have hn := ok.lt
  refine Does.range fun hr => ?_
  unfold Var.moveAssign
  split
  · next ha =>
    refine Does.bytes hn (all_imp (fun i hi => by simp at hi; exact hi.1.1) ha) hk hl hkt hlt ?_
    rcases hl with hl | ⟨i, y, hl⟩
    · rw [hl]
      exact h0 hl
    · have hin := hr _ _ _ hl
      have hi := all_eq ha hin
      simp at hi
      by_cases hkl : k = l
      · subst hkl
        have := h1 i y rfl hl
        rwa [(ok.tma i hi.2 y).2, ← hl] at this
      · by_cases hx : (g k).idx = i
        · obtain ⟨x, hx⟩ := idx_has hn hin hk hx
          have := h2 i x y hkl hx hl
          rwa [(ok.tma i hi.2 y).1, upd_self _ l, ← hl] at this
          rw [upd_ne _ _ (Ne.symm hkl)]
          exact hl
        · have := h3 i y hl hx
          rwa [(ok.tmc i hi.1.2).2 y, upd_self _ l, ← hl] at this
          rw [upd_ne _ _ (Ne.symm hkl)]
          exact hl
  · refine Does.visit hn hl (fun h1 => ?_) fun i y h1' hi => ?_
    · unfold assignMove
      exact Does.reset' hn hkt hk (h0 h1)
    · unfold assignMove
      dsimp only
      refine Does.read hn hk fun c hc _ _ => ?_
      rw [hc]
      split
      · next h4 =>
        obtain ⟨x, hx⟩ := idx_has hn hi hk h4
        exact Does.asgMove hx h1' (fun h => h1 i y h h1') (fun h => h2 i x y h hx h1') (hE1 i x y hx h1')
      · next h4 =>
        have hne : l ≠ k := by
          rintro rfl
          rw [h1'] at h4
          exact h4 rfl
        refine Does.reset hn hkt hk (Does.bind (Does.ctorMove Obj.has (.inr ⟨hkt, by simp⟩) (by rw [upd_ne _ _ hne]; exact h1') ?_ (hE2 i y h1' h4)))
        refine Does.setIndex (x := y) hn hkt (by rw [upd_ne _ _ (Ne.symm hne)]; simp) ?_
        rw [upd_upd, upd_comm _ _ _ hne, upd_upd]
        exact h3 i y h1' h4

end
end STL.Var
