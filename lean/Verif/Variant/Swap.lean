import Verif.Variant.Ops

/-! # `swap`. Proofs only. -/

namespace STL.Var
open STL

variable {V β γ : Type} {P : Par V} {g : Gs V}
variable {Q : Unit → Gs V → Prop} {E : Exc → Gs V → Prop}

theorem Does.emplaceFrom {k l : Nm} (hn : P.n < 2 ^ 31) (hkt : k ≠ .t) (hne : l ≠ k) (hk : Whole g k) (hl : Whole g l)
    (h : Q () (upd (upd g k (g l)) l ((g l).leave P))) (hE : ∀ j y, g l = .has j y → P.nmc j = false → ∀ b, E .user (upd (upd g k .vless) l (.has j b))) :
    Does P (Var.emplaceFrom P k l) g Q E := by
  unfold Var.emplaceFrom
  refine Does.reset hn hkt hk (Does.visit hn (hl.upd_ne hne) (fun h1 => ?_) fun i x h1 hi => ?_)
  · rw [upd_ne _ _ hne] at h1
    refine Does.pure ?_
    rw [h1] at h
    rwa [upd_self (upd g k .vless) l] at h
    rw [upd_ne _ _ hne, h1]
    rfl
  · have h1' := h1
    rw [upd_ne _ _ hne] at h1
    refine Does.emplaceMove Obj.has hn hkt (by simp) h1' ?_ (hE i x h1)
    rw [upd_upd]
    rwa [h1] at h

theorem Does.endTriv {k : Nm} (ha : all P P.td = true) (hk : Whole g k) (h : Q () (upd g k .absent)) :
    Does P (Var.endStorage P k) g Q E := by
  rcases hk with hk | ⟨i, x, hk⟩
  · exact Does.endStorage hk h
  · refine Does.of_ok fun w hw => ?_
    have h1 := hw k
    rw [hk] at h1
    obtain ⟨h2, h3, h4, h5, h6, h7⟩ := h1
    have htd := all_eq ha h5
    rw [htd] at h7
    refine ⟨(), _, _, endStorage_cell rfl h3 ?_, hw.upd (a := .absent) ?_ _, h⟩
    · intro j y ho
      rw [h6] at ho
      cases ho
      exact htd
    · exact ⟨rfl, rfl, h7⟩

/-- What may come of `swap` when it throws. -/
structure SwapE (P : Par V) (g : Gs V) (k l : Nm) (E : Exc → Gs V → Prop) : Prop where
  same : ∀ i x y a b, g k = .has i x → g l = .has i y → P.nsw i = false → E .user (upd (upd g l (.has i b)) k (.has i a))
  first : ∀ i x b, (g k).idx ≠ (g l).idx → g k = .has i x → P.nmc i = false → E .user (upd g k (.has i b))
  second : ∀ j y b, (g k).idx ≠ (g l).idx → g l = .has j y → P.nmc j = false → E .user (upd (upd g k .vless) l (.has j b))
  third : ∀ i x, (g k).idx ≠ (g l).idx → g k = .has i x → P.nmc i = false → (g l = .vless → 32 ≤ P.n) → E .user (upd (upd g k (g l)) l .vless)

theorem Does.swapDiff {k l : Nm} {i j : Nat} {x y : V} (hn : P.n < 2 ^ 31) (hkt : k ≠ .t) (hlt : l ≠ .t) (htt : g .t = .absent) (hij : i ≠ j)
    (hk : g k = .has i x) (hl : g l = .has j y) (h : Q () (upd (upd g k (g l)) l (g k))) (hE : SwapE P g k l E) :
    Does P (Var.swapDiff P k l i j) g Q E := by
  have hne : l ≠ k := by
    rintro rfl
    rw [hk] at hl
    cases hl
    exact hij rfl
  have hidx : (g k).idx ≠ (g l).idx := by
    rw [hk, hl]
    exact hij
  unfold Var.swapDiff
  refine Does.bind (Does.ctorMove Obj.has (.inl ⟨rfl, htt⟩) hk ?_ fun h1 b => hE.first i x b hidx hk h1)
  refine Does.bind (Does.onExc ?_)
  refine Does.resetAt (x := P.moved i x) hkt (by simp) ?_
  refine Does.bind (Does.emplaceMove Obj.has (x := y) hn hkt (by simp) (by rw [upd_ne _ _ hne, upd_ne _ _ hne, upd_ne _ _ hlt]; exact hl) ?_ fun h1 b => ?_)
  · refine Does.resetAt (x := P.moved j y) hlt (by simp) ?_
    refine Does.emplaceMove Obj.built (x := x) hn hlt (by simp) ?_ ?_ fun h1 b => ?_
    · rw [upd_ne _ _ (Ne.symm hlt), upd_ne _ _ (Ne.symm hlt), upd_ne _ _ (Ne.symm hkt), upd_ne _ _ (Ne.symm hkt), upd_ne _ _ (Ne.symm hkt)]
      simp
    · refine Does.dtorT (i := i) (x := P.moved i x) (by simp) ?_
      have : upd (upd (upd (upd (upd (upd (upd (upd (upd g .t (.built i x)) k (.has i (P.moved i x))) k .vless) k (.has j y)) l (.has j (P.moved j y))) l .vless) l (.has i x))
        .t (.built i (P.moved i x))) .t .absent = upd (upd g k (g l)) l (g k) := by
        rw [hk, hl]
        funext m
        simp only [upd]
        by_cases h1 : m = .t
        · subst h1
          simp [Ne.symm hkt, Ne.symm hlt, htt]
        · by_cases h2 : m = l <;> by_cases h3 : m = k <;> simp [h1, h2, h3, hkt, hlt, Ne.symm hne]
      rw [this]
      exact h
    · refine Does.dtorT (i := i) (x := b) (by simp) ?_
      have : upd (upd (upd (upd (upd (upd (upd (upd g .t (.built i x)) k (.has i (P.moved i x))) k .vless) k (.has j y)) l (.has j (P.moved j y))) l .vless)
        .t (.built i b)) .t .absent = upd (upd g k (g l)) l .vless := by
        rw [hl]
        funext m
        simp only [upd]
        by_cases h1 : m = .t
        · subst h1
          simp [Ne.symm hkt, Ne.symm hlt, htt]
        · by_cases h2 : m = l <;> by_cases h3 : m = k <;> simp [h1, h2, h3, hkt, hlt, Ne.symm hne]
      rw [this]
      exact hE.third i x hidx hk h1 fun h2 => by rw [hl] at h2; cases h2
  · refine Does.dtorT (i := i) (x := x) ?_ ?_
    · rw [upd_ne _ _ (Ne.symm hlt), upd_ne _ _ (Ne.symm hkt), upd_ne _ _ (Ne.symm hkt)]
      simp
    · have : upd (upd (upd (upd (upd g .t (.built i x)) k (.has i (P.moved i x))) k .vless) l (.has j b)) .t .absent = upd (upd g k .vless) l (.has j b) := by
        funext m
        simp only [upd]
        by_cases h1 : m = .t
        · subst h1
          simp [Ne.symm hkt, Ne.symm hlt, htt]
        · by_cases h2 : m = l <;> by_cases h3 : m = k <;> simp [h1, h2, h3, hkt, hlt, Ne.symm hne]
      rw [this]
      exact hE.second j y b hidx hl h1

theorem Does.swapBig {k l : Nm} (ok : P.Ok) (hbig : 32 ≤ P.n) (hkt : k ≠ .t) (hlt : l ≠ .t) (hkv : k ≠ .tv) (hlv : l ≠ .tv) (htv : g .tv = .absent)
    (hne : (g k).idx ≠ (g l).idx) (hk : Whole g k) (hl : Whole g l) (h : Q () (upd (upd g k (g l)) l (g k))) (hE : SwapE P g k l E) :
    Does P (Var.swapBig P k l) g Q E := by
  have hkl : l ≠ k := by
    rintro rfl
    exact hne rfl
  have hn := ok.lt
  have wl : ∀ a b : Gh V, Whole (upd (upd g .tv a) k b) l := fun a b => (hl.upd_ne hlv).upd_ne hkl
  have wleave : ∀ {a : Gh V}, (a = .vless ∨ ∃ i x, a = .has i x) → a.leave P = .vless ∨ ∃ i x, a.leave P = .has i x := by
    rintro a (rfl | ⟨i, x, rfl⟩)
    · exact .inl rfl
    · exact .inr ⟨i, _, rfl⟩
  unfold Var.swapBig
  refine Does.bind (Does.moveCtor ok (by simp) hkt htv hk ?_ fun i x h1 h2 b => hE.first i x b hne h1 h2)
  refine Does.bind (Does.onExc (Does.bind (Does.emplaceFrom hn hkt hkl ?_ (wl _ _) ?_ fun j y h1 h2 b => ?_)))
  · show _ = _ ∨ _
    rw [upd_same]
    exact wleave hk
  · have e1 : upd (upd g .tv (g k)) k ((g k).leave P) l = g l := by rw [upd_ne _ _ hkl, upd_ne _ _ hlv]
    rw [e1, upd_upd]
    have e2 : upd (upd (upd g .tv (g k)) k (g l)) l ((g l).leave P) .tv = g k := by
      rw [upd_ne _ _ (Ne.symm hlv), upd_ne _ _ (Ne.symm hkv)]
      simp
    refine Does.emplaceFrom hn hlt (Ne.symm hlv) ?_ ?_ ?_ fun i x h1 h2 b => ?_
    · show _ = _ ∨ _
      rw [upd_same]
      exact wleave hl
    · unfold Whole
      rw [e2]
      exact hk
    · refine Does.destruct hn ?_ ?_
      · show _ = _ ∨ _
        rw [upd_same, e2]
        exact wleave hk
      · rw [e2, upd_upd, upd_upd, upd_comm _ _ _ hlv, upd_comm _ _ _ hkv, upd_upd, upd_self g .tv _ htv]
        exact h
    · rw [e2] at h1
      refine Does.destruct hn (.inr ⟨i, b, by simp⟩) ?_
      rw [upd_upd, upd_upd, upd_comm _ _ _ hlv, upd_comm _ _ _ hkv, upd_upd, upd_self g .tv _ htv]
      exact hE.third i x hne h1 h2 fun _ => hbig
  · rw [upd_ne _ _ hkl, upd_ne _ _ hlv] at h1
    refine Does.destruct hn ?_ ?_
    · unfold Whole
      rw [upd_upd, upd_ne _ _ (Ne.symm hlv), upd_ne _ _ (Ne.symm hkv), upd_same]
      exact hk
    · rw [upd_upd, upd_comm _ _ _ hlv, upd_comm _ _ _ hkv, upd_upd, upd_self g .tv _ htv]
      exact hE.second j y b hne h1 h2

theorem Does.swap {k l : Nm} (ok : P.Ok) (hkt : k ≠ .t) (hlt : l ≠ .t) (hkv : k ≠ .tv) (hlv : l ≠ .tv) (htt : g .t = .absent) (htv : g .tv = .absent)
    (hk : Whole g k) (hl : Whole g l) (h : Q () (upd (upd g k (g l)) l (g k))) (hE : SwapE P g k l E) :
    Does P (Var.swap P k l) g Q E := by
  have hn := ok.lt
  refine Does.range fun hr => ?_
  unfold Var.swap
  split
  · next ha =>
    have ha := all_imp (b := P.td) (fun i hi => by unfold trivSwap at hi; simp at hi; exact hi.1.1.1) ha
    refine Does.newBase (by simp) htv ?_
    refine Does.bind (Does.bytes hn ha (.inl (by simp)) (hk.upd_ne hkv) (by simp) hkt ?_)
    rw [upd_upd, upd_ne _ _ hkv]
    refine Does.bind (Does.bytes hn ha (hk.upd_ne hkv) (hl.upd_ne hlv) hkt hlt ?_)
    rw [upd_ne _ _ hlv]
    have e : upd (upd g .tv (g k)) k (g l) .tv = g k := by
      rw [upd_ne _ _ (Ne.symm hkv)]
      simp
    refine Does.bind (Does.bytes hn ha ?_ ?_ hlt (by simp) ?_)
    · by_cases hkl : l = k
      · subst hkl
        unfold Whole
        rw [upd_same]
        exact hl
      · exact (hl.upd_ne hlv).upd_ne hkl
    · unfold Whole
      rw [e]
      exact hk
    · rw [e]
      refine Does.endTriv ha ?_ ?_
      · unfold Whole
        rw [upd_ne _ _ (Ne.symm hlv), e]
        exact hk
      · rw [upd_comm _ _ _ hlv, upd_comm _ _ _ hkv, upd_upd, upd_self g .tv _ htv]
        exact h
  · split
    · next h32 =>
      refine Does.visit hn hk (fun h1 => ?_) fun i x h1 hi => ?_
      · refine Does.visit hn hl (fun h2 => ?_) fun j y h2 hj => ?_
        · unfold swapSmall
          refine Does.pure ?_
          rwa [h1, h2, upd_self _ k _ h1, upd_self _ l _ h2] at h
        · unfold swapSmall
          have hne : l ≠ k := by
            rintro rfl
            rw [h1] at h2
            cases h2
          have hidx : (g k).idx ≠ (g l).idx := by
            rw [h1, h2]
            unfold Gh.idx npos
            dsimp only
            omega
          refine Does.bind (Does.emplaceMove Obj.has hn hkt h1 h2 ?_ fun h3 b => ?_)
          · refine Does.resetAt' (x := P.moved j y) hlt (by simp) ?_
            rw [upd_upd]
            rwa [h1, h2] at h
          · have := hE.second j y b hidx h2 h3
            rwa [upd_self _ k _ h1] at this
      · refine Does.visit hn hl (fun h2 => ?_) fun j y h2 hj => ?_
        · unfold swapSmall
          have hne : l ≠ k := by
            rintro rfl
            rw [h1] at h2
            cases h2
          have hidx : (g k).idx ≠ (g l).idx := by
            rw [h1, h2]
            unfold Gh.idx npos
            dsimp only
            omega
          refine Does.bind (Does.emplaceMove Obj.has hn hlt h2 h1 ?_ fun h3 b => ?_)
          · refine Does.resetAt' (x := P.moved i x) hkt (by simp) ?_
            rw [upd_upd, upd_comm _ _ _ hne]
            rwa [h1, h2] at h
          · exact hE.first i x b hidx h1 h3
        · unfold swapSmall
          dsimp only
          split
          · next hij =>
            subst hij
            exact Does.objSwap h1 h2 (by rwa [h1, h2] at h) fun h3 a b => hE.same i x y a b h1 h2 h3
          · next hij => exact Does.swapDiff hn hkt hlt htt hij h1 h2 h hE
    · next h32 =>
      refine Does.read hn hk fun c hc1 hc2 hc3 => Does.read hn hl fun d hd1 hd2 hd3 => ?_
      split
      · next hcd =>
        rw [hc1]
        have he : (g k).idx = (g l).idx := by rw [← hc1, ← hd1, hcd]
        rcases hk with hk | ⟨i, x, hk⟩
        · have h2 : g l = .vless := by
            rw [← hd2, ← hcd, hc2]
            exact hk
          rw [hk]
          show Does P (rawVisit P npos _) g Q E
          rw [rawVisit_npos]
          refine Does.pure ?_
          rwa [hk, h2, upd_self _ k _ hk, upd_self _ l _ h2] at h
        · have hi := hr _ _ _ hk
          rw [hk]
          show Does P (rawVisit P i _) g Q E
          rw [rawVisit_lt hn hi]
          rw [hk] at he
          obtain ⟨y, hy⟩ := idx_has hn hi hl he.symm
          exact Does.objSwap hk hy (by rwa [hk, hy] at h) fun h3 a b => hE.same i x y a b hk hy h3
      · next hcd =>
        refine Does.swapBig ok (by omega) hkt hlt hkv hlv htv (fun he => hcd ?_) hk hl h hE
        have e1 := hr k
        have e2 := hr l
        rcases hk with hk | ⟨i, x, hk⟩
        · rw [hk] at hc3 he
          rcases hl with hl | ⟨j, y, hl⟩
          · rw [hl] at hd3
            rw [hc3.2.2.1, hd3.2.2.1]
          · have := e2 _ _ hl
            rw [hl] at he
            unfold Gh.idx npos at he
            dsimp only at he
            omega
        · have := e1 _ _ hk
          rw [hk] at hc3 he
          rcases hl with hl | ⟨j, y, hl⟩
          · rw [hl] at he
            unfold Gh.idx npos at he
            dsimp only at he
            omega
          · rw [hl] at hd3 he
            rw [hc3.2.2.1, hd3.2.2.1]
            exact congrArg _ he

end STL.Var
