import Verif.Str.New

/-! # Destruction, moves and swaps of strings. Proofs only. -/

namespace STL.Str
open STL
variable {α : Type} {P : Par α} {w w1 : W α} {s : St α} {k l n : Nat} {q : Ptr α} {Z : List α}

/-- Two strings change, but the allocations stay. -/
theorem Inv.two {w' : W α} {e1 e2 : Ent α} (I : Inv P w s) (hkl : k ≠ l) (hss : ∀ m, m ≠ k → m ≠ l → w'.ss m = w.ss m) (O1 : Own P w' k e1) (O2 : Own P w' l e2)
    (hext : ∀ b, w'.ext (.heap b) = w.ext (.heap b)) (hext' : ∀ m, m ≠ k → m ≠ l → w'.ext (.small m) = w.ext (.small m))
    (hcel : ∀ m, m ≠ k → m ≠ l → w'.cel ((s m).at m) = w.cel ((s m).at m))
    (h1 : ∀ b, e1.loc = some b → (s k).loc = some b ∨ (s l).loc = some b) (h2 : ∀ b, e2.loc = some b → (s k).loc = some b ∨ (s l).loc = some b)
    (h3 : ∀ b, e1.loc = some b → e2.loc ≠ some b) (h4 : ∀ b, (s k).loc = some b ∨ (s l).loc = some b → e1.loc = some b ∨ e2.loc = some b)
    (hn : w'.nxt = w.nxt) : Inv P w' (updS (updS s l e2) k e1) := by
  have key : ∀ m, updS (updS s l e2) k e1 m = if m = k then e1 else if m = l then e2 else s m := fun m => rfl
  have hh : ∀ m b, m ≠ k → m ≠ l → (s m).loc = some b → e1.loc ≠ some b ∧ e2.loc ≠ some b := by
    intro m b hm1 hm2 hb
    constructor
    · intro h
      rcases h1 b h with h | h
      · exact hm1 (I.inj _ _ b hb h)
      · exact hm2 (I.inj _ _ b hb h)
    · intro h
      rcases h2 b h with h | h
      · exact hm1 (I.inj _ _ b hb h)
      · exact hm2 (I.inj _ _ b hb h)
  constructor
  · intro m
    rw [key]
    split
    · next h => rw [h]; exact O1
    · split
      · next h => rw [h]; exact O2
      · next hk hl =>
        refine (I.own m).other (hss m hk hl) ?_ (hcel m hk hl)
        unfold Ent.at atp
        cases (s m).loc with
        | none => exact hext' m hk hl
        | some b => exact hext b
  · intro a c b ha hc
    rw [key] at ha hc
    by_cases a1 : a = k
    · rw [if_pos a1] at ha
      by_cases c1 : c = k
      · rw [a1, c1]
      · rw [if_neg c1] at hc
        by_cases c2 : c = l
        · rw [if_pos c2] at hc
          exact absurd hc (h3 b ha)
        · rw [if_neg c2] at hc
          exact absurd ha (hh c b c1 c2 hc).1
    · rw [if_neg a1] at ha
      by_cases a2 : a = l
      · rw [if_pos a2] at ha
        by_cases c1 : c = k
        · rw [if_pos c1] at hc
          exact absurd ha (h3 b hc)
        · rw [if_neg c1] at hc
          by_cases c2 : c = l
          · rw [a2, c2]
          · rw [if_neg c2] at hc
            exact absurd ha (hh c b c1 c2 hc).2
      · rw [if_neg a2] at ha
        by_cases c1 : c = k
        · rw [if_pos c1] at hc
          exact absurd hc (hh a b a1 a2 ha).1
        · rw [if_neg c1] at hc
          by_cases c2 : c = l
          · rw [if_pos c2] at hc
            exact absurd hc (hh a b a1 a2 ha).2
          · rw [if_neg c2] at hc
            exact I.inj a c b ha hc
  · intro b hb
    rw [hext] at hb
    obtain ⟨m, hm⟩ := I.leak b hb
    by_cases m1 : m = k
    · rw [m1] at hm
      rcases h4 b (Or.inl hm) with h | h
      · exact ⟨k, by rw [key, if_pos rfl]; exact h⟩
      · exact ⟨l, by rw [key, if_neg (Ne.symm hkl), if_pos rfl]; exact h⟩
    · by_cases m2 : m = l
      · rw [m2] at hm
        rcases h4 b (Or.inr hm) with h | h
        · exact ⟨k, by rw [key, if_pos rfl]; exact h⟩
        · exact ⟨l, by rw [key, if_neg (Ne.symm hkl), if_pos rfl]; exact h⟩
      · exact ⟨m, by rw [key, if_neg m1, if_neg m2]; exact hm⟩
  · intro b hb
    rw [hn] at hb
    rw [hext]
    exact I.fresh b hb

/-! ## Destruction -/

/-- The string `k` may lack the null character. -/
def Open (P : Par α) (w : W α) (s : St α) (k : Nat) : Prop :=
  Inv P { w with cel := blk w.cel ((s k).at k) (s k).X.length 1 fun _ => some P.nul } s

theorem Inv.open (I : Inv P w s) (k : Nat) : Open P w s k := by
  unfold Open
  have : (blk w.cel ((s k).at k) (s k).X.length 1 fun _ => some P.nul) = w.cel := by
    funext q j
    unfold blk
    split
    · next h =>
      obtain ⟨h1, h2, h3⟩ := h
      have : j = (s k).X.length := by omega
      rw [h1, this, I.chr (Nat.le_refl _)]
      simp
    · rfl
  rw [this]
  exact I

theorem sat_tidy (J : Open P w s k) : Sat (tidy P k) w (fun _ w' => Inv P w' (updS s k (Ent.empty P))) fun _ _ => False := by
  have O := Inv.own J k
  have hs1 : (w.ss k).size = (s k).X.length := O.size
  have hs2 : (w.ss k).res = (s k).cap := O.res
  have hs3 : (w.ss k).ptr = (s k).loc := O.ptr
  have he : w.ext ((s k).at k) = some ((s k).cap + 1) := O.ext
  have O2 := O.small
  have hcel : ∀ m, m ≠ k → blk w.cel ((s k).at k) (s k).X.length 1 (fun _ => some P.nul) ((s m).at m) = w.cel ((s m).at m) := fun m hm =>
    blk_ne (J.at_ne hm)
  unfold tidy
  refine Sat.get (Sat.ite (fun h => ?_) fun h => ?_)
  · rw [large_iff, hs2] at h
    obtain ⟨b, hb⟩ : ∃ b, (s k).loc = some b := by
      cases hh : (s k).loc with
      | none =>
        have := O.mode.1 hh
        omega
      | some b => exact ⟨b, rfl⟩
    have hat : (s k).at k = .heap b := by simp [Ent.at, atp, hb]
    refine Sat.bind (Sat.bxPtr (b := b) (by rw [hs3, hb]) ?_)
    refine Sat.bind (Sat.deallocate (by rw [← hat, he, hs2]) (Sat.bind (Sat.switchToBuf ?_)))
    unfold resetBuf
    refine Sat.bind (Sat.setSize (Sat.bind (Sat.setRes (Sat.set1 (Or.inr ⟨_, updE_same _ _ _, by omega⟩) ?_))))
    dsimp only
    refine Inv.upd J (fun m hm => ?_) ⟨?_, ?_, ?_, Nat.zero_le _, Nat.le_refl _, P.le, ?_, ?_, ?_⟩ ?_ ?_ (Or.inr (Or.inl rfl)) ?_ ?_
    · simp [updF_ne _ _ hm]
    · simp [Ent.empty]
    · simp [Ent.empty]
    · simp [Ent.empty]
    · simp [Ent.empty]
    · simp [Ent.empty, Ent.at, atp]
    · intro i hi
      have : i = 0 := by simpa [Ent.empty] using hi
      subst this
      simp [Ent.empty, Ent.at, atp, blk_at]
    · intro m hm
      dsimp only
      rw [updE_ne _ _ (at_small hm), updE_ne _ _ (by rw [← hat]; exact J.at_ne hm)]
    · intro m hm
      dsimp only
      rw [hcel m hm, blk_ne (at_small hm)]
      simp [at_small hm]
    · intro c hc
      dsimp only at hc
      rw [updE_ne _ _ (by simp)] at hc
      by_cases hcb : c = b
      · rw [hcb, updE_same] at hc
        exact absurd rfl hc
      · rw [updE_ne _ _ (by simp [hcb])] at hc
        exact Or.inr ⟨hc, by rw [hb]; simpa using fun h => hcb h.symm⟩
    · intro c hc
      dsimp only at hc ⊢
      rw [updE_ne _ _ (by simp)]
      by_cases hcb : c = b
      · rw [hcb, updE_same]
      · rw [updE_ne _ _ (by simp [hcb])]
        exact J.fresh c hc
  · rw [large_iff, hs2] at h
    have hb : (s k).loc = none := O.mode.2 (by omega)
    have hat : (s k).at k = .small k := by simp [Ent.at, atp, hb]
    unfold resetBuf
    refine Sat.bind (Sat.setSize (Sat.bind (Sat.setRes (Sat.set1 (Or.inr ⟨(s k).cap + 1, by rw [← hat, he], by omega⟩) ?_))))
    dsimp only
    refine Inv.upd J (fun m hm => ?_) ⟨?_, ?_, ?_, Nat.zero_le _, Nat.le_refl _, P.le, ?_, ?_, ?_⟩ (fun _ _ => rfl) ?_ (Or.inr (Or.inl rfl)) ?_ J.fresh
    · simp [updF_ne _ _ hm]
    · simp [Ent.empty]
    · simp [Ent.empty]
    · simp [Ent.empty, hs3, hb]
    · simp [Ent.empty]
    · have : (Ent.empty P).at k = (s k).at k := by rw [hat]; rfl
      rw [this]
      dsimp only
      rw [he, show (s k).cap = P.small by omega]
      rfl
    · intro i hi
      have : i = 0 := by simpa [Ent.empty] using hi
      subst this
      simp [Ent.empty, Ent.at, atp, blk_at]
    · intro m hm
      dsimp only
      rw [hcel m hm, blk_ne (at_small hm)]
    · intro c hc
      exact Or.inr ⟨hc, by rw [hb]; simp⟩

/-! ## Moves -/

/-- The members are now those of `Ent.empty`. -/
theorem own_empty {w : W α} (h1 : w.ss l = ⟨none, 0, P.small⟩) (h2 : w.ext (.small l) = some (P.small + 1)) (h3 : w.cel (.small l) 0 = some P.nul) :
    Own P w l (Ent.empty P) := by
  refine ⟨?_, ?_, ?_, Nat.zero_le _, Nat.le_refl _, P.le, ?_, h2, ?_⟩
  · rw [h1]; rfl
  · rw [h1]; rfl
  · rw [h1]; rfl
  · simp [Ent.empty]
  · intro i hi
    have : i = 0 := by simpa [Ent.empty] using hi
    subst this
    exact h3

theorem small_ext (I : Inv P w s) (h : (s l).loc = none) : w.ext (.small l) = some (P.small + 1) := by
  have O := I.own l
  have h1 := O.ext
  have h2 := O.mode.1 h
  have h3 := O.small
  unfold Ent.at atp at h1
  rw [h] at h1
  rw [h1, show (s l).cap = P.small by omega]

theorem sat_takeContents (I : Inv P w s) (hk : s k = Ent.empty P) (hkl : k ≠ l) :
    Sat (takeContents P k l) w (fun _ w' => Inv P w' (updS (updS s l (Ent.empty P)) k (s l))) fun _ _ => False := by
  have O := I.own l
  have O1 := O.le
  have hsk := I.ss_empty hk
  have hke : (s k).loc = none := by rw [hk]; rfl
  have hek := small_ext I hke
  have hlk := Ne.symm hkl
  unfold takeContents
  refine Sat.get (Sat.ite (fun _ => ?_) fun _ => ?_)
  · refine Sat.bind ?_
    unfold takeBytes Sat
    dsimp only
    refine Sat.bind ?_
    cases hl : (s l).loc with
    | none =>
      have hel := small_ext I hl
      have hat : (s l).at l = .small l := by simp [Ent.at, atp, hl]
      unfold bufAgain Sat
      dsimp only
      rw [updF_ne _ _ hlk, O.ptr, hl]
      dsimp only
      unfold resetBuf
      refine Sat.bind (Sat.setSize (Sat.bind (Sat.setRes (Sat.set1 (Or.inr ⟨P.small + 1, ?_, by omega⟩) ?_))))
      · dsimp only
        rw [updE_ne _ _ (by simpa using hlk), hel]
      refine I.two hkl ?_ ⟨?_, ?_, ?_, O.le, O.small, O.mx, O.mode, ?_, ?_⟩ (own_empty ?_ ?_ ?_) ?_ ?_ ?_ ?_ ?_ ?_ ?_ rfl
      · intro m h1 h2
        simp [updF_ne _ _ h1, updF_ne _ _ h2]
      · simp [updF_ne _ _ hkl, O.size]
      · simp [updF_ne _ _ hkl, O.res]
      · simp [updF_ne _ _ hkl, O.ptr]
      · have : (s l).at k = .small k := by simp [Ent.at, atp, hl]
        rw [this]
        dsimp only
        rw [updE_same, hel, show (s l).cap = P.small by have := O.mode.1 hl; have := O.small; omega]
      · intro i hi
        have : (s l).at k = .small k := by simp [Ent.at, atp, hl]
        rw [this]
        dsimp only
        rw [blk_ne (by simpa using hkl), if_pos rfl, ← hat, I.chr hi]
      · simp [updF_ne _ _ hlk, O.ptr, hl]
      · dsimp only
        rw [updE_ne _ _ (by simpa using hlk), hel]
      · simp [blk_at]
      · intro b
        dsimp only
        rw [updE_ne _ _ (by simp)]
      · intro m h1 h2
        dsimp only
        rw [updE_ne _ _ (by simpa using h1)]
      · intro m h1 h2
        dsimp only
        rw [blk_ne (at_small h2)]
        funext j
        simp [at_small h1]
      · intro b hb
        rw [hl] at hb
        cases hb
      · intro b hb
        cases hb
      · intro b hb
        rw [hl] at hb
        cases hb
      · intro b hb
        rw [hl, hke] at hb
        simp at hb
    | some b =>
      have hat : (s l).at l = .heap b := by simp [Ent.at, atp, hl]
      unfold bufAgain Sat
      dsimp only
      rw [updF_ne _ _ hlk, O.ptr, hl]
      dsimp only
      unfold switchToBuf
      dsimp only
      unfold resetBuf
      refine Sat.bind (Sat.setSize (Sat.bind (Sat.setRes (Sat.set1 (Or.inr ⟨P.small + 1, updE_same _ _ _, by omega⟩) ?_))))
      refine I.two hkl ?_ ⟨?_, ?_, ?_, O.le, O.small, O.mx, O.mode, ?_, ?_⟩ (own_empty ?_ ?_ ?_) ?_ ?_ ?_ ?_ ?_ ?_ ?_ rfl
      · intro m h1 h2
        simp [updF_ne _ _ h1, updF_ne _ _ h2]
      · simp [updF_ne _ _ hkl, O.size]
      · simp [updF_ne _ _ hkl, O.res]
      · simp [updF_ne _ _ hkl, O.ptr]
      · have : (s l).at k = .heap b := by simp [Ent.at, atp, hl]
        rw [this]
        dsimp only
        rw [updE_ne _ _ (by simp), updE_ne _ _ (by simp), ← hat, O.ext]
      · intro i hi
        have : (s l).at k = .heap b := by simp [Ent.at, atp, hl]
        rw [this]
        dsimp only
        rw [blk_ne (by simp), if_neg (by simp), if_neg (by simp), ← hat, I.chr hi]
      · simp
      · simp
      · simp [blk_at]
      · intro b
        dsimp only
        rw [updE_ne _ _ (by simp), updE_ne _ _ (by simp)]
      · intro m h1 h2
        dsimp only
        rw [updE_ne _ _ (by simpa using h2), updE_ne _ _ (by simpa using h1)]
      · intro m h1 h2
        dsimp only
        rw [blk_ne (at_small h2)]
        funext j
        simp [at_small h1, at_small h2]
      · intro b hb
        exact Or.inr hb
      · intro b hb
        cases hb
      · intro b hb
        simp [Ent.empty]
      · intro b hb
        rw [hke] at hb
        rcases hb with hb | hb
        · cases hb
        · exact Or.inl hb
  · cases hl : (s l).loc with
    | none =>
      have hel := small_ext I hl
      have hat : (s l).at l = .small l := by simp [Ent.at, atp, hl]
      have hcap : (s l).cap = P.small := by
        have := O.mode.1 hl
        have := O.small
        omega
      refine Sat.bind ?_
      unfold takeBx
      rw [if_neg (by rw [large_iff, O.res]; omega)]
      refine Sat.copy (by simp [overlap, hkl]) (Or.inr ⟨_, hel, by rw [O.size]; omega⟩) (Or.inr ⟨_, hek, by rw [O.size]; omega⟩) ?_
      refine Sat.bind (Sat.setRes (Sat.bind (Sat.setSize ?_)))
      unfold resetBuf
      refine Sat.bind (Sat.setSize (Sat.bind (Sat.setRes (Sat.set1 (Or.inr ⟨P.small + 1, hel, by omega⟩) ?_))))
      refine I.two hkl ?_ ⟨?_, ?_, ?_, O.le, O.small, O.mx, O.mode, ?_, ?_⟩ (own_empty ?_ ?_ ?_) ?_ ?_ ?_ ?_ ?_ ?_ ?_ rfl
      · intro m h1 h2
        simp [updF_ne _ _ h1, updF_ne _ _ h2]
      · simp [updF_ne _ _ hkl, O.size]
      · simp [updF_ne _ _ hkl, O.res]
      · simp [updF_ne _ _ hkl, hl, hsk]
      · have : (s l).at k = .small k := by simp [Ent.at, atp, hl]
        rw [this]
        dsimp only
        rw [hek, hcap]
      · intro i hi
        have : (s l).at k = .small k := by simp [Ent.at, atp, hl]
        rw [this]
        dsimp only
        rw [blk_ne (by simpa using hkl), blk_at, if_pos (by rw [O.size]; omega)]
        simp only [val]
        rw [← hat, I.chr (by omega)]
        simp
      · simp [updF_ne _ _ hlk, O.ptr, hl]
      · exact hel
      · simp [blk_at]
      · intro b
        rfl
      · intro m h1 h2
        rfl
      · intro m h1 h2
        dsimp only
        rw [blk_ne (at_small h2), blk_ne (at_small h1)]
      · intro b hb
        rw [hl] at hb
        cases hb
      · intro b hb
        cases hb
      · intro b hb
        rw [hl] at hb
        cases hb
      · intro b hb
        rw [hl, hke] at hb
        simp at hb
    | some b =>
      have hat : (s l).at l = .heap b := by simp [Ent.at, atp, hl]
      have hcap : P.small < (s l).cap := by
        by_cases h : (s l).cap ≤ P.small
        · have := O.mode.2 h
          rw [hl] at this
          cases this
        · omega
      refine Sat.bind ?_
      unfold takeBx
      rw [if_pos (by rw [large_iff, O.res]; omega)]
      refine Sat.bind (Sat.bxPtr (b := b) (by rw [O.ptr, hl]) (Sat.bind (Sat.setPtr (Sat.switchToBuf ?_))))
      refine Sat.bind (Sat.setRes (Sat.bind (Sat.setSize ?_)))
      unfold resetBuf
      refine Sat.bind (Sat.setSize (Sat.bind (Sat.setRes (Sat.set1 (Or.inr ⟨P.small + 1, updE_same _ _ _, by omega⟩) ?_))))
      refine I.two hkl ?_ ⟨?_, ?_, ?_, O.le, O.small, O.mx, O.mode, ?_, ?_⟩ (own_empty ?_ ?_ ?_) ?_ ?_ ?_ ?_ ?_ ?_ ?_ rfl
      · intro m h1 h2
        simp [updF_ne _ _ h1, updF_ne _ _ h2]
      · simp [updF_ne _ _ hkl, O.size]
      · simp [updF_ne _ _ hkl, O.res]
      · simp [updF_ne _ _ hkl, hl]
      · have : (s l).at k = .heap b := by simp [Ent.at, atp, hl]
        rw [this]
        dsimp only
        rw [updE_ne _ _ (by simp), updE_ne _ _ (by simp), ← hat, O.ext]
      · intro i hi
        have : (s l).at k = .heap b := by simp [Ent.at, atp, hl]
        rw [this]
        dsimp only
        rw [blk_ne (by simp), if_neg (by simp), ← hat, I.chr hi]
      · simp [updF_ne _ _ hlk]
      · simp
      · simp [blk_at]
      · intro b
        dsimp only
        rw [updE_ne _ _ (by simp), updE_ne _ _ (by simp)]
      · intro m h1 h2
        dsimp only
        rw [updE_ne _ _ (by simpa using h2), updE_ne _ _ (by simpa using h1)]
      · intro m h1 h2
        dsimp only
        rw [blk_ne (at_small h2)]
        funext j
        simp [at_small h2]
      · intro b hb
        exact Or.inr hb
      · intro b hb
        cases hb
      · intro b hb
        simp [Ent.empty]
      · intro b hb
        rw [hke] at hb
        rcases hb with hb | hb
        · cases hb
        · exact Or.inl hb

theorem sat_moveAssign (I : Inv P w s) :
    Does P (moveAssign P k l) w fun s' out => if k = l then out = .none ∧ s' = s else out = .none ∧ s' = updS (updS s l (Ent.empty P)) k (s l) := by
  unfold moveAssign
  by_cases h : k = l
  · simp only [if_pos h]
    exact Does.pure' I ⟨rfl, rfl⟩
  · simp only [if_neg h]
    refine Sat.then (sat_tidy (I.open k)) (fun _ _ h => absurd h id) fun _ w1 I1 => ?_
    refine (sat_takeContents (k := k) (l := l) I1 updS_same h).mono ?_ fun _ _ h => absurd h id
    intro _ w2 I2
    refine ⟨_, I2, rfl, ?_⟩
    rw [updS_ne (Ne.symm h)]
    funext m
    simp only [updS]
    split
    · rfl
    · split <;> rfl

theorem sat_copyAssign (I : Inv P w s) : Edits P (copyAssign P k l) w s k (s l).X := by
  have O := I.own k
  have O1 := O.le
  unfold copyAssign
  refine Sat.ite (fun h => ?_) fun h => ?_
  · subst h
    exact Does.pure' (F := fun s' out => edit P s s' k (s k).X out) I (edit'_same (by omega) O.mx)
  · refine Sat.get (Sat.bind (Sat.myptr I.mode' ?_))
    rw [I.at_eq, (I.own l).size]
    exact sat_assign I isSrc_all

/-! ## Swaps -/

/-- What is left to show for a swap. -/
theorem Inv.swapped {w' : W α} (I : Inv P w s) (hkl : k ≠ l) (hss : ∀ m, w'.ss m = if m = k then w.ss l else if m = l then w.ss k else w.ss m)
    (hext : ∀ b, w'.ext (.heap b) = w.ext (.heap b))
    (hek : (s l).loc = none → w'.ext (.small k) = some (P.small + 1)) (hel : (s k).loc = none → w'.ext (.small l) = some (P.small + 1))
    (hext' : ∀ m, m ≠ k → m ≠ l → w'.ext (.small m) = w.ext (.small m))
    (hcel : ∀ b, w'.cel (.heap b) = w.cel (.heap b)) (hcel' : ∀ m, m ≠ k → m ≠ l → w'.cel (.small m) = w.cel (.small m))
    (hck : (s l).loc = none → ∀ i, i ≤ (s l).X.length → w'.cel (.small k) i = w.cel (.small l) i)
    (hcl : (s k).loc = none → ∀ i, i ≤ (s k).X.length → w'.cel (.small l) i = w.cel (.small k) i)
    (hn : w'.nxt = w.nxt) : Inv P w' (updS (updS s k (s l)) l (s k)) := by
  have key : updS (updS s k (s l)) l (s k) = updS (updS s l (s k)) k (s l) := by
    funext m
    simp only [updS]
    split
    · next h => rw [if_neg (by rw [h]; exact Ne.symm hkl)]
    · rfl
  have hsk : w'.ss k = w.ss l := by rw [hss, if_pos rfl]
  have hsl : w'.ss l = w.ss k := by rw [hss, if_neg (Ne.symm hkl), if_pos rfl]
  rw [key]
  have O := I.own l
  have O' := I.own k
  refine I.two hkl (fun m h1 h2 => by rw [hss, if_neg h1, if_neg h2]) ⟨?_, ?_, ?_, O.le, O.small, O.mx, O.mode, ?_, ?_⟩
    ⟨?_, ?_, ?_, O'.le, O'.small, O'.mx, O'.mode, ?_, ?_⟩ hext hext' ?_ (fun b hb => Or.inr hb) (fun b hb => Or.inl hb) ?_ ?_ hn
  · rw [hsk, O.size]
  · rw [hsk, O.res]
  · rw [hsk, O.ptr]
  · cases h : (s l).loc with
    | none =>
      have := O.mode.1 h
      have := O.small
      simp only [Ent.at, atp, h]
      rw [hek h, show (s l).cap = P.small by omega]
    | some b =>
      have := O.ext
      simp only [Ent.at, atp, h] at this ⊢
      rw [hext, this]
  · intro i hi
    rw [← O.chr i hi]
    cases h : (s l).loc with
    | none =>
      simp only [Ent.at, atp, h]
      exact hck h i hi
    | some b =>
      simp only [Ent.at, atp, h]
      rw [hcel]
  · rw [hsl, O'.size]
  · rw [hsl, O'.res]
  · rw [hsl, O'.ptr]
  · cases h : (s k).loc with
    | none =>
      have := O'.mode.1 h
      have := O'.small
      simp only [Ent.at, atp, h]
      rw [hel h, show (s k).cap = P.small by omega]
    | some b =>
      have := O'.ext
      simp only [Ent.at, atp, h] at this ⊢
      rw [hext, this]
  · intro i hi
    rw [← O'.chr i hi]
    cases h : (s k).loc with
    | none =>
      simp only [Ent.at, atp, h]
      exact hcl h i hi
    | some b =>
      simp only [Ent.at, atp, h]
      rw [hcel]
  · intro m h1 h2
    unfold Ent.at atp
    cases (s m).loc with
    | none => exact hcel' m h1 h2
    | some b => exact hcel b
  · intro b h1 h2
    exact hkl (I.inj _ _ b h2 h1)
  · intro b h
    exact h.symm

theorem sat_swapSizes {Q : Unit → W α → Prop} {E : Exc → W α → Prop} (hkl : k ≠ l)
    (h : Q () { w with ss := updF (updF w.ss k ⟨(w.ss k).ptr, (w.ss l).size, (w.ss l).res⟩) l ⟨(w.ss l).ptr, (w.ss k).size, (w.ss k).res⟩ }) :
    Sat (swapSizes k l) w Q E := by
  unfold swapSizes
  refine Sat.get (Sat.get (Sat.bind (Sat.setSize (Sat.bind (Sat.setSize (Sat.bind (Sat.setRes (Sat.setRes ?_))))))))
  dsimp only
  have hlk := Ne.symm hkl
  have : updF (updF (updF (updF w.ss k { w.ss k with size := (w.ss l).size }) l { updF w.ss k { w.ss k with size := (w.ss l).size } l with size := (w.ss k).size }) k
      { updF (updF w.ss k { w.ss k with size := (w.ss l).size }) l { updF w.ss k { w.ss k with size := (w.ss l).size } l with size := (w.ss k).size } k with res := (w.ss l).res }) l
      { updF (updF (updF w.ss k { w.ss k with size := (w.ss l).size }) l { updF w.ss k { w.ss k with size := (w.ss l).size } l with size := (w.ss k).size }) k
        { updF (updF w.ss k { w.ss k with size := (w.ss l).size }) l { updF w.ss k { w.ss k with size := (w.ss l).size } l with size := (w.ss k).size } k with res := (w.ss l).res } l
        with res := (w.ss k).res } =
      updF (updF w.ss k ⟨(w.ss k).ptr, (w.ss l).size, (w.ss l).res⟩) l ⟨(w.ss l).ptr, (w.ss k).size, (w.ss k).res⟩ := by
    funext m
    simp only [updF, hkl, hlk, if_true, if_false]
    split
    · rfl
    · split <;> rfl
  rw [this]
  exact h

theorem swap_self (h : k = l) : updS (updS s k (s l)) l (s k) = s := by
  subst h
  funext m
  simp only [updS]
  split
  · next h => rw [h]
  · rfl

theorem sat_swapBx (I : Inv P w s) (hkl : k ≠ l) :
    Sat (do swapBx P k l (w.ss k) (w.ss l); swapSizes k l) w (fun _ w' => Inv P w' (updS (updS s k (s l)) l (s k))) fun _ _ => False := by
  have O := I.own l
  have O' := I.own k
  have O1 := O.le
  have O2 := O'.le
  have hlk := Ne.symm hkl
  have big : ∀ m, (s m).loc ≠ none → large P (w.ss m) = true := by
    intro m h
    rw [large_iff, (I.own m).res]
    by_cases hh : (s m).cap ≤ P.small
    · exact absurd ((I.own m).mode.2 hh) h
    · omega
  have sml : ∀ m, (s m).loc = none → large P (w.ss m) = false := by
    intro m h
    have := (I.own m).mode.1 h
    rw [← Bool.not_eq_true, large_iff, (I.own m).res]
    omega
  unfold swapBx
  cases hk : (s k).loc with
  | none =>
    have hek := small_ext I hk
    rw [sml k hk]
    cases hl : (s l).loc with
    | none =>
      have hel := small_ext I hl
      have c1 := O.mode.1 hl
      have c2 := O'.mode.1 hk
      rw [sml l hl]
      dsimp only
      refine Sat.bind (Sat.bind (Sat.rdBlk (Or.inr ⟨_, hek, by rw [O'.size]; omega⟩) fun f hf => ?_))
      refine Sat.bind (Sat.copy (by simp [overlap, hkl]) (Or.inr ⟨_, hel, by rw [O.size]; omega⟩) (Or.inr ⟨_, hek, by rw [O.size]; omega⟩) ?_)
      refine Sat.wrBlk (Or.inr ⟨_, hel, by rw [O'.size]; omega⟩) (sat_swapSizes hkl ?_)
      refine I.swapped hkl ?_ (fun _ => rfl) (fun _ => hek) (fun _ => hel) (fun _ _ _ => rfl) ?_ ?_ ?_ ?_ rfl
      · intro m
        dsimp only
        have p1 := O.ptr
        have p2 := O'.ptr
        by_cases h1 : m = k
        · rw [if_pos h1, h1, updF_ne _ _ hkl, updF_same, p2, hk, ← hl, ← p1]
        · by_cases h2 : m = l
          · rw [if_neg h1, if_pos h2, h2, updF_same, p1, hl, ← hk, ← p2]
          · rw [if_neg h1, if_neg h2, updF_ne _ _ h2, updF_ne _ _ h1]
      · intro b
        simp only [blk_ne (show Place.heap b ≠ .small l by simp), blk_ne (show Place.heap b ≠ .small k by simp)]
      · intro m h1 h2
        simp only [blk_ne (show Place.small m ≠ .small l by simpa using h2), blk_ne (show Place.small m ≠ .small k by simpa using h1)]
      · intro _ i hi
        dsimp only
        rw [blk_ne (by simpa using hkl), blk_at, if_pos (by rw [O.size]; omega)]
        simp [val]
      · intro _ i hi
        dsimp only
        rw [blk_at, if_pos (by rw [O'.size]; omega), hf _ (by rw [O'.size]; omega)]
        simp [val]
    | some b =>
      rw [big l (by rw [hl]; simp)]
      dsimp only
      unfold swapLargeSmall
      refine Sat.bind (Sat.bind (Sat.bxPtr (b := b) (by rw [O.ptr, hl]) (Sat.bind (Sat.switchToBuf ?_))))
      refine Sat.bind (Sat.copy (by simp [overlap, hlk]) (Or.inr ⟨P.small + 1, ?_, by omega⟩) (Or.inr ⟨_, updE_same _ _ _, by omega⟩) (Sat.setPtr (sat_swapSizes hkl ?_)))
      · dsimp only
        rw [updE_ne _ _ (by simpa using hkl), hek]
      refine I.swapped hkl ?_ ?_ ?_ ?_ ?_ ?_ ?_ ?_ ?_ rfl
      · intro m
        dsimp only
        have p1 := O.ptr
        have p2 := O'.ptr
        by_cases h1 : m = k
        · rw [if_pos h1, h1, updF_ne _ _ hkl, updF_same, updF_same]
          dsimp only
          rw [updF_ne _ _ hlk, updF_same]
          dsimp only
          rw [← hl, ← p1]
        · by_cases h2 : m = l
          · rw [if_neg h1, if_pos h2, h2, updF_same, updF_same, updF_ne _ _ hlk, updF_same, updF_ne _ _ hkl]
            dsimp only
            rw [← hk, ← p2]
          · rw [if_neg h1, if_neg h2, updF_ne _ _ h2, updF_ne _ _ h1, updF_ne _ _ h1, updF_ne _ _ h2]
      · intro c
        dsimp only
        rw [updE_ne _ _ (by simp), updE_ne _ _ (by simp)]
      · intro h
        rw [hl] at h
        cases h
      · intro _
        dsimp only
        rw [updE_ne _ _ (by simpa using hlk), updE_same]
      · intro m h1 h2
        dsimp only
        rw [updE_ne _ _ (by simpa using h1), updE_ne _ _ (by simpa using h2)]
      · intro c
        dsimp only
        rw [blk_ne (by simp)]
        simp
      · intro m h1 h2
        dsimp only
        rw [blk_ne (by simpa using h2)]
        simp [h2]
      · intro h
        rw [hl] at h
        cases h
      · intro _ i hi
        have := O'.mode.1 hk
        dsimp only
        rw [blk_at, if_pos (by omega)]
        simp [val, hkl]
  | some b =>
    rw [big k (by rw [hk]; simp)]
    cases hl : (s l).loc with
    | none =>
      have hel := small_ext I hl
      rw [sml l hl]
      dsimp only
      unfold swapLargeSmall
      refine Sat.bind (Sat.bind (Sat.bxPtr (b := b) (by rw [O'.ptr, hk]) (Sat.bind (Sat.switchToBuf ?_))))
      refine Sat.bind (Sat.copy (by simp [overlap, hkl]) (Or.inr ⟨P.small + 1, ?_, by omega⟩) (Or.inr ⟨_, updE_same _ _ _, by omega⟩) (Sat.setPtr (sat_swapSizes hkl ?_)))
      · dsimp only
        rw [updE_ne _ _ (by simpa using hlk), hel]
      refine I.swapped hkl ?_ ?_ ?_ ?_ ?_ ?_ ?_ ?_ ?_ rfl
      · intro m
        dsimp only
        have p1 := O.ptr
        have p2 := O'.ptr
        by_cases h1 : m = k
        · rw [if_pos h1, h1, updF_ne _ _ hkl, updF_same, updF_ne _ _ hkl, updF_same, updF_same]
          dsimp only
          rw [updF_ne _ _ hlk, ← hl, ← p1]
        · by_cases h2 : m = l
          · rw [if_neg h1, if_pos h2, h2, updF_same, updF_same, updF_ne _ _ hkl, updF_same]
            dsimp only
            rw [← hk, ← p2]
          · rw [if_neg h1, if_neg h2, updF_ne _ _ h2, updF_ne _ _ h1, updF_ne _ _ h2, updF_ne _ _ h1]
      · intro c
        dsimp only
        rw [updE_ne _ _ (by simp), updE_ne _ _ (by simp)]
      · intro _
        dsimp only
        rw [updE_ne _ _ (by simpa using hkl), updE_same]
      · intro h
        rw [hk] at h
        cases h
      · intro m h1 h2
        dsimp only
        rw [updE_ne _ _ (by simpa using h2), updE_ne _ _ (by simpa using h1)]
      · intro c
        dsimp only
        rw [blk_ne (by simp)]
        simp
      · intro m h1 h2
        dsimp only
        rw [blk_ne (by simpa using h1)]
        simp [h1]
      · intro _ i hi
        have := O.mode.1 hl
        dsimp only
        rw [blk_at, if_pos (by omega)]
        simp [val, hlk]
      · intro h
        rw [hk] at h
        cases h
    | some c =>
      rw [big l (by rw [hl]; simp)]
      dsimp only
      refine Sat.bind (Sat.bind (Sat.bxPtr (b := b) (by rw [O'.ptr, hk]) (Sat.bind (Sat.bxPtr (b := c) (by rw [O.ptr, hl]) ?_))))
      refine Sat.bind (Sat.setPtr (Sat.setPtr (sat_swapSizes hkl ?_)))
      refine I.swapped hkl ?_ ?_ ?_ ?_ ?_ (fun _ => rfl) (fun _ _ _ => rfl) ?_ ?_ rfl
      · intro m
        dsimp only
        have p1 := O.ptr
        have p2 := O'.ptr
        by_cases h1 : m = k
        · rw [if_pos h1, h1, updF_ne _ _ hkl, updF_same, updF_ne _ _ hkl, updF_same, updF_same]
          dsimp only
          rw [updF_ne _ _ hlk, ← hl, ← p1]
        · by_cases h2 : m = l
          · rw [if_neg h1, if_pos h2, h2, updF_same, updF_same, updF_ne _ _ hkl, updF_same]
            dsimp only
            rw [← hk, ← p2]
          · rw [if_neg h1, if_neg h2, updF_ne _ _ h2, updF_ne _ _ h1, updF_ne _ _ h2, updF_ne _ _ h1]
      · intro c
        dsimp only
        rw [updE_ne _ _ (by simp), updE_ne _ _ (by simp)]
      · intro h
        rw [hl] at h
        cases h
      · intro h
        rw [hk] at h
        cases h
      · intro m h1 h2
        dsimp only
        rw [updE_ne _ _ (by simpa using h2), updE_ne _ _ (by simpa using h1)]
      · intro h
        rw [hl] at h
        cases h
      · intro h
        rw [hk] at h
        cases h

theorem sat_swap (I : Inv P w s) :
    Does P (swap P k l) w fun s' out => out = .none ∧ s' = updS (updS s k (s l)) l (s k) := by
  unfold swap
  refine Does.ite (fun h => Does.pure' I ⟨rfl, (swap_self h).symm⟩) fun hkl => ?_
  have hlk := Ne.symm hkl
  unfold swapData
  refine Sat.get (Sat.get (Sat.ite (fun _ => ?_) fun _ => ?_))
  · refine ⟨_, ?_, rfl, rfl⟩
    refine I.swapped hkl ?_ ?_ ?_ ?_ ?_ ?_ ?_ ?_ ?_ rfl
    · intro m
      dsimp only
      by_cases h1 : m = k
      · rw [if_pos h1, h1, updF_ne _ _ hkl, updF_same]
      · by_cases h2 : m = l
        · rw [if_neg h1, if_pos h2, h2, updF_same]
        · rw [if_neg h1, if_neg h2, updF_ne _ _ h2, updF_ne _ _ h1]
    · intro b
      dsimp only
      rw [updE_ne _ _ (by simp), updE_ne _ _ (by simp)]
    · intro h
      dsimp only
      rw [updE_ne _ _ (by simpa using hkl), updE_same, small_ext I h]
    · intro h
      dsimp only
      rw [updE_same, small_ext I h]
    · intro m h1 h2
      dsimp only
      rw [updE_ne _ _ (by simpa using h2), updE_ne _ _ (by simpa using h1)]
    · intro b
      simp
    · intro m h1 h2
      simp [h1, h2]
    · intro _ i hi
      simp [hkl]
    · intro _ i hi
      simp
  · exact (sat_swapBx I hkl).mono (fun _ _ h => ⟨_, h, rfl, rfl⟩) fun _ _ h => absurd h id

end STL.Str
