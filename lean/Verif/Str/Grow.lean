import Verif.Str.Hoare

/-! # Reallocation of a string. Proofs only. -/

namespace STL.Str
open STL
variable {α : Type}

/-- The same with another size in the string. -/
def atSize (w : W α) (k n : Nat) : W α := { w with ss := updF w.ss k { w.ss k with size := n } }

theorem atSize_self {w : W α} {k n : Nat} (h : (w.ss k).size = n) : atSize w k n = w := by
  unfold atSize
  have : updF w.ss k { w.ss k with size := n } = w.ss := by
    funext m
    unfold updF
    split
    · next hm => rw [hm, ← h]
    · rfl
  rw [this]

/-- The new buffer is `heap b`, and nothing else has changed. -/
structure Fresh (w w1 : W α) (b m : Nat) : Prop where
  ext : w1.ext (.heap b) = some (m + 1)
  ext' : ∀ q, q ≠ .heap b → w1.ext q = w.ext q
  cel : ∀ q, q ≠ .heap b → w1.cel q = w.cel q

/-- What the function that prepares the new buffer does. -/
def Fills (P : Par α) (w1 : W α) (b : Nat) (Y : List α) (w2 : W α) : Prop :=
  ∃ C, w2 = { w1 with cel := C } ∧ (∀ q, q ≠ .heap b → C q = w1.cel q) ∧ ∀ i, i ≤ Y.length → C (.heap b) i = (Y ++ [P.nul])[i]?

/-- The string `k` has been reallocated and is `Y` now. -/
def Grown (P : Par α) (w : W α) (s : St α) (k N : Nat) (Y : List α) (w' : W α) : Prop :=
  ∃ cap b, N ≤ cap ∧ min P.max ((s k).cap + (s k).cap / 2) ≤ cap ∧ (w'.ss k).size = N ∧ (∀ m, (s m).loc ≠ some b) ∧ w.nxt ≤ b ∧
    Inv P (atSize w' k Y.length) (updS s k ⟨Y, cap, some b⟩)

section
variable {P : Par α} {w : W α} {s : St α} {k : Nat}

theorem Inv.loc_ne (I : Inv P w s) (m : Nat) : (s m).loc ≠ some w.nxt := by
  intro h
  have := I.loc_lt h
  omega

/-- The final state of a reallocation. -/
theorem Inv.relocated (I : Inv P w s) {N m : Nat} {a : List (Option Nat)} {Y : List α} {C : Place → Nat → Option α} {X1 : Place → Option Nat}
    (hN : Y.length ≤ m) (hs : P.small < m) (hm : m ≤ P.max)
    (hC : ∀ q, q ≠ .heap w.nxt → q ≠ (s k).at k → C q = w.cel q) (hc : ∀ i, i ≤ Y.length → C (.heap w.nxt) i = (Y ++ [P.nul])[i]?)
    (hX : X1 (.heap w.nxt) = some (m + 1)) (hold : ∀ b, (s k).loc = some b → X1 (.heap b) = none)
    (hX1 : ∀ q, q ≠ .heap w.nxt → q ≠ (s k).at k → q ≠ .small k → X1 q = w.ext q) :
    Inv P (atSize { w with ans := a, nxt := w.nxt + 1, ext := X1, cel := C, ss := updF w.ss k ⟨some w.nxt, N, m⟩ } k Y.length)
      (updS s k ⟨Y, m, some w.nxt⟩) := by
  refine I.upd (fun l hl => ?_) ⟨?_, ?_, ?_, by dsimp only; omega, Nat.le_of_lt hs, hm, ?_, hX, hc⟩ ?_ ?_ (Or.inr (Or.inr ⟨_, rfl, Nat.le_refl _⟩)) ?_ ?_
  · simp [atSize, updF_ne _ _ hl]
  · simp [atSize]
  · simp [atSize]
  · simp [atSize]
  · simp
    omega
  · intro l hl
    exact hX1 _ I.at_nxt (I.at_ne hl) (at_small hl)
  · intro l hl
    exact hC _ I.at_nxt (I.at_ne hl)
  · intro b hb
    by_cases h : b = w.nxt
    · left
      rw [h]
    · right
      have h2 : (s k).loc ≠ some b := fun h => hb (hold b h)
      refine ⟨?_, h2⟩
      intro h3
      apply hb
      show X1 _ = none
      rw [hX1 _ (by simp [h]) ?_ (by simp)]
      · exact h3
      · unfold Ent.at atp
        cases h4 : (s k).loc with
        | none => simp
        | some c =>
          rw [h4] at h2
          simpa using fun h => h2 (by rw [h])
  · intro b hb
    have hb : w.nxt + 1 ≤ b := hb
    show X1 _ = none
    by_cases h2 : (s k).loc = some b
    · exact hold b h2
    · rw [hX1 _ (by simp; omega) ?_ (by simp)]
      · exact I.fresh b (by omega)
      · unfold Ent.at atp
        cases h4 : (s k).loc with
        | none => simp
        | some c =>
          rw [h4] at h2
          simpa using fun h => h2 (by rw [h])

theorem Inv.grown (I : Inv P w s) {N m : Nat} {a : List (Option Nat)} {Y : List α} {C : Place → Nat → Option α} {X1 : Place → Option Nat}
    (hN : Y.length ≤ N) (hN' : N ≤ m)
    (hs : P.small < m) (hm : m ≤ P.max) (hg : min P.max ((s k).cap + (s k).cap / 2) ≤ m)
    (hC : ∀ q, q ≠ .heap w.nxt → q ≠ (s k).at k → C q = w.cel q) (hc : ∀ i, i ≤ Y.length → C (.heap w.nxt) i = (Y ++ [P.nul])[i]?)
    (hX : X1 (.heap w.nxt) = some (m + 1)) (hold : ∀ b, (s k).loc = some b → X1 (.heap b) = none)
    (hX1 : ∀ q, q ≠ .heap w.nxt → q ≠ (s k).at k → q ≠ .small k → X1 q = w.ext q) :
    Grown P w s k N Y { w with ans := a, nxt := w.nxt + 1, ext := X1, cel := C, ss := updF w.ss k ⟨some w.nxt, N, m⟩ } :=
  ⟨m, w.nxt, hN', hg, by simp, I.loc_ne, Nat.le_refl _, I.relocated (by omega) hs hm hC hc hX hold hX1⟩

theorem sat_reallocGrow (I : Inv P w s) {inc : Nat} {fn : Place → Place → Nat → M α Unit} {Y : List α} (hY : Y.length ≤ (s k).X.length + inc)
    (hcap : (s k).cap < (s k).X.length + inc)
    (hfn : ∀ m w1, (s k).X.length + inc ≤ m → Fresh w w1 w.nxt m →
      Sat (fn (.heap w.nxt) ((s k).at k) (s k).X.length) w1 (fun _ w2 => Fills P w1 w.nxt Y w2) fun _ _ => False) :
    Sat (reallocGrow P k inc fn) w (fun _ w' => (s k).X.length + inc ≤ P.max ∧ Grown P w s k ((s k).X.length + inc) Y w')
      (fun e w' => Inv P w' s ∧ (e = .lengthError ∧ P.max < (s k).X.length + inc ∨ e = .badAlloc ∧ (s k).X.length + inc ≤ P.max)) := by
  have O := I.own k
  have O1 := O.le
  have O2 := O.mx
  have O3 := O.small
  unfold reallocGrow
  refine Sat.get (Sat.ite (fun h => Sat.throw ⟨I, Or.inl ⟨rfl, ?_⟩⟩) fun h => ?_)
  · rw [O.size] at h
    omega
  · rw [O.size] at h ⊢
    refine Sat.bind (Sat.allocate (calcGrowth_le (by rw [O.res]; exact O.mx)) ?_ fun a => ⟨I.ans, Or.inr ⟨rfl, by omega⟩⟩)
    intro m a h1 h2 _
    rw [O.res] at h1
    have h3 := @le_calcGrowth _ P ((s k).X.length + inc) (s k).cap (by omega)
    have h4 := @grow_calcGrowth _ P ((s k).X.length + inc) (s k).cap
    refine Sat.bind (Sat.setSize (Sat.bind (Sat.setRes ?_)))
    dsimp only
    refine Sat.ite (fun hl => ?_) fun hl => ?_
    · rw [O.res] at hl
      obtain ⟨b, hb⟩ : ∃ b, (s k).loc = some b := by
        cases hh : (s k).loc with
        | none =>
          have := O.mode.1 hh
          omega
        | some b => exact ⟨b, rfl⟩
      have hat : (s k).at k = .heap b := by simp [Ent.at, atp, hb]
      have hbn := I.loc_lt hb
      refine Sat.bind (Sat.bxPtr (b := b) (by simp [O.ptr, hb]) ?_)
      rw [← hat]
      refine Sat.then (hfn m _ (by omega) ⟨?_, ?_, ?_⟩) (fun _ _ h => absurd h id) ?_
      · simp
      · intro q hq
        dsimp only
        rw [updE_ne _ _ hq]
      · intro q hq
        dsimp only
        simp [hq]
      rintro _ _ ⟨C, rfl, hC1, hC2⟩
      dsimp only at hC1
      refine Sat.bind (Sat.deallocate ?_ (Sat.setPtr ?_))
      · dsimp only
        rw [updE_ne _ _ (by simp; omega), ← hat, O.ext, O.res]
      · dsimp only
        refine ⟨by omega, ?_⟩
        have := I.grown (k := k) (N := (s k).X.length + inc) (m := m) (a := a) (Y := Y) (C := C)
          (X1 := updE (updE (updE w.ext (.heap w.nxt) (some (m + 1))) (.heap b) none) (.small k) none) hY (by omega) (by omega) h2 (by omega) ?_ hC2 ?_ ?_ ?_
        · simpa using this
        · intro q hq _
          rw [hC1 q hq]
          simp [hq]
        · rw [updE_ne _ _ (by simp), updE_ne _ _ (by simp; omega)]
          simp
        · intro c hc
          rw [hb] at hc
          cases hc
          rw [updE_ne _ _ (by simp)]
          simp
        · intro q h1 h2 h3
          rw [updE_ne _ _ h3, updE_ne _ _ (by rw [← hat]; exact h2), updE_ne _ _ h1]
    · rw [O.res] at hl
      have hb : (s k).loc = none := O.mode.2 (by omega)
      have hat : (s k).at k = .small k := by simp [Ent.at, atp, hb]
      rw [← hat]
      refine Sat.then (hfn m _ (by omega) ⟨?_, ?_, ?_⟩) (fun _ _ h => absurd h id) ?_
      · simp
      · intro q hq
        dsimp only
        rw [updE_ne _ _ hq]
      · intro q hq
        dsimp only
        simp [hq]
      rintro _ _ ⟨C, rfl, hC1, hC2⟩
      dsimp only at hC1
      refine Sat.setPtr ?_
      dsimp only
      refine ⟨by omega, ?_⟩
      have := I.grown (k := k) (N := (s k).X.length + inc) (m := m) (a := a) (Y := Y) (C := C)
        (X1 := updE (updE w.ext (.heap w.nxt) (some (m + 1))) (.small k) none) hY (by omega) (by omega) h2 (by omega) ?_ hC2 ?_ ?_ ?_
      · simpa using this
      · intro q hq _
        rw [hC1 q hq]
        simp [hq]
      · rw [updE_ne _ _ (by simp)]
        simp
      · intro c hc
        rw [hb] at hc
        cases hc
      · intro q h1 h2 h3
        rw [updE_ne _ _ h3, updE_ne _ _ h1]

theorem sat_reallocFor (I : Inv P w s) {n : Nat} {fn : Place → M α Unit} {Y : List α} (hY : Y.length = n) (hcap : (s k).cap < n)
    (hfn : ∀ m w1, n ≤ m → Fresh w w1 w.nxt m → Sat (fn (.heap w.nxt)) w1 (fun _ w2 => Fills P w1 w.nxt Y w2) fun _ _ => False) :
    Sat (reallocFor P k n fn) w (fun _ w' => n ≤ P.max ∧ Grown P w s k n Y w')
      (fun e w' => Inv P w' s ∧ (e = .lengthError ∧ P.max < n ∨ e = .badAlloc ∧ n ≤ P.max)) := by
  have O := I.own k
  have O1 := O.le
  have O2 := O.mx
  have O3 := O.small
  unfold reallocFor
  refine Sat.ite (fun h => Sat.throw ⟨I, Or.inl ⟨rfl, h⟩⟩) fun h => Sat.get ?_
  refine Sat.bind (Sat.allocate (calcGrowth_le (by rw [O.res]; exact O.mx)) ?_ fun a => ⟨I.ans, Or.inr ⟨rfl, by omega⟩⟩)
  intro m a h1 h2 _
  rw [O.res] at h1
  have h3 := @le_calcGrowth _ P n (s k).cap (by omega)
  have h4 := @grow_calcGrowth _ P n (s k).cap
  refine Sat.bind (Sat.setSize (Sat.bind (Sat.setRes ?_)))
  dsimp only
  refine Sat.then (hfn m _ (by omega) ⟨?_, ?_, ?_⟩) (fun _ _ h => absurd h id) ?_
  · simp
  · intro q hq
    dsimp only
    rw [updE_ne _ _ hq]
  · intro q hq
    dsimp only
    simp [hq]
  rintro _ _ ⟨C, rfl, hC1, hC2⟩
  dsimp only at hC1
  refine Sat.ite (fun hl => ?_) fun hl => ?_
  · rw [O.res] at hl
    obtain ⟨b, hb⟩ : ∃ b, (s k).loc = some b := by
      cases hh : (s k).loc with
      | none =>
        have := O.mode.1 hh
        omega
      | some b => exact ⟨b, rfl⟩
    have hat : (s k).at k = .heap b := by simp [Ent.at, atp, hb]
    have hbn := I.loc_lt hb
    refine Sat.bind (Sat.bxPtr (b := b) (by simp [O.ptr, hb]) ?_)
    refine Sat.bind (Sat.deallocate ?_ (Sat.setPtr ?_))
    · dsimp only
      rw [updE_ne _ _ (by simp; omega), ← hat, O.ext, O.res]
    · dsimp only
      refine ⟨by omega, ?_⟩
      have := I.grown (k := k) (N := n) (m := m) (a := a) (Y := Y) (C := C)
        (X1 := updE (updE (updE w.ext (.heap w.nxt) (some (m + 1))) (.heap b) none) (.small k) none) (by omega) (by omega) (by omega) h2 (by omega) ?_ hC2 ?_ ?_ ?_
      · simpa using this
      · intro q hq _
        rw [hC1 q hq]
        simp [hq]
      · rw [updE_ne _ _ (by simp), updE_ne _ _ (by simp; omega)]
        simp
      · intro c hc
        rw [hb] at hc
        cases hc
        rw [updE_ne _ _ (by simp)]
        simp
      · intro q h1 h2 h3
        rw [updE_ne _ _ h3, updE_ne _ _ (by rw [← hat]; exact h2), updE_ne _ _ h1]
  · rw [O.res] at hl
    have hb : (s k).loc = none := O.mode.2 (by omega)
    refine Sat.setPtr ?_
    dsimp only
    refine ⟨by omega, ?_⟩
    have := I.grown (k := k) (N := n) (m := m) (a := a) (Y := Y) (C := C)
      (X1 := updE (updE w.ext (.heap w.nxt) (some (m + 1))) (.small k) none) (by omega) (by omega) (by omega) h2 (by omega) ?_ hC2 ?_ ?_ ?_
    · simpa using this
    · intro q hq _
      rw [hC1 q hq]
      simp [hq]
    · rw [updE_ne _ _ (by simp)]
      simp
    · intro c hc
      rw [hb] at hc
      cases hc
    · intro q h1 h2 h3
      rw [updE_ne _ _ h3, updE_ne _ _ h1]

/-! ## The specification of an edit -/

/-- What an edit leaves. -/
def Ed (P : Par α) (s : St α) (k n : Nat) (Y : List α → Prop) : Unit → W α → Prop := fun _ w' => ∃ s', Inv P w' s' ∧ edit' P s s' k n Y .none
def EdE (P : Par α) (s : St α) (k n : Nat) (Y : List α → Prop) : Exc → W α → Prop := fun e w' => ∃ s', Inv P w' s' ∧ edit' P s s' k n Y (.exc e)

theorem edit_none {s' : St α} {n : Nat} {Y : List α → Prop} {e' : Ent α} (h : n ≤ P.max) (hY : Y e'.X) (hr : room P s n (s k) e')
    (hs : s' = updS s k e') : edit' P s s' k n Y .none := by
  unfold edit'
  rw [if_neg (by omega)]
  exact Or.inl ⟨rfl, e', hY, hr, hs⟩

/-- The postcondition of the operations that change the string in place. -/
theorem Inv.ed (I : Inv P w s) {Y : List α} {C : Place → Nat → Option α} {n : Nat} {w' : W α} {Z : List α → Prop}
    (hY : Y.length ≤ (s k).cap) (hn : n ≤ (s k).cap) (hZ : Z Y)
    (hw : w' = { w with ss := updF w.ss k { w.ss k with size := Y.length }, cel := C })
    (hC : ∀ q, q ≠ (s k).at k → C q = w.cel q) (hc : ∀ i, i ≤ Y.length → C ((s k).at k) i = (Y ++ [P.nul])[i]?) :
    Ed P s k n Z () w' := by
  have := (I.own k).mx
  subst hw
  refine ⟨_, I.inPlace hY hC hc, edit_none (by omega) hZ ?_ rfl⟩
  unfold room
  rw [if_pos hn]
  exact ⟨rfl, rfl⟩

/-- The postcondition of the operations that reallocate. -/
theorem Grown.ed {N n : Nat} {Y : List α} {w' : W α} {Z : List α → Prop} (h : Grown P w s k N Y w') (hN : N = Y.length) (hm : n ≤ P.max)
    (hn : n ≤ N) (hcap : (s k).cap < n) (hZ : Z Y) : Ed P s k n Z () w' := by
  obtain ⟨cap, b, h1, h2, h3, h4, _, h5⟩ := h
  rw [atSize_self (by omega)] at h5
  refine ⟨_, h5, edit_none hm hZ ?_ rfl⟩
  unfold room
  rw [if_neg (by omega)]
  exact ⟨⟨b, rfl, h4⟩, by dsimp only; omega, h2⟩

theorem ede {n : Nat} {Z : List α → Prop} {e : Exc} (I : Inv P w s) (hcap : (s k).cap < n)
    (h : e = .lengthError ∧ P.max < n ∨ e = .badAlloc ∧ n ≤ P.max) : EdE P s k n Z e w := by
  refine ⟨s, I, ?_⟩
  unfold edit'
  rcases h with ⟨rfl, h⟩ | ⟨rfl, h⟩
  · rw [if_pos h]
    exact ⟨rfl, rfl⟩
  · rw [if_neg (by omega)]
    exact Or.inr ⟨rfl, hcap, rfl⟩

end
end STL.Str
