import Verif.Str.Edit2

/-! # Construction of strings. Proofs only. -/

namespace STL.Str
open STL
variable {α : Type} {P : Par α} {w w1 : W α} {s : St α} {k n : Nat} {q : Ptr α} {Z : List α}

theorem Inv.ss_empty (I : Inv P w s) (hk : s k = Ent.empty P) : w.ss k = ⟨none, 0, P.small⟩ := by
  have O := I.own k
  rw [hk] at O
  have h1 := O.size
  have h2 := O.res
  have h3 := O.ptr
  cases hs : w.ss k with
  | mk a b c =>
    rw [hs] at h1 h2 h3
    simp_all [Ent.empty]

theorem at_empty (hk : s k = Ent.empty P) : (s k).at k = .small k := by
  rw [hk]
  rfl

theorem Inv.newSmall (I : Inv P w s) (hk : s k = Ent.empty P) {Y : List α} {C : Place → Nat → Option α} {w' : W α}
    (hn : Y.length = n) (hY : n ≤ P.small) (hw : w' = { w with ss := updF w.ss k ⟨none, n, P.small⟩, cel := C })
    (hC : ∀ q, q ≠ .small k → C q = w.cel q) (hc : ∀ i, i ≤ Y.length → C (.small k) i = (Y ++ [P.nul])[i]?) :
    ∃ s', Inv P w' s' ∧ edit P s s' k Y .none := by
  refine I.edits (N := n) (C := C) ?_ hn ?_ ?_ ?_
  · rw [hk]
    exact hn ▸ hY
  · rw [hw, I.ss_empty hk]
  · rw [at_empty hk]
    exact hC
  · rw [at_empty hk]
    exact hc

theorem Inv.newLarge (I : Inv P w s) (hk : s k = Ent.empty P) {Y : List α} {C : Place → Nat → Option α} {w' : W α} {m : Nat} {a : List (Option Nat)}
    (hn : Y.length = n) (hY : P.small < n) (hnm : n ≤ m) (hm : m ≤ P.max) (hg : min P.max (P.small + P.small / 2) ≤ m)
    (hw : w' = { w with ans := a, nxt := w.nxt + 1, ext := updE (updE w.ext (.heap w.nxt) (some (m + 1))) (.small k) none, cel := C, ss := updF w.ss k ⟨some w.nxt, n, m⟩ })
    (hC : ∀ q, q ≠ .heap w.nxt → q ≠ .small k → C q = w.cel q) (hc : ∀ i, i ≤ Y.length → C (.heap w.nxt) i = (Y ++ [P.nul])[i]?) :
    ∃ s', Inv P w' s' ∧ edit P s s' k Y .none := by
  have hcap : (s k).cap = P.small := by rw [hk]; rfl
  have := I.grown (k := k) (N := n) (m := m) (a := a) (Y := Y) (C := C)
    (X1 := updE (updE w.ext (.heap w.nxt) (some (m + 1))) (.small k) none) (by omega) (by omega) (by omega) hm (by rw [hcap]; exact hg) ?_ hc ?_ ?_ ?_
  · rw [← hw] at this
    exact this.ed (by omega) (by omega) (by omega) (by omega) rfl
  · rw [at_empty hk]
    exact hC
  · rw [updE_ne _ _ (by simp)]
    simp
  · intro b hb
    rw [hk] at hb
    cases hb
  · intro q h1 h2 h3
    rw [updE_ne _ _ h3, updE_ne _ _ h1]

/-- The source is not part of the string that is constructed. -/
structure Outer (w : W α) (k : Nat) (q : Ptr α) : Prop where
  ne : ∀ p i, q = .at p i → p ≠ .small k ∧ p ≠ .heap w.nxt

theorem IsSrc.outer (I : Inv P w s) (hq : IsSrc P s q n Z) (hs : ∀ i, q ≠ .at (.small k) i) : Outer w k q := by
  constructor
  rintro p i rfl
  refine ⟨fun h => hs i (by rw [h]), ?_⟩
  rcases hq.2 with h | ⟨l, j, h, _⟩
  · cases h
  · cases h
    exact I.at_nxt

/-- Room for the characters of a new string: a place `p`, and nothing that matters has changed. -/
structure Space (w w1 : W α) (k : Nat) (p : Place) (m : Nat) : Prop where
  pl : p = .small k ∨ p = .heap w.nxt
  ext : w1.ext p = some (m + 1)
  ext' : ∀ q, q ≠ .small k → q ≠ .heap w.nxt → w1.ext q = w.ext q
  cel : ∀ q, q ≠ .small k → q ≠ .heap w.nxt → w1.cel q = w.cel q

section
variable {p : Place} {m : Nat}

theorem Space.put (S : Space w w1 k p m) {i j : Nat} {f : Nat → Option α} : Space w { w1 with cel := blk w1.cel p i j f } k p m :=
  ⟨S.pl, S.ext, S.ext', fun q h1 h2 => by
    dsimp only
    rw [blk_ne (by rcases S.pl with h | h <;> rw [h] <;> assumption)]
    exact S.cel q h1 h2⟩

theorem Space.wr (S : Space w w1 k p m) {i j : Nat} (h : i + j ≤ m + 1) : wrOk w1 p i j := Or.inr ⟨_, S.ext, h⟩

theorem Space.rd (S : Space w w1 k p m) (I : Inv P w s) (ho : Outer w k q) (hq : IsSrc P s q n Z) : rdOk w1 q n := by
  have := hq.rd I
  rcases this with h | h
  · exact Or.inl h
  · refine Or.inr ?_
    cases q with
    | «at» p' i =>
      obtain ⟨h1, h2⟩ := ho.ne p' i rfl
      dsimp only at h ⊢
      rw [S.ext' _ h1 h2]
      exact h
    | arr xs => exact h

theorem Space.val (S : Space w w1 k p m) (ho : Outer w k q) : val w1.cel q = val w.cel q := by
  cases q with
  | «at» p' i =>
    obtain ⟨h1, h2⟩ := ho.ne p' i rfl
    unfold Str.val
    dsimp only
    rw [S.cel _ h1 h2]
  | arr xs => rfl

theorem Space.ov (S : Space w w1 k p m) (ho : Outer w k q) {i j : Nat} : overlap p i q j = false := by
  cases q with
  | «at» p' i =>
    obtain ⟨h1, h2⟩ := ho.ne p' i rfl
    have : p ≠ p' := by rcases S.pl with h | h <;> rw [h] <;> exact Ne.symm ‹_›
    simp [overlap, this]
  | arr xs => rfl
end

theorem sat_construct (I : Inv P w s) (hk : s k = Ent.empty P) {mk : Place → M α Unit} {Y : List α} (hY : Y.length = n)
    (hmk : ∀ p m w1, n ≤ m → P.small ≤ m → Space w w1 k p m → Sat (mk p) w1 (fun _ w2 => ∃ C, w2 = { w1 with cel := C } ∧ (∀ q, q ≠ p → C q = w1.cel q) ∧
      ∀ i, i ≤ Y.length → C p i = (Y ++ [P.nul])[i]?) fun _ _ => False) :
    Edits P (construct P k n mk) w s k Y := by
  have hcap : (s k).cap = P.small := by rw [hk]; rfl
  unfold construct
  refine Sat.ite (fun h => Sat.throw (ede I (by have := P.le; omega) (Or.inl ⟨rfl, by omega⟩))) fun h => Sat.ite (fun h' => ?_) fun h' => ?_
  · refine Sat.bind (Sat.setSize (Sat.bind (Sat.setRes ?_)))
    refine Sat.mono (hmk (.small k) P.small _ h' (Nat.le_refl _) ⟨Or.inl rfl, ?_, fun _ _ _ => rfl, fun _ _ _ => rfl⟩) ?_ fun _ _ h => absurd h id
    · have := (I.own k).ext
      rw [at_empty hk, hcap] at this
      exact this
    · rintro _ _ ⟨C, rfl, h1, h2⟩
      refine I.newSmall hk hY h' ?_ h1 h2
      simp [I.ss_empty hk]
  · refine Sat.bind (Sat.allocate (calcGrowth_le P.le) ?_ fun a => ede I.ans (by omega) (Or.inr ⟨rfl, by omega⟩))
    intro m a h1 h2 _
    have h3 := @le_calcGrowth _ P n P.small (by omega)
    have h4 := @grow_calcGrowth _ P n P.small
    refine Sat.bind (Sat.setPtr (Sat.bind (Sat.setSize (Sat.bind (Sat.setRes ?_)))))
    refine Sat.mono (hmk (.heap w.nxt) m _ (by omega) (by omega) ⟨Or.inr rfl, ?_, ?_, ?_⟩) ?_ fun _ _ h => absurd h id
    · dsimp only
      rw [updE_ne _ _ (by simp)]
      simp
    · intro q hq hq'
      dsimp only
      rw [updE_ne _ _ hq, updE_ne _ _ hq']
    · intro q hq hq'
      dsimp only
      simp [hq']
    · rintro _ _ ⟨C, rfl, h5, h6⟩
      refine I.newLarge (m := m) (a := a) hk hY (by omega) (by omega) h2 (by omega) ?_ ?_ h6
      · simp
      · intro q hq hq'
        rw [h5 q hq]
        simp [hq]

theorem sat_ctorN (I : Inv P w s) (hk : s k = Ent.empty P) {ch : α} : Edits P (ctorN P k n ch) w s k (List.replicate n ch) := by
  unfold ctorN
  refine sat_construct I hk (by simp) ?_
  intro p m w1 hm _ S
  refine Sat.bind (Sat.fill (S.wr (by omega)) (Sat.set1 (S.put.wr (by omega)) ?_))
  refine ⟨_, rfl, ?_, ?_⟩
  · intro q hq
    simp only [blk_ne hq]
  · intro i hi
    simp only [blk_at]
    grind

theorem sat_ctorPtr (I : Inv P w s) (hk : s k = Ent.empty P) (hq : IsSrc P s q n Z) (ho : Outer w k q) : Edits P (ctorPtr P k q n) w s k Z := by
  have hZ := hq.1
  unfold ctorPtr
  refine sat_construct I hk hZ ?_
  intro p m w1 hm _ S
  refine Sat.bind (Sat.copy (S.ov ho) (S.rd I ho hq) (S.wr (by omega)) (Sat.set1 (S.put.wr (by omega)) ?_))
  refine ⟨_, rfl, ?_, ?_⟩
  · intro q hq
    simp only [blk_ne hq]
  · intro i hi
    have hv : ∀ j, j < n → val w.cel q j = Z[j]? := fun j => hq.val I
    simp only [blk_at, S.val ho]
    grind

theorem outer_at (I : Inv P w s) {l : Nat} (hl : k ≠ l) {i : Nat} : Outer w k (.at ((s l).at l) i : Ptr α) := by
  constructor
  rintro p j h
  cases h
  exact ⟨at_small (Ne.symm hl), I.at_nxt⟩

/-- A part of another string. -/
theorem isSrc_at {l i : Nat} (h : i + n ≤ (s l).X.length) : IsSrc P s (.at ((s l).at l) i) n (((s l).X.drop i).take n) := by
  refine ⟨by simp; omega, Or.inr ⟨l, i, rfl, by omega, ?_⟩⟩
  rw [List.drop_append_of_le_length (by omega), List.take_append_of_le_length (by simp; omega)]

theorem isSrc_all {l : Nat} : IsSrc P s (.at ((s l).at l) 0) (s l).X.length (s l).X := by
  have := isSrc_at (P := P) (s := s) (l := l) (i := 0) (n := (s l).X.length) (by omega)
  simpa using this

theorem sat_ctorCopy (I : Inv P w s) (hk : s k = Ent.empty P) {l : Nat} (hl : k ≠ l) : Edits P (ctorCopy P k l) w s k (s l).X := by
  have O := I.own l
  have O1 := O.le
  have O2 := O.small
  unfold ctorCopy
  refine Sat.get (Sat.bind (Sat.myptr I.mode' ?_))
  rw [I.at_eq, O.size]
  refine sat_construct I hk rfl ?_
  intro p m w1 hm hm' S
  have ho : Outer w k (.at ((s l).at l) 0 : Ptr α) := outer_at I hl
  refine Sat.copy (S.ov ho) ?_ (S.wr (by split <;> omega)) ?_
  · obtain ⟨h1, h2⟩ := ho.ne _ _ rfl
    refine Or.inr ⟨(s l).cap + 1, ?_, by split <;> omega⟩
    rw [S.ext' _ h1 h2, O.ext]
  refine ⟨_, rfl, ?_, ?_⟩
  · intro q hq
    simp only [blk_ne hq]
  · intro i hi
    rw [blk_at, if_pos (by split <;> omega)]
    rw [S.val ho]
    simp only [val]
    rw [I.chr (by omega)]
    simp

/-! ## Concatenation -/

theorem sat_concat (I : Inv P w s) (hk : s k = Ent.empty P) {l m : Nat} (hl : k ≠ l) (hm : k ≠ m) :
    Edits P (concat P k l m) w s k ((s l).X ++ (s m).X) := by
  have O := I.own l
  have O' := I.own m
  have O1 := O.le
  have O2 := O.mx
  have O3 := O'.le
  have O4 := O'.mx
  have hcap : (s k).cap = P.small := by rw [hk]; rfl
  have ho1 : Outer w k (.at ((s l).at l) 0 : Ptr α) := outer_at I hl
  have ho2 : Outer w k (.at ((s m).at m) 0 : Ptr α) := outer_at I hm
  have hq1 := isSrc_all (P := P) (s := s) (l := l)
  have hq2 := isSrc_all (P := P) (s := s) (l := m)
  have hv1 : ∀ j, j < (s l).X.length → val w.cel _ j = (s l).X[j]? := fun j => hq1.val I
  have hv2 : ∀ j, j < (s m).X.length → val w.cel _ j = (s m).X[j]? := fun j => hq2.val I
  have hlen : ((s l).X ++ (s m).X).length = (s l).X.length + (s m).X.length := List.length_append ..
  unfold concat
  refine Sat.get (Sat.get (Sat.bind (Sat.myptr I.mode' (Sat.bind (Sat.myptr I.mode' ?_)))))
  rw [I.at_eq, I.at_eq, O.size, O'.size]
  refine Sat.ite (fun h => Sat.throw (ede I (by rw [hcap]; have := P.le; omega) (Or.inl ⟨rfl, by omega⟩))) fun h => Sat.ite (fun h' => ?_) fun h' => ?_
  · refine Sat.bind (Sat.allocate (calcGrowth_le P.le) ?_ fun a => ede I.ans (by omega) (Or.inr ⟨rfl, by omega⟩))
    intro M a h1 h2 _
    have h3 := @le_calcGrowth _ P ((s l).X.length + (s m).X.length) P.small (by omega)
    have h4 := @grow_calcGrowth _ P ((s l).X.length + (s m).X.length) P.small
    refine Sat.bind (Sat.setPtr (Sat.bind (Sat.setSize (Sat.bind (Sat.setRes ?_)))))
    have S : Space w { w with ans := a, nxt := w.nxt + 1, ext := updE (updE w.ext (.heap w.nxt) (some (M + 1))) (.small k) none, cel := fun q j => if q = .heap w.nxt then none else w.cel q j, ss := updF w.ss k ⟨some w.nxt, (s l).X.length + (s m).X.length, M⟩ } k (.heap w.nxt) M := by
      refine ⟨Or.inr rfl, ?_, ?_, ?_⟩
      · dsimp only
        rw [updE_ne _ _ (by simp)]
        simp
      · intro q hq hq'
        dsimp only
        rw [updE_ne _ _ hq, updE_ne _ _ hq']
      · intro q hq hq'
        dsimp only
        simp [hq']
    have hss : updF (updF (updF w.ss k { w.ss k with ptr := some w.nxt }) k { updF w.ss k { w.ss k with ptr := some w.nxt } k with size := (s l).X.length + (s m).X.length }) k
        { updF (updF w.ss k { w.ss k with ptr := some w.nxt }) k { updF w.ss k { w.ss k with ptr := some w.nxt } k with size := (s l).X.length + (s m).X.length } k with res := M } =
        updF w.ss k ⟨some w.nxt, (s l).X.length + (s m).X.length, M⟩ := by simp
    dsimp only
    rw [hss]
    refine Sat.bind (Sat.copy (S.ov ho1) (S.rd I ho1 hq1) (S.wr (by omega)) ?_)
    refine Sat.bind (Sat.copy (S.ov ho2) (S.put.rd I ho2 hq2) (S.put.wr (by omega)) (Sat.set1 (S.put.put.wr (by omega)) ?_))
    refine I.newLarge (m := M) hk hlen h' (by omega) h2 (by omega) rfl ?_ ?_
    · intro q hq hq'
      simp only [blk_ne hq, if_neg hq]
    · intro i hi
      have e1 := S.val ho1
      have e2 := S.put (i := 0) (j := (s l).X.length) (f := val w.cel (.at ((s l).at l) 0)) |>.val ho2
      dsimp only at e1 e2
      simp only [blk_at, e1, e2]
      grind
  · refine Sat.bind (Sat.setSize (Sat.bind (Sat.setRes ?_)))
    have S : Space w { w with ss := updF w.ss k ⟨none, (s l).X.length + (s m).X.length, P.small⟩ } k (.small k) P.small := by
      refine ⟨Or.inl rfl, ?_, fun _ _ _ => rfl, fun _ _ _ => rfl⟩
      have := (I.own k).ext
      rw [at_empty hk, hcap] at this
      exact this
    have hss : updF (updF w.ss k { w.ss k with size := (s l).X.length + (s m).X.length }) k
        { updF w.ss k { w.ss k with size := (s l).X.length + (s m).X.length } k with res := P.small } =
        updF w.ss k ⟨none, (s l).X.length + (s m).X.length, P.small⟩ := by simp [I.ss_empty hk]
    dsimp only
    rw [hss]
    refine Sat.bind (Sat.copy (S.ov ho1) (S.rd I ho1 hq1) (S.wr (by omega)) ?_)
    refine Sat.bind (Sat.copy (S.ov ho2) (S.put.rd I ho2 hq2) (S.put.wr (by omega)) (Sat.set1 (S.put.put.wr (by omega)) ?_))
    refine I.newSmall hk hlen (by omega) rfl ?_ ?_
    · intro q hq
      simp only [blk_ne hq]
    · intro i hi
      have e1 := S.val ho1
      have e2 := S.put (i := 0) (j := (s l).X.length) (f := val w.cel (.at ((s l).at l) 0)) |>.val ho2
      dsimp only at e1 e2
      simp only [blk_at, e2]
      grind

end STL.Str
