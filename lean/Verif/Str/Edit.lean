import Verif.Str.Grow

/-! # The operations that edit one string. Proofs only. -/

namespace STL.Str
open STL
variable {α : Type}

/-- `(q, n)` is a range with the characters `Z`. -/
def IsSrc (P : Par α) (s : St α) (q : Ptr α) (n : Nat) (Z : List α) : Prop :=
  Z.length = n ∧ (q = .arr Z ∨ ∃ l i, q = .at ((s l).at l) i ∧ i + n ≤ (s l).X.length + 1 ∧ Z = (((s l).X ++ [P.nul]).drop i).take n)

section
variable {P : Par α} {w w1 : W α} {s : St α} {k n : Nat} {q : Ptr α} {Z : List α}

theorem rdOk_ext (h : w1.ext = w.ext) : rdOk w1 q n ↔ rdOk w q n := by
  cases q <;> simp [rdOk, h]

theorem IsSrc.rd (I : Inv P w s) (h : IsSrc P s q n Z) : rdOk w q n := by
  obtain ⟨h1, rfl | ⟨l, i, rfl, h2, h3⟩⟩ := h
  · exact Or.inr (by dsimp only; omega)
  · have := (I.own l).le
    exact Or.inr ⟨_, (I.own l).ext, by omega⟩

theorem IsSrc.val (I : Inv P w s) (h : IsSrc P s q n Z) {j : Nat} (hj : j < n) : val w.cel q j = Z[j]? := by
  obtain ⟨h1, rfl | ⟨l, i, rfl, h2, h3⟩⟩ := h
  · rfl
  · unfold Str.val
    dsimp only
    rw [(I.own l).chr _ (by omega), h3, List.getElem?_take, if_pos hj, List.getElem?_drop]

theorem IsSrc.fresh_rd (I : Inv P w s) (h : IsSrc P s q n Z) {m : Nat} (F : Fresh w w1 w.nxt m) : rdOk w1 q n := by
  obtain ⟨h1, rfl | ⟨l, i, rfl, h2, h3⟩⟩ := h
  · exact Or.inr (by dsimp only; omega)
  · have := (I.own l).le
    refine Or.inr ⟨_, (F.ext' _ I.at_nxt).trans (I.own l).ext, by omega⟩

theorem IsSrc.fresh_val (I : Inv P w s) (h : IsSrc P s q n Z) {w1 : W α} (F : ∀ q, q ≠ .heap w.nxt → w1.cel q = w.cel q) {j : Nat} (hj : j < n) :
    Str.val w1.cel q j = Z[j]? := by
  rw [← h.val I hj]
  obtain ⟨h1, rfl | ⟨l, i, rfl, h2, h3⟩⟩ := h
  · rfl
  · unfold Str.val
    dsimp only
    rw [F _ I.at_nxt]

theorem IsSrc.fresh_overlap (I : Inv P w s) (h : IsSrc P s q n Z) {i m : Nat} : overlap (.heap w.nxt) i q m = false := by
  obtain ⟨h1, rfl | ⟨l, i, rfl, h2, h3⟩⟩ := h
  · rfl
  · unfold overlap
    simp [(I.at_nxt (k := l)).symm]

theorem Inv.wr (I : Inv P w s) {i m : Nat} (h : i + m ≤ (s k).cap + 1) : wrOk w ((s k).at k) i m := Or.inr ⟨_, (I.own k).ext, h⟩
theorem Inv.rd (I : Inv P w s) {i m : Nat} (h : i + m ≤ (s k).cap + 1) : rdOk w (.at ((s k).at k) i) m := Or.inr ⟨_, (I.own k).ext, h⟩

theorem Inv.chr (I : Inv P w s) {i : Nat} (h : i ≤ (s k).X.length) : w.cel ((s k).at k) i = ((s k).X ++ [P.nul])[i]? := (I.own k).chr i h

theorem Fresh.wr {b m i j : Nat} (F : Fresh w w1 b m) (h : i + j ≤ m + 1) : wrOk w1 (.heap b) i j := Or.inr ⟨_, F.ext, h⟩

theorem Fresh.put {b m i j : Nat} {f : Nat → Option α} (F : Fresh w w1 b m) : Fresh w { w1 with cel := blk w1.cel (.heap b) i j f } b m :=
  ⟨F.ext, F.ext', fun q hq => by dsimp only; rw [blk_ne hq]; exact F.cel q hq⟩

theorem Fresh.rd {m i j : Nat} (I : Inv P w s) (F : Fresh w w1 w.nxt m) (h : i + j ≤ (s k).cap + 1) : rdOk w1 (.at ((s k).at k) i) j :=
  Or.inr ⟨_, (F.ext' _ I.at_nxt).trans (I.own k).ext, h⟩

theorem Fresh.old {m i j : Nat} (I : Inv P w s) (F : Fresh w w1 w.nxt m) (h : i + j ≤ (s k).X.length) :
    val w1.cel (.at ((s k).at k) i) j = ((s k).X ++ [P.nul])[i + j]? := by
  unfold val
  dsimp only
  rw [F.cel _ I.at_nxt, I.chr h]

theorem Inv.no_overlap (I : Inv P w s) {i j m : Nat} : overlap (α := α) (.heap w.nxt) i (.at ((s k).at k) j) m = false := by
  unfold overlap
  simp [(I.at_nxt (k := k)).symm]

/-- `m` does not run into undefined behaviour, and its effect is `R`. -/
def Does (P : Par α) (m : M α Unit) (w : W α) (F : St α → Out α → Prop) : Prop :=
  Sat m w (fun _ w' => ∃ s', Inv P w' s' ∧ F s' .none) fun e w' => ∃ s', Inv P w' s' ∧ F s' (.exc e)

/-- `m` makes `k` be `Y`. -/
def Edits (P : Par α) (m : M α Unit) (w : W α) (s : St α) (k : Nat) (Y : List α) : Prop := Does P m w fun s' out => edit P s s' k Y out

theorem sat_grow (I : Inv P w s) {inc : Nat} {fn : Place → Place → Nat → M α Unit} {Y : List α} (hY : Y.length = (s k).X.length + inc)
    (hcap : (s k).cap < (s k).X.length + inc)
    (hfn : ∀ m w1, (s k).X.length + inc ≤ m → Fresh w w1 w.nxt m →
      Sat (fn (.heap w.nxt) ((s k).at k) (s k).X.length) w1 (fun _ w2 => Fills P w1 w.nxt Y w2) fun _ _ => False) :
    Edits P (reallocGrow P k inc fn) w s k Y := by
  refine (sat_reallocGrow I (by omega) hcap hfn).mono ?_ ?_
  · rintro _ w' ⟨h1, h2⟩
    exact h2.ed (by omega) (by omega) (by omega) (by omega) rfl
  · rintro e w' ⟨h1, h2⟩
    refine ede h1 (by omega) ?_
    rw [hY]
    exact h2

theorem sat_for (I : Inv P w s) {fn : Place → M α Unit} {Y : List α} (hcap : (s k).cap < Y.length)
    (hfn : ∀ m w1, Y.length ≤ m → Fresh w w1 w.nxt m → Sat (fn (.heap w.nxt)) w1 (fun _ w2 => Fills P w1 w.nxt Y w2) fun _ _ => False) :
    Edits P (reallocFor P k Y.length fn) w s k Y := by
  refine (sat_reallocFor I rfl hcap hfn).mono ?_ ?_
  · rintro _ w' ⟨h1, h2⟩
    exact h2.ed rfl h1 (by omega) (by omega) rfl
  · rintro e w' ⟨h1, h2⟩
    exact ede h1 (by omega) h2

/-- In place. -/
theorem Inv.edits (I : Inv P w s) {Y : List α} {C : Place → Nat → Option α} {w' : W α} {N : Nat}
    (hY : Y.length ≤ (s k).cap) (hN : Y.length = N) (hw : w' = { w with ss := updF w.ss k { w.ss k with size := N }, cel := C })
    (hC : ∀ q, q ≠ (s k).at k → C q = w.cel q) (hc : ∀ i, i ≤ Y.length → C ((s k).at k) i = (Y ++ [P.nul])[i]?) :
    ∃ s', Inv P w' s' ∧ edit P s s' k Y .none := I.ed hY hY rfl (by rw [hN]; exact hw) hC hc

theorem sat_append (I : Inv P w s) (hq : IsSrc P s q n Z) : Edits P (append P k q n) w s k ((s k).X ++ Z) := by
  have O := I.own k
  have O1 := O.le
  have O2 := O.mx
  have hZ := hq.1
  unfold append
  refine Sat.get (Sat.ite (fun h => ?_) fun h => ?_)
  · rw [O.size, O.res] at h
    rw [O.size]
    refine Sat.bind (Sat.setSize (Sat.bind (Sat.myptr (by simpa using I.mode') ?_)))
    dsimp only
    rw [updF_same, I.at_eq]
    refine Sat.bind (Sat.move ((rdOk_ext (w := w) rfl).2 (hq.rd I)) (I.wr (by omega)) (Sat.set1 (I.wr (by omega)) ?_))
    refine I.edits (by simp; omega) (by simp [hZ]) rfl ?_ ?_
    · intro p hp
      simp only [blk_ne hp]
    · intro i hi
      simp only [blk_at]
      have hv : ∀ j, j < n → val w.cel q j = Z[j]? := fun j => hq.val I
      have hc : ∀ j, j < (s k).X.length → w.cel ((s k).at k) j = ((s k).X ++ [P.nul])[j]? := fun j hj => I.chr (by omega)
      grind
  · rw [O.size, O.res] at h
    refine sat_grow I (by simp; omega) (by omega) ?_
    intro m w1 hm F
    refine Sat.bind (Sat.copy I.no_overlap (F.rd I (by omega)) (F.wr (by omega)) ?_)
    refine Sat.bind (Sat.copy (hq.fresh_overlap I) (hq.fresh_rd I F.put) (F.put.wr (by omega)) (Sat.set1 (F.put.put.wr (by omega)) ?_))
    refine ⟨_, rfl, ?_, ?_⟩
    · intro p hp
      simp only [blk_ne hp]
    · intro i hi
      simp only [blk_at]
      have hv := fun j (hj : j < n) => hq.fresh_val I (F.put (i := 0) (j := (s k).X.length) (f := val w1.cel (.at ((s k).at k) 0))).cel hj
      have hc := fun j (hj : 0 + j ≤ (s k).X.length) => F.old I hj
      grind

theorem sat_appendN (I : Inv P w s) {ch : α} : Edits P (appendN P k n ch) w s k ((s k).X ++ List.replicate n ch) := by
  have O := I.own k
  have O1 := O.le
  have O2 := O.mx
  unfold appendN
  refine Sat.get (Sat.ite (fun h => ?_) fun h => ?_)
  · rw [O.size, O.res] at h
    rw [O.size]
    refine Sat.bind (Sat.setSize (Sat.bind (Sat.myptr (by simpa using I.mode') ?_)))
    dsimp only
    rw [updF_same, I.at_eq]
    refine Sat.bind (Sat.fill (I.wr (by omega)) (Sat.set1 (I.wr (by omega)) ?_))
    refine I.edits (by simp; omega) (by simp) rfl ?_ ?_
    · intro p hp
      simp only [blk_ne hp]
    · intro i hi
      simp only [blk_at]
      have hc : ∀ j, j < (s k).X.length → w.cel ((s k).at k) j = ((s k).X ++ [P.nul])[j]? := fun j hj => I.chr (by omega)
      grind
  · rw [O.size, O.res] at h
    refine sat_grow I (by simp) (by omega) ?_
    intro m w1 hm F
    refine Sat.bind (Sat.copy I.no_overlap (F.rd I (by omega)) (F.wr (by omega)) ?_)
    refine Sat.bind (Sat.fill (F.put.wr (by omega)) (Sat.set1 (F.put.put.wr (by omega)) ?_))
    refine ⟨_, rfl, ?_, ?_⟩
    · intro p hp
      simp only [blk_ne hp]
    · intro i hi
      simp only [blk_at]
      have hc := fun j (hj : 0 + j ≤ (s k).X.length) => F.old I hj
      grind

theorem sat_pushBack (I : Inv P w s) {ch : α} : Edits P (pushBack P k ch) w s k ((s k).X ++ [ch]) := by
  have O := I.own k
  have O1 := O.le
  have O2 := O.mx
  unfold pushBack
  refine Sat.get (Sat.ite (fun h => ?_) fun h => ?_)
  · rw [O.size, O.res] at h
    rw [O.size]
    refine Sat.bind (Sat.setSize (Sat.bind (Sat.myptr (by simpa using I.mode') ?_)))
    dsimp only
    rw [updF_same, I.at_eq]
    refine Sat.bind (Sat.set1 (I.wr (by omega)) (Sat.set1 (I.wr (by omega)) ?_))
    refine I.edits (by simp; omega) (by simp) rfl ?_ ?_
    · intro p hp
      simp only [blk_ne hp]
    · intro i hi
      simp only [blk_at]
      have hc : ∀ j, j < (s k).X.length → w.cel ((s k).at k) j = ((s k).X ++ [P.nul])[j]? := fun j hj => I.chr (by omega)
      grind
  · rw [O.size, O.res] at h
    refine sat_grow I (by simp) (by omega) ?_
    intro m w1 hm F
    refine Sat.bind (Sat.copy I.no_overlap (F.rd I (by omega)) (F.wr (by omega)) ?_)
    refine Sat.bind (Sat.set1 (F.put.wr (by omega)) (Sat.set1 (F.put.put.wr (by omega)) ?_))
    refine ⟨_, rfl, ?_, ?_⟩
    · intro p hp
      simp only [blk_ne hp]
    · intro i hi
      simp only [blk_at]
      have hc := fun j (hj : 0 + j ≤ (s k).X.length) => F.old I hj
      grind

theorem sat_assign (I : Inv P w s) (hq : IsSrc P s q n Z) : Edits P (assign P k q n) w s k Z := by
  have O := I.own k
  have O1 := O.le
  have O2 := O.mx
  have hZ := hq.1
  unfold assign
  refine Sat.get (Sat.ite (fun h => ?_) fun h => ?_)
  · rw [O.res] at h
    refine Sat.bind (Sat.myptr I.mode' ?_)
    rw [I.at_eq]
    refine Sat.bind (Sat.setSize ?_)
    refine Sat.bind (Sat.move ((rdOk_ext (w := w) rfl).2 (hq.rd I)) (I.wr (by omega)) (Sat.set1 (I.wr (by omega)) ?_))
    refine I.edits (by omega) hZ rfl ?_ ?_
    · intro p hp
      simp only [blk_ne hp]
    · intro i hi
      simp only [blk_at]
      have hv : ∀ j, j < n → val w.cel q j = Z[j]? := fun j => hq.val I
      grind
  · rw [O.res] at h
    rw [← hZ]
    refine sat_for I (by omega) ?_
    intro m w1 hm F
    have hq' : IsSrc P s q Z.length Z := by rw [hZ]; exact hq
    refine Sat.bind (Sat.copy (hq'.fresh_overlap I) (hq'.fresh_rd I F) (F.wr (by omega)) (Sat.set1 (F.put.wr (by omega)) ?_))
    refine ⟨_, rfl, ?_, ?_⟩
    · intro p hp
      simp only [blk_ne hp]
    · intro i hi
      simp only [blk_at]
      have hv := fun j (hj : j < n) => hq.fresh_val I F.cel hj
      grind

theorem sat_assignN (I : Inv P w s) {ch : α} : Edits P (assignN P k n ch) w s k (List.replicate n ch) := by
  have O := I.own k
  have O1 := O.le
  have O2 := O.mx
  unfold assignN
  refine Sat.get (Sat.ite (fun h => ?_) fun h => ?_)
  · rw [O.res] at h
    refine Sat.bind (Sat.myptr I.mode' ?_)
    rw [I.at_eq]
    refine Sat.bind (Sat.setSize ?_)
    refine Sat.bind (Sat.fill (I.wr (by omega)) (Sat.set1 (I.wr (by omega)) ?_))
    refine I.edits (by simpa using h) (List.length_replicate ..) rfl ?_ ?_
    · intro p hp
      simp only [blk_ne hp]
    · intro i hi
      simp only [blk_at]
      grind
  · rw [O.res] at h
    have := sat_for (k := k) (Y := List.replicate n ch) I (by simp; omega) (fn := fun new => do fill new 0 n ch; set1 new n P.nul) ?_
    · rw [List.length_replicate] at this
      exact this
    intro m w1 hm F
    rw [List.length_replicate] at hm
    refine Sat.bind (Sat.fill (F.wr (by omega)) (Sat.set1 (F.put.wr (by omega)) ?_))
    refine ⟨_, rfl, ?_, ?_⟩
    · intro p hp
      simp only [blk_ne hp]
    · intro i hi
      simp only [blk_at]
      grind

theorem sat_assignChar (I : Inv P w s) {ch : α} (h : 1 ≤ (s k).cap) : Edits P (assignChar P k ch) w s k [ch] := by
  unfold assignChar
  refine Sat.bind (Sat.setSize (Sat.bind (Sat.myptr (by simpa using I.mode') ?_)))
  dsimp only
  rw [updF_same, I.at_eq]
  refine Sat.bind (Sat.set1 (I.wr (by omega)) (Sat.set1 (I.wr (by omega)) ?_))
  refine I.edits h rfl rfl ?_ ?_
  · intro p hp
    simp only [blk_ne hp]
  · intro i hi
    simp only [blk_at]
    grind

/-! ## Insertion -/

theorem does_inside (I : Inv P w s) {size off : Nat} {m : M α Unit} {F : St α → Out α → Prop} {X : List α} (hs : size = X.length)
    (h : off ≤ X.length → Does P m w F) :
    Does P (if size < off then throw .outOfRange else m) w fun s' out => inside X off s s' out (F s' out) := by
  subst hs
  refine Sat.ite (fun h1 => Sat.throw ⟨s, I, ?_⟩) fun h1 => ?_
  · dsimp only
    unfold inside
    rw [if_pos h1]
    exact ⟨rfl, rfl⟩
  · refine (h (by omega)).mono ?_ ?_
    · rintro _ w' ⟨s', h2, h3⟩
      refine ⟨s', h2, ?_⟩
      dsimp only
      unfold inside
      rw [if_neg h1]
      exact h3
    · rintro e w' ⟨s', h2, h3⟩
      refine ⟨s', h2, ?_⟩
      dsimp only
      unfold inside
      rw [if_neg h1]
      exact h3

theorem shifted_out {lo : Bool} {p : Place} {a b size : Nat} (h : q = .arr Z ∨ ∃ p' i, q = .at p' i ∧ p' ≠ p) :
    shiftedAfter lo q n p a b size = n := by
  unfold shiftedAfter endsBefore startsAfter
  rcases h with rfl | ⟨p', i, rfl, h⟩
  · cases lo <;> simp
  · cases lo <;> simp [h]

theorem overlap_out {p : Place} {a b : Nat} (h : q = .arr Z ∨ ∃ p' i, q = .at p' i ∧ p' ≠ p) : overlap p a q b = false := by
  unfold overlap
  rcases h with rfl | ⟨p', i, rfl, h⟩
  · rfl
  · simp [Ne.symm h]

theorem add_out {p : Place} {a : Nat} (h : q = .arr Z ∨ ∃ p' i, q = .at p' i ∧ p' ≠ p) : ∃ Z', q.add a = .arr Z' ∨ ∃ p' i, q.add a = .at p' i ∧ p' ≠ p := by
  rcases h with rfl | ⟨p', i, rfl, h⟩
  · exact ⟨_, Or.inl rfl⟩
  · exact ⟨[], Or.inr ⟨p', _, rfl, h⟩⟩

theorem val_out {p : Place} {C C' : Place → Nat → Option α} (hC : ∀ p', p' ≠ p → C p' = C' p') (h : q = .arr Z ∨ ∃ p' i, q = .at p' i ∧ p' ≠ p) :
    val C q = val C' q := by
  rcases h with rfl | ⟨p', i, rfl, h⟩
  · rfl
  · unfold val
    dsimp only
    rw [hC _ h]

theorem get_replaced {X : List α} {x : α} {off d j : Nat} (h1 : off ≤ X.length) (h2 : d ≤ X.length - off) (h : j ≤ (replaced X off d Z).length) :
    (replaced X off d Z ++ [x])[j]? = if j < off then (X ++ [x])[j]? else if j < off + Z.length then Z[j - off]? else (X ++ [x])[j - Z.length + d]? := by
  unfold replaced at *
  simp only [List.length_append, List.length_take, List.length_drop] at h
  simp only [List.getElem?_append, List.getElem?_take, List.getElem?_drop, List.length_append, List.length_take, List.length_drop]
  rw [Nat.min_eq_left h1]
  repeat' split
  all_goals first
    | rfl
    | omega
    | (congr 1; omega)

/-- The string itself is the source. -/
theorem get_self {X : List α} {x : α} {off d i n j : Nat} (h1 : off ≤ X.length) (h2 : d ≤ X.length - off) (h3 : i + n ≤ X.length + 1)
    (h : j ≤ (replaced X off d (((X ++ [x]).drop i).take n)).length) :
    (replaced X off d (((X ++ [x]).drop i).take n) ++ [x])[j]? =
      if j < off then (X ++ [x])[j]? else if j < off + n then (X ++ [x])[i + (j - off)]? else (X ++ [x])[j - n + d]? := by
  rw [get_replaced h1 h2 h]
  have : (((X ++ [x]).drop i).take n).length = n := by
    simp
    omega
  rw [this]
  split
  · rfl
  · split
    · rw [List.getElem?_take, if_pos (by omega), List.getElem?_drop]
    · rfl

theorem sat_insert (I : Inv P w s) (hq : IsSrc P s q n Z) {lo : Bool} {off : Nat} :
    Does P (insert P lo k off q n) w fun s' out => inside (s k).X off s s' out (edit P s s' k (replaced (s k).X off 0 Z) out) := by
  have O := I.own k
  have O1 := O.le
  have O2 := O.mx
  have hZ := hq.1
  unfold insert
  refine Sat.get (does_inside I O.size fun ho => Sat.ite (fun h => ?_) fun h => ?_)
  · rw [O.size, O.res] at h
    rw [O.size]
    refine Sat.bind (Sat.setSize (Sat.bind (Sat.myptr (by simpa using I.mode') ?_)))
    dsimp only
    rw [updF_same, I.at_eq]
    refine Sat.bind (Sat.move (I.rd (by omega)) (I.wr (by omega)) ?_)
    have hc : ∀ j, j ≤ (s k).X.length → w.cel ((s k).at k) j = ((s k).X ++ [P.nul])[j]? := fun j hj => I.chr (by omega)
    have hout : (q = .arr Z ∨ ∃ p' i, q = .at p' i ∧ p' ≠ (s k).at k) ∨ ∃ i, q = .at ((s k).at k) i ∧ i + n ≤ (s k).X.length + 1 ∧ Z = (((s k).X ++ [P.nul]).drop i).take n := by
      rcases hq.2 with h | ⟨l, i, h1, h2, h3⟩
      · exact Or.inl (Or.inl h)
      · by_cases hl : l = k
        · subst hl
          exact Or.inr ⟨i, h1, h2, h3⟩
        · exact Or.inl (Or.inr ⟨_, i, h1, I.at_ne hl⟩)
    rcases hout with hout | ⟨i, rfl, h2, h3⟩
    · rw [shifted_out hout]
      obtain ⟨Z', hadd⟩ := add_out (a := n + n) hout
      refine Sat.bind (Sat.copy (overlap_out hout) ((rdOk_ext (w := w) rfl).2 (hq.rd I)) (I.wr (by omega)) ?_)
      refine Sat.copy (overlap_out hadd) (Or.inl (by omega)) (Or.inl (by omega)) ?_
      refine I.edits (by simp [replaced]; omega) (by simp [replaced]; omega) rfl ?_ ?_
      · intro p hp
        simp only [blk_ne hp]
      · intro j hj
        simp only [blk_at]
        rw [val_out (q := q) (C' := w.cel) (p := (s k).at k) (fun p hp => by rw [blk_ne hp]) hout]
        have hv : ∀ j, j < n → val w.cel q j = Z[j]? := fun j => hq.val I
        unfold replaced at hj ⊢
        unfold val at hv ⊢
        grind
    · have hsh : ∃ sh, shiftedAfter (α := α) lo (.at ((s k).at k) i) n ((s k).at k) off off (s k).X.length = sh ∧
          (i + n ≤ off ∧ sh = n ∨ n = 0 ∧ sh = 0 ∨ off ≤ i ∧ sh = 0 ∨ i < off ∧ off < i + n ∧ sh = off - i) := by
        refine ⟨_, rfl, ?_⟩
        simp only [shiftedAfter, endsBefore, startsAfter, startsFrom, distTo, if_true, Bool.or_eq_true, decide_eq_true_eq]
        split
        · omega
        · split <;> omega
      obtain ⟨sh, h4, h5⟩ := hsh
      rw [h4]
      dsimp only [Ptr.add]
      have hsn : sh ≤ n := by omega
      refine Sat.bind (Sat.copy ?_ (I.rd (by omega)) (I.wr (by omega)) (Sat.copy ?_ (I.rd (by omega)) (I.wr (by omega)) ?_))
      · simp [overlap]
        omega
      · simp [overlap]
        omega
      refine I.edits (by simp [replaced]; omega) (by simp [replaced]; omega) rfl ?_ ?_
      · intro p hp
        simp only [blk_ne hp]
      · intro j hj
        simp only [blk_at, val]
        have hlen := hj
        rw [h3] at hj ⊢
        rw [get_self ho (by omega) h2 hj]
        clear hj
        simp only [replaced, List.length_append, List.length_take, List.length_drop, hZ] at hlen
        obtain ⟨g, hg⟩ : ∃ g : Nat → Option α, ∀ j : Nat, ((s k).X ++ [P.nul])[j]? = g j := ⟨_, fun _ => rfl⟩
        simp only [hg] at hc ⊢
        clear hq h4 h3 hg
        grind
  · rw [O.size, O.res] at h
    refine sat_grow I (by simp [replaced]; omega) (by omega) ?_
    intro m w1 hm F
    refine Sat.bind (Sat.copy I.no_overlap (F.rd I (by omega)) (F.wr (by omega)) ?_)
    refine Sat.bind (Sat.copy (hq.fresh_overlap I) (hq.fresh_rd I F.put) (F.put.wr (by omega)) (Sat.copy I.no_overlap (F.put.put.rd I (by omega)) (F.put.put.wr (by omega)) ?_))
    refine ⟨_, rfl, ?_, ?_⟩
    · intro p hp
      simp only [blk_ne hp]
    · intro i hi
      simp only [blk_at]
      have hv := fun j (hj : j < n) => hq.fresh_val I (F.put (i := 0) (j := off) (f := val w1.cel (.at ((s k).at k) 0))).cel hj
      have hc := fun j (hj : 0 + j ≤ (s k).X.length) => F.old I hj
      have hc' := fun j (hj : off + j ≤ (s k).X.length) => (F.put (i := 0) (j := off) (f := val w1.cel (.at ((s k).at k) 0))).put (i := off) (j := n)
        (f := val (blk w1.cel (.heap w.nxt) 0 off (val w1.cel (.at ((s k).at k) 0))) q) |>.old I hj
      unfold replaced at hi ⊢
      grind

theorem sat_insertN (I : Inv P w s) {off : Nat} {ch : α} :
    Does P (insertN P k off n ch) w fun s' out => inside (s k).X off s s' out (edit P s s' k (replaced (s k).X off 0 (List.replicate n ch)) out) := by
  have O := I.own k
  have O1 := O.le
  have O2 := O.mx
  unfold insertN
  refine Sat.get (does_inside I O.size fun ho => Sat.ite (fun h => ?_) fun h => ?_)
  · rw [O.size, O.res] at h
    rw [O.size]
    refine Sat.bind (Sat.setSize (Sat.bind (Sat.myptr (by simpa using I.mode') ?_)))
    dsimp only
    rw [updF_same, I.at_eq]
    refine Sat.bind (Sat.move (I.rd (by omega)) (I.wr (by omega)) ?_)
    have hc : ∀ j, j ≤ (s k).X.length → w.cel ((s k).at k) j = ((s k).X ++ [P.nul])[j]? := fun j hj => I.chr (by omega)
    refine Sat.fill (I.wr (by omega)) ?_
    refine I.edits (by simp [replaced]; omega) (by simp [replaced]; omega) rfl ?_ ?_
    · intro p hp
      simp only [blk_ne hp]
    · intro j hj
      simp only [blk_at, val]
      unfold replaced at hj ⊢
      grind
  · rw [O.size, O.res] at h
    refine sat_grow I (by simp [replaced]; omega) (by omega) ?_
    intro m w1 hm F
    refine Sat.bind (Sat.copy I.no_overlap (F.rd I (by omega)) (F.wr (by omega)) ?_)
    refine Sat.bind (Sat.fill (F.put.wr (by omega)) (Sat.copy I.no_overlap (F.put.put.rd I (by omega)) (F.put.put.wr (by omega)) ?_))
    refine ⟨_, rfl, ?_, ?_⟩
    · intro p hp
      simp only [blk_ne hp]
    · intro i hi
      simp only [blk_at]
      have hc := fun j (hj : 0 + j ≤ (s k).X.length) => F.old I hj
      have hc' := fun j (hj : off + j ≤ (s k).X.length) => (F.put (i := 0) (j := off) (f := val w1.cel (.at ((s k).at k) 0))).put (i := off) (j := n)
        (f := fun _ => some ch) |>.old I hj
      unfold replaced at hi ⊢
      grind
end
end STL.Str
