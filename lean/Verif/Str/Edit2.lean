import Verif.Str.Edit

/-! # More operations that edit one string. Proofs only. -/

namespace STL.Str
open STL
variable {α : Type} {P : Par α} {w w1 : W α} {s : St α} {k n : Nat} {q : Ptr α} {Z : List α}

/-- The characters of the result of a replacement. -/
macro "repl" h:ident : tactic => `(tactic| (rw [get_replaced (by omega) (by omega) $h]; (
  simp only [replaced, List.length_append, List.length_take, List.length_drop, List.length_replicate, List.length_nil] at $h:ident); (
  try simp only [List.length_replicate, List.length_nil]); grind))

theorem Does.mono {m : M α Unit} {F G : St α → Out α → Prop} (h : Does P m w F) (hG : ∀ s' out, F s' out → G s' out) : Does P m w G :=
  Sat.mono h (fun _ _ ⟨s', h1, h2⟩ => ⟨s', h1, hG _ _ h2⟩) fun _ _ ⟨s', h1, h2⟩ => ⟨s', h1, hG _ _ h2⟩

theorem Does.pure' {F : St α → Out α → Prop} (I : Inv P w s) (h : F s .none) : Does P (pure ()) w F := Sat.pure' ⟨s, I, h⟩

theorem Does.get {l : Nat} {f : S → M α Unit} {F : St α → Out α → Prop} (h : Does P (f (w.ss l)) w F) : Does P (Str.get l >>= f) w F := Sat.get h

theorem Does.ite {c : Prop} [Decidable c] {a b : M α Unit} {F : St α → Out α → Prop} (h1 : c → Does P a w F) (h2 : ¬c → Does P b w F) :
    Does P (if c then a else b) w F := Sat.ite h1 h2

/-- In place, without a new size. -/
theorem Inv.edits' (I : Inv P w s) {Y : List α} {C : Place → Nat → Option α} {w' : W α}
    (hN : Y.length = (s k).X.length) (hw : w' = { w with cel := C })
    (hC : ∀ q, q ≠ (s k).at k → C q = w.cel q) (hc : ∀ i, i ≤ Y.length → C ((s k).at k) i = (Y ++ [P.nul])[i]?) :
    ∃ s', Inv P w' s' ∧ edit P s s' k Y .none := by
  have O := I.own k
  have O1 := O.le
  refine I.edits (N := (s k).X.length) (by omega) hN ?_ hC hc
  rw [hw]
  have := atSize_self O.size
  unfold atSize at this
  rw [show updF w.ss k { w.ss k with size := (s k).X.length } = w.ss from congrArg W.ss this]

theorem replaced_clamp {X Y : List α} {off nx : Nat} : replaced X off (min nx (X.length - off)) Y = replaced X off nx Y := by
  unfold replaced
  congr 1
  by_cases h : nx ≤ X.length - off
  · rw [Nat.min_eq_left h]
  · rw [Nat.min_eq_right (by omega), List.drop_eq_nil_of_le (by omega), List.drop_eq_nil_of_le (by omega)]

/-- The source is part of the string `k`, or not. -/
theorem IsSrc.cases (I : Inv P w s) (hq : IsSrc P s q n Z) (k : Nat) : (q = .arr Z ∨ ∃ p' i, q = .at p' i ∧ p' ≠ (s k).at k) ∨
    ∃ i, q = .at ((s k).at k) i ∧ i + n ≤ (s k).X.length + 1 ∧ Z = (((s k).X ++ [P.nul]).drop i).take n := by
  rcases hq.2 with h | ⟨l, i, h1, h2, h3⟩
  · exact Or.inl (Or.inl h)
  · by_cases hl : l = k
    · subst hl
      exact Or.inr ⟨i, h1, h2, h3⟩
    · exact Or.inl (Or.inr ⟨_, i, h1, I.at_ne hl⟩)

theorem sat_replace (I : Inv P w s) (hq : IsSrc P s q n Z) {lo : Bool} {off nx : Nat}
    (hs : ∀ i, q = .at ((s k).at k) i → ¬straddles (s k) k off nx k i n) :
    Does P (replace P lo k off nx q n) w fun s' out => inside (s k).X off s s' out (edit P s s' k (replaced (s k).X off nx Z) out) := by
  have O := I.own k
  have O1 := O.le
  have O2 := O.mx
  have hZ := hq.1
  unfold replace
  refine Sat.get (does_inside I O.size fun ho => ?_)
  rw [← replaced_clamp]
  unfold clamp
  rw [O.size, O.res]
  have hnx : min nx ((s k).X.length - off) ≤ (s k).X.length - off := Nat.min_le_right _ _
  unfold straddles at hs
  dsimp only at hs
  revert hs hnx
  generalize min nx ((s k).X.length - off) = d
  intro hs hd
  dsimp only
  have hc : ∀ j, j ≤ (s k).X.length → w.cel ((s k).at k) j = ((s k).X ++ [P.nul])[j]? := fun j hj => I.chr (by omega)
  have hv : ∀ j, j < n → val w.cel q j = Z[j]? := fun j => hq.val I
  refine Sat.ite (fun h => ?_) fun h => Sat.ite (fun h' => ?_) fun h' => Sat.ite (fun h'' => ?_) fun h'' => ?_
  · refine Sat.bind (Sat.myptr I.mode' ?_)
    rw [I.at_eq]
    refine Sat.move (hq.rd I) (I.wr (by omega)) ?_
    refine I.edits' (by simp [replaced]; omega) rfl ?_ ?_
    · intro p hp
      simp only [blk_ne hp]
    · intro i hi
      simp only [blk_at]
      repl hi
  · refine Sat.bind (Sat.myptr I.mode' ?_)
    rw [I.at_eq]
    refine Sat.bind (Sat.move (hq.rd I) (I.wr (by omega)) (Sat.bind (Sat.move (I.rd (by omega)) (I.wr (by omega)) (Sat.setSize ?_))))
    refine I.edits (by simp [replaced]; omega) (by simp [replaced]; omega) rfl ?_ ?_
    · intro p hp
      simp only [blk_ne hp]
    · intro i hi
      have hv' : ∀ (C : Place → Nat → Option α) i j, val C (.at ((s k).at k) i) j = C ((s k).at k) (i + j) := fun _ _ _ => rfl
      simp only [blk_at, hv']
      repl hi
  · refine Sat.bind (Sat.setSize (Sat.bind (Sat.myptr (by simpa using I.mode') ?_)))
    dsimp only
    rw [updF_same, I.at_eq]
    refine Sat.bind (Sat.move (I.rd (by omega)) (I.wr (by omega)) ?_)
    rcases hq.cases I k with hout | ⟨i, rfl, h2, h3⟩
    · rw [shifted_out hout]
      obtain ⟨Z', hadd⟩ := add_out (a := n - d + n) hout
      refine Sat.bind (Sat.move ((rdOk_ext (w := w) rfl).2 (hq.rd I)) (I.wr (by omega)) ?_)
      unfold copyRest
      rw [if_neg (by omega)]
      refine Sat.copy (overlap_out hadd) (Or.inl (by omega)) (Or.inl (by omega)) ?_
      refine I.edits (by simp [replaced]; omega) (by simp [replaced]; omega) rfl ?_ ?_
      · intro p hp
        simp only [blk_ne hp]
      · intro j hj
        simp only [blk_at]
        rw [val_out (q := q) (C' := w.cel) (p := (s k).at k) (fun p hp => by rw [blk_ne hp]) hout]
        have hv : ∀ j, j < n → val w.cel q j = Z[j]? := fun j => hq.val I
        simp only [show ∀ (C : Place → Nat → Option α) i j, val C (.at ((s k).at k) i) j = C ((s k).at k) (i + j) from fun _ _ _ => rfl]
        repl hj
    · have hsh : ∃ sh, shiftedAfter (α := α) lo (.at ((s k).at k) i) n ((s k).at k) off (off + d) (s k).X.length = sh ∧
          (i + n ≤ off ∧ sh = n ∨ off + d ≤ i ∧ sh = 0 ∨ i < off + d ∧ off + d ≤ i + n ∧ sh = off + d - i) := by
        refine ⟨_, rfl, ?_⟩
        have hs' := hs i rfl
        simp only [true_and] at hs'
        simp only [shiftedAfter, endsBefore, startsAfter, startsFrom, distTo, if_true, Bool.or_eq_true, decide_eq_true_eq]
        split
        · omega
        · split <;> omega
      obtain ⟨sh, h4, h5⟩ := hsh
      rw [h4]
      dsimp only [Ptr.add]
      have hsn : sh ≤ n := by omega
      refine Sat.bind (Sat.move (I.rd (by omega)) (I.wr (by omega)) ?_)
      unfold copyRest
      rw [if_neg (by omega)]
      refine Sat.copy ?_ (I.rd (by omega)) (I.wr (by omega)) ?_
      · simp [overlap]
        omega
      refine I.edits (by simp [replaced]; omega) (by simp [replaced]; omega) rfl ?_ ?_
      · intro p hp
        simp only [blk_ne hp]
      · intro j hj
        simp only [blk_at, val]
        have hlen := hj
        rw [h3] at hj ⊢
        rw [get_self ho (by omega) h2 hj]
        clear hj
        simp only [replaced, List.length_append, List.length_take, List.length_drop, hZ] at hlen
        obtain ⟨g, hg⟩ : ∃ g : Nat → Option α, ∀ j : Nat, ((s k).X ++ [P.nul])[j]? = g j := ⟨_, fun _ => rfl⟩
        simp only [hg] at hc ⊢
        clear hq h4 h3 hg hs hv
        grind
  · refine sat_grow I (by simp [replaced]; omega) (by omega) ?_
    intro m w1 hm F
    refine Sat.bind (Sat.copy I.no_overlap (F.rd I (by omega)) (F.wr (by omega)) ?_)
    refine Sat.bind (Sat.copy (hq.fresh_overlap I) (hq.fresh_rd I F.put) (F.put.wr (by omega)) (Sat.copy I.no_overlap (F.put.put.rd I (by omega)) (F.put.put.wr (by omega)) ?_))
    refine ⟨_, rfl, ?_, ?_⟩
    · intro p hp
      simp only [blk_ne hp]
    · intro i hi
      simp only [blk_at]
      have hv := fun j (hj : j < n) => hq.fresh_val I (F.put (i := 0) (j := off) (f := val w1.cel (.at ((s k).at k) 0))).cel hj
      have hc := fun j (hj : 0 + j ≤ (s k).X.length) => F.old I hj
      have hc' := fun j (hj : off + d + j ≤ (s k).X.length) => (F.put (i := 0) (j := off) (f := val w1.cel (.at ((s k).at k) 0))).put (i := off) (j := n)
        (f := val (blk w1.cel (.heap w.nxt) 0 off (val w1.cel (.at ((s k).at k) 0))) q) |>.old I hj
      rw [get_replaced (by omega) (by omega) hi]
      simp only [replaced, List.length_append, List.length_take, List.length_drop] at hi
      dsimp only at hv hc'
      repeat' split
      all_goals first
        | omega
        | (rw [hc' _ (by omega)]; congr 1; omega)
        | (rw [hv _ (by omega)])
        | (rw [hc _ (by omega)]; congr 1; omega)

theorem sat_replaceN (I : Inv P w s) {off nx : Nat} {ch : α} :
    Does P (replaceN P k off nx n ch) w fun s' out => inside (s k).X off s s' out (edit P s s' k (replaced (s k).X off nx (List.replicate n ch)) out) := by
  have O := I.own k
  have O1 := O.le
  have O2 := O.mx
  unfold replaceN
  refine Sat.get (does_inside I O.size fun ho => ?_)
  rw [← replaced_clamp]
  unfold clamp
  rw [O.size, O.res]
  have hnx : min nx ((s k).X.length - off) ≤ (s k).X.length - off := Nat.min_le_right _ _
  revert hnx
  generalize min nx ((s k).X.length - off) = d
  intro hd
  dsimp only
  have hc : ∀ j, j ≤ (s k).X.length → w.cel ((s k).at k) j = ((s k).X ++ [P.nul])[j]? := fun j hj => I.chr (by omega)
  refine Sat.ite (fun h => ?_) fun h => Sat.ite (fun h' => ?_) fun h' => ?_
  · refine Sat.bind (Sat.myptr I.mode' ?_)
    rw [I.at_eq]
    refine Sat.fill (I.wr (by omega)) ?_
    refine I.edits' (by simp [replaced]; omega) rfl ?_ ?_
    · intro p hp
      simp only [blk_ne hp]
    · intro i hi
      simp only [blk_at]
      repl hi
  · refine Sat.bind (Sat.setSize (Sat.bind (Sat.myptr (by simpa using I.mode') ?_)))
    dsimp only
    rw [updF_same, I.at_eq]
    refine Sat.bind (Sat.move (I.rd (by omega)) (I.wr (by omega)) (Sat.fill (I.wr (by omega)) ?_))
    refine I.edits (by simp [replaced]; omega) (by simp [replaced]; omega) rfl ?_ ?_
    · intro p hp
      simp only [blk_ne hp]
    · intro i hi
      simp only [blk_at, val]
      repl hi
  · refine sat_grow I (by simp [replaced]; omega) (by omega) ?_
    intro m w1 hm F
    refine Sat.bind (Sat.copy I.no_overlap (F.rd I (by omega)) (F.wr (by omega)) ?_)
    refine Sat.bind (Sat.fill (F.put.wr (by omega)) (Sat.copy I.no_overlap (F.put.put.rd I (by omega)) (F.put.put.wr (by omega)) ?_))
    refine ⟨_, rfl, ?_, ?_⟩
    · intro p hp
      simp only [blk_ne hp]
    · intro i hi
      simp only [blk_at]
      have hc := fun j (hj : 0 + j ≤ (s k).X.length) => F.old I hj
      have hc' := fun j (hj : off + d + j ≤ (s k).X.length) => (F.put (i := 0) (j := off) (f := val w1.cel (.at ((s k).at k) 0))).put (i := off) (j := n)
        (f := fun _ => some ch) |>.old I hj
      repl hi

/-! ## Removing -/

theorem sat_eos (I : Inv P w s) (h : n ≤ (s k).X.length) : Edits P (eos P k n) w s k ((s k).X.take n) := by
  have O1 := (I.own k).le
  unfold eos
  refine Sat.bind (Sat.setSize (Sat.bind (Sat.myptr (by simpa using I.mode') ?_)))
  dsimp only
  rw [updF_same, I.at_eq]
  refine Sat.set1 (I.wr (by omega)) ?_
  refine I.edits (by simp; omega) (by simp; omega) rfl ?_ ?_
  · intro p hp
    simp only [blk_ne hp]
  · intro i hi
    simp only [blk_at]
    have hc : ∀ j, j ≤ (s k).X.length → w.cel ((s k).at k) j = ((s k).X ++ [P.nul])[j]? := fun j hj => I.chr (by omega)
    grind

theorem sat_eraseFrom (I : Inv P w s) {off : Nat} :
    Does P (eraseFrom P k off) w fun s' out => inside (s k).X off s s' out (edit P s s' k ((s k).X.take off) out) := by
  unfold eraseFrom
  exact Sat.get (does_inside I (I.own k).size fun ho => sat_eos I ho)

theorem sat_erase (I : Inv P w s) {off : Nat} :
    Does P (erase P k off n) w fun s' out => inside (s k).X off s s' out (edit P s s' k (replaced (s k).X off n []) out) := by
  have O := I.own k
  have O1 := O.le
  unfold erase
  refine Sat.get (does_inside I O.size fun ho => ?_)
  rw [← replaced_clamp]
  unfold clamp
  rw [O.size]
  have hnx : min n ((s k).X.length - off) ≤ (s k).X.length - off := Nat.min_le_right _ _
  revert hnx
  generalize min n ((s k).X.length - off) = d
  intro hd
  dsimp only
  refine Sat.bind (Sat.myptr I.mode' ?_)
  rw [I.at_eq]
  refine Sat.bind (Sat.move (I.rd (by omega)) (I.wr (by omega)) (Sat.setSize ?_))
  refine I.edits (by simp [replaced]; omega) (by simp [replaced]; omega) rfl ?_ ?_
  · intro p hp
    simp only [blk_ne hp]
  · intro i hi
    simp only [blk_at, val]
    have hc : ∀ j, j ≤ (s k).X.length → w.cel ((s k).at k) j = ((s k).X ++ [P.nul])[j]? := fun j hj => I.chr (by omega)
    repl hi

theorem sat_clear (I : Inv P w s) : Edits P (clear P k) w s k [] := sat_eos I (Nat.zero_le _)

theorem sat_popBack (I : Inv P w s) : Edits P (popBack P k) w s k (s k).X.dropLast := by
  unfold popBack
  refine Sat.get ?_
  rw [(I.own k).size, List.dropLast_eq_take]
  exact sat_eos I (by omega)

/-! ## Size and capacity -/

theorem sat_resize (I : Inv P w s) {ch : α} : Edits P (resize P k n ch) w s k ((s k).X.take n ++ List.replicate (n - (s k).X.length) ch) := by
  unfold resize
  refine Sat.get ?_
  rw [(I.own k).size]
  refine Sat.ite (fun h => ?_) fun h => ?_
  · rw [Nat.sub_eq_zero_of_le h, List.replicate_zero, List.append_nil]
    exact sat_eos I h
  · rw [List.take_of_length_le (by omega)]
    exact sat_appendN I

/-- Growth without a new size. -/
theorem sat_reserveBy (I : Inv P w s) (h : (s k).cap < n) :
    Sat (reallocGrow P k (n - (s k).X.length) fun new old size => copy new 0 (.at old 0) (size + 1)) w
      (fun _ w' => n ≤ P.max ∧ Grown P w s k n (s k).X w')
      (fun e w' => Inv P w' s ∧ (e = .lengthError ∧ P.max < n ∨ e = .badAlloc ∧ n ≤ P.max)) := by
  have O := I.own k
  have O1 := O.le
  have := sat_reallocGrow I (k := k) (inc := n - (s k).X.length) (Y := (s k).X) (by omega) (by omega)
    (fn := fun new old size => copy new 0 (.at old 0) (size + 1)) ?_
  · rw [show (s k).X.length + (n - (s k).X.length) = n by omega] at this
    exact this
  intro m w1 hm F
  refine Sat.copy I.no_overlap (F.rd I (by omega)) (F.wr (by omega)) ?_
  refine ⟨_, rfl, ?_, ?_⟩
  · intro p hp
    simp only [blk_ne hp]
  · intro i hi
    simp only [blk_at]
    have hc := fun j (hj : 0 + j ≤ (s k).X.length) => F.old I hj
    grind

theorem sat_reserve' (I : Inv P w s) (h : (s k).cap < n) :
    Does P (do reallocGrow P k (n - (s k).X.length) fun new old size => copy new 0 (.at old 0) (size + 1); setSize k (s k).X.length) w
      fun s' out => edit' P s s' k n (· = (s k).X) out := by
  refine Sat.then (sat_reserveBy I h) (fun e w' h' => ede h'.1 h h'.2) ?_
  rintro _ w' ⟨hm, cap, b, h1, h2, h3, h4, _, h5⟩
  refine Sat.setSize ⟨_, h5, edit_none hm (e' := ⟨(s k).X, cap, some b⟩) rfl ?_ rfl⟩
  unfold room
  rw [if_neg (by omega)]
  exact ⟨⟨b, rfl, h4⟩, h1, h2⟩

theorem edit'_same (h : n ≤ (s k).cap) (hm : (s k).cap ≤ P.max) : edit' P s s k n (· = (s k).X) .none := by
  refine edit_none (by omega) (e' := s k) rfl ?_ updS_self.symm
  unfold room
  rw [if_pos h]
  exact ⟨rfl, rfl⟩

theorem sat_reserve (I : Inv P w s) : Does P (reserve P k n) w fun s' out => edit' P s s' k n (· = (s k).X) out := by
  have O := I.own k
  unfold reserve
  refine Sat.get ?_
  rw [O.res, O.size]
  refine Sat.ite (fun h => Sat.pure' ⟨s, I, edit'_same (by omega) O.mx⟩) fun h => sat_reserve' I (by omega)

theorem sat_becomeSmall (I : Inv P w s) (h : P.small < (s k).cap) (hX : (s k).X.length ≤ P.small) :
    Sat (becomeSmall P k) w (fun _ w' => Inv P w' (updS s k ⟨(s k).X, P.small, none⟩)) fun _ _ => False := by
  have O := I.own k
  have O1 := O.le
  obtain ⟨b, hb⟩ : ∃ b, (s k).loc = some b := by
    cases hh : (s k).loc with
    | none =>
      have := O.mode.1 hh
      omega
    | some b => exact ⟨b, rfl⟩
  have hat : (s k).at k = .heap b := by simp [Ent.at, atp, hb]
  have hbn := I.loc_lt hb
  unfold becomeSmall
  refine Sat.get (Sat.bind (Sat.bxPtr (b := b) (by simp [O.ptr, hb]) (Sat.bind (Sat.switchToBuf (Sat.bind (Sat.copy ?_ ?_ ?_ ?_))))))
  · simp [overlap]
  · rw [← hat]
    refine Or.inr ⟨(s k).cap + 1, ?_, by rw [O.size]; omega⟩
    dsimp only
    rw [updE_ne _ _ (by rw [hat]; simp), O.ext]
  · exact Or.inr ⟨_, updE_same _ _ _, by rw [O.size]; omega⟩
  refine Sat.bind (Sat.deallocate ?_ (Sat.setRes ?_))
  · dsimp only
    rw [updE_ne _ _ (by simp), ← hat, O.ext, O.res]
  dsimp only
  refine I.upd (fun m hm => ?_) ⟨?_, ?_, ?_, hX, Nat.le_refl _, P.le, ?_, ?_, ?_⟩ ?_ ?_ (Or.inr (Or.inl rfl)) ?_ ?_
  · simp [updF_ne _ _ hm]
  · simp [O.size]
  · simp
  · simp
  · simp
  · simp only [Ent.at, atp]
    rw [updE_ne _ _ (by simp), updE_same]
  · intro i hi
    dsimp only at hi
    simp only [Ent.at, atp, blk_at, val]
    rw [if_pos (by rw [O.size]; omega), if_neg (by simp), ← hat, I.chr (by omega)]
    simp
  · intro m hm
    dsimp only
    rw [updE_ne _ _ (by rw [← hat]; exact I.at_ne hm), updE_ne _ _ (at_small hm)]
  · intro m hm
    dsimp only
    rw [blk_ne (at_small hm)]
    simp [at_small hm]
  · intro c hc
    dsimp only at hc
    by_cases hcb : c = b
    · rw [hcb, updE_same] at hc
      exact absurd rfl hc
    · rw [updE_ne _ _ (by simp [hcb]), updE_ne _ _ (by simp)] at hc
      exact Or.inr ⟨hc, by rw [hb]; simpa using fun h => hcb h.symm⟩
  · intro c hc
    dsimp only at hc ⊢
    by_cases hcb : c = b
    · rw [hcb, updE_same]
    · rw [updE_ne _ _ (by simp [hcb]), updE_ne _ _ (by simp)]
      exact I.fresh c hc

theorem large_iff {x : S} : large P x = true ↔ P.small < x.res := by
  simp [large]

theorem ent_small (I : Inv P w s) (h : (s k).cap ≤ P.small) : (⟨(s k).X, P.small, none⟩ : Ent α) = s k := by
  have O := I.own k
  have h1 := O.mode.2 h
  have h2 : (s k).cap = P.small := by
    have := O.small
    omega
  cases hs : s k with
  | mk X c l =>
    rw [hs] at h1 h2
    simp_all

theorem sat_reserve0 (I : Inv P w s) :
    Does P (reserve0 P k) w fun s' out => out = .none ∧ s' = if (s k).X = [] then updS s k (Ent.empty P) else s := by
  have O := I.own k
  unfold reserve0
  refine Sat.get (Sat.ite (fun h => ?_) fun h => ?_)
  · rw [O.size, large_iff, O.res] at h
    have hX : (s k).X = [] := List.eq_nil_of_length_eq_zero h.1
    refine (sat_becomeSmall I h.2 (by omega)).mono ?_ fun _ _ h => absurd h id
    rintro _ w' h'
    refine ⟨_, h', rfl, ?_⟩
    rw [if_pos hX, hX]
    rfl
  · rw [O.size, large_iff, O.res] at h
    refine Sat.pure' ⟨s, I, rfl, ?_⟩
    split
    · next hX =>
      have hX' : (s k).X.length = 0 := by rw [hX]; rfl
      have := ent_small (k := k) I (by omega)
      rw [hX] at this
      rw [show Ent.empty P = s k from this, updS_self]
    · rfl

theorem does_becomeSmall (I : Inv P w s) (h : P.small < (s k).cap) (hX : (s k).X.length ≤ P.small) :
    Does P (becomeSmall P k) w fun s' out => out = .none ∧ s' = updS s k ⟨(s k).X, P.small, none⟩ :=
  (sat_becomeSmall I h hX).mono (fun _ _ h' => ⟨_, h', rfl, rfl⟩) fun _ _ h => absurd h id

theorem sat_reserve17 (I : Inv P w s) :
    Does P (reserve17 P k n) w fun s' out => if (s k).cap < n then edit' P s s' k n (· = (s k).X) out
      else out = .none ∧ s' = if (s k).X.length ≤ n ∧ n ≤ P.small then updS s k ⟨(s k).X, P.small, none⟩ else s := by
  have O := I.own k
  have O1 := O.le
  unfold reserve17
  refine Does.get ?_
  rw [O.size, O.res]
  refine Does.ite (fun h => Does.pure' I ?_) fun h => Does.ite (fun h' => Does.pure' I ?_) fun h' => Does.ite (fun h'' => ?_) fun h'' =>
    Does.ite (fun h3 => ?_) fun h3 => Does.pure' I ?_
  · rw [if_neg (by omega), if_neg (by omega)]
    exact ⟨rfl, rfl⟩
  · rw [if_neg (by omega)]
    refine ⟨rfl, ?_⟩
    split
    · next hh => rw [ent_small I (by omega), updS_self]
    · rfl
  · refine (sat_reserve' I h'').mono fun s' out h => ?_
    rw [if_pos h'']
    exact h
  · rw [large_iff, O.res] at h3
    refine (does_becomeSmall I h3.2 (by omega)).mono fun s' out h => ?_
    rw [if_neg h'', if_pos (by omega)]
    exact h
  · rw [large_iff, O.res] at h3
    rw [if_neg h'']
    refine ⟨rfl, ?_⟩
    split
    · next hh => rw [ent_small I (by omega), updS_self]
    · rfl

theorem sat_shrink (I : Inv P w s) : Does P (shrink P k) w fun s' out =>
      if (s k).X.length ≤ P.small then out = .none ∧ s' = updS s k ⟨(s k).X, P.small, none⟩
      else if (s k).cap ≤ min ((s k).X.length ||| P.mask) P.max then out = .none ∧ s' = s
      else (out = .exc .badAlloc ∧ s' = s) ∨ (out = .none ∧ ∃ b, (∀ m, (s m).loc ≠ some b) ∧
        s' = updS s k ⟨(s k).X, min ((s k).X.length ||| P.mask) P.max, some b⟩) := by
  have O := I.own k
  have O1 := O.le
  have O2 := O.mx
  have hor := @Nat.left_le_or (s k).X.length P.mask
  unfold shrink
  refine Does.get ?_
  rw [O.size]
  refine Does.ite (fun h => Does.pure' I ?_) fun h => ?_
  · have h : ¬P.small < (s k).cap := by
      rw [← O.res, ← large_iff]
      simpa using h
    rw [if_pos (by omega), ent_small I (by omega), updS_self]
    exact ⟨rfl, rfl⟩
  have h : P.small < (s k).cap := by
    rw [← O.res, ← large_iff]
    simpa using h
  refine Does.ite (fun h' => ?_) fun h' => ?_
  · refine (does_becomeSmall I h h').mono fun s' out hh => ?_
    rw [if_pos h']
    exact hh
  rw [O.res]
  refine Does.ite (fun h'' => ?_) fun h'' => Does.pure' I ?_
  · refine Does.mono (F := fun s' out => (out = .exc .badAlloc ∧ s' = s) ∨ (out = .none ∧ ∃ b, (∀ m, (s m).loc ≠ some b) ∧
        s' = updS s k ⟨(s k).X, min ((s k).X.length ||| P.mask) P.max, some b⟩)) ?_ fun s' out hh => by
      rw [if_neg h', if_neg (by omega)]
      exact hh
    refine Sat.bind (Sat.allocate (Nat.min_le_right _ _) ?_ fun a => ⟨s, I.ans, Or.inl ⟨rfl, rfl⟩⟩)
    intro m a _ hm hm'
    obtain rfl := hm' rfl
    obtain ⟨b, hb⟩ : ∃ b, (s k).loc = some b := by
      cases hh : (s k).loc with
      | none =>
        have := O.mode.1 hh
        omega
      | some b => exact ⟨b, rfl⟩
    have hat : (s k).at k = .heap b := by simp [Ent.at, atp, hb]
    have hbn := I.loc_lt hb
    refine Sat.bind (Sat.bxPtr (b := b) (by simp [O.ptr, hb]) ?_)
    refine Sat.bind (Sat.copy ?_ ?_ ?_ ?_)
    · rw [← hat]
      exact I.no_overlap
    · rw [← hat]
      refine Or.inr ⟨(s k).cap + 1, ?_, by omega⟩
      dsimp only
      rw [updE_ne _ _ I.at_nxt, O.ext]
    · exact Or.inr ⟨_, updE_same _ _ _, by omega⟩
    refine Sat.bind (Sat.deallocate ?_ (Sat.bind (Sat.setPtr (Sat.setRes ?_))))
    · dsimp only
      rw [updE_ne _ _ (by simp; omega), ← hat, O.ext]
    dsimp only
    have key := I.relocated (k := k) (N := (s k).X.length) (m := min ((s k).X.length ||| P.mask) P.max) (a := a) (Y := (s k).X)
      (C := blk (fun q j => if q = .heap w.nxt then none else w.cel q j) (.heap w.nxt) 0 ((s k).X.length + 1)
        (val (fun q j => if q = .heap w.nxt then none else w.cel q j) (.at (.heap b) 0)))
      (X1 := updE (updE (updE w.ext (.heap w.nxt) (some (min ((s k).X.length ||| P.mask) P.max + 1))) (.heap b) none) (.small k) none)
      (by omega) (by omega) hm ?_ ?_ ?_ ?_ ?_
    · refine ⟨_, ?_, Or.inr ⟨rfl, w.nxt, I.loc_ne, rfl⟩⟩
      rw [atSize_self (by simp)] at key
      simpa [O.size] using key
    · intro q hq _
      rw [blk_ne hq]
      simp [hq]
    · intro i hi
      rw [blk_at, if_pos (by omega)]
      simp only [val]
      rw [if_neg (by simp; omega), ← hat, I.chr (by omega)]
      simp
    · rw [updE_ne _ _ (by simp), updE_ne _ _ (by simp; omega)]
      simp
    · intro c hc
      rw [hb] at hc
      cases hc
      rw [updE_ne _ _ (by simp)]
      simp
    · intro q h1 h2 h3
      rw [updE_ne _ _ h3, updE_ne _ _ (by rw [← hat]; exact h2), updE_ne _ _ h1]
  · rw [if_neg h', if_pos (by omega)]
    exact ⟨rfl, rfl⟩

end STL.Str
