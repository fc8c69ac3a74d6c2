import Verif.Str.Move

/-! # The remaining operations of strings. Proofs only. -/

namespace STL.Str
open STL
variable {α : Type} {P : Par α} {w w1 : W α} {s : St α} {k l n : Nat} {q : Ptr α} {Z : List α}

theorem overlap_ne {p r : Place} {i j n : Nat} (h : p ≠ r) : overlap p i (.at r j : Ptr α) n = false := by
  simp [overlap, h]

/-! ## Construction from iterators -/

/-- What the allocation of a string under construction is like. -/
def Lp (P : Par α) (s0 : St α) (e : Ent α) : Prop :=
  (e.cap = P.small ∧ e.loc = none) ∨
    ∃ b, e.loc = some b ∧ (∀ m, (s0 m).loc ≠ some b) ∧ P.small < e.X.length ∧ min P.max (P.small + P.small / 2) ≤ e.cap

theorem updS_updS {a b : Ent α} : updS (updS s k a) k b = updS s k b := by
  funext m
  simp only [updS]
  split <;> rfl

/-- One more character, at the end and without the null character. -/
theorem sat_iterPush {s0 : St α} {e : Ent α} {ch : α} (J : Open P w (updS s0 k e) k) (hk : s0 k = Ent.empty P) (hL : Lp P s0 e) :
    Sat (iterPush P k ch) w
      (fun _ w' => ∃ e', e'.X = e.X ++ [ch] ∧ Open P w' (updS s0 k e') k ∧ Lp P s0 e')
      (fun x w' => Open P w' (updS s0 k e) k ∧ (x = .lengthError ∧ P.max = e.X.length ∨ x = .badAlloc ∧ e.cap = e.X.length)) := by
  unfold Open at J
  rw [updS_same] at J
  have O := J.own k
  rw [updS_same] at O
  have hs1 : (w.ss k).size = e.X.length := O.size
  have hs2 : (w.ss k).res = e.cap := O.res
  have hs3 : (w.ss k).ptr = e.loc := O.ptr
  have he : w.ext (e.at k) = some (e.cap + 1) := O.ext
  have hchr : ∀ i, i < e.X.length → w.cel (e.at k) i = e.X[i]? := by
    intro i hi
    have := O.chr i (by omega)
    dsimp only at this
    rw [blk_at, if_neg (by omega), List.getElem?_append_left hi] at this
    exact this
  have hcel : ∀ m, m ≠ k → blk w.cel (e.at k) e.X.length 1 (fun _ => some P.nul) ((updS s0 k e m).at m) = w.cel ((updS s0 k e m).at m) := fun m hm =>
    blk_ne (by
      have := J.at_ne hm
      rw [updS_same] at this
      exact this)
  have hmode : (w.ss k).ptr = none ↔ (w.ss k).res ≤ P.small := by
    rw [hs3, hs2]
    exact O.mode
  have hplace : atp (w.ss k).ptr k = e.at k := by
    rw [hs3]
    rfl
  have O1 := O.le
  have O2 := O.small
  have O3 := O.mx
  have hnx : (e.at k) ≠ .heap w.nxt := by
    have := J.at_nxt (k := k)
    rw [updS_same] at this
    exact this
  unfold iterPush
  refine Sat.get ?_
  rw [hs1, hs2]
  refine Sat.ite (fun h => Sat.ite (fun h' => Sat.throw ⟨?_, Or.inl ⟨rfl, by omega⟩⟩) fun h' => ?_) fun h => ?_
  · unfold Open
    rw [updS_same]
    exact J
  · refine Sat.bind (Sat.myptr hmode ?_)
    rw [hplace]
    refine Sat.bind (Sat.allocate (calcGrowth_le O3) ?_ fun a => ⟨?_, Or.inr ⟨rfl, by omega⟩⟩)
    · intro m a h1 h2 _
      have h3 := @le_calcGrowth _ P (e.X.length + 1) e.cap (by omega)
      have h4 := @grow_calcGrowth _ P (e.X.length + 1) e.cap
      refine Sat.bind (Sat.copy (by simp [overlap, Ne.symm hnx]) (Or.inr ⟨e.cap + 1, ?_, by omega⟩) (Or.inr ⟨_, updE_same _ _ _, by omega⟩) ?_)
      · dsimp only
        rw [updE_ne _ _ hnx, he]
      have fin : ∀ X1 : Place → Option Nat, X1 (.heap w.nxt) = some (m + 1) → (∀ b, e.loc = some b → X1 (.heap b) = none) →
          (∀ q, q ≠ .heap w.nxt → q ≠ e.at k → q ≠ .small k → X1 q = w.ext q) →
          ∃ e' : Ent α, e'.X = e.X ++ [ch] ∧ Open P { w with ans := a, nxt := w.nxt + 1, ext := X1, cel := blk (blk (fun q j => if q = .heap w.nxt then none else w.cel q j) (.heap w.nxt) 0 e.X.length (val (fun q j => if q = .heap w.nxt then none else w.cel q j) (.at (e.at k) 0))) (.heap w.nxt) e.X.length 1 (fun _ => some ch), ss := updF w.ss k ⟨some w.nxt, e.X.length + 1, m⟩ } (updS s0 k e') k ∧ Lp P s0 e' := by
        intro X1 a1 a2 a3
        refine ⟨⟨e.X ++ [ch], m, some w.nxt⟩, rfl, ?_, ?_⟩
        · unfold Open
          rw [updS_same]
          have := J.relocated (k := k) (N := e.X.length + 1) (m := m) (a := a) (Y := e.X ++ [ch])
            (C := blk (blk (blk (fun q j => if q = .heap w.nxt then none else w.cel q j) (.heap w.nxt) 0 e.X.length
              (val (fun q j => if q = .heap w.nxt then none else w.cel q j) (.at (e.at k) 0))) (.heap w.nxt) e.X.length 1 (fun _ => some ch))
                (.heap w.nxt) (e.X.length + 1) 1 (fun _ => some P.nul))
            (X1 := X1) (by simp; omega) (by omega) h2 ?_ ?_ a1 (by rw [updS_same]; exact a2) (by rw [updS_same]; exact a3)
          · rw [atSize_self (by simp)] at this
            rw [updS_updS] at this
            simpa [Ent.at, atp] using this
          · intro q hq hq'
            rw [updS_same] at hq'
            dsimp only
            rw [blk_ne hq, blk_ne hq, blk_ne hq, blk_ne hq']
            simp [hq]
          · intro i hi
            simp only [List.length_append, List.length_singleton] at hi
            simp only [blk_at, val, if_neg hnx]
            grind
        · refine Or.inr ⟨w.nxt, rfl, ?_, ?_, ?_⟩
          · intro m'
            by_cases hm : m' = k
            · rw [hm, hk]
              simp [Ent.empty]
            · have := J.loc_ne m'
              rw [updS_ne hm] at this
              exact this
          · simp
            omega
          · dsimp only
            have : P.small + P.small / 2 ≤ e.cap + e.cap / 2 := by omega
            omega
      refine Sat.bind ?_
      unfold adopt
      refine Sat.ite (fun hl => ?_) fun hl => ?_
      · rw [large_iff, hs2] at hl
        obtain ⟨b, hb⟩ : ∃ b, e.loc = some b := by
          cases hh : e.loc with
          | none =>
            have := O.mode.1 hh
            omega
          | some b => exact ⟨b, rfl⟩
        have hat : e.at k = .heap b := by simp [Ent.at, atp, hb]
        refine Sat.bind (Sat.bxPtr (b := b) (by rw [hs3, hb]) ?_)
        refine Sat.bind (Sat.deallocate ?_ (Sat.bind (Sat.setPtr (Sat.setRes ?_))))
        · dsimp only
          rw [updE_ne _ _ (by rw [← hat]; exact hnx), ← hat, he, hs2]
        have hne : (.heap w.nxt : Place) ≠ .heap b := by rw [← hat]; exact Ne.symm hnx
        refine Sat.bind (Sat.myptr ?_ ?_)
        · dsimp only
          simp
          omega
        have hat' : atp ((updF (updF w.ss k { w.ss k with ptr := some w.nxt }) k { updF w.ss k { w.ss k with ptr := some w.nxt } k with res := m }) k).ptr k = .heap w.nxt := by
          simp [atp]
        dsimp only
        rw [hat']
        refine Sat.bind (Sat.set1 (Or.inr ⟨m + 1, ?_, by omega⟩) (Sat.setSize ?_))
        · dsimp only
          rw [updE_ne _ _ (by simp), updE_ne _ _ hne, updE_same]
        have := fin (updE (updE (updE w.ext (.heap w.nxt) (some (m + 1))) (.heap b) none) (.small k) none) ?_ ?_ ?_
        · simpa using this
        · rw [updE_ne _ _ (by simp), updE_ne _ _ hne, updE_same]
        · intro c hc
          rw [hb] at hc
          cases hc
          rw [updE_ne _ _ (by simp), updE_same]
        · intro q h1 h2 h3
          rw [updE_ne _ _ h3, updE_ne _ _ (by rw [← hat]; exact h2), updE_ne _ _ h1]
      · rw [large_iff, hs2] at hl
        have hb : e.loc = none := O.mode.2 (by omega)
        refine Sat.bind (Sat.setPtr (Sat.setRes ?_))
        refine Sat.bind (Sat.myptr ?_ ?_)
        · dsimp only
          simp
          omega
        have hat' : atp ((updF (updF w.ss k { w.ss k with ptr := some w.nxt }) k { updF w.ss k { w.ss k with ptr := some w.nxt } k with res := m }) k).ptr k = .heap w.nxt := by
          simp [atp]
        dsimp only
        rw [hat']
        refine Sat.bind (Sat.set1 (Or.inr ⟨m + 1, ?_, by omega⟩) (Sat.setSize ?_))
        · dsimp only
          rw [updE_ne _ _ (by simp), updE_same]
        have := fin (updE (updE w.ext (.heap w.nxt) (some (m + 1))) (.small k) none) ?_ ?_ ?_
        · simpa using this
        · rw [updE_ne _ _ (by simp), updE_same]
        · intro c hc
          rw [hb] at hc
          cases hc
        · intro q h1 h2 h3
          rw [updE_ne _ _ h3, updE_ne _ _ h1]
    · unfold Open
      rw [updS_same]
      exact J.ans (a := a)
  · refine Sat.bind (Sat.myptr hmode ?_)
    rw [hplace]
    refine Sat.bind (Sat.set1 (Or.inr ⟨_, he, by omega⟩) (Sat.setSize ?_))
    refine ⟨⟨e.X ++ [ch], e.cap, e.loc⟩, rfl, ?_, ?_⟩
    · unfold Open
      rw [updS_same]
      have := J.inPlace (k := k) (Y := e.X ++ [ch]) (C := blk (blk w.cel (e.at k) e.X.length 1 (fun _ => some ch)) (e.at k) (e.X.length + 1) 1 (fun _ => some P.nul)) ?_ ?_ ?_
      · rw [updS_updS, updS_same] at this
        simpa [Ent.at] using this
      · rw [updS_same]
        simp
        omega
      · intro q hq
        rw [updS_same] at hq
        simp only [blk_ne hq]
      · intro i hi
        rw [updS_same]
        simp only [List.length_append, List.length_singleton] at hi
        simp only [blk_at]
        grind
    · rcases hL with h1 | ⟨b, h1, h2, h3, h4⟩
      · exact Or.inl h1
      · exact Or.inr ⟨b, h1, h2, by simp; omega, h4⟩

theorem sat_iterLoop {s0 : St α} (hk : s0 k = Ent.empty P) : ∀ (xs : List α) {w : W α} {e : Ent α}, Open P w (updS s0 k e) k → Lp P s0 e →
    Sat (iterLoop P k xs) w
      (fun _ w' => ∃ e', e'.X = e.X ++ xs ∧ Inv P w' (updS s0 k e') ∧ Lp P s0 e')
      (fun x w' => ∃ e', Open P w' (updS s0 k e') k ∧ P.small < e.X.length + xs.length ∧
        (x = .lengthError ∧ P.max < e.X.length + xs.length ∨ x = .badAlloc))
  | [], w, e, J, hL => by
    unfold Open at J
    rw [updS_same] at J
    have O := J.own k
    rw [updS_same] at O
    have O1 := O.le
    unfold iterLoop
    refine Sat.get (Sat.bind (Sat.myptr ?_ ?_))
    · rw [show (w.ss k).ptr = e.loc from O.ptr, show (w.ss k).res = e.cap from O.res]
      exact O.mode
    · rw [show (w.ss k).ptr = e.loc from O.ptr, show (w.ss k).size = e.X.length from O.size]
      refine Sat.set1 (Or.inr ⟨_, O.ext, by omega⟩) ?_
      exact ⟨e, by simp, J, hL⟩
  | x :: xs, w, e, J, hL => by
    have O := J.own k
    rw [updS_same] at O
    have O1 := O.small
    have O2 := O.le
    have O3 := O.mx
    unfold iterLoop
    refine Sat.then (sat_iterPush J hk hL) ?_ ?_
    · rintro y w' ⟨h1, h2⟩
      refine ⟨e, h1, ?_, ?_⟩
      · simp
        omega
      · simp only [List.length_cons]
        rcases h2 with ⟨h2, h3⟩ | ⟨h2, _⟩
        · exact Or.inl ⟨h2, by omega⟩
        · exact Or.inr h2
    · rintro _ w' ⟨e', h1, h2, h3⟩
      refine (sat_iterLoop hk xs h2 h3).mono ?_ ?_
      · rintro _ w2 ⟨e2, h4, h5⟩
        exact ⟨e2, by rw [h4, h1]; simp, h5⟩
      · rintro y w2 ⟨e2, h4, h5⟩
        refine ⟨e2, h4, ?_⟩
        rw [h1] at h5
        simp only [List.length_append, List.length_cons, List.length_nil] at h5 ⊢
        exact ⟨by omega, h5.2.imp (fun h => ⟨h.1, by omega⟩) id⟩

theorem sat_ctorIter (I : Inv P w s) (hk : s k = Ent.empty P) {xs : List α} : Does P (ctorIter P k xs) w fun s' out =>
    if P.max < xs.length then (out = .exc .lengthError ∨ out = .exc .badAlloc) ∧ s' = s else edit P s s' k xs out := by
  have hcap : (s k).cap = P.small := by rw [hk]; rfl
  have hss := I.ss_empty hk
  have hself : updS s k (s k) = s := updS_self
  unfold ctorIter
  refine Sat.bind (Sat.setSize (Sat.bind (Sat.setRes (Sat.onExc ?_))))
  have hw : ({ w with ss := updF (updF w.ss k { w.ss k with size := 0 }) k { updF w.ss k { w.ss k with size := 0 } k with res := P.small } } : W α) = w := by
    have : updF (updF w.ss k { w.ss k with size := 0 }) k { updF w.ss k { w.ss k with size := 0 } k with res := P.small } = w.ss := by
      funext m
      by_cases h : m = k
      · rw [h, hss]
        simp
      · rw [updF_ne _ _ h, updF_ne _ _ h]
    rw [this]
  dsimp only
  rw [hw]
  refine (sat_iterLoop hk xs (e := s k) (by rw [hself]; exact I.open k) (Or.inl ⟨hcap, by rw [hk]; rfl⟩)).mono ?_ ?_
  · rintro _ w' ⟨e', h1, h2, h3⟩
    have O := h2.own k
    rw [updS_same] at O
    have O1 := O.le
    have O2 := O.mx
    have hX : e'.X = xs := by rw [h1, hk]; rfl
    refine ⟨_, h2, ?_⟩
    rw [if_neg (by rw [← hX]; omega)]
    rw [← hX]
    refine edit_none (by omega) rfl ?_ rfl
    unfold room
    rw [hcap]
    rcases h3 with ⟨h3, h4⟩ | ⟨b, h3, h4, h5, h6⟩
    · rw [if_pos (by omega), h3, h4, hk]
      exact ⟨rfl, rfl⟩
    · rw [if_neg (by omega)]
      exact ⟨⟨b, h3, h4⟩, O1, h6⟩
  · rintro x w' ⟨e', h1, h2, h3⟩
    refine (sat_tidy h1).mono ?_ fun _ _ h => absurd h id
    intro _ w2 I2
    rw [updS_updS, ← hk, hself] at I2
    refine ⟨s, I2, ?_⟩
    rw [hk] at h2 h3
    simp only [Ent.empty, List.length_nil, Nat.zero_add] at h2 h3
    split
    · next h =>
      refine ⟨?_, rfl⟩
      rcases h3 with ⟨h3, _⟩ | h3
      · exact Or.inl (by rw [h3])
      · exact Or.inr (by rw [h3])
    · next h =>
      rcases h3 with ⟨_, h3⟩ | h3
      · exact absurd h3 h
      · unfold edit edit'
        rw [if_neg h]
        exact Or.inr ⟨by rw [h3], by omega, rfl⟩

/-! ## Substrings of strings that are not needed any more -/

theorem sat_shiftDown (I : Inv P w s) {off : Nat} (h : off + n ≤ (s l).X.length) :
    Sat (do shiftDown ((s l).at l) off n; eos P l n) w (fun _ w' => Inv P w' (updS s l ⟨sub (s l).X off n, (s l).cap, (s l).loc⟩)) fun _ _ => False := by
  have O := I.own l
  have O1 := O.le
  have hlen : (sub (s l).X off n).length = n := by simp [sub]; omega
  have fin : ∀ C : Place → Nat → Option α, (∀ q, q ≠ (s l).at l → C q = w.cel q) → (∀ i, i < n → C ((s l).at l) i = ((s l).X ++ [P.nul])[off + i]?) →
      Sat (eos P l n) { w with cel := C } (fun _ w' => Inv P w' (updS s l ⟨sub (s l).X off n, (s l).cap, (s l).loc⟩)) fun _ _ => False := by
    intro C h1 h2
    unfold eos
    refine Sat.bind (Sat.setSize (Sat.bind (Sat.myptr (by simpa using I.mode') ?_)))
    dsimp only
    rw [updF_same, I.at_eq]
    refine Sat.set1 (I.wr (by omega)) ?_
    have := I.inPlace (k := l) (Y := sub (s l).X off n) (C := blk C ((s l).at l) n 1 fun _ => some P.nul) (by omega) ?_ ?_
    · rw [hlen] at this
      exact this
    · intro q hq
      rw [blk_ne hq]
      exact h1 q hq
    · intro i hi
      rw [blk_at]
      unfold sub at hi ⊢
      grind
  unfold shiftDown
  by_cases h0 : off = 0
  · rw [if_neg (by simpa using h0)]
    refine Sat.bind (Sat.pure' ?_)
    have := fin w.cel (fun _ _ => rfl) ?_
    · exact this
    · intro i hi
      rw [I.chr (by omega), h0]
      simp
  · rw [if_pos h0]
    refine Sat.bind (Sat.move (I.rd (by omega)) (I.wr (by omega)) ?_)
    refine fin _ ?_ ?_
    · intro q hq
      rw [blk_ne hq]
    · intro i hi
      rw [blk_at, if_pos (by omega)]
      simp only [val]
      rw [I.chr (by omega)]
      simp

theorem sat_ctorSubstr (I : Inv P w s) (hk : s k = Ent.empty P) (hkl : k ≠ l) {off : Nat} :
    Does P (ctorSubstr P k l off n) w fun s' out => inside (s l).X off s s' out (
      if (sub (s l).X off n).length ≤ P.small then edit P s s' k (sub (s l).X off n) out
      else out = .none ∧ s' = updS (updS s l (Ent.empty P)) k ⟨sub (s l).X off n, (s l).cap, (s l).loc⟩) := by
  have O := I.own l
  have O1 := O.le
  unfold ctorSubstr
  refine Does.get (does_inside I O.size fun ho => ?_)
  dsimp only
  refine Sat.bind (Sat.myptr I.mode' ?_)
  rw [I.at_eq]
  unfold clamp
  rw [O.size]
  have hd : min n ((s l).X.length - off) ≤ (s l).X.length - off := Nat.min_le_right _ _
  have hsub : sub (s l).X off n = sub (s l).X off (min n ((s l).X.length - off)) := by
    unfold sub
    by_cases h : n ≤ (s l).X.length - off
    · rw [Nat.min_eq_left h]
    · rw [Nat.min_eq_right (by omega), List.take_of_length_le (by simp; omega), List.take_of_length_le (by simp)]
  rw [hsub]
  revert hd
  generalize min n ((s l).X.length - off) = d
  intro hd
  have hlen : (sub (s l).X off d).length = d := by simp [sub]; omega
  rw [hlen]
  show Does P _ w fun s' out => if d ≤ P.small then edit P s s' k (sub (s l).X off d) out
      else out = .none ∧ s' = updS (updS s l (Ent.empty P)) k ⟨sub (s l).X off d, (s l).cap, (s l).loc⟩
  refine Does.ite (fun h => ?_) fun h => ?_
  · simp only [if_neg (show ¬d ≤ P.small by omega)]
    have hsd := sat_shiftDown (l := l) I (off := off) (n := d) (by omega)
    have : Sat (do (do shiftDown ((s l).at l) off d; eos P l d); takeContents P k l) w
        (fun _ w' => ∃ s', Inv P w' s' ∧ (Out.none : Out α) = .none ∧ s' = updS (updS s l (Ent.empty P)) k ⟨sub (s l).X off d, (s l).cap, (s l).loc⟩) fun _ _ => False := by
      refine Sat.then hsd (fun _ _ h => absurd h id) ?_
      intro _ w1 I1
      refine (sat_takeContents (k := k) (l := l) I1 (by rw [updS_ne hkl]; exact hk) hkl).mono ?_ fun _ _ h => absurd h id
      intro _ w2 I2
      refine ⟨_, I2, rfl, ?_⟩
      rw [updS_updS, updS_same]
    have assoc : (do shiftDown ((s l).at l) off d; eos P l d; takeContents P k l : M α Unit) = (do (do shiftDown ((s l).at l) off d; eos P l d); takeContents P k l) := by
      funext w0
      show M.bind _ _ w0 = M.bind (M.bind _ _) _ w0
      unfold M.bind
      cases shiftDown ((s l).at l) off d w0 <;> rfl
    rw [assoc]
    exact this.mono (fun _ _ h => h) fun _ _ h => absurd h id
  · simp only [if_pos (show d ≤ P.small by omega)]
    exact sat_ctorPtr I hk (isSrc_at (by omega)) (outer_at I hkl)

/-! ## Concatenation of strings that are not needed any more -/

theorem sat_concatMove (I : Inv P w s) (hk : s k = Ent.empty P) {m : Nat} (hl : k ≠ l) (hm : k ≠ m) (hlm : l ≠ m) :
    Does P (concatMove P k l m) w fun s' out =>
      if (s l).X.length + (s m).X.length ≤ (s l).cap ∧ (s m).cap ≤ (s l).cap then
        out = .none ∧ s' = updS (updS s l (Ent.empty P)) k ⟨(s l).X ++ (s m).X, (s l).cap, (s l).loc⟩
      else if (s l).X.length + (s m).X.length ≤ (s m).cap then
        out = .none ∧ s' = updS (updS s m (Ent.empty P)) k ⟨(s l).X ++ (s m).X, (s m).cap, (s m).loc⟩
      else edit P s s' k ((s l).X ++ (s m).X) out := by
  have O := I.own l
  have O' := I.own m
  have O1 := O.le
  have O2 := O.mx
  have O3 := O'.le
  have O4 := O'.mx
  have O5 := O.small
  have O6 := O'.small
  have hlen : ((s l).X ++ (s m).X).length = (s l).X.length + (s m).X.length := List.length_append ..
  unfold concatMove
  refine Does.get (Does.get ?_)
  rw [O.size, O.res, O'.size, O'.res]
  refine Does.ite (fun h => ?_) fun h => Does.ite (fun h' => ?_) fun h' => ?_
  · refine Does.mono (F := fun s' out => out = .none ∧ s' = updS (updS s l (Ent.empty P)) k ⟨(s l).X ++ (s m).X, (s l).cap, (s l).loc⟩) ?_ fun s' out hh => by
      rw [if_pos (by omega)]
      exact hh
    refine Sat.then (sat_takeContents (k := k) (l := l) I hk hl) (fun _ _ h => absurd h id) ?_
    intro _ w1 I1
    have e1 : updS (updS s l (Ent.empty P)) k (s l) k = s l := updS_same
    have e2 : updS (updS s l (Ent.empty P)) k (s l) m = s m := by rw [updS_ne (Ne.symm hm), updS_ne (Ne.symm hlm)]
    have hne := I1.at_ne (k := k) (l := m) hm
    have hat := I1.at_eq (k := k)
    have hat' := I1.at_eq (k := m)
    refine Sat.bind (Sat.myptr I1.mode' (Sat.bind (Sat.myptr I1.mode' ?_)))
    rw [hat, hat']
    refine Sat.bind (Sat.copy (overlap_ne hne) (I1.rd ?_) (I1.wr ?_) (Sat.setSize ?_))
    · rw [e2]; omega
    · rw [e1]; omega
    have := I1.inPlace (k := k) (Y := (s l).X ++ (s m).X) (C := blk w1.cel ((updS (updS s l (Ent.empty P)) k (s l) k).at k) (s l).X.length ((s m).X.length + 1)
      (val w1.cel (.at ((updS (updS s l (Ent.empty P)) k (s l) m).at m) 0))) ?_ ?_ ?_
    · rw [updS_updS, e1, hlen] at this
      rw [e1]
      exact ⟨_, this, rfl, rfl⟩
    · rw [e1]
      omega
    · intro q hq
      rw [blk_ne hq]
    · intro i hi
      have c1 : ∀ j, j ≤ (s l).X.length → _ := fun j hj => I1.chr (k := k) (i := j) (by rw [e1]; exact hj)
      have c2 : ∀ j, j ≤ (s m).X.length → _ := fun j hj => I1.chr (k := m) (i := j) (by rw [e2]; exact hj)
      rw [blk_at]
      simp only [val]
      rw [e1] at c1 ⊢
      rw [e2] at c2 ⊢
      grind
  · refine Does.mono (F := fun s' out => out = .none ∧ s' = updS (updS s m (Ent.empty P)) k ⟨(s l).X ++ (s m).X, (s m).cap, (s m).loc⟩) ?_ fun s' out hh => by
      rw [if_neg (by omega), if_pos (by omega)]
      exact hh
    obtain ⟨b, hb⟩ : ∃ b, (s m).loc = some b := by
      cases hh : (s m).loc with
      | none =>
        have := O'.mode.1 hh
        omega
      | some b => exact ⟨b, rfl⟩
    refine Sat.then (sat_takeContents (k := k) (l := m) I hk hm) (fun _ _ h => absurd h id) ?_
    intro _ w1 I1
    have e1 : updS (updS s m (Ent.empty P)) k (s m) k = s m := updS_same
    have e2 : updS (updS s m (Ent.empty P)) k (s m) l = s l := by rw [updS_ne (Ne.symm hl), updS_ne hlm]
    have hne := I1.at_ne (k := k) (l := l) hl
    have hat : (updS (updS s m (Ent.empty P)) k (s m) k).at k = .heap b := by rw [e1]; simp [Ent.at, atp, hb]
    have hat' := I1.at_eq (k := l)
    refine Sat.bind (Sat.bxPtr (b := b) (by rw [(I1.own k).ptr, e1, hb]) ?_)
    rw [← hat]
    refine Sat.bind (Sat.move (I1.rd ?_) (I1.wr ?_) ?_)
    · rw [e1]; omega
    · rw [e1]; omega
    refine Sat.bind (Sat.myptr I1.mode' ?_)
    dsimp only
    rw [hat']
    refine Sat.bind (Sat.copy (overlap_ne hne) (I1.rd ?_) (I1.wr ?_) (Sat.setSize ?_))
    · rw [e2]; omega
    · rw [e1]; omega
    have := I1.inPlace (k := k) (Y := (s l).X ++ (s m).X)
      (C := blk (blk w1.cel ((updS (updS s m (Ent.empty P)) k (s m) k).at k) (s l).X.length ((s m).X.length + 1)
          (val w1.cel (.at ((updS (updS s m (Ent.empty P)) k (s m) k).at k) 0))) ((updS (updS s m (Ent.empty P)) k (s m) k).at k) 0 (s l).X.length
        (val (blk w1.cel ((updS (updS s m (Ent.empty P)) k (s m) k).at k) (s l).X.length ((s m).X.length + 1)
          (val w1.cel (.at ((updS (updS s m (Ent.empty P)) k (s m) k).at k) 0))) (.at ((updS (updS s m (Ent.empty P)) k (s m) l).at l) 0))) ?_ ?_ ?_
    · rw [updS_updS, hlen] at this
      dsimp only
      generalize hC : blk (blk _ _ _ _ _) _ _ _ _ = C at this ⊢
      rw [e1] at this
      exact ⟨_, this, rfl, rfl⟩
    · rw [e1]
      omega
    · intro q hq
      rw [blk_ne hq, blk_ne hq]
    · intro i hi
      have c1 : ∀ j, j ≤ (s m).X.length → _ := fun j hj => I1.chr (k := k) (i := j) (by rw [e1]; exact hj)
      have c2 : ∀ j, j ≤ (s l).X.length → _ := fun j hj => I1.chr (k := l) (i := j) (by rw [e2]; exact hj)
      simp only [val, blk_at, blk_ne (Ne.symm hne)]
      rw [e1] at c1 ⊢
      rw [e2] at c2 ⊢
      grind
  · have hcap : (s k).cap = P.small := by rw [hk]; rfl
    refine Does.mono (F := fun s' out => edit P s s' k ((s l).X ++ (s m).X) out) ?_ fun s' out hh => by
      rw [if_neg (by omega), if_neg (by omega)]
      exact hh
    have ho1 : Outer w k (.at ((s l).at l) 0 : Ptr α) := outer_at I hl
    have ho2 : Outer w k (.at ((s m).at m) 0 : Ptr α) := outer_at I hm
    have hq1 := isSrc_all (P := P) (s := s) (l := l)
    have hv1 : ∀ j, j < (s l).X.length → val w.cel _ j = (s l).X[j]? := fun j => hq1.val I
    have hv2 : ∀ j, j ≤ (s m).X.length → val w.cel (.at ((s m).at m) 0) j = ((s m).X ++ [P.nul])[j]? := fun j hj => by
      simp only [val]
      rw [I.chr (by omega)]
      simp
    refine Sat.ite (fun h2 => Sat.throw (ede I (by rw [hcap]; have := P.le; omega) (Or.inl ⟨rfl, by omega⟩))) fun h2 => ?_
    refine Sat.bind (Sat.allocate (calcGrowth_le P.le) ?_ fun a => ede I.ans (by omega) (Or.inr ⟨rfl, by omega⟩))
    intro M a h1 h2 _
    have h3 := @le_calcGrowth _ P ((s l).X.length + (s m).X.length) P.small (by omega)
    have h4 := @grow_calcGrowth _ P ((s l).X.length + (s m).X.length) P.small
    refine Sat.bind (Sat.setPtr (Sat.bind (Sat.setSize (Sat.bind (Sat.setRes ?_)))))
    have S : Space w { w with ans := a, nxt := w.nxt + 1, ext := updE (updE w.ext (.heap w.nxt) (some (M + 1))) (.small k) none, cel := fun q j => if q = .heap w.nxt then none else w.cel q j, ss := updF w.ss k ⟨some w.nxt, (s l).X.length + (s m).X.length, M⟩ } k (.heap w.nxt) M := by
      refine ⟨Or.inr rfl, ?_, ?_, ?_⟩
      · dsimp only
        rw [updE_ne _ _ (by simp)]
        simp
      · intro q hq hq'
        dsimp only
        rw [updE_ne _ _ hq, updE_ne _ _ hq']
      · intro q hq hq'
        dsimp only
        simp [hq']
    have hss : updF (updF (updF w.ss k { w.ss k with ptr := some w.nxt }) k { updF w.ss k { w.ss k with ptr := some w.nxt } k with size := (s l).X.length + (s m).X.length }) k
        { updF (updF w.ss k { w.ss k with ptr := some w.nxt }) k { updF w.ss k { w.ss k with ptr := some w.nxt } k with size := (s l).X.length + (s m).X.length } k with res := M } =
        updF w.ss k ⟨some w.nxt, (s l).X.length + (s m).X.length, M⟩ := by simp
    dsimp only
    rw [hss]
    have mode : ∀ (x : Str.S), k ≠ l → ((updF w.ss k x l).ptr = none ↔ (updF w.ss k x l).res ≤ P.small) := fun x hh => by
      rw [updF_ne _ _ (Ne.symm hh)]
      exact I.mode'
    have mode' : ∀ (x : Str.S), ((updF w.ss k x m).ptr = none ↔ (updF w.ss k x m).res ≤ P.small) := fun x => by
      rw [updF_ne _ _ (Ne.symm hm)]
      exact I.mode'
    refine Sat.bind (Sat.myptr (mode _ hl) ?_)
    dsimp only
    rw [updF_ne _ _ (Ne.symm hl), I.at_eq]
    refine Sat.bind (Sat.copy (S.ov ho1) (S.rd I ho1 hq1) (S.wr (by omega)) ?_)
    refine Sat.bind (Sat.myptr (mode' _) ?_)
    dsimp only
    rw [updF_ne _ _ (Ne.symm hm), I.at_eq]
    refine Sat.copy (S.ov ho2) ?_ (S.put.wr (by omega)) ?_
    · refine Or.inr ⟨(s m).cap + 1, ?_, by omega⟩
      obtain ⟨n1, n2⟩ := ho2.ne _ _ rfl
      have := S.ext' _ n1 n2
      dsimp only at this ⊢
      rw [this, O'.ext]
    refine I.newLarge (m := M) hk hlen (by omega) (by omega) h2 (by omega) rfl ?_ ?_
    · intro q hq hq'
      simp only [blk_ne hq, if_neg hq]
    · intro i hi
      have e1 := S.val ho1
      have e2 := S.put (i := 0) (j := (s l).X.length) (f := val w.cel (.at ((s l).at l) 0)) |>.val ho2
      dsimp only at e1 e2
      simp only [blk_at, e1, e2]
      grind

/-! ## `resize_and_overwrite` -/

theorem sat_overwrite {op : List (Option α) → List α} (I : Inv P (atSize w k (s k).X.length) s) (hn : n ≤ (s k).cap) (hop : ∀ zs, zs.length = n → (op zs).length ≤ n) :
    Sat (do
      let p ← myptr P k
      let f ← rdBlk (.at p 0) n
      let ys := op ((List.range n).map f)
      move p 0 (.arr ys) ys.length
      eos P k ys.length) w
      (fun _ w' => ∃ zs : List (Option α), zs.length = n ∧ zs.take (s k).X.length = (((s k).X.take n).map some) ∧
        Inv P w' (updS s k ⟨op zs, (s k).cap, (s k).loc⟩)) fun _ _ => False := by
  have O := I.own k
  have hs2 : (w.ss k).res = (s k).cap := by
    have := O.res
    simpa [atSize] using this
  have hs3 : (w.ss k).ptr = (s k).loc := by
    have := O.ptr
    simpa [atSize] using this
  have he : w.ext ((s k).at k) = some ((s k).cap + 1) := O.ext
  have hmode : (w.ss k).ptr = none ↔ (w.ss k).res ≤ P.small := by
    rw [hs3, hs2]
    exact O.mode
  have hat : atp (w.ss k).ptr k = (s k).at k := by
    rw [hs3]
    rfl
  have hchr : ∀ i, i ≤ (s k).X.length → w.cel ((s k).at k) i = ((s k).X ++ [P.nul])[i]? := fun i hi => O.chr i hi
  refine Sat.bind (Sat.myptr hmode ?_)
  rw [hat]
  refine Sat.bind (Sat.rdBlk (Or.inr ⟨_, he, by omega⟩) fun f hf => ?_)
  have hzl : ((List.range n).map f).length = n := by simp
  have hys := hop _ hzl
  dsimp only
  have hz : ((List.range n).map f).take (s k).X.length = (((s k).X.take n).map some) := by
    apply List.ext_getElem
    · simp [Nat.min_comm]
    · intro i h1 h2
      simp only [List.length_take, List.length_map, List.length_range] at h1
      have h3 : i < (s k).X.length := by omega
      have h4 : i < n := by omega
      simp only [List.getElem_take, List.getElem_map, List.getElem_range]
      rw [hf i h4]
      simp only [val, Nat.zero_add]
      rw [hchr _ (by omega), List.getElem?_append_left h3, List.getElem?_eq_getElem h3]
  refine Sat.bind (Sat.move (Or.inr (Nat.le_refl _)) (Or.inr ⟨_, he, by omega⟩) ?_)
  unfold eos
  refine Sat.bind (Sat.setSize (Sat.bind (Sat.myptr (by simpa using hmode) ?_)))
  dsimp only
  rw [updF_same, hat]
  refine Sat.set1 (Or.inr ⟨_, he, by omega⟩) ?_
  refine ⟨_, hzl, hz, ?_⟩
  have := I.inPlace (k := k) (Y := op ((List.range n).map f)) (C := blk (blk w.cel ((s k).at k) 0 (op ((List.range n).map f)).length
    (val w.cel (.arr (op ((List.range n).map f))))) ((s k).at k) (op ((List.range n).map f)).length 1 fun _ => some P.nul) (by omega) ?_ ?_
  · simpa [atSize] using this
  · intro q hq
    rw [blk_ne hq, blk_ne hq]
    rfl
  · intro i hi
    simp only [blk_at, val]
    grind

end STL.Str
