import Verif.Vec.AddN

/-!
# Adding ranges
-/

namespace STL.Vec
open STL

variable {α β γ : Type}

/-- Moving nothing cannot fail. -/
theorem sat_uninitMove1 {P : Par α} {c s n b d N M : Nat} {w : W α} (hN : 0 < n → w.caps c = some N) (hsN : 0 < n → s + n ≤ N)
    (hM : w.caps b = some M) (hdM : d + n ≤ M) (hdis : c ≠ b ∨ s + n ≤ d ∨ d + n ≤ s) (hsrc : ∀ j, s ≤ j → j < s + n → (w.cel c j).isSome)
    (hraw : ∀ j, d ≤ j → j < d + n → w.cel b j = none) :
    Sat (uninitMove P c s n b d) w (fun _ w' => ∃ t, w' = { w with cel := moved P w.cel c s b d n, tape := t })
      (fun e w' => 0 < n ∧ e = .user ∧ P.nmc = false ∧ ∃ t C, w' = { w with cel := C, tape := t } ∧ Ruin w.cel C c s n) := by
  rcases Nat.eq_zero_or_pos n with h | h
  · subst h
    refine Sat.pure' ⟨w.tape, ?_⟩
    rw [moved_zero]
  · exact (sat_uninitMove (hN h) (hsN h) hM hdM hdis hsrc hraw).mono (fun _ _ h => h) fun _ _ h' => ⟨h, h'⟩

/-- When the elements are as before if a range could not be inserted. -/
def RangeStrong (P : Par α) (w : W α) (X : List α) (pos n : Nat) : Prop :=
  P.nmc = true ∧ (P.nma = true ∨ pos = X.length) ∨ pos = X.length ∧ (n = 1 ∧ P.cc = true ∨ X.length + n ≤ w.v.cap)

theorem sat_append {P : Par α} {w : W α} {X : List α} (own : Own P w X) (sane : Sane w) {xs : List α} :
    Sat (append P xs) w (fun _ w' => Good P w w' (X ++ xs) ∧ Room P (X.length + xs.length) w w')
      (fun e w' => ∃ X2, Fail P w w' X X2 (X.length + xs.length) e ∧ (RangeStrong P w X X.length xs.length → X2 = X)) := by
  have hlen := own.len
  have hle := own.le
  have hmx := own.mx
  unfold append
  refine Sat.getV (Sat.ite (fun h0 => ?_) fun h0 => Sat.ite (fun h1 => Sat.ite (fun h2 => ?_) fun h2 => ?_) fun h1 => ?_)
  · obtain ⟨g0, _, g2⟩ := Good.same own sane (w' := w) rfl rfl rfl rfl
    have : xs = [] := List.length_eq_zero_iff.1 h0
    subst this
    refine Sat.pure' ⟨?_, Room.same g2 (by simp; omega)⟩
    rw [List.append_nil]
    exact g0
  · exact ⟨X, Fail.tooLong own sane (by omega), fun _ => rfl⟩
  · have hg := sat_grow own sane (newsize := X.length + xs.length) (off := X.length) (cnt := xs.length) (strong := xs.length == 1) rfl rfl
      (by omega) (by omega) (Nat.le_refl _) (fun _ => rfl) (mkOk_uninitList own sane)
    rw [hlen] at hg ⊢
    refine hg.mono ?_ ?_
    · rintro _ w' ⟨g1, g2⟩
      rw [List.take_of_length_le (by omega), List.drop_eq_nil_of_le (by omega), List.append_nil] at g1
      exact ⟨g1, g2⟩
    · rintro e w' ⟨X2, g1, g2⟩
      refine ⟨X2, g1, fun h => g2 ?_⟩
      rcases h with h | ⟨_, h | h⟩
      · exact .inl h.1
      · exact .inr ⟨by simp [h.1], h.2⟩
      · omega
  · have hcap := own.caps (by omega)
    refine Sat.then (sat_uninitList (M := w.v.cap) hcap (by omega) fun j h _ => own.isN h) ?_ ?_
    · rintro e w' ⟨rfl, t, rfl⟩
      exact ⟨X, Fail.strong own sane rfl rfl rfl rfl, fun _ => rfl⟩
    · rintro _ w1 ⟨t, rfl⟩
      refine Sat.setSize ?_
      have hg := Good.inplace own sane (X' := X ++ xs)
        (w' := { w with cel := over w.cel w.v.buf w.v.size xs.length fun j => xs[j]?, tape := t, v := { w.v with size := w.v.size + xs.length } })
        rfl (Nat.le_refl _) rfl rfl (by rw [List.length_append, hlen]) (by show w.v.size + xs.length ≤ w.v.cap; omega)
        (fun j => by
          show over w.cel w.v.buf w.v.size xs.length (fun j => xs[j]?) w.v.buf j = _
          rw [append_get]
          by_cases h : w.v.size ≤ j ∧ j < w.v.size + xs.length
          · rw [over_in h.1 h.2, if_neg (by omega), hlen]
          · rw [over_out (by omega), own.cell]
            split
            · rfl
            · rw [List.getElem?_eq_none (by omega), List.getElem?_eq_none (by omega)])
        (fun q hq j => by
          show over w.cel w.v.buf w.v.size xs.length (fun j => xs[j]?) q j = _
          rw [over_out (.inl hq)])
      exact ⟨hg.1, Room.same hg.2 (by omega)⟩

theorem sat_vaporize {w1 : W α} {first destroyed N : Nat} {E : Exc → W α → Prop} (hN : w1.caps w1.v.buf = some N) (h1 : destroyed ≤ w1.v.size)
    (h2 : w1.v.size ≤ N) (hs : ∀ j, destroyed ≤ j → j < w1.v.size → (w1.cel w1.v.buf j).isSome) :
    Sat (vaporize first destroyed) w1 (fun _ w' => w' =
      { w1 with cel := over w1.cel w1.v.buf destroyed (w1.v.size - destroyed) fun _ => none, v := { w1.v with size := first } }) E := by
  unfold vaporize
  refine Sat.getV (Sat.then (sat_destroyRange0 (N := N) (fun _ => hN) (by omega) ?_) (fun _ _ h => h) ?_)
  · intro j h3 h4
    exact hs j h3 (by omega)
  · rintro _ w2 rfl
    exact Sat.setSize rfl

theorem sat_insertRange {P : Par α} {w : W α} {X : List α} (own : Own P w X) (sane : Sane w) {xs : List α} {pos : Nat} (hpos : pos ≤ X.length) :
    Sat (insertRange P pos xs) w
      (fun _ w' => Good P w w' (X.take pos ++ xs ++ X.drop pos) ∧ Room P (X.length + xs.length) w w')
      (fun e w' => ∃ X2, Fail P w w' X X2 (X.length + xs.length) e ∧ (RangeStrong P w X pos xs.length → X2 = X)) := by
  have hlen := own.len
  have hle := own.le
  have hmx := own.mx
  unfold insertRange
  refine Sat.getV ?_
  dsimp only
  refine Sat.ite (fun h0 => ?_) fun h0 => Sat.ite (fun h1 => Sat.ite (fun h2 => ?_) fun h2 => ?_) fun h1 => ?_
  · obtain ⟨g0, _, g2⟩ := Good.same own sane (w' := w) rfl rfl rfl rfl
    have : xs = [] := List.length_eq_zero_iff.1 h0
    subst this
    refine Sat.pure' ⟨?_, Room.same g2 (by simp; omega)⟩
    rw [List.append_nil, List.take_append_drop]
    exact g0
  · exact ⟨X, Fail.tooLong own sane (by omega), fun _ => rfl⟩
  · have hg := sat_grow own sane (newsize := X.length + xs.length) (off := pos) (cnt := xs.length) (strong := xs.length == 1 && pos == w.v.size) rfl rfl
      (by omega) (by omega) hpos (fun h => by simp at h; omega) (mkOk_uninitList own sane)
    rw [hlen] at hg ⊢
    refine hg.mono (fun _ _ h => h) ?_
    rintro e w' ⟨X2, g1, g2⟩
    refine ⟨X2, g1, fun h => g2 ?_⟩
    rcases h with h | ⟨h3, h | h⟩
    · exact .inl h.1
    · exact .inr ⟨by simp [h.1, h3, hlen], h.2⟩
    · omega
  · have hcap := own.caps (by omega)
    generalize hn : xs.length = n at *
    have weak : ∀ {w' : W α}, (∃ X2, Fail P w w' X X2 (X.length + n) .user) → ¬(P.nmc = true ∧ (P.nma = true ∨ pos = X.length)) → pos ≠ X.length →
        ∃ X2, Fail P w w' X X2 (X.length + n) .user ∧ (RangeStrong P w X pos n → X2 = X) := by
      rintro w' ⟨X2, h⟩ h3 h4
      exact ⟨X2, h, fun h5 => h5.elim (fun h => absurd h h3) fun h => absurd h.1 h4⟩
    have hsome : ∀ j, j < w.v.size → (w.cel w.v.buf j).isSome := fun j hj => own.isS hj
    have hnone : ∀ j, w.v.size ≤ j → w.cel w.v.buf j = none := fun j hj => own.isN hj
    refine Sat.ite (fun h3 => ?_) fun h3 => ?_
    · -- some elements must be assigned
      refine Sat.then (sat_uninitMove1 (P := P) (N := w.v.cap) (M := w.v.cap)
          (fun _ => hcap) (by omega) hcap (by omega) (.inr (.inl (by omega))) ?_ ?_) ?_ ?_
      · intro j _ h
        exact hsome j (by omega)
      · intro j h _
        exact hnone j (by omega)
      · rintro e w' ⟨_, rfl, hna, t2, C2, rfl, hr1, hr2⟩
        refine weak (Fail.user own sane rfl rfl rfl rfl own.le ?_ ?_ ?_) (by simp [hna]) (by omega)
        · intro j hj
          have hj : j < w.v.size := hj
          show (C2 w.v.buf j).isSome
          by_cases h : w.v.size - n ≤ j
          · exact hr1 j (by omega) (by omega)
          · rw [hr2 _ j (by omega)]
            exact hsome j (by omega)
        · intro j hj
          have hj : w.v.size ≤ j := hj
          show C2 w.v.buf j = none
          rw [hr2 _ j (by omega)]
          exact hnone j (by omega)
        · intro q hq j
          show C2 q j = _
          rw [hr2 q j (.inl hq)]
      · rintro _ w2 ⟨t2, rfl⟩
        refine Sat.bind (Sat.setSize ?_)
        have hC2 : ∀ q j, moved P w.cel w.v.buf (w.v.size - n) w.v.buf w.v.size n q j =
            if q = w.v.buf ∧ w.v.size ≤ j ∧ j < w.v.size + n then w.cel w.v.buf (j - n)
            else if q = w.v.buf ∧ w.v.size - n ≤ j ∧ j < w.v.size then (w.cel w.v.buf j).map P.mv else w.cel q j := by
          intro q j
          unfold moved
          by_cases h : q = w.v.buf ∧ w.v.size ≤ j ∧ j < w.v.size + n
          · rw [if_pos h, if_pos (by omega)]
            congr 1
            omega
          · rw [if_neg h, if_neg h]
            by_cases h' : q = w.v.buf ∧ w.v.size - n ≤ j ∧ j < w.v.size
            · rw [if_pos h', if_pos (by omega)]
            · rw [if_neg h', if_neg (by omega)]
        dsimp only
        generalize moved P w.cel w.v.buf (w.v.size - n) w.v.buf w.v.size n = C2 at hC2 ⊢
        have hsome2 : ∀ j, j < w.v.size + n → (C2 w.v.buf j).isSome := fun j hj => by
          rw [hC2]
          split
          · exact hsome _ (by omega)
          · split
            · rw [Option.isSome_map]
              exact hsome j (by omega)
            · exact hsome j (by omega)
        have hnone2 : ∀ j, w.v.size + n ≤ j → C2 w.v.buf j = none := fun j hj => by
          rw [hC2, if_neg (by omega), if_neg (by omega)]
          exact hnone j (by omega)
        have ho2 : ∀ q, q ≠ w.v.buf → ∀ j, C2 q j = w.cel q j := fun q hq j => by
          rw [hC2, if_neg (by omega), if_neg (by omega)]
        refine Sat.then (sat_moveBwd (P := P) (b := w.v.buf) (s := pos) (d := pos + n) (N := w.v.cap) (by omega) (w.v.size - pos - n)
          (w := { w with cel := C2, tape := t2, v := { w.v with size := w.v.size + n } }) hcap (by omega) ?_) ?_ ?_
        · intro j _ h
          exact hsome2 j (by omega)
        · rintro e w' ⟨rfl, hna, t3, C3, rfl, hr1, hr2⟩
          refine weak (Fail.user own sane rfl rfl rfl rfl ?_ ?_ ?_ ?_) (by simp [hna]; omega) (by omega)
          · show w.v.size + n ≤ w.v.cap
            omega
          · intro j hj
            have hj : j < w.v.size + n := hj
            show (C3 w.v.buf j).isSome
            by_cases h : pos ≤ j ∧ j < w.v.size
            · exact hr1 j (by omega) (by omega)
            · rw [hr2 _ j (by omega)]
              exact hsome2 j (by omega)
          · intro j hj
            have hj : w.v.size + n ≤ j := hj
            show C3 w.v.buf j = none
            rw [hr2 _ j (by omega)]
            exact hnone2 j (by omega)
          · intro q hq j
            show C3 q j = _
            rw [hr2 q j (.inl hq)]
            exact ho2 q hq j
        · rintro _ w3 ⟨t3, C3, rfl, ⟨hr1, hr2⟩, hr3⟩
          simp only at hr1 hr2 hr3
          -- the elements behind `pos` are in their new places
          have hC3a : ∀ j, j < pos → C3 w.v.buf j = X[j]? := fun j hj => by
            rw [hr2 _ j (by omega), hC2, if_neg (by omega), if_neg (by omega), own.cell]
          have hC3b : ∀ j, pos + n ≤ j → C3 w.v.buf j = X[j - n]? := fun j hj => by
            by_cases j3 : j < w.v.size
            · have := hr3 (j - (pos + n)) (by omega)
              rw [show pos + n + (j - (pos + n)) = j by omega] at this
              rw [this, hC2, if_neg (by omega), if_neg (by omega), own.cell]
              congr 1
              omega
            · rw [hr2 _ j (by omega)]
              by_cases j4 : j < w.v.size + n
              · rw [hC2, if_pos ⟨rfl, by omega, j4⟩, own.cell]
              · rw [hnone2 j (by omega), List.getElem?_eq_none (by omega)]
          have hsome3 : ∀ j, j < w.v.size + n → (C3 w.v.buf j).isSome := fun j hj => by
            by_cases h : pos ≤ j ∧ j < w.v.size
            · exact hr1 j (by omega) (by omega)
            · rw [hr2 _ j (by omega)]
              exact hsome2 j (by omega)
          have ho3 : ∀ q, q ≠ w.v.buf → ∀ j, C3 q j = w.cel q j := fun q hq j => by
            rw [hr2 q j (.inl hq)]
            exact ho2 q hq j
          refine Sat.then (sat_destroyRange0 (N := w.v.cap) (fun _ => hcap) (by omega) fun j _ h => hsome3 j (by omega)) (fun _ _ h => h) ?_
          rintro _ w4 rfl
          have hC4a : ∀ j, j < pos → over C3 w.v.buf pos n (fun _ => none) w.v.buf j = X[j]? := fun j hj => by
            rw [over_out (by omega)]
            exact hC3a j hj
          have hC4b : ∀ j, pos + n ≤ j → over C3 w.v.buf pos n (fun _ => none) w.v.buf j = X[j - n]? := fun j hj => by
            rw [over_out (by omega)]
            exact hC3b j hj
          have hC4c : ∀ j, pos ≤ j → j < pos + n → over C3 w.v.buf pos n (fun _ => none) w.v.buf j = none := fun j hj hj' => by
            rw [over_in hj hj']
          have ho4 : ∀ q, q ≠ w.v.buf → ∀ j, over C3 w.v.buf pos n (fun _ => none) q j = w.cel q j := fun q hq j => by
            rw [over_out (.inl hq)]
            exact ho3 q hq j
          dsimp only
          generalize over C3 w.v.buf pos n (fun _ => none) = C4 at hC4a hC4b hC4c ho4 ⊢
          refine Sat.catchAll ((sat_uninitList (w := { w with cel := C4, tape := t3, v := { w.v with size := w.v.size + n } }) (M := w.v.cap) hcap
            (by omega) fun j h h' => hC4c j h (by omega)).mono ?_ ?_)
          · rintro _ w' ⟨t5, rfl⟩
            have hg := Good.inplace own sane (X' := X.take pos ++ xs ++ X.drop pos)
              (w' := { w with cel := over C4 w.v.buf pos xs.length fun j => xs[j]?, tape := t5, v := { w.v with size := w.v.size + n } })
              rfl (Nat.le_refl _) rfl rfl
              (by
                simp only [List.length_append, List.length_take, List.length_drop]
                omega)
              (by show w.v.size + n ≤ w.v.cap; omega)
              (fun j => by
                show over C4 w.v.buf pos xs.length (fun j => xs[j]?) w.v.buf j = _
                rw [insert_get (by omega), hn]
                by_cases j1 : j < pos
                · rw [if_pos j1, over_out (by omega), hC4a j j1]
                · rw [if_neg j1]
                  by_cases j2 : j < pos + n
                  · rw [if_pos j2, over_in (by omega) (by omega)]
                  · rw [if_neg j2, over_out (by omega), hC4b j (by omega)])
              (fun q hq j => by
                show over C4 w.v.buf pos xs.length (fun j => xs[j]?) q j = _
                rw [over_out (.inl hq)]
                exact ho4 q hq j)
            exact ⟨hg.1, Room.same hg.2 (by omega)⟩
          · -- glue the broken pieces back together
            rintro e w' ⟨rfl, t5, rfl⟩
            refine Sat.then (Sat.onExc (Q := fun _ w' => ∃ t, w' =
                { w with cel := moved P C4 w.v.buf (pos + n) w.v.buf pos n, tape := t, v := { w.v with size := w.v.size + n } })
              ((sat_uninitMove1 (P := P) (w := { w with cel := C4, tape := t5, v := { w.v with size := w.v.size + n } }) (N := w.v.cap) (M := w.v.cap)
                (fun _ => hcap) (by omega) hcap (by omega) (.inr (.inr (by omega))) ?_ ?_).mono (fun _ _ h => h) ?_)) (fun _ _ h => h) ?_
            · intro j h h'
              show (C4 w.v.buf j).isSome
              rw [hC4b j h]
              exact isSome_getElem? (by omega)
            · intro j h h'
              exact hC4c j h h'
            · rintro e w' ⟨_, rfl, hna, t6, C6, rfl, hr1, hr2⟩
              refine (sat_vaporize (w1 := { w with cel := C6, tape := t6, v := { w.v with size := w.v.size + n } }) (N := w.v.cap) hcap ?_ ?_ ?_).mono ?_
                fun _ _ h => h
              · show pos + n ≤ w.v.size + n
                omega
              · show w.v.size + n ≤ w.v.cap
                omega
              · intro j h h'
                have h' : j < w.v.size + n := h'
                show (C6 w.v.buf j).isSome
                by_cases h5 : j < pos + n + n
                · exact hr1 j h h5
                · rw [hr2 _ j (by omega)]
                  show (C4 w.v.buf j).isSome
                  rw [hC4b j h]
                  exact isSome_getElem? (by omega)
              · rintro _ w' rfl
                have hkeep : ∀ q j, (q ≠ w.v.buf ∨ j < pos ∨ w.v.size + n ≤ j) →
                    over C6 w.v.buf (pos + n) (w.v.size + n - (pos + n)) (fun _ => none) q j = C4 q j := fun q j h => by
                  rw [over_out (by omega), hr2 q j (by omega)]
                refine weak (Fail.user own sane rfl rfl rfl rfl ?_ ?_ ?_ ?_) (by simp [hna]) (by omega)
                · show pos ≤ w.v.cap
                  omega
                · intro j hj
                  have hj : j < pos := hj
                  show (over C6 w.v.buf (pos + n) (w.v.size + n - (pos + n)) (fun _ => none) w.v.buf j).isSome
                  rw [hkeep _ j (by omega), hC4a j hj]
                  exact isSome_getElem? (by omega)
                · intro j hj
                  have hj : pos ≤ j := hj
                  show over C6 w.v.buf (pos + n) (w.v.size + n - (pos + n)) (fun _ => none) w.v.buf j = none
                  by_cases h5 : j < pos + n
                  · rw [over_out (by omega), hr2 _ j (by omega)]
                    exact hC4c j hj h5
                  · by_cases h6 : j < w.v.size + n
                    · rw [over_in (by omega) (by omega)]
                    · rw [hkeep _ j (by omega), hC4b j (by omega), List.getElem?_eq_none (by omega)]
                · intro q hq j
                  show over C6 w.v.buf (pos + n) (w.v.size + n - (pos + n)) (fun _ => none) q j = _
                  rw [hkeep q j (.inl hq)]
                  exact ho4 q hq j
            · rintro _ w6 ⟨t6, rfl⟩
              have hC6 : ∀ q j, moved P C4 w.v.buf (pos + n) w.v.buf pos n q j =
                  if q = w.v.buf ∧ pos ≤ j ∧ j < pos + n then C4 w.v.buf (j + n)
                  else if q = w.v.buf ∧ pos + n ≤ j ∧ j < pos + n + n then (C4 w.v.buf j).map P.mv else C4 q j := by
                intro q j
                unfold moved
                by_cases h : q = w.v.buf ∧ pos ≤ j ∧ j < pos + n
                · rw [if_pos h, if_pos (by omega)]
                  congr 1
                  omega
                · rw [if_neg h, if_neg h]
              generalize moved P C4 w.v.buf (pos + n) w.v.buf pos n = C6 at hC6 ⊢
              have hsome6 : ∀ j, j < w.v.size + n → (C6 w.v.buf j).isSome := fun j hj => by
                rw [hC6]
                split
                · rw [hC4b _ (by omega)]
                  exact isSome_getElem? (by omega)
                · split
                  · rw [Option.isSome_map, hC4b _ (by omega)]
                    exact isSome_getElem? (by omega)
                  · by_cases h5 : j < pos
                    · rw [hC4a j h5]
                      exact isSome_getElem? (by omega)
                    · rw [hC4b j (by omega)]
                      exact isSome_getElem? (by omega)
              have hnone6 : ∀ j, w.v.size + n ≤ j → C6 w.v.buf j = none := fun j hj => by
                rw [hC6, if_neg (by omega), if_neg (by omega), hC4b j (by omega), List.getElem?_eq_none (by omega)]
              have ho6 : ∀ q, q ≠ w.v.buf → ∀ j, C6 q j = w.cel q j := fun q hq j => by
                rw [hC6, if_neg (by omega), if_neg (by omega)]
                exact ho4 q hq j
              refine Sat.then (sat_moveFwd (P := P) (N := w.v.cap) (w.v.size + n - (pos + 2 * n)) (pos + 2 * n) (pos + n)
                (w := { w with cel := C6, tape := t6, v := { w.v with size := w.v.size + n } }) hcap (by omega) (by omega) fun j _ h => hsome6 j (by omega)) ?_ ?_
              · rintro e w' ⟨rfl, hna, t7, C7, rfl, hr1, hr2⟩
                refine weak (Fail.user own sane rfl rfl rfl rfl ?_ ?_ ?_ ?_) (by simp [hna]; omega) (by omega)
                · show w.v.size + n ≤ w.v.cap
                  omega
                · intro j hj
                  have hj : j < w.v.size + n := hj
                  show (C7 w.v.buf j).isSome
                  by_cases h : pos + n ≤ j
                  · exact hr1 j (by omega) (by omega)
                  · rw [hr2 _ j (by omega)]
                    exact hsome6 j (by omega)
                · intro j hj
                  have hj : w.v.size + n ≤ j := hj
                  show C7 w.v.buf j = none
                  rw [hr2 _ j (by omega)]
                  exact hnone6 j (by omega)
                · intro q hq j
                  show C7 q j = _
                  rw [hr2 q j (.inl hq)]
                  exact ho6 q hq j
              · rintro _ w7 ⟨t7, C7, rfl, ⟨hr1, hr2⟩, hr3⟩
                simp only at hr1 hr2 hr3
                refine Sat.then (sat_destroyRange0 (N := w.v.cap) (fun _ => hcap) (by omega) fun j h h' => hr1 j (by omega) (by omega))
                  (fun _ _ h => h) ?_
                rintro _ w8 rfl
                refine Sat.setSize ?_
                have hg := Good.inplace own sane (X' := X)
                  (w' := { w with cel := over C7 w.v.buf w.v.size n fun _ => none, tape := t7, v := { w.v with size := w.v.size } })
                  rfl (Nat.le_refl _) rfl rfl hlen own.le
                  (fun j => by
                    show over C7 w.v.buf w.v.size n (fun _ => none) w.v.buf j = _
                    by_cases j1 : j < pos + n
                    · rw [over_out (by omega), hr2 _ j (by omega), hC6]
                      by_cases j2 : j < pos
                      · rw [if_neg (by omega), if_neg (by omega), hC4a j j2]
                      · rw [if_pos ⟨rfl, by omega, j1⟩, hC4b _ (by omega)]
                        congr 1
                        omega
                    · by_cases j2 : j < w.v.size
                      · rw [over_out (by omega)]
                        have := hr3 (j - (pos + n)) (by omega)
                        rw [show pos + n + (j - (pos + n)) = j by omega] at this
                        rw [this, hC6, if_neg (by omega), if_neg (by omega), hC4b _ (by omega)]
                        congr 1
                        omega
                      · rw [List.getElem?_eq_none (by omega)]
                        by_cases j3 : j < w.v.size + n
                        · rw [over_in (by omega) (by omega)]
                        · rw [over_out (by omega), hr2 _ j (by omega)]
                          exact hnone6 j (by omega))
                  (fun q hq j => by
                    show over C7 w.v.buf w.v.size n (fun _ => none) q j = _
                    rw [over_out (.inl hq), hr2 q j (.inl hq)]
                    exact ho6 q hq j)
                exact ⟨X, ⟨hg.1, hg.2, .inr (.inr rfl), fun h => (by cases h), fun h => (by cases h)⟩, fun _ => rfl⟩
    · -- affected elements don't overlap
      refine Sat.then (sat_uninitMove1 (P := P) (N := w.v.cap) (M := w.v.cap)
          (fun _ => hcap) (by omega) hcap (by omega) (.inr (.inl (by omega))) ?_ ?_) ?_ ?_
      · intro j _ h
        exact hsome j (by omega)
      · intro j h _
        exact hnone j (by omega)
      · rintro e w' ⟨ha, rfl, hna, t2, C2, rfl, hr1, hr2⟩
        refine weak (Fail.user own sane rfl rfl rfl rfl own.le ?_ ?_ ?_) (by simp [hna]) (by omega)
        · intro j hj
          have hj : j < w.v.size := hj
          show (C2 w.v.buf j).isSome
          by_cases h : pos ≤ j
          · exact hr1 j (by omega) (by omega)
          · rw [hr2 _ j (by omega)]
            exact hsome j (by omega)
        · intro j hj
          have hj : w.v.size ≤ j := hj
          show C2 w.v.buf j = none
          rw [hr2 _ j (by omega)]
          exact hnone j (by omega)
        · intro q hq j
          show C2 q j = _
          rw [hr2 q j (.inl hq)]
      · rintro _ w2 ⟨t2, rfl⟩
        refine Sat.bind (Sat.setSize ?_)
        rw [show pos + n + (w.v.size - pos) = w.v.size + n by omega]
        have hC2 : ∀ q j, moved P w.cel w.v.buf pos w.v.buf (pos + n) (w.v.size - pos) q j =
            if q = w.v.buf ∧ pos + n ≤ j ∧ j < w.v.size + n then w.cel w.v.buf (j - n)
            else if q = w.v.buf ∧ pos ≤ j ∧ j < w.v.size then (w.cel w.v.buf j).map P.mv else w.cel q j := by
          intro q j
          unfold moved
          by_cases h : q = w.v.buf ∧ pos + n ≤ j ∧ j < w.v.size + n
          · rw [if_pos h, if_pos (by omega)]
            congr 1
            omega
          · rw [if_neg h, if_neg (by omega)]
            by_cases h' : q = w.v.buf ∧ pos ≤ j ∧ j < w.v.size
            · rw [if_pos h', if_pos (by omega)]
            · rw [if_neg h', if_neg (by omega)]
        dsimp only
        generalize moved P w.cel w.v.buf pos w.v.buf (pos + n) (w.v.size - pos) = C3 at hC2 ⊢
        refine Sat.then (sat_destroyRange0 (w := { w with cel := C3, tape := t2, v := { w.v with size := w.v.size + n } })
          (N := w.v.cap) (fun _ => hcap) (by omega) ?_) (fun _ _ h => h) ?_
        · intro j h h'
          show (C3 w.v.buf j).isSome
          rw [hC2, if_neg (by omega), if_pos ⟨rfl, h, by omega⟩, Option.isSome_map]
          exact hsome j (by omega)
        rintro _ w4 rfl
        have hC4a : ∀ j, j < pos → over C3 w.v.buf pos (w.v.size - pos) (fun _ => none) w.v.buf j = X[j]? := fun j hj => by
          rw [over_out (by omega), hC2, if_neg (by omega), if_neg (by omega), own.cell]
        have hC4b : ∀ j, pos + n ≤ j → over C3 w.v.buf pos (w.v.size - pos) (fun _ => none) w.v.buf j = X[j - n]? := fun j hj => by
          rw [over_out (by omega), hC2]
          by_cases h : j < w.v.size + n
          · rw [if_pos ⟨rfl, hj, h⟩, own.cell]
          · rw [if_neg (by omega), if_neg (by omega), hnone j (by omega), List.getElem?_eq_none (by omega)]
        have hC4c : ∀ j, pos ≤ j → j < pos + n → over C3 w.v.buf pos (w.v.size - pos) (fun _ => none) w.v.buf j = none := fun j hj hj' => by
          by_cases h : j < w.v.size
          · rw [over_in hj (by omega)]
          · rw [over_out (by omega), hC2, if_neg (by omega), if_neg (by omega)]
            exact hnone j (by omega)
        have ho4 : ∀ q, q ≠ w.v.buf → ∀ j, over C3 w.v.buf pos (w.v.size - pos) (fun _ => none) q j = w.cel q j := fun q hq j => by
          rw [over_out (.inl hq), hC2, if_neg (by omega), if_neg (by omega)]
        dsimp only
        generalize over C3 w.v.buf pos (w.v.size - pos) (fun _ => none) = C4 at hC4a hC4b hC4c ho4 ⊢
        refine Sat.catchAll ((sat_uninitList (w := { w with cel := C4, tape := t2, v := { w.v with size := w.v.size + n } }) (M := w.v.cap) hcap
          (by omega) fun j h h' => hC4c j h (by omega)).mono ?_ ?_)
        · rintro _ w' ⟨t5, rfl⟩
          have hg := Good.inplace own sane (X' := X.take pos ++ xs ++ X.drop pos)
            (w' := { w with cel := over C4 w.v.buf pos xs.length fun j => xs[j]?, tape := t5, v := { w.v with size := w.v.size + n } })
            rfl (Nat.le_refl _) rfl rfl
            (by
              simp only [List.length_append, List.length_take, List.length_drop]
              omega)
            (by show w.v.size + n ≤ w.v.cap; omega)
            (fun j => by
              show over C4 w.v.buf pos xs.length (fun j => xs[j]?) w.v.buf j = _
              rw [insert_get (by omega), hn]
              by_cases j1 : j < pos
              · rw [if_pos j1, over_out (by omega), hC4a j j1]
              · rw [if_neg j1]
                by_cases j2 : j < pos + n
                · rw [if_pos j2, over_in (by omega) (by omega)]
                · rw [if_neg j2, over_out (by omega), hC4b j (by omega)])
            (fun q hq j => by
              show over C4 w.v.buf pos xs.length (fun j => xs[j]?) q j = _
              rw [over_out (.inl hq)]
              exact ho4 q hq j)
          exact ⟨hg.1, Room.same hg.2 (by omega)⟩
        · rintro e w' ⟨rfl, t5, rfl⟩
          refine Sat.then (Sat.onExc (Q := fun _ w' => ∃ t, w' =
              { w with cel := moved P C4 w.v.buf (pos + n) w.v.buf pos (w.v.size - pos), tape := t, v := { w.v with size := w.v.size + n } })
            ((sat_uninitMove1 (P := P) (w := { w with cel := C4, tape := t5, v := { w.v with size := w.v.size + n } }) (N := w.v.cap) (M := w.v.cap)
              (fun _ => hcap) (by omega) hcap (by omega) (.inr (.inr (by omega))) ?_ ?_).mono (fun _ _ h => h) ?_)) (fun _ _ h => h) ?_
          · intro j h h'
            show (C4 w.v.buf j).isSome
            rw [hC4b j h]
            exact isSome_getElem? (by omega)
          · intro j h h'
            exact hC4c j h (by omega)
          · rintro e w' ⟨ha, rfl, hna, t6, C6, rfl, hr1, hr2⟩
            refine (sat_vaporize (w1 := { w with cel := C6, tape := t6, v := { w.v with size := w.v.size + n } }) (N := w.v.cap) hcap ?_ ?_ ?_).mono ?_
              fun _ _ h => h
            · show pos + n ≤ w.v.size + n
              omega
            · show w.v.size + n ≤ w.v.cap
              omega
            · intro j h h'
              have h' : j < w.v.size + n := h'
              exact hr1 j h (by omega)
            · rintro _ w' rfl
              have hkeep : ∀ q j, (q ≠ w.v.buf ∨ j < pos + n ∨ w.v.size + n ≤ j) →
                  over C6 w.v.buf (pos + n) (w.v.size + n - (pos + n)) (fun _ => none) q j = C4 q j := fun q j h => by
                rw [over_out (by omega), hr2 q j (by omega)]
              refine weak (Fail.user own sane rfl rfl rfl rfl ?_ ?_ ?_ ?_) (by simp [hna]) (by omega)
              · show pos ≤ w.v.cap
                omega
              · intro j hj
                have hj : j < pos := hj
                show (over C6 w.v.buf (pos + n) (w.v.size + n - (pos + n)) (fun _ => none) w.v.buf j).isSome
                rw [hkeep _ j (by omega), hC4a j hj]
                exact isSome_getElem? (by omega)
              · intro j hj
                have hj : pos ≤ j := hj
                show over C6 w.v.buf (pos + n) (w.v.size + n - (pos + n)) (fun _ => none) w.v.buf j = none
                by_cases h5 : j < pos + n
                · rw [hkeep _ j (by omega)]
                  exact hC4c j hj h5
                · by_cases h6 : j < w.v.size + n
                  · rw [over_in (by omega) (by omega)]
                  · rw [hkeep _ j (by omega), hC4b j (by omega), List.getElem?_eq_none (by omega)]
              · intro q hq j
                show over C6 w.v.buf (pos + n) (w.v.size + n - (pos + n)) (fun _ => none) q j = _
                rw [hkeep q j (.inl hq)]
                exact ho4 q hq j
          · rintro _ w6 ⟨t6, rfl⟩
            have hC6 : ∀ q j, moved P C4 w.v.buf (pos + n) w.v.buf pos (w.v.size - pos) q j =
                if q = w.v.buf ∧ pos ≤ j ∧ j < w.v.size then C4 w.v.buf (j + n)
                else if q = w.v.buf ∧ pos + n ≤ j ∧ j < w.v.size + n then (C4 w.v.buf j).map P.mv else C4 q j := by
              intro q j
              unfold moved
              by_cases h : q = w.v.buf ∧ pos ≤ j ∧ j < w.v.size
              · rw [if_pos h, if_pos (by omega)]
                congr 1
                omega
              · rw [if_neg h, if_neg (by omega)]
                by_cases h' : q = w.v.buf ∧ pos + n ≤ j ∧ j < w.v.size + n
                · rw [if_pos h', if_pos (by omega)]
                · rw [if_neg h', if_neg (by omega)]
            generalize moved P C4 w.v.buf (pos + n) w.v.buf pos (w.v.size - pos) = C6 at hC6 ⊢
            refine Sat.then (sat_destroyRange0 (w := { w with cel := C6, tape := t6, v := { w.v with size := w.v.size + n } })
              (N := w.v.cap) (fun _ => hcap) (by omega) ?_) (fun _ _ h => h) ?_
            · intro j h h'
              show (C6 w.v.buf j).isSome
              rw [hC6, if_neg (by omega), if_pos ⟨rfl, h, by omega⟩, Option.isSome_map, hC4b j h]
              exact isSome_getElem? (by omega)
            rintro _ w8 rfl
            refine Sat.setSize ?_
            have hg := Good.inplace own sane (X' := X)
              (w' := { w with cel := over C6 w.v.buf (pos + n) (w.v.size - pos) fun _ => none, tape := t6, v := { w.v with size := w.v.size } })
              rfl (Nat.le_refl _) rfl rfl hlen own.le
              (fun j => by
                show over C6 w.v.buf (pos + n) (w.v.size - pos) (fun _ => none) w.v.buf j = _
                by_cases j1 : j < pos + n
                · rw [over_out (by omega), hC6]
                  by_cases j2 : j < pos
                  · rw [if_neg (by omega), if_neg (by omega), hC4a j j2]
                  · by_cases j3 : j < w.v.size
                    · rw [if_pos ⟨rfl, by omega, j3⟩, hC4b _ (by omega)]
                      congr 1
                      omega
                    · rw [if_neg (by omega), if_neg (by omega), hC4c j (by omega) j1, List.getElem?_eq_none (by omega)]
                · rw [List.getElem?_eq_none (by omega)]
                  by_cases j3 : j < w.v.size + n
                  · rw [over_in (by omega) (by omega)]
                  · rw [over_out (by omega), hC6, if_neg (by omega), if_neg (by omega), hC4b j (by omega), List.getElem?_eq_none (by omega)])
              (fun q hq j => by
                show over C6 w.v.buf (pos + n) (w.v.size - pos) (fun _ => none) q j = _
                rw [over_out (.inl hq), hC6, if_neg (by omega), if_neg (by omega)]
                exact ho4 q hq j)
            exact ⟨X, ⟨hg.1, hg.2, .inr (.inr rfl), fun h => (by cases h), fun h => (by cases h)⟩, fun _ => rfl⟩

end STL.Vec
