import Verif.Vec.Input

/-!
# Capacity and erasure
-/

namespace STL.Vec
open STL

variable {α β γ : Type}

theorem sat_tidy {P : Par α} {w : W α} {X : List α} (own : Own P w X) (sane : Sane w) {E : Exc → W α → Prop} :
    Sat tidy w (fun _ w' => Good P w w' [] ∧ w'.v = ⟨0, 0, 0⟩ ∧ w'.nxt = w.nxt) E := by
  have hlt := own.lt sane
  have hle := own.le
  have hlen := own.len
  unfold tidy
  refine Sat.getV (Sat.ite (fun hb => ?_) fun hb => Sat.pure' ?_)
  · have hlive := (own.live hb).1
    refine Sat.then (sat_destroyRange (E := E) w.v.size 0 hlive (by omega) ?_) (fun _ _ h => h) ?_
    · intro j _ h
      exact own.isS (by omega)
    · rintro _ w2 rfl
      have hraw : ∀ i, over w.cel w.v.buf 0 w.v.size (fun _ => none) w.v.buf i = none := by
        intro i
        by_cases h : i < w.v.size
        · rw [over_in (by omega) (by omega)]
        · rw [over_out (by omega)]
          exact own.isN (by omega)
      refine Sat.bind (Sat.deallocate (n := w.v.cap) hlive (fun i _ => hraw i) ?_)
      refine ⟨⟨⟨rfl, Nat.le_refl _, Nat.zero_le _, ?_, fun h => absurd rfl h, fun _ => rfl⟩, ⟨?_, ?_, sane.pos⟩, ⟨Nat.le_refl _, .inr (.inl rfl), ?_, ?_⟩⟩,
        rfl, rfl⟩
      · intro x
        show over w.cel w.v.buf 0 w.v.size (fun _ => none) 0 x = _
        rw [over_out (.inl (Ne.symm hb)), sane.zero.2]
        rfl
      · refine ⟨?_, fun i => ?_⟩
        · show (if 0 = w.v.buf then none else w.caps 0) = none
          rw [if_neg (Ne.symm hb)]
          exact sane.zero.1
        · show over w.cel w.v.buf 0 w.v.size (fun _ => none) 0 i = none
          rw [over_out (.inl (Ne.symm hb)), sane.zero.2]
      · intro b h
        have h : w.nxt ≤ b := h
        refine ⟨?_, fun i => ?_⟩
        · show (if b = w.v.buf then none else w.caps b) = none
          rw [if_neg (by omega)]
          exact (sane.fresh b h).1
        · show over w.cel w.v.buf 0 w.v.size (fun _ => none) b i = none
          rw [over_out (.inl (by omega))]
          exact (sane.fresh b h).2 i
      · intro b h _
        refine ⟨?_, fun i => ?_⟩
        · show (if b = w.v.buf then none else w.caps b) = _
          rw [if_neg h]
        · show over w.cel w.v.buf 0 w.v.size (fun _ => none) b i = _
          exact over_out (.inl h)
      · intro _
        refine ⟨?_, hraw⟩
        show (if w.v.buf = w.v.buf then none else w.caps w.v.buf) = none
        rw [if_pos rfl]
  · have hb : w.v.buf = 0 := by
      by_cases h : w.v.buf = 0
      · exact h
      · exact absurd h hb
    have hc := own.null hb
    have hX : X = [] := List.length_eq_zero_iff.1 (by omega)
    subst hX
    have hv : w.v = ⟨0, 0, 0⟩ := by
      cases hw : w.v with
      | mk b s c =>
        rw [hw] at hb hc hle
        simp only at hb hc hle
        subst hb hc
        congr 1
        omega
    exact ⟨(Good.same own sane (w' := w) rfl rfl rfl rfl).1, hv, rfl⟩

/-- Destroying the elements from `n` on. -/
theorem sat_truncate {P : Par α} {w w1 : W α} {X Y : List α} (own : Own P w X) (sane : Sane w) {n : Nat} {t : List Bool}
    {C : Nat → Nat → Option α} (hw1 : w1 = { w with cel := C, tape := t }) (hn : n ≤ w.v.size) (hY : Y.length = n)
    (hC : ∀ j, j < n → C w.v.buf j = Y[j]?) (hs : ∀ j, j < w.v.size → (C w.v.buf j).isSome) (hN : ∀ j, w.v.size ≤ j → C w.v.buf j = none)
    (ho : ∀ q j, q ≠ w.v.buf → C q j = w.cel q j) {E : Exc → W α → Prop} :
    Sat (do destroyRange w.v.buf n (w.v.size - n); setSize n) w1 (fun _ w' => Good P w w' Y ∧ Same w w') E := by
  subst hw1
  have hle := own.le
  refine Sat.then (sat_destroyRange0 (N := w.v.cap) (E := E) ?_ ?_ ?_) (fun _ _ h => h) ?_
  · intro h
    exact own.caps (by omega)
  · intro h
    omega
  · intro j _ h
    exact hs j (by omega)
  · rintro _ w2 rfl
    refine Sat.setSize ?_
    refine Good.inplace own sane rfl (Nat.le_refl _) rfl rfl hY (by show n ≤ w.v.cap; omega) ?_ ?_
    · intro x
      show over C w.v.buf n (w.v.size - n) (fun _ => none) w.v.buf x = _
      by_cases h1 : n ≤ x ∧ x < w.v.size
      · rw [over_in (by omega) (by omega), List.getElem?_eq_none (by omega)]
      · rw [over_out (by omega)]
        by_cases h2 : x < n
        · exact hC x h2
        · rw [hN x (by omega), List.getElem?_eq_none (by omega)]
    · intro q hq j
      show over C w.v.buf n (w.v.size - n) (fun _ => none) q j = _
      rw [over_out (.inl hq)]
      exact ho q j hq

theorem sat_clear {P : Par α} {w : W α} {X : List α} (own : Own P w X) (sane : Sane w) {E : Exc → W α → Prop} :
    Sat clear w (fun _ w' => Good P w w' [] ∧ Same w w') E := by
  unfold clear
  refine Sat.getV (Sat.ite (fun h => ?_) fun h => ?_)
  · have := own.len
    have hX : X = [] := List.length_eq_zero_iff.1 (by omega)
    subst hX
    obtain ⟨g0, _, g2⟩ := Good.same own sane (w' := w) rfl rfl rfl rfl
    exact Sat.pure' ⟨g0, g2⟩
  · exact sat_truncate (t := w.tape) (C := w.cel) own sane (n := 0) rfl (by omega) rfl (by omega) (fun j => own.isS) (fun j => own.isN) (fun _ _ _ => rfl)

theorem sat_popBack {P : Par α} {w : W α} {X : List α} (own : Own P w X) (sane : Sane w) (h0 : 0 < X.length) {E : Exc → W α → Prop} :
    Sat popBack w (fun _ w' => Good P w w' X.dropLast ∧ Same w w') E := by
  have hlen := own.len
  have hle := own.le
  unfold popBack
  refine Sat.getV (Sat.bind (Sat.destroy (own.caps (by omega)) (by omega) (own.isS (by omega)) (Sat.setSize ?_)))
  refine Good.inplace own sane rfl (Nat.le_refl _) rfl rfl (by simp [hlen]) (by show w.v.size - 1 ≤ w.v.cap; omega) ?_ ?_
  · intro x
    show put w.cel w.v.buf (w.v.size - 1) none w.v.buf x = _
    unfold put
    rw [List.getElem?_dropLast]
    by_cases h : x < X.length - 1
    · rw [if_pos h, if_neg (by omega)]
      exact own.cell x
    · rw [if_neg h]
      split
      · rfl
      · exact own.isN (by omega)
  · intro q hq j
    show put w.cel w.v.buf (w.v.size - 1) none q j = _
    unfold put
    rw [if_neg (by omega)]

/-- What is left if a move assignment throws while the elements after `pos` are moved down. -/
structure Shift (P : Par α) (w w' : W α) (X X2 : List α) (pos : Nat) (e : Exc) : Prop where
  good : Good P w w' X2
  same : Same w w'
  kind : e = .user
  may : P.nma = false
  len : X2.length = X.length
  keep : X2.take pos = X.take pos

theorem sat_shift {P : Par α} {w : W α} {X : List α} (own : Own P w X) (sane : Sane w) {first last : Nat} (h1 : first < last) (h2 : last ≤ X.length) :
    Sat (moveFwd P w.v.buf last first (w.v.size - last)) w
      (fun _ w' => ∃ t C, w' = { w with cel := C, tape := t } ∧ (∀ j, j < w.v.size → (C w.v.buf j).isSome) ∧ (∀ j, w.v.size ≤ j → C w.v.buf j = none) ∧
        (∀ q j, q ≠ w.v.buf → C q j = w.cel q j) ∧ ∀ j, j < first + (w.v.size - last) → C w.v.buf j = (X.take first ++ X.drop last)[j]?)
      (fun e w' => last < X.length ∧ ∃ X2, Shift P w w' X X2 first e) := by
  have hlen := own.len
  have hle := own.le
  by_cases hz : last = X.length
  · rw [show w.v.size - last = 0 by omega]
    refine Sat.pure' ⟨w.tape, w.cel, rfl, fun j => own.isS, fun j => own.isN, fun _ _ _ => rfl, ?_⟩
    intro j hj
    rw [List.getElem?_append_left (by simp; omega), List.getElem?_take, if_pos (by omega)]
    exact own.cell j
  · refine (sat_moveFwd (P := P) (w.v.size - last) last first (own.caps (by omega)) (by omega) h1 ?_).mono ?_ ?_
    · intro j _ hj
      exact own.isS (by omega)
    · rintro _ w' ⟨t, C, rfl, ⟨r1, r2⟩, r3⟩
      refine ⟨t, C, rfl, ?_, ?_, fun q j hq => r2 q j (.inl hq), ?_⟩
      · intro j hj
        by_cases h : first ≤ j
        · exact r1 j h (by omega)
        · rw [r2 _ j (by omega)]
          exact own.isS hj
      · intro j hj
        rw [r2 _ j (by omega)]
        exact own.isN hj
      · intro j hj
        by_cases h : j < first
        · rw [List.getElem?_append_left (by simp; omega), List.getElem?_take, if_pos (by omega), r2 _ j (by omega)]
          exact own.cell j
        · rw [List.getElem?_append_right (by simp; omega), List.getElem?_drop, List.length_take]
          have := r3 (j - first) (by omega)
          rw [show first + (j - first) = j by omega] at this
          rw [this, own.cell]
          congr 1
          omega
    · rintro e w' ⟨rfl, hna, t, C, rfl, r1, r2⟩
      obtain ⟨X2, l2, g2, s2⟩ := Good.basic own sane (w' := { w with cel := C, tape := t }) rfl (Nat.le_refl _) rfl rfl hle
        (fun j hj => by
          show (C w.v.buf j).isSome
          have hj : j < w.v.size := hj
          by_cases h : first ≤ j
          · exact r1 j h (by omega)
          · rw [r2 _ j (by omega)]
            exact own.isS hj)
        (fun j hj => by
          show C w.v.buf j = none
          have hj : w.v.size ≤ j := hj
          rw [r2 _ j (by omega)]
          exact own.isN hj)
        (fun q hq j => by
          show C q j = _
          rw [r2 q j (.inl hq)])
      have l2 : X2.length = w.v.size := l2
      refine ⟨by omega, X2, g2, s2, rfl, hna, by omega, ?_⟩
      apply List.ext_getElem?
      intro j
      rw [List.getElem?_take, List.getElem?_take]
      split
      · next h =>
        rw [← own.cell j, ← g2.own.cell j]
        show C w.v.buf j = _
        exact r2 _ j (by omega)
      · rfl

theorem sat_eraseRange {P : Par α} {w : W α} {X : List α} (own : Own P w X) (sane : Sane w) {first last : Nat} (h1 : first ≤ last)
    (h2 : last ≤ X.length) :
    Sat (eraseRange P first last) w (fun _ w' => Good P w w' (X.take first ++ X.drop last) ∧ Same w w')
      (fun e w' => first < last ∧ last < X.length ∧ ∃ X2, Shift P w w' X X2 first e) := by
  have hlen := own.len
  have hle := own.le
  unfold eraseRange
  refine Sat.getV (Sat.ite (fun h => ?_) fun h => Sat.pure' ?_)
  · refine Sat.then (sat_shift own sane (by omega) h2) (fun _ _ h' => ⟨by omega, h'⟩) ?_
    rintro _ w1 ⟨t, C, hw1, c1, c2, c3, c4⟩
    exact sat_truncate own sane hw1 (by omega) (by simp; omega) c4 c1 c2 c3
  · have h : first = last := by
      by_cases hh : first = last
      · exact hh
      · exact absurd hh h
    obtain ⟨g0, _, g2⟩ := Good.same own sane (w' := w) rfl rfl rfl rfl
    rw [h, List.take_append_drop]
    exact ⟨g0, g2⟩

theorem sat_eraseOne {P : Par α} {w : W α} {X : List α} (own : Own P w X) (sane : Sane w) {pos : Nat} (h1 : pos < X.length) :
    Sat (eraseOne P pos) w (fun _ w' => Good P w w' (X.eraseIdx pos) ∧ Same w w')
      (fun e w' => pos + 1 < X.length ∧ ∃ X2, Shift P w w' X X2 pos e) := by
  have hlen := own.len
  have hle := own.le
  unfold eraseOne
  refine Sat.getV (Sat.then (sat_shift own sane (by omega) (by omega)) (fun _ _ h' => h') ?_)
  rintro _ w1 ⟨t, C, hw1, c1, c2, c3, c4⟩
  rw [List.eraseIdx_eq_take_drop_succ]
  have := sat_truncate (Y := X.take pos ++ X.drop (pos + 1)) (n := w.v.size - 1) own sane hw1 (by omega) (by simp; omega)
    (fun j hj => c4 j (by omega)) c1 c2 c3 (E := fun e w' => pos + 1 < X.length ∧ ∃ X2, Shift P w w' X X2 pos e)
  have he : (do destroyRange w.v.buf (w.v.size - 1) (w.v.size - (w.v.size - 1)); setSize (w.v.size - 1) : M α Unit)
      = (do destroy w.v.buf (w.v.size - 1); setSize (w.v.size - 1)) := by
    rw [show w.v.size - (w.v.size - 1) = 0 + 1 by omega]
    funext w0
    show M.bind (M.bind (destroy w.v.buf (w.v.size - 1)) fun _ => M.pure ()) _ w0 = M.bind (destroy w.v.buf (w.v.size - 1)) _ w0
    unfold M.bind
    cases destroy w.v.buf (w.v.size - 1) w0 <;> rfl
  rw [← he]
  exact this

theorem guard2_zero {b n i : Nat} : (guard2 b n i (i + 0) : M α Unit) = deallocate b n := by
  unfold guard2
  rw [Nat.add_zero, Nat.sub_self]
  rfl

theorem sat_reallocate {P : Par α} {w : W α} {X : List α} (own : Own P w X) (sane : Sane w) {nc : Nat} {least : Bool} (h1 : X.length ≤ nc)
    (h0 : 0 < nc) (hmx : nc ≤ P.max) :
    Sat (reallocate P least nc) w
      (fun _ w' => Good P w w' X ∧ w.nxt ≤ w'.v.buf ∧ nc ≤ w'.v.cap ∧ (least = false → w'.v.cap = nc))
      (fun e w' => ∃ X2, Good P w w' X2 ∧ Same w w' ∧ X2.length = X.length ∧
        (e = .badAlloc ∧ X2 = X ∨ e = .user ∧ (P.nmc = true ∨ P.cc = true → X2 = X))) := by
  have hle := own.le
  have hlen := own.len
  unfold reallocate
  refine Sat.getV (Sat.bind (Sat.allocate hmx ?_ ?_))
  · intro m a h2 h3 h4
    have hp := sat_placeOld own sane (a := a) (t := w.tape) (m := m) (strong := true) (Placed.start own sane w.v.size) (cnt := 0) rfl (by omega) rfl
      (Nat.le_refl _) (fun _ => rfl)
    unfold placeOld at hp
    rw [if_pos rfl, guard2_zero] at hp
    refine Sat.then hp ?_ ?_
    · rintro e w' ⟨he, X2, g1, g2, g3, g4, g5⟩
      exact ⟨X2, g1, g2, g4, .inr ⟨he, fun h => g5 (h.imp_right fun h => ⟨rfl, h⟩)⟩⟩
    · rintro _ w2 ⟨t2, C2, rfl, hC2, hr⟩
      have : X.take w.v.size ++ [] ++ X.drop w.v.size = X := by simp
      rw [this] at hC2
      refine (sat_changeArray own sane (a := a) (t := t2) (X' := X) hlen (by omega) h3 (by omega) hC2 hr).mono ?_ fun _ _ h => h
      rintro _ w' ⟨g1, g2⟩
      refine ⟨g1, ?_, ?_, ?_⟩
      · rw [g2]
        exact Nat.le_refl _
      · rw [g2]
        exact h2
      · rw [g2]
        exact h4
  · intro a
    obtain ⟨_, g1, g2⟩ := Good.same own sane (w' := { w with ans := a }) rfl rfl rfl rfl
    exact ⟨X, g1, g2, rfl, .inl ⟨rfl, rfl⟩⟩

theorem sat_reserve {P : Par α} {w : W α} {X : List α} (own : Own P w X) (sane : Sane w) {n : Nat} :
    Sat (reserve P n) w
      (fun _ w' => Good P w w' X ∧ (n ≤ w.v.cap → Same w w') ∧ (w.v.cap < n → w.nxt ≤ w'.v.buf ∧ n ≤ w'.v.cap))
      (fun e w' => w.v.cap < n ∧ ∃ X2, Fail P w w' X X2 n e ∧ X2.length = X.length ∧ (P.nmc = true ∨ P.cc = true → X2 = X)) := by
  have hle := own.le
  have hlen := own.len
  unfold reserve
  refine Sat.getV (Sat.ite (fun h => Sat.ite (fun h2 => Sat.throw ?_) fun h2 => ?_) fun h => Sat.pure' ?_)
  · exact ⟨h, X, Fail.tooLong own sane h2, rfl, fun _ => rfl⟩
  · refine (sat_reallocate own sane (by omega) (by omega) (by omega)).mono ?_ ?_
    · rintro _ w' ⟨g1, g2, g3, _⟩
      exact ⟨g1, fun h => by omega, fun _ => ⟨g2, g3⟩⟩
    · rintro e w' ⟨X2, g1, g2, g3, ⟨rfl, rfl⟩ | ⟨rfl, g4⟩⟩
      · exact ⟨h, X2, ⟨g1, g2, .inr (.inl rfl), fun h => (by cases h), fun _ => ⟨h, rfl⟩⟩, rfl, fun _ => rfl⟩
      · exact ⟨h, X2, ⟨g1, g2, .inr (.inr rfl), fun h => (by cases h), fun h => (by cases h)⟩, g3, g4⟩
  · obtain ⟨g0, _, g2⟩ := Good.same own sane (w' := w) rfl rfl rfl rfl
    exact ⟨g0, fun _ => g2, fun h' => by omega⟩

theorem sat_shrinkToFit {P : Par α} {w : W α} {X : List α} (own : Own P w X) (sane : Sane w) :
    Sat (shrinkToFit P) w
      (fun _ w' => Good P w w' X ∧ w'.v.cap = X.length)
      (fun e w' => ∃ X2, Good P w w' X2 ∧ Same w w' ∧ X2.length = X.length ∧
        (e = .badAlloc ∧ X2 = X ∨ e = .user ∧ (P.nmc = true ∨ P.cc = true → X2 = X))) := by
  have hle := own.le
  have hlen := own.len
  have hmx := own.mx
  unfold shrinkToFit
  refine Sat.getV (Sat.ite (fun h => Sat.ite (fun h2 => ?_) fun h2 => ?_) fun h => Sat.pure' ?_)
  · have hX : X = [] := List.length_eq_zero_iff.1 (by omega)
    subst hX
    refine (sat_tidy own sane).mono ?_ fun _ _ h => h
    rintro _ w' ⟨g1, g2, _⟩
    refine ⟨g1, ?_⟩
    rw [g2]
    rfl
  · refine (sat_reallocate own sane (by omega) (by omega) (by omega)).mono ?_ fun _ _ h => h
    rintro _ w' ⟨g1, _, _, g4⟩
    exact ⟨g1, (g4 rfl).trans (by omega)⟩
  · have h : w.v.size = w.v.cap := by
      by_cases hh : w.v.size = w.v.cap
      · exact hh
      · exact absurd hh h
    obtain ⟨g0, _, g2⟩ := Good.same own sane (w' := w) rfl rfl rfl rfl
    exact ⟨g0, by omega⟩

end STL.Vec
