import Verif.Vec.AddR

/-!
# Ranges of input iterators
-/

namespace STL.Vec
open STL

variable {α β γ : Type}

theorem Frame.trans {w w1 w2 : W α} (sane : Sane w) (h1 : Frame w w1) (h2 : Frame w1 w2) : Frame w w2 := by
  have n1 := h1.nxt
  have n2 := h2.nxt
  refine ⟨by omega, ?_, ?_, ?_⟩
  · rcases h2.buf with h | h | h
    · rw [h]
      exact h1.buf
    · exact .inr (.inl h)
    · exact .inr (.inr (by omega))
  · intro b hb hb2
    by_cases hb1 : b = w1.v.buf
    · obtain ⟨o1, o2⟩ := h2.old (by rw [← hb1]; exact Ne.symm hb2)
      rw [← hb1] at o1 o2
      have : w.caps b = none ∧ ∀ i, w.cel b i = none := by
        rcases h1.buf with h | h | h
        · exact absurd (hb1.trans h) hb
        · rw [hb1, h]
          exact sane.zero
        · exact sane.fresh b (by omega)
      refine ⟨o1.trans this.1.symm, fun i => (o2 i).trans (this.2 i).symm⟩
    · obtain ⟨a1, a2⟩ := h1.other b hb hb1
      obtain ⟨c1, c2⟩ := h2.other b hb1 hb2
      exact ⟨c1.trans a1, fun i => (c2 i).trans (a2 i)⟩
  · intro hb
    by_cases h : w1.v.buf = w.v.buf
    · rw [← h] at hb ⊢
      exact h2.old hb
    · obtain ⟨a1, a2⟩ := h1.old h
      obtain ⟨c1, c2⟩ := h2.other w.v.buf (Ne.symm h) (Ne.symm hb)
      exact ⟨c1.trans a1, fun i => (c2 i).trans (a2 i)⟩

theorem Good.trans {P : Par α} {w w1 w2 : W α} {X1 X2 : List α} (sane : Sane w) (h1 : Good P w w1 X1) (h2 : Good P w1 w2 X2) : Good P w w2 X2 :=
  ⟨h2.own, h2.sane, h1.frame.trans sane h2.frame⟩

theorem Room.trans {P : Par α} {w w1 w2 : W α} {m n : Nat} (hmn : m ≤ n) (hn : w.nxt ≤ w1.nxt) (h1 : Room P m w w1) (h2 : Room P n w1 w2) :
    Room P n w w2 := by
  constructor
  · intro h
    obtain ⟨a1, a2⟩ := h1.1 (by omega)
    obtain ⟨b1, b2⟩ := h2.1 (by omega)
    exact ⟨b1.trans a1, b2.trans a2⟩
  · intro h
    by_cases hm : m ≤ w.v.cap
    · obtain ⟨a1, a2⟩ := h1.1 hm
      obtain ⟨b1, b2, b3⟩ := h2.2 (by omega)
      rw [a2] at b3
      exact ⟨by omega, b2, b3⟩
    · obtain ⟨a1, a2, a3⟩ := h1.2 (by omega)
      by_cases hc : n ≤ w1.v.cap
      · obtain ⟨b1, b2⟩ := h2.1 hc
        exact ⟨by omega, by omega, by omega⟩
      · obtain ⟨b1, b2, b3⟩ := h2.2 (by omega)
        exact ⟨by omega, by omega, by omega⟩

/-- What is left if elements are added one by one and something fails: `k` of them have been added. -/
structure Part (P : Par α) (w w' : W α) (X xs X2 : List α) (strong : Prop) (e : Exc) (k : Nat) : Prop where
  good : Good P w w' X2
  room : Room P (X.length + k) w w'
  kind : e = .lengthError ∨ e = .badAlloc ∨ e = .user
  le : k ≤ xs.length
  len : X2.length = X.length + k
  length : e = .lengthError → k < xs.length ∧ X.length + k = P.max ∧ X2 = X ++ xs.take k
  alloc : e = .badAlloc → k < xs.length ∧ w'.v.cap = X.length + k ∧ X2 = X ++ xs.take k
  strong : strong → X2 = X ++ xs.take k

theorem sat_appendInput {P : Par α} : ∀ {xs X : List α} {w : W α}, Own P w X → Sane w →
    Sat (appendInput P xs) w (fun _ w' => Good P w w' (X ++ xs) ∧ Room P (X.length + xs.length) w w')
      (fun e w' => ∃ X2 k, Part P w w' X xs X2 (P.nmc = true ∨ P.cc = true) e k)
  | [], X, w, own, sane => by
    have hlen := own.len
    have hle := own.le
    obtain ⟨g0, _, g2⟩ := Good.same own sane (w' := w) rfl rfl rfl rfl
    refine Sat.pure' ⟨?_, Room.same g2 (by simp; omega)⟩
    rw [List.append_nil]
    exact g0
  | x :: xs, X, w, own, sane => by
    have hlen := own.len
    have hle := own.le
    unfold appendInput
    refine Sat.then (sat_emplaceBack own sane (a := .ext x) (x := x) rfl) ?_ ?_
    · rintro e w' ⟨X2, h1, h2, h3⟩
      have hr : Room P (X.length + 0) w w' := Room.same h1.same (by omega)
      have hsz := h1.good.own.len
      have hle' := h1.good.own.le
      have hm' := h1.good.own.mx
      have hsame := h1.same.2
      refine ⟨X2, 0, h1.good, hr, h1.kind, Nat.zero_le _, h2, fun h => ?_, fun h => ?_, fun h => ?_⟩
      · obtain ⟨a, b⟩ := h1.length h
        exact ⟨by simp, by omega, by simp [b]⟩
      · obtain ⟨a, b⟩ := h1.alloc h
        exact ⟨by simp, by omega, by simp [b]⟩
      · rcases h3 h with h | ⟨i, y, h, _⟩
        · simp [h]
        · cases h
    · rintro _ w1 ⟨g1, r1⟩
      have g1 : Good P w w1 (X ++ [x]) := g1
      refine (sat_appendInput (xs := xs) (X := X ++ [x]) g1.own g1.sane).mono ?_ ?_
      · rintro _ w2 ⟨g2, r2⟩
        rw [List.append_assoc, List.singleton_append] at g2
        rw [List.length_append, List.length_singleton] at r2
        refine ⟨g1.trans sane g2, ?_⟩
        rw [List.length_cons, show X.length + (xs.length + 1) = X.length + 1 + xs.length by omega]
        exact Room.trans (by omega) g1.frame.nxt r1 r2
      · rintro e w2 ⟨X2, k, h⟩
        have hl := h.len
        have hr := h.room
        rw [List.length_append, List.length_singleton] at hl hr
        have he : ∀ Z, Z = X ++ [x] ++ xs.take k → Z = X ++ (x :: xs).take (k + 1) := by
          rintro _ rfl
          simp
        refine ⟨X2, k + 1, g1.trans sane h.good, ?_, h.kind, ?_, by omega, fun h' => ?_, fun h' => ?_, fun h' => he _ (h.strong h')⟩
        · rw [show X.length + (k + 1) = X.length + 1 + k by omega]
          exact Room.trans (by omega) g1.frame.nxt r1 hr
        · have := h.le
          rw [List.length_cons]
          omega
        · obtain ⟨a, b, c⟩ := h.length h'
          rw [List.length_append, List.length_singleton] at b
          exact ⟨by rw [List.length_cons]; omega, by omega, he _ c⟩
        · obtain ⟨a, b, c⟩ := h.alloc h'
          rw [List.length_append, List.length_singleton] at b
          exact ⟨by rw [List.length_cons]; omega, by omega, he _ c⟩

theorem sat_insertInput {P : Par α} {w : W α} {X : List α} (own : Own P w X) (sane : Sane w) {xs : List α} {pos : Nat} (hpos : pos ≤ X.length) :
    Sat (insertInput P pos xs) w
      (fun _ w' => Good P w w' (X.take pos ++ xs ++ X.drop pos) ∧ Room P (X.length + xs.length) w w')
      (fun e w' => ∃ X2 k, Part P w w' X xs X2 (P.nmc = true ∧ P.nma = true) e k) := by
  have hlen := own.len
  have hle := own.le
  unfold insertInput
  refine Sat.ite (fun h0 => ?_) fun h0 => ?_
  · have : xs = [] := List.length_eq_zero_iff.1 h0
    subst this
    obtain ⟨g0, _, g2⟩ := Good.same own sane (w' := w) rfl rfl rfl rfl
    refine Sat.pure' ⟨?_, Room.same g2 (by simp; omega)⟩
    rw [List.append_nil, List.take_append_drop]
    exact g0
  · refine Sat.getV (Sat.then (sat_appendInput (xs := xs) own sane) ?_ ?_)
    · rintro e w' ⟨X2, k, h⟩
      exact ⟨X2, k, h.good, h.room, h.kind, h.le, h.len, h.length, h.alloc, fun h' => h.strong (.inl h'.1)⟩
    · rintro _ w1 ⟨g1, r1⟩
      have hsz := g1.own.len
      have hle1 := g1.own.le
      rw [List.length_append] at hsz
      refine Sat.getV ((sat_rotate ?_).mono ?_ ?_)
      · intro j _ hj
        exact g1.own.isS (by omega)
      · rintro _ w2 ⟨t, rfl⟩
        obtain ⟨g2, s2⟩ := Good.inplace g1.own g1.sane (X' := X.take pos ++ xs ++ X.drop pos)
          (w' := { w1 with cel := rotated w1.cel w1.v.buf pos (w.v.size - pos) (w1.v.size - pos), tape := t }) rfl (Nat.le_refl _) rfl rfl
          (by simp; omega) hle1
          (fun j => by
            show rotated w1.cel w1.v.buf pos (w.v.size - pos) (w1.v.size - pos) w1.v.buf j = _
            rw [insert_get hpos]
            unfold rotated
            by_cases h1 : j < pos
            · rw [if_neg (by omega), if_pos h1, g1.own.cell, List.getElem?_append_left (by omega)]
            · rw [if_neg h1]
              by_cases h2 : j < w1.v.size
              · rw [if_pos ⟨rfl, by omega, by omega⟩]
                by_cases h3 : j < pos + xs.length
                · rw [if_pos (by omega), if_pos h3, g1.own.cell, List.getElem?_append_right (by omega)]
                  congr 1
                  omega
                · rw [if_neg (by omega), if_neg h3, g1.own.cell, List.getElem?_append_left (by omega)]
                  congr 1
                  omega
              · rw [if_neg (by omega), if_neg (by omega), g1.own.isN (by omega), List.getElem?_eq_none (by omega)])
          (fun q hq j => by
            show rotated w1.cel w1.v.buf pos (w.v.size - pos) (w1.v.size - pos) q j = _
            unfold rotated
            rw [if_neg (by omega)])
        exact ⟨g1.trans sane g2, Room.trans (Nat.le_refl _) g1.frame.nxt r1
          ⟨fun _ => s2, fun h => by omega⟩⟩
      · rintro e w2 ⟨rfl, hn, t, C, rfl, hr1, hr2⟩
        obtain ⟨X2, l2, g2, s2⟩ := Good.basic g1.own g1.sane (w' := { w1 with cel := C, tape := t }) rfl (Nat.le_refl _) rfl rfl hle1
          (fun j hj => by
            show (C w1.v.buf j).isSome
            have hj : j < w1.v.size := hj
            by_cases h : pos ≤ j
            · exact hr1 j h (by omega)
            · rw [hr2 _ j (by omega)]
              exact g1.own.isS hj)
          (fun j hj => by
            show C w1.v.buf j = none
            have hj : w1.v.size ≤ j := hj
            rw [hr2 _ j (by omega)]
            exact g1.own.isN hj)
          (fun q hq j => by
            show C q j = _
            rw [hr2 q j (.inl hq)])
        refine ⟨X2, xs.length, g1.trans sane g2, Room.trans (Nat.le_refl _) g1.frame.nxt r1
          ⟨fun _ => s2, fun h => by omega⟩, .inr (.inr rfl), Nat.le_refl _, ?_, fun h => (by cases h), fun h => (by cases h),
          fun h => absurd h hn⟩
        rw [l2]
        show w1.v.size = _
        omega

end STL.Vec
