import Verif.At
import Verif.Reorder.Model

/-! Lemmas about the reordering algorithms (used by `Verif/Reorder/Props.lean`). -/

namespace STL
variable {α : Type _}

/-- positions `[a, b)` -/
abbrev Seg (a b : Nat) : Nat → Prop := fun j => a ≤ j ∧ j < b

theorem snoc_cases (X : List α) : X = [] ∨ ∃ Y b, X = Y ++ [b] := by
  rcases List.eq_nil_or_concat X with h | ⟨Y, b, h⟩
  · exact Or.inl h
  · exact Or.inr ⟨Y, b, by simpa using h⟩

theorem reverse_spec (n : Nat) : ∀ (m : Mem α) (f l : Nat) (X : List α), X.length = n → At m f X → l = f + X.length →
    ∃ m', reverse m f l = .ok m' ∧ At m' f X.reverse ∧ Upd m m' (Seg f l) := by
  induction n using Nat.strongRecOn with
  | ind n ih =>
    intro m f l X hn hX hl
    unfold reverse
    match X, hn with
    | [], _ => simp at hl; subst hl; exact ⟨m, by simp; rfl, At.nil _ _, Upd.refl _ _⟩
    | [a], _ =>
      simp at hl; subst hl
      exact ⟨m, by simp; rfl, by simpa using hX, Upd.refl _ _⟩
    | a :: b :: X, hn =>
      obtain h | ⟨Y, c, h⟩ := snoc_cases (b :: X)
      · simp at h
      · rw [h] at hX hl hn ⊢
        simp only [List.length_cons, List.length_append, List.length_nil] at hl hn
        obtain ⟨ha, hX⟩ := At.cons_iff.1 hX
        obtain ⟨hY, hc⟩ := At.snoc_iff.1 hX
        rw [dif_pos (by omega), dif_pos (by omega)]
        have e : l - 1 = f + 1 + Y.length := by omega
        obtain ⟨m1, h1, u1, g1, g2⟩ := swp_upd ha (by rw [e]; exact hc : m[l - 1]? = some (some c))
        obtain ⟨m2, h2, g3, u2⟩ := ih Y.length (by omega) m1 (f + 1) (l - 1) Y rfl
          (hY.upd u1 (fun j _ _ => by omega)) (by omega)
        refine ⟨m2, by rw [h1]; exact h2, ?_, (u1.trans u2).mono (fun j => by unfold Seg; omega)⟩
        simp only [List.reverse_cons, List.reverse_append, List.reverse_nil, List.nil_append, List.cons_append]
        rw [At.cons_iff, At.snoc_iff]
        refine ⟨?_, g3, ?_⟩
        · rw [u2.out f (by unfold Seg; omega)]; exact g1
        · rw [List.length_reverse, ← e, u2.out _ (by unfold Seg; omega)]; exact g2

theorem moveFwd_spec (m : Mem α) (first last dest : Nat) (X : List α) (hX : At m first X) (hl : last = first + X.length)
    (hd : dest ≤ first ∨ first + X.length ≤ dest) (hb : dest + X.length ≤ m.length) :
    ∃ m', moveFwd m first last dest = .ok (m', dest + X.length) ∧ At m' dest X ∧
      Upd m m' (fun j => Seg first last j ∨ Seg dest (dest + X.length) j) := by
  induction X generalizing m first dest with
  | nil =>
    unfold moveFwd
    simp at hl; subst hl
    exact ⟨m, by simp; rfl, At.nil _ _, Upd.refl _ _⟩
  | cons x X ih =>
    obtain ⟨hx, hX⟩ := At.cons_iff.1 hX
    simp only [List.length_cons] at hl hd hb ⊢
    unfold moveFwd
    rw [dif_pos (by omega)]
    obtain ⟨m1, h1, u1, g1⟩ := mvTo_upd hx (by omega : dest < m.length)
    obtain ⟨m2, h2, g2, u2⟩ := ih m1 (first + 1) (dest + 1) (hX.upd u1 (fun j _ _ => by omega)) (by omega) (by omega)
      (by rw [u1.len]; omega)
    refine ⟨m2, ?_, ?_, (u1.trans u2).mono (fun j => by unfold Seg; omega)⟩
    · rw [h1, R.ok_bind, h2, show dest + 1 + X.length = dest + (X.length + 1) by omega]
    · rw [At.cons_iff]
      refine ⟨?_, g2⟩
      rw [u2.out _ (by unfold Seg; omega)]; exact g1

theorem moveBackward_spec' (n : Nat) : ∀ (m : Mem α) (first last dest : Nat) (X : List α), X.length = n → At m first X →
    last = first + X.length → (last ≤ dest ∨ dest ≤ first) → (X.length ≤ dest) → (dest ≤ m.length) →
    ∃ m', moveBackward m first last dest = .ok m' ∧ At m' (dest - X.length) X ∧
      Upd m m' (fun j => Seg first last j ∨ Seg (dest - X.length) dest j) := by
  induction n with
  | zero =>
    intro m first last dest X hn hX hl hd hb hb'
    have := List.length_eq_zero_iff.1 hn
    subst this
    unfold moveBackward
    simp at hl; subst hl
    exact ⟨m, by simp; rfl, At.nil _ _, Upd.refl _ _⟩
  | succ n ih =>
    intro m first last dest X hn hX hl hd hb hb'
    obtain h | ⟨Y, c, rfl⟩ := snoc_cases X
    · subst h; simp at hn
    · simp only [List.length_append, List.length_cons, List.length_nil] at hl hb hn ⊢
      obtain ⟨hY, hc⟩ := At.snoc_iff.1 hX
      unfold moveBackward
      rw [dif_pos (by omega)]
      have e : last - 1 = first + Y.length := by omega
      obtain ⟨m1, h1, u1, g1⟩ := mvTo_upd (by rw [e]; exact hc : m[last - 1]? = some (some c)) (by omega : dest - 1 < m.length)
      obtain ⟨m2, h2, g2, u2⟩ := ih m1 first (last - 1) (dest - 1) Y (by omega) (hY.upd u1 (fun j _ _ => by omega)) (by omega)
        (by omega) (by omega) (by rw [u1.len]; omega)
      refine ⟨m2, ?_, ?_, (u1.trans u2).mono (fun j => by unfold Seg; omega)⟩
      · rw [h1]; exact h2
      · rw [At.snoc_iff]
        have e2 : dest - (Y.length + (0 + 1)) = dest - 1 - Y.length := by omega
        rw [e2]
        refine ⟨g2, ?_⟩
        rw [show dest - 1 - Y.length + Y.length = dest - 1 by omega, u2.out _ (by unfold Seg; omega)]
        exact g1

/-- what every implementation of `rotate` guarantees -/
def RotPost (m : Mem α) (first : Nat) (A B : List α) (r : R (Mem α × Nat)) : Prop :=
  ∃ m', r = .ok (m', first + B.length) ∧ At m' first (B ++ A) ∧ Upd m m' (Seg first (first + A.length + B.length))

theorem rotateRA_spec (m : Mem α) (first mid last : Nat) (A B : List α) (hA : At m first (A ++ B))
    (hm : mid = first + A.length) (hl : last = mid + B.length) : RotPost m first A B (rotateRA m first mid last) := by
  unfold RotPost rotateRA
  by_cases h1 : first = mid
  · rw [if_pos h1]
    have : A = [] := List.length_eq_zero_iff.1 (by omega)
    subst this
    exact ⟨m, by rw [hl, ← h1]; rfl, by simpa using hA, Upd.refl _ _⟩
  rw [if_neg h1]
  by_cases h2 : mid = last
  · rw [if_pos h2]
    have : B = [] := List.length_eq_zero_iff.1 (by omega)
    subst this
    exact ⟨m, rfl, by simpa using hA, Upd.refl _ _⟩
  rw [if_neg h2]
  obtain ⟨hA, hB⟩ := At.append_iff.1 hA
  obtain ⟨m1, e1, a1, u1⟩ := reverse_spec _ m first mid A rfl hA hm
  obtain ⟨m2, e2, a2, u2⟩ := reverse_spec _ m1 mid last B rfl (by rw [hm]; exact hB.upd u1 (fun j _ _ => by unfold Seg; omega)) hl
  obtain ⟨m3, e3, a3, u3⟩ := reverse_spec _ m2 first last (A.reverse ++ B.reverse) rfl
    (At.append_iff.2 ⟨a1.upd u2 (fun j _ _ => by simp at *; omega), by simpa [hm] using a2⟩) (by simp; omega)
  refine ⟨m3, ?_, by simpa using a3, ((u1.trans u2).trans u3).mono (fun j => by unfold Seg; omega)⟩
  rw [e1, R.ok_bind, e2, R.ok_bind, e3, R.ok_bind, hl, Nat.add_sub_cancel_left]; rfl

theorem reverseUntilSentinel_spec (m : Mem α) (f s l : Nat) (A B : List α) (hA : At m f (A ++ B))
    (hs : s = f + A.length) (hl : l = s + B.length) :
    ∃ m' tf tl, reverseUntilSentinel m f s l = .ok (m', tf, tl) ∧ Upd m m' (Seg f l) ∧
      ((A.length ≤ B.length ∧ ∃ B1 B2, B = B1 ++ B2 ∧ B2.length = A.length ∧ At m' f (B2.reverse ++ B1 ++ A.reverse) ∧
          tf = s ∧ tl = s + B1.length) ∨
       (B.length < A.length ∧ ∃ A1 A2, A = A1 ++ A2 ∧ A1.length = B.length ∧ At m' f (B.reverse ++ A2 ++ A1.reverse) ∧
          tf = f + B.length ∧ tl = s)) := by
  induction A generalizing m f l B with
  | nil =>
    unfold reverseUntilSentinel
    simp at hs; subst hs
    rw [dif_neg (by omega)]
    exact ⟨m, s, l, rfl, Upd.refl _ _, Or.inl ⟨by simp, B, [], by simp, rfl, by simpa using hA, rfl, hl⟩⟩
  | cons a A ih =>
    unfold reverseUntilSentinel
    simp only [List.length_cons] at hs
    obtain h | ⟨Y, c, rfl⟩ := snoc_cases B
    · subst h
      simp at hl; subst hl
      rw [dif_neg (by omega)]
      exact ⟨m, f, l, rfl, Upd.refl _ _, Or.inr ⟨by simp, [], a :: A, by simp, rfl, by simpa using hA, rfl, rfl⟩⟩
    · simp only [List.length_append, List.length_cons, List.length_nil] at hl
      rw [dif_pos (by omega)]
      obtain ⟨hA, hY⟩ := At.append_iff.1 hA
      obtain ⟨ha, hA⟩ := At.cons_iff.1 hA
      obtain ⟨hY, hc⟩ := At.snoc_iff.1 hY
      simp only [List.length_cons] at hY hc
      have e : l - 1 = f + (A.length + 1) + Y.length := by omega
      obtain ⟨m1, h1, u1, g1, g2⟩ := swp_upd ha (by rw [e]; exact hc : m[l - 1]? = some (some c))
      obtain ⟨m2, tf, tl, h2, u2, hh⟩ := ih m1 (f + 1) (l - 1) Y
        (At.append_iff.2 ⟨hA.upd u1 (fun j _ _ => by omega), by
          have := hY.upd u1 (fun j _ _ => by omega)
          rw [show f + 1 + A.length = f + (A.length + 1) by omega]; exact this⟩) (by omega) (by omega)
      refine ⟨m2, tf, tl, by rw [h1]; exact h2, (u1.trans u2).mono (fun j => by unfold Seg; omega), ?_⟩
      have gf : m2[f]? = some (some c) := by rw [u2.out _ (by unfold Seg; omega)]; exact g1
      have gl : m2[l - 1]? = some (some a) := by rw [u2.out _ (by unfold Seg; omega)]; exact g2
      rcases hh with ⟨hle, B1, B2, rfl, hB2, hat, h5, h6⟩ | ⟨hlt, A1, A2, rfl, hA1, hat, h5, h6⟩
      · left
        refine ⟨by simp at *; omega, B1, B2 ++ [c], by simp, by simp; omega, ?_, h5, h6⟩
        have : (B2 ++ [c]).reverse ++ B1 ++ (a :: A).reverse = c :: (B2.reverse ++ B1 ++ A.reverse ++ [a]) := by simp
        rw [this, At.cons_iff, At.snoc_iff]
        refine ⟨gf, hat, ?_⟩
        convert gl using 2
        simp at *; omega
      · right
        refine ⟨by simp at *; omega, a :: A1, A2, by simp, by simp; omega, ?_, ?_, h6⟩
        · have : (Y ++ [c]).reverse ++ A2 ++ (a :: A1).reverse = c :: (Y.reverse ++ A2 ++ A1.reverse ++ [a]) := by simp
          rw [this, At.cons_iff, At.snoc_iff]
          refine ⟨gf, hat, ?_⟩
          convert gl using 2
          simp at *; omega
        · simp at *; omega

theorem rotateBidi_spec (m : Mem α) (first mid last : Nat) (A B : List α) (hA : At m first (A ++ B))
    (hm : mid = first + A.length) (hl : last = mid + B.length) : RotPost m first A B (rotateBidi m first mid last) := by
  unfold RotPost rotateBidi
  by_cases h1 : first = mid
  · rw [if_pos h1]
    have : A = [] := List.length_eq_zero_iff.1 (by omega)
    subst this
    exact ⟨m, by rw [hl, ← h1]; rfl, by simpa using hA, Upd.refl _ _⟩
  rw [if_neg h1]
  by_cases h2 : mid = last
  · rw [if_pos h2]
    have : B = [] := List.length_eq_zero_iff.1 (by omega)
    subst this
    exact ⟨m, rfl, by simpa using hA, Upd.refl _ _⟩
  rw [if_neg h2]
  obtain ⟨hA, hB⟩ := At.append_iff.1 hA
  obtain ⟨m1, e1, a1, u1⟩ := reverse_spec _ m first mid A rfl hA hm
  obtain ⟨m2, e2, a2, u2⟩ := reverse_spec _ m1 mid last B rfl (by rw [hm]; exact hB.upd u1 (fun j _ _ => by unfold Seg; omega)) hl
  obtain ⟨m3, tf, tl, e3, u3, hh⟩ := reverseUntilSentinel_spec m2 first mid last A.reverse B.reverse
    (At.append_iff.2 ⟨a1.upd u2 (fun j _ _ => by simp at *; omega), by simpa [hm] using a2⟩) (by simp; omega) (by simp; omega)
  rw [e1, R.ok_bind, e2, R.ok_bind, e3, R.ok_bind]
  rcases hh with ⟨hle, B1, B2, hB, hB2, hat, h5, h6⟩ | ⟨hlt, A1, A2, hA', hA1, hat, h5, h6⟩
  · have hlB : B.length = B1.length + B2.length := by have := congrArg List.length hB; simpa using this
    simp only [List.length_reverse] at hB2 hle
    obtain ⟨p1, p3⟩ := At.append_iff.1 hat
    obtain ⟨p1, p2⟩ := At.append_iff.1 p1
    obtain ⟨m4, e4, a4, u4⟩ := reverse_spec _ m3 tf tl B1 rfl (by
      have : tf = first + B2.reverse.length := by simp; omega
      rw [this]; exact p2) (by omega)
    refine ⟨m4, ?_, ?_, (((u1.trans u2).trans u3).trans u4).mono (fun j => by unfold Seg; omega)⟩
    · simp only [e4, R.ok_bind]
      rw [if_neg (by omega)]
      have : tl = first + B.length := by omega
      rw [this]; rfl
    · have hBr : B = B2.reverse ++ B1.reverse := by have := congrArg List.reverse hB; simpa using this
      have : B ++ A = B2.reverse ++ B1.reverse ++ A.reverse.reverse := by rw [hBr]; simp
      rw [this, At.append_iff, At.append_iff]
      refine ⟨⟨p1.upd u4 (fun j _ _ => by simp at *; omega), ?_⟩, ?_⟩
      · have : first + B2.reverse.length = tf := by simp; omega
        rw [this]; exact a4
      · have := p3.upd u4 (fun j _ _ => by simp at *; omega)
        simpa using this
  · have hlA : A.length = A1.length + A2.length := by have := congrArg List.length hA'; simpa using this
    simp only [List.length_reverse] at hA1 hlt
    obtain ⟨p1, p3⟩ := At.append_iff.1 hat
    obtain ⟨p1, p2⟩ := At.append_iff.1 p1
    simp only [List.length_reverse] at h5
    obtain ⟨m4, e4, a4, u4⟩ := reverse_spec _ m3 tf tl A2 rfl (by
      have : tf = first + B.reverse.reverse.length := by simp; omega
      rw [this]; exact p2) (by omega)
    refine ⟨m4, ?_, ?_, (((u1.trans u2).trans u3).trans u4).mono (fun j => by unfold Seg; omega)⟩
    · simp only [e4, R.ok_bind]
      rw [if_pos (by omega), h5]; rfl
    · have hAr : A = A2.reverse ++ A1.reverse := by have := congrArg List.reverse hA'; simpa using this
      have : B ++ A = B.reverse.reverse ++ A2.reverse ++ A1.reverse := by rw [hAr]; simp
      rw [this, At.append_iff, At.append_iff]
      refine ⟨⟨p1.upd u4 (fun j _ _ => by simp at *; omega), ?_⟩, ?_⟩
      · have : first + B.reverse.reverse.length = tf := by simp; omega
        rw [this]; exact a4
      · have := p3.upd u4 (fun j _ _ => by simp at *; omega)
        simpa using this

theorem rotCycle_spec (W : List α) : ∀ (m : Mem α) (first mid next last : Nat) (U V : List α), At m first (U ++ V ++ W) →
    mid = first + U.length → next = mid + V.length → last = next + W.length → U ≠ [] → W ≠ [] →
    ∃ m' mid' U' V', rotCycle m first mid next last = .ok (m', first + W.length, mid') ∧
      At m' first (W ++ U' ++ V') ∧ mid' = first + W.length + U'.length ∧ U' ≠ [] ∧ V' ++ U' = V ++ U ∧
      Upd m m' (Seg first last) := by
  induction W with
  | nil => intro _ _ _ _ _ _ _ _ _ _ _ _ h; exact absurd rfl h
  | cons w W ih =>
    intro m first mid next last U V hat hm hn hl hU _
    match U, hU with
    | u :: U, _ =>
      simp only [List.length_cons] at hm hl
      obtain ⟨h1, h2⟩ := At.append_iff.1 hat
      obtain ⟨hu, h1⟩ := At.cons_iff.1 h1
      obtain ⟨hw, h2⟩ := At.cons_iff.1 h2
      have e : first + (u :: U ++ V).length = next := by simp; omega
      rw [e] at hw h2
      obtain ⟨m1, e1, u1, g1, g2⟩ := swp_upd hu hw
      have hrest : At m1 (first + 1) (U ++ (V ++ [u]) ++ W) := by
        have : U ++ (V ++ [u]) ++ W = (U ++ V ++ [u]) ++ W := by simp
        rw [this, At.append_iff, At.snoc_iff]
        refine ⟨⟨h1.upd u1 (fun j _ _ => by simp at *; omega), ?_⟩, ?_⟩
        · convert g2 using 2; simp; omega
        · have := h2.upd u1 (fun j _ _ => by omega)
          convert this using 1; simp; omega
      unfold rotCycle
      rw [e1, R.ok_bind]
      -- the new split of [first+1, next+1)
      obtain ⟨U', V', mid', hmid', hU', hne, hperm, hl'⟩ : ∃ U' V' mid', mid' = (if first + 1 = mid then next + 1 else mid) ∧
          U' ++ V' = U ++ (V ++ [u]) ∧ U' ≠ [] ∧ V' ++ U' = V ++ u :: U ∧ mid' = first + 1 + U'.length := by
        by_cases h : first + 1 = mid
        · have : U = [] := List.length_eq_zero_iff.1 (by omega)
          subst this
          refine ⟨V ++ [u], [], next + 1, by rw [if_pos h], by simp, by simp, by simp, by simp; omega⟩
        · refine ⟨U, V ++ [u], mid, by rw [if_neg h], rfl, ?_, by simp, by omega⟩
          rintro rfl; simp at hm; omega
      simp only
      rw [← hmid']
      rw [← hU'] at hrest
      have hlen : U'.length + V'.length = U.length + (V.length + 1) := by
        have := congrArg List.length hU'; simpa using this
      by_cases hlast : next + 1 < last
      · rw [dif_pos hlast]
        obtain ⟨m2, mid2, U2, V2, k1, k2, k3, k4, k5, k6⟩ := ih m1 (first + 1) mid' (next + 1) last U' V' hrest hl' (by omega) (by omega) hne
          (by rintro rfl; simp at hl; omega)
        refine ⟨m2, mid2, U2, V2, ?_, ?_, by simp; omega, k4, k5.trans hperm, (u1.trans k6).mono (fun j => by unfold Seg; omega)⟩
        · rw [k1, List.length_cons]; congr 3; omega
        · rw [List.cons_append, List.cons_append, At.cons_iff]
          refine ⟨?_, k2⟩
          rw [k6.out _ (by unfold Seg; omega)]; exact g1
      · rw [dif_neg hlast]
        have : W = [] := List.length_eq_zero_iff.1 (by omega)
        subst this
        refine ⟨m1, mid', U', V', rfl, ?_, by simp; omega, hne, hperm, u1.mono (fun j => by unfold Seg; omega)⟩
        rw [List.cons_append, List.cons_append, At.cons_iff]
        exact ⟨g1, by simpa using hrest⟩

theorem rotOuter_spec (fuel : Nat) : ∀ (m : Mem α) (first mid last : Nat) (U V : List α), At m first (U ++ V) →
    mid = first + U.length → last = mid + V.length → U ≠ [] → last - first < fuel →
    ∃ m', rotOuter fuel m first mid last = .ok m' ∧ At m' first (V ++ U) ∧ Upd m m' (Seg first last) := by
  induction fuel with
  | zero => intro _ _ _ _ _ _ _ _ _ _ h; omega
  | succ fuel ih =>
    intro m first mid last U V hat hm hl hU hf
    unfold rotOuter
    by_cases h : mid = last
    · have : V = [] := List.length_eq_zero_iff.1 (by omega)
      subst this
      rw [if_neg (by simpa using h)]
      exact ⟨m, rfl, by simpa using hat, Upd.refl _ _⟩
    · rw [if_pos h]
      have hV : V ≠ [] := by rintro rfl; simp at hl; omega
      obtain ⟨m1, mid1, U1, V1, k1, k2, k3, k4, k5, k6⟩ := rotCycle_spec V m first mid mid last U [] (by simpa using hat) hm (by simp) hl hU hV
      rw [k1, R.ok_bind]
      have hlen : V1.length + U1.length = U.length := by have := congrArg List.length k5; simpa using this
      have hVl := List.length_pos_iff.2 hV
      rw [List.append_assoc] at k2
      obtain ⟨q1, q2⟩ := At.append_iff.1 k2
      obtain ⟨m2, e2, a2, u2⟩ := ih m1 (first + V.length) mid1 last U1 V1 q2 k3 (by omega) k4 (by omega)
      refine ⟨m2, e2, ?_, (k6.trans u2).mono (fun j => by unfold Seg; omega)⟩
      rw [At.append_iff]
      refine ⟨q1.upd u2 (fun j _ _ => by unfold Seg; omega), ?_⟩
      rw [k5] at a2; simpa using a2

theorem rotateFwd_spec (m : Mem α) (first mid last : Nat) (A B : List α) (hA : At m first (A ++ B))
    (hm : mid = first + A.length) (hl : last = mid + B.length) : RotPost m first A B (rotateFwd m first mid last) := by
  unfold RotPost rotateFwd
  by_cases h1 : first = mid
  · rw [if_pos h1]
    have : A = [] := List.length_eq_zero_iff.1 (by omega)
    subst this
    exact ⟨m, by rw [hl, ← h1]; rfl, by simpa using hA, Upd.refl _ _⟩
  rw [if_neg h1]
  by_cases h2 : mid = last
  · rw [if_pos h2]
    have : B = [] := List.length_eq_zero_iff.1 (by omega)
    subst this
    exact ⟨m, rfl, by simpa using hA, Upd.refl _ _⟩
  rw [if_neg h2]
  have hAne : A ≠ [] := by rintro rfl; simp at hm; omega
  have hBne : B ≠ [] := by rintro rfl; simp at hl; omega
  obtain ⟨m1, mid1, U1, V1, k1, k2, k3, k4, k5, k6⟩ := rotCycle_spec B m first mid mid last A [] (by simpa using hA) hm (by simp) hl hAne hBne
  have hlen : V1.length + U1.length = A.length := by have := congrArg List.length k5; simpa using this
  rw [List.append_assoc] at k2
  obtain ⟨q1, q2⟩ := At.append_iff.1 k2
  obtain ⟨m2, e2, a2, u2⟩ := rotOuter_spec (last - first + 1) m1 (first + B.length) mid1 last U1 V1 q2 k3 (by omega) k4 (by omega)
  refine ⟨m2, ?_, ?_, (k6.trans u2).mono (fun j => by unfold Seg; omega)⟩
  · simp only [k1, R.ok_bind, e2]; rfl
  · rw [At.append_iff]
    refine ⟨q1.upd u2 (fun j _ _ => by unfold Seg; omega), ?_⟩
    rw [k5] at a2; simpa using a2

theorem bufferedRotate_spec (m : Mem α) (first mid last tmp cap : Nat) (A B : List α) (hA : At m first (A ++ B))
    (hm : mid = first + A.length) (hl : last = mid + B.length) (ht : last ≤ tmp) (hc : tmp + cap ≤ m.length) :
    ∃ m', bufferedRotate m first mid last A.length B.length tmp cap = .ok (m', first + B.length) ∧ At m' first (B ++ A) ∧
      Upd m m' (fun j => Seg first last j ∨ Seg tmp (tmp + cap) j) := by
  unfold bufferedRotate
  by_cases h1 : A.length = 0
  · rw [if_pos h1]
    have : A = [] := List.length_eq_zero_iff.1 h1
    subst this
    simp at hm
    exact ⟨m, by rw [hl, hm]; rfl, by simpa using hA, Upd.refl _ _⟩
  rw [if_neg h1]
  by_cases h2 : B.length = 0
  · rw [if_pos h2]
    have : B = [] := List.length_eq_zero_iff.1 h2
    subst this
    exact ⟨m, rfl, by simpa using hA, Upd.refl _ _⟩
  rw [if_neg h2]
  obtain ⟨pA, pB⟩ := At.append_iff.1 hA
  split
  · rename_i h
    obtain ⟨m1, e1, a1, u1⟩ := moveFwd_spec m first mid tmp A pA hm (by omega) (by omega)
    obtain ⟨m2, e2, a2, u2⟩ := moveFwd_spec m1 mid last first B (by rw [hm]; exact pB.upd u1 (fun j _ _ => by unfold Seg; omega)) hl (by omega)
      (by rw [u1.len]; omega)
    obtain ⟨m3, e3, a3, u3⟩ := moveFwd_spec m2 tmp (tmp + A.length) (first + B.length) A (a1.upd u2 (fun j _ _ => by unfold Seg; omega)) rfl (by omega)
      (by rw [u2.len, u1.len]; omega)
    refine ⟨m3, ?_, ?_, ((u1.trans u2).trans u3).mono (fun j => by unfold Seg; omega)⟩
    · simp only [e1, R.ok_bind, e2, e3]; rfl
    · rw [At.append_iff]
      exact ⟨a2.upd u3 (fun j _ _ => by unfold Seg; omega), a3⟩
  split
  · rename_i h h'
    obtain ⟨m1, e1, a1, u1⟩ := moveFwd_spec m mid last tmp B (by rw [hm]; exact pB) hl (by omega) (by omega)
    obtain ⟨m2, e2, a2, u2⟩ := moveBackward_spec' _ m1 first mid last A rfl (pA.upd u1 (fun j _ _ => by unfold Seg; omega)) hm (by omega) (by omega)
      (by rw [u1.len]; omega)
    obtain ⟨m3, e3, a3, u3⟩ := moveFwd_spec m2 tmp (tmp + B.length) first B (a1.upd u2 (fun j _ _ => by unfold Seg; omega)) rfl (by omega)
      (by rw [u2.len, u1.len]; omega)
    refine ⟨m3, ?_, ?_, ((u1.trans u2).trans u3).mono (fun j => by unfold Seg; omega)⟩
    · rw [e1, R.ok_bind]; simp only; rw [e2, R.ok_bind, e3]
    · rw [At.append_iff]
      refine ⟨a3, ?_⟩
      have := a2.upd u3 (fun j _ _ => by unfold Seg; omega)
      rw [show last - A.length = first + B.length by omega] at this
      exact this
  · obtain ⟨m', e, a, u⟩ := rotateRA_spec m first mid last A B hA hm hl
    exact ⟨m', e, a, u.mono (fun j => by unfold Seg; omega)⟩

end STL
