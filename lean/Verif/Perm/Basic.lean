import Verif.Perm.Model
import Verif.Reorder.Props
import Verif.SetOps.Props
import Verif.Tac

/-! # Proof helpers for the permutation algorithms -/

namespace STL
variable {α : Type} {lt : α → α → Bool}

/-- `xs = B ++ a :: (P ++ c :: Q)`: the suffix after `a` is non-increasing and `c` is its last element above `a`. -/
structure PDec (lt : α → α → Bool) (a : α) (P : List α) (c : α) (Q : List α) : Prop where
  desc : (P ++ c :: Q).Pairwise (fun x y => lt x y = false)
  up : lt a c = true
  rest : ∀ q ∈ Q, lt a q = false

theorem perm_cases (h : SWO lt) (xs : List α) :
    xs.Pairwise (fun x y => lt x y = false) ∨ ∃ B a P c Q, xs = B ++ a :: (P ++ c :: Q) ∧ PDec lt a P c Q := by
  induction xs with
  | nil => exact Or.inl List.Pairwise.nil
  | cons x xs ih =>
    rcases ih with hd | ⟨B, a, P, c, Q, e, hd⟩
    · have key : ∀ D : List α, (∀ y ∈ D, lt x y = false) ∨ ∃ P c Q, D = P ++ c :: Q ∧ lt x c = true ∧ ∀ q ∈ Q, lt x q = false := by
        intro D
        induction D with
        | nil => left; simp
        | cons d D ih =>
          rcases ih with h1 | ⟨P, c, Q, e, h1, h2⟩
          · cases hxd : lt x d with
            | true => exact Or.inr ⟨[], d, D, rfl, hxd, h1⟩
            | false => left; intro y hy; rcases List.mem_cons.1 hy with rfl | hy
                       · exact hxd
                       · exact h1 y hy
          · exact Or.inr ⟨d :: P, c, Q, by simp [e], h1, h2⟩
      rcases key xs with h1 | ⟨P, c, Q, e, h1, h2⟩
      · exact Or.inl (List.pairwise_cons.2 ⟨h1, hd⟩)
      · exact Or.inr ⟨[], x, P, c, Q, by simp [e], ⟨e ▸ hd, h1, h2⟩⟩
    · exact Or.inr ⟨x :: B, a, P, c, Q, by simp [e], hd⟩

theorem nextPermMid_spec (n : Nat) : ∀ (m : Mem α) (next mid : Nat) (a : α) (c : α) (Q : List α), Q.length = n →
    m[next]? = some (some a) → (p : Nat) → At m p (c :: Q) → mid = p + 1 + Q.length → lt a c = true → (∀ q ∈ Q, lt a q = false) →
    nextPermMid lt m next mid = .ok p := by
  induction n with
  | zero =>
    intro m next mid a c Q hn ha p hQ hm hac hq
    obtain rfl : Q = [] := List.length_eq_zero_iff.1 hn
    unfold nextPermMid
    simp only [List.length_nil, Nat.add_zero] at hm
    subst hm
    have hc := hQ 0 (by simp)
    simp only [Nat.add_zero, List.getElem_cons_zero] at hc
    rw [dif_neg (by omega), rd_of ha, R.ok_bind, Nat.add_sub_cancel, rd_of hc, R.ok_bind, if_pos hac]
  | succ n ih =>
    intro m next mid a c Q hn ha p hQ hm hac hq
    rcases snoc_cases Q with rfl | ⟨Q', b, rfl⟩
    · simp at hn
    · unfold nextPermMid
      have hQ' : At m p ((c :: Q') ++ [b]) := by simpa using hQ
      obtain ⟨h1, h2⟩ := At.snoc_iff.1 hQ'
      simp only [List.length_cons, List.length_append, List.length_nil] at h2 hm hn
      have e : mid - 1 = p + (Q'.length + 1) := by omega
      rw [dif_neg (by omega), rd_of ha, R.ok_bind, e, rd_of h2, R.ok_bind, if_neg (by rw [hq b (by simp)]; simp)]
      exact ih m next _ a c Q' (by omega) ha p h1 (by omega) hac (fun q hq' => hq q (by simp [hq']))

theorem nextPermLoop_dec (h : SWO lt) (n : Nat) : ∀ (m : Mem α) (first next last : Nat) (B : List α) (a : α) (P : List α) (c : α) (Q Z1 Z2 : List α),
    Z1.length = n → At m first (B ++ a :: (P ++ c :: Q)) → PDec lt a P c Q → P ++ c :: Q = Z1 ++ Z2 → Z2 ≠ [] →
    next = first + B.length + 1 + Z1.length → last = first + (B ++ a :: (P ++ c :: Q)).length →
    ∃ m', nextPermLoop lt m first next last = .ok (m', true) ∧ At m' first (B ++ c :: (P ++ a :: Q).reverse) ∧
      Upd m m' (Seg first last) := by
  induction n with
  | zero =>
    intro m first next last B a P c Q Z1 Z2 hn hA hd hZ hZ2 hnext hlast
    obtain rfl : Z1 = [] := List.length_eq_zero_iff.1 hn
    simp only [List.length_nil, Nat.add_zero] at hnext
    unfold nextPermLoop
    simp only [List.length_append, List.length_cons] at hlast
    obtain ⟨hB, hA'⟩ := At.append_iff.1 hA
    obtain ⟨ha, hD⟩ := At.cons_iff.1 hA'
    obtain ⟨hP, hcQ⟩ := At.append_iff.1 hD
    obtain ⟨hc, hQ⟩ := At.cons_iff.1 hcQ
    have e1 : next - 1 = first + B.length := by omega
    -- first element of the suffix is above a
    obtain ⟨d, hdm, had⟩ : ∃ d, m[next]? = some (some d) ∧ lt a d = true := by
      cases P with
      | nil => exact ⟨c, by rw [hnext]; simpa using hc, hd.up⟩
      | cons p P =>
        refine ⟨p, by rw [hnext]; exact (At.cons_iff.1 hP).1, ?_⟩
        have := hd.desc
        rw [List.cons_append, List.pairwise_cons] at this
        have h1 := this.1 c (by simp)
        have h2 := hd.up
        cases hap : lt a p with
        | true => rfl
        | false => have := h.lt_of_lt_of_le h2 h1; rw [hap] at this; contradiction
    rw [dif_neg (by omega), e1, rd_of ha, R.ok_bind, rd_of hdm, R.ok_bind, if_pos had,
      nextPermMid_spec Q.length m _ last a c Q rfl ha _ hcQ (by omega) hd.up hd.rest, R.ok_bind]
    obtain ⟨m1, h1, u1, g1, g2⟩ := swp_upd ha hc
    have hS : At m1 next (P ++ a :: Q) := by
      rw [At.append_iff, At.cons_iff, hnext]
      refine ⟨hP.upd u1 (fun j _ _ => by omega), g2, hQ.upd u1 (fun j _ _ => by omega)⟩
    obtain ⟨m2, h2, g3, u2⟩ := reverse_spec _ m1 next last (P ++ a :: Q) rfl hS (by simp; omega)
    refine ⟨m2, by rw [h1, R.ok_bind, h2, R.ok_bind], ?_, (u1.trans u2).mono (fun j => by unfold Seg; omega)⟩
    rw [At.append_iff, At.cons_iff]
    refine ⟨hB.upd (u1.trans u2) (fun j _ _ => by simp only [Seg]; omega), ?_, ?_⟩
    · rw [u2.out _ (by simp only [Seg]; omega)]; exact g1
    · rw [← hnext]; exact g3
  | succ n ih =>
    intro m first next last B a P c Q Z1 Z2 hn hA hd hZ hZ2 hnext hlast
    rcases snoc_cases Z1 with rfl | ⟨Z, x, rfl⟩
    · simp at hn
    · obtain ⟨z, Z2', rfl⟩ : ∃ z Z2', Z2 = z :: Z2' := by cases Z2 with | nil => exact absurd rfl hZ2 | cons z Z => exact ⟨z, Z, rfl⟩
      unfold nextPermLoop
      have hD := (At.cons_iff.1 (At.append_iff.1 hA).2).2
      rw [hZ, At.append_iff, At.snoc_iff, At.cons_iff] at hD
      obtain ⟨⟨_, hx⟩, hz, _⟩ := hD
      simp only [List.length_append, List.length_cons, List.length_nil] at hnext hz hn
      have hxz : lt x z = false := by
        have := hd.desc
        rw [hZ, List.append_assoc, List.pairwise_append] at this
        have := this.2.1
        simp at this
        exact this.1.1
      have e1 : next - 1 = first + B.length + 1 + Z.length := by omega
      have e2 : next = first + B.length + 1 + (Z.length + (0 + 1)) := by omega
      rw [dif_neg (by omega), e1, rd_of hx, R.ok_bind, e2, rd_of hz, R.ok_bind, if_neg (by rw [hxz]; simp), if_neg (by omega)]
      exact ih m first _ last B a P c Q Z (x :: z :: Z2') (by omega) hA hd (by simp [hZ]) (by simp) rfl hlast

theorem nextPermLoop_desc (n : Nat) : ∀ (m : Mem α) (first next last : Nat) (Z1 Z2 : List α),
    Z1.length = n → At m first (Z1 ++ Z2) → (Z1 ++ Z2).Pairwise (fun x y => lt x y = false) → Z1 ≠ [] → Z2 ≠ [] →
    next = first + Z1.length → last = first + (Z1 ++ Z2).length →
    ∃ m', nextPermLoop lt m first next last = .ok (m', false) ∧ At m' first (Z1 ++ Z2).reverse ∧
      Upd m m' (Seg first last) := by
  induction n with
  | zero => intro m first next last Z1 Z2 hn _ _ h; exact absurd (List.length_eq_zero_iff.1 hn) h
  | succ n ih =>
    intro m first next last Z1 Z2 hn hA hd hZ1 hZ2 hnext hlast
    rcases snoc_cases Z1 with rfl | ⟨Z, x, rfl⟩
    · simp at hn
    · obtain ⟨z, Z2', rfl⟩ : ∃ z Z2', Z2 = z :: Z2' := by cases Z2 with | nil => exact absurd rfl hZ2 | cons z Z => exact ⟨z, Z, rfl⟩
      unfold nextPermLoop
      have hA' := hA
      rw [At.append_iff, At.snoc_iff, At.cons_iff] at hA'
      obtain ⟨⟨_, hx⟩, hz, _⟩ := hA'
      simp only [List.length_append, List.length_cons, List.length_nil] at hnext hz hn
      have hxz : lt x z = false := by
        rw [List.append_assoc, List.pairwise_append] at hd
        have := hd.2.1
        simp at this
        exact this.1.1
      have e1 : next - 1 = first + Z.length := by omega
      rw [dif_neg (by omega), e1, rd_of hx, R.ok_bind, hnext, rd_of hz, R.ok_bind, if_neg (by rw [hxz]; simp)]
      by_cases hZ : Z = []
      · subst hZ
        obtain ⟨m2, h2, g3, u2⟩ := reverse_spec _ m first last _ rfl hA hlast
        rw [if_pos (by simp)]
        exact ⟨m2, by rw [h2, R.ok_bind], g3, u2⟩
      · have : Z.length ≠ 0 := fun h => hZ (List.length_eq_zero_iff.1 h)
        rw [if_neg (by omega)]
        have := ih m first (first + Z.length) last Z (x :: z :: Z2') (by omega) (by simpa using hA) (by simpa using hd) hZ (by simp) rfl
          (by simpa using hlast)
        simpa using this

theorem nextPermutation_dec (h : SWO lt) (m : Mem α) (first last : Nat) (B : List α) (a : α) (P : List α) (c : α) (Q : List α)
    (hA : At m first (B ++ a :: (P ++ c :: Q))) (hd : PDec lt a P c Q) (hl : last = first + (B ++ a :: (P ++ c :: Q)).length) :
    ∃ m', nextPermutation lt m first last = .ok (m', true) ∧ At m' first (B ++ c :: (P ++ a :: Q).reverse) ∧
      Upd m m' (Seg first last) := by
  unfold nextPermutation
  have hl' := hl
  simp only [List.length_append, List.length_cons] at hl'
  rw [if_neg (by omega), if_neg (by omega)]
  obtain h0 | ⟨Z, z, h0⟩ := snoc_cases (P ++ c :: Q)
  · simp at h0
  · have := congrArg List.length h0
    simp only [List.length_append, List.length_cons, List.length_nil] at this
    exact nextPermLoop_dec h _ m first (last - 1) last B a P c Q Z [z] rfl hA hd h0 (by simp) (by omega) hl

theorem nextPermutation_desc (m : Mem α) (first last : Nat) (X : List α) (hA : At m first X)
    (hd : X.Pairwise (fun x y => lt x y = false)) (hl : last = first + X.length) :
    ∃ m', nextPermutation lt m first last = .ok (m', false) ∧ At m' first X.reverse ∧ Upd m m' (Seg first last) := by
  unfold nextPermutation
  match X, hA, hd, hl with
  | [], hA, hd, hl => rw [if_pos (by simpa using hl.symm)]; exact ⟨m, rfl, At.nil _ _, Upd.refl _ _⟩
  | [x], hA, hd, hl =>
    simp at hl
    rw [if_neg (by omega), if_pos (by omega)]; exact ⟨m, rfl, by simpa using hA, Upd.refl _ _⟩
  | x :: y :: X, hA, hd, hl =>
    have hl' := hl
    simp at hl'
    rw [if_neg (by omega), if_neg (by omega)]
    obtain h | ⟨Z, z, h⟩ := snoc_cases (x :: y :: X)
    · simp at h
    · have hlen := congrArg List.length h
      simp at hlen
      rw [h] at hA hd hl ⊢
      exact nextPermLoop_desc _ m first (last - 1) last Z [z] rfl hA hd (by rintro rfl; simp at hlen) (by simp) (by omega) hl

/-! ### `prev_permutation` is `next_permutation` for the opposite order -/

theorem prevPermMid_eq (n : Nat) : ∀ (m : Mem α) (next mid : Nat), mid = n → ∀ x, rd m next = .ok x →
    prevPermMid lt m next mid = nextPermMid (fun a b => lt b a) m next mid := by
  induction n with
  | zero => intro m next mid h x hx; unfold prevPermMid nextPermMid; rw [dif_pos h, dif_pos h]
  | succ n ih =>
    intro m next mid h x hx
    unfold prevPermMid nextPermMid
    rw [dif_neg (by omega), dif_neg (by omega), hx, R.ok_bind]
    cases hy : rd m (mid - 1) with
    | error e => rfl
    | ok y => rw [R.ok_bind, R.ok_bind, R.ok_bind, ih m next (mid - 1) (by omega) x hx]

theorem rd_error {m : Mem α} {i : Nat} {e : Err} (h : rd m i = .error e) : e = .ub := by
  unfold rd at h; split at h <;> simp_all

theorem prevPermLoop_eq (n : Nat) : ∀ (m : Mem α) (first next last : Nat), next = n →
    prevPermLoop lt m first next last = nextPermLoop (fun a b => lt b a) m first next last := by
  induction n with
  | zero => intro m first next last h; unfold prevPermLoop nextPermLoop; rw [dif_pos h, dif_pos h]
  | succ n ih =>
    intro m first next last h
    unfold prevPermLoop nextPermLoop
    rw [dif_neg (by omega), dif_neg (by omega)]
    cases hy : rd m next with
    | error e =>
      obtain rfl := rd_error hy
      cases hx : rd m (next - 1) with
      | error e => obtain rfl := rd_error hx; rfl
      | ok x => rfl
    | ok y =>
      cases hx : rd m (next - 1) with
      | error e => rfl
      | ok x =>
        simp only [R.ok_bind]
        rw [prevPermMid_eq _ m (next - 1) last rfl x hx, ih m first (next - 1) last (by omega)]

theorem prevPermutation_eq (m : Mem α) (first last : Nat) :
    prevPermutation lt m first last = nextPermutation (fun a b => lt b a) m first last := by
  unfold prevPermutation nextPermutation
  rw [prevPermLoop_eq _ _ _ _ _ rfl]

theorem SWO.flip (h : SWO lt) : SWO (fun a b => lt b a) where
  irrefl := h.irrefl
  trans a b c h1 h2 := h.trans c b a h2 h1
  equiv_trans a b c h1 h2 h3 h4 := by
    have := h.equiv_trans a b c h2 h1 h4 h3
    exact ⟨this.2, this.1⟩

theorem PDec.flip (h : SWO lt) {a : α} {P : List α} {c : α} {Q : List α} (hd : PDec lt a P c Q) :
    PDec (fun a b => lt b a) c Q.reverse a P.reverse where
  desc := by
    have hd1 := hd.desc
    rw [List.pairwise_append, List.pairwise_cons] at hd1
    obtain ⟨h1, ⟨h2, h3⟩, h4⟩ := hd1
    have : Q.reverse ++ a :: P.reverse = (P ++ a :: Q).reverse := by simp
    rw [this, List.pairwise_reverse, List.pairwise_append, List.pairwise_cons]
    refine ⟨h1, ⟨hd.rest, h3⟩, ?_⟩
    intro p hp q hq
    rcases List.mem_cons.1 hq with rfl | hq
    · exact h.le_trans (h.asymm hd.up) (h4 p hp c (by simp))
    · exact h4 p hp q (by simp [hq])
  up := hd.up
  rest := by
    intro p hp
    have := hd.desc
    rw [List.pairwise_append] at this
    exact this.2.2 p (by simpa using hp) c (by simp)

end STL
