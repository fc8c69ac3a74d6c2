import Verif.Reorder.Lemmas2

/-!
# Property C31: in-place reordering algorithms compute their specification

Every theorem is about a range `X` sitting between arbitrary cells `P` and `S` of a larger memory; the conclusion gives the
whole final memory, so nothing outside the range is touched, and `.ok` means no out-of-range access and no read of a
moved-from element.
-/

namespace STL

namespace Spec
variable {α : Type _}
/-- Keep the first element of every maximal run of consecutive elements equal to their predecessor. -/
def firstOfRuns (eq : α → α → Bool) : List α → List α
  | [] => []
  | x :: l => x :: ((x :: l).zip l).filterMap (fun ab => if eq ab.1 ab.2 then none else some ab.2)
end Spec

variable {α : Type _}

theorem at_mid (P S : Mem α) (X : List α) : At (P ++ full X ++ S) P.length X := by
  intro i h
  rw [List.append_assoc, List.getElem?_append_right (by omega), List.getElem?_append_left (by simp; omega)]
  simp [full, h]

theorem rebuild_mid {P Q S m' : Mem α} {n : Nat} (hu : Upd (P ++ Q ++ S) m' (Seg P.length (P.length + n))) (hn : Q.length = n) :
    ∃ Q' : Mem α, m' = P ++ Q' ++ S ∧ Q'.length = n ∧ ∀ Y, At m' P.length Y → Y.length ≤ n → Q'.take Y.length = full Y := by
  have hlen := hu.len
  simp at hlen
  refine ⟨(m'.drop P.length).take n, ?_, by simp; omega, ?_⟩
  · apply List.ext_getElem?
    intro i
    by_cases h1 : i < P.length
    · rw [hu.out i (by unfold Seg; omega), List.append_assoc, List.append_assoc, List.getElem?_append_left h1, List.getElem?_append_left h1]
    · by_cases h2 : i < P.length + n
      · rw [List.append_assoc, List.getElem?_append_right (by omega), List.getElem?_append_left (by simp; omega),
          List.getElem?_take_of_lt (by omega), List.getElem?_drop]
        congr 1; omega
      · have e : (P ++ Q ++ S)[i]? = S[i - (P.length + n)]? := by
          rw [List.getElem?_append_right (by simp; omega)]; simp [hn]
        have e2 : (P ++ List.take n (List.drop P.length m') ++ S)[i]? = S[i - (P.length + n)]? := by
          rw [List.getElem?_append_right (by simp; omega)]; simp; congr 2; omega
        rw [hu.out i (by unfold Seg; omega), e, e2]
  · intro Y hY hle
    apply eq_full_of_at
    · intro i hi
      rw [List.getElem?_take_of_lt (by omega), List.getElem?_take_of_lt (by omega), List.getElem?_drop]
      have := hY i hi
      rw [← this]; congr 1; omega
    · simp; omega

/-- conclusion for algorithms which determine the whole range -/
theorem rebuild_all {P S m' : Mem α} {X Y : List α} (hu : Upd (P ++ full X ++ S) m' (Seg P.length (P.length + X.length)))
    (hY : At m' P.length Y) (hl : Y.length = X.length) : m' = P ++ full Y ++ S := by
  obtain ⟨Q, h1, h2, h3⟩ := rebuild_mid hu (by simp)
  have := h3 Y hY (by omega)
  rw [List.take_of_length_le (by omega)] at this
  rw [h1, this]

/-- conclusion for algorithms which determine a prefix of the range -/
theorem rebuild_pre {P S m' : Mem α} {X Y : List α} (hu : Upd (P ++ full X ++ S) m' (Seg P.length (P.length + X.length)))
    (hY : At m' P.length Y) (hl : Y.length ≤ X.length) : ∃ T : Mem α, m' = P ++ full Y ++ T ++ S ∧ Y.length + T.length = X.length := by
  obtain ⟨Q, h1, h2, h3⟩ := rebuild_mid hu (by simp)
  have := h3 Y hY (by omega)
  refine ⟨Q.drop Y.length, ?_, by simp; omega⟩
  rw [h1, ← this, List.append_assoc P (List.take _ _), List.take_append_drop]

/-- **C31 reverse** -/
theorem C31_reverse (P S : Mem α) (X : List α) :
    reverse (P ++ full X ++ S) P.length (P.length + X.length) = .ok (P ++ full X.reverse ++ S) := by
  obtain ⟨m', e, a, u⟩ := reverse_spec _ _ _ _ X rfl (at_mid P S X) rfl
  rw [e, rebuild_all u a (by simp)]

/-- **C31 rotate**: all three implementations exchange the two halves and return the new position of `*first`. -/
theorem C31_rotate (P S : Mem α) (A B : List α) :
    let m := P ++ full (A ++ B) ++ S
    let r : R (Mem α × Nat) := .ok (P ++ full (B ++ A) ++ S, P.length + B.length)
    rotateRA m P.length (P.length + A.length) (P.length + A.length + B.length) = r ∧
    rotateBidi m P.length (P.length + A.length) (P.length + A.length + B.length) = r ∧
    rotateFwd m P.length (P.length + A.length) (P.length + A.length + B.length) = r := by
  intro m r
  have key : ∀ x, RotPost m P.length A B x → x = r := by
    rintro x ⟨m', e, a, u⟩
    rw [e, rebuild_all (X := A ++ B) (u.mono (fun j => by simp; omega)) a (by simp; omega)]
  exact ⟨key _ (rotateRA_spec _ _ _ _ A B (at_mid P S _) rfl rfl), key _ (rotateBidi_spec _ _ _ _ A B (at_mid P S _) rfl rfl),
    key _ (rotateFwd_spec _ _ _ _ A B (at_mid P S _) rfl rfl)⟩

/-- **C31 remove_if**: the elements failing the predicate, in order, followed by unspecified cells. -/
theorem C31_remove_if (p : α → Bool) (P S : Mem α) (X : List α) :
    ∃ T : Mem α, removeIf p (P ++ full X ++ S) P.length (P.length + X.length) =
      .ok (P ++ full (X.filter (fun x => !p x)) ++ T ++ S, P.length + (X.filter (fun x => !p x)).length) ∧
      (X.filter (fun x => !p x)).length + T.length = X.length := by
  obtain ⟨m', e, a, u⟩ := removeIf_spec p X _ _ _ (at_mid P S X) rfl
  obtain ⟨T, h1, h2⟩ := rebuild_pre u a (List.length_filter_le _ _)
  exact ⟨T, by rw [e, h1], h2⟩

theorem uniqFrom_eq {eq : α → α → Bool} (hs : ∀ a b, eq a b = eq b a)
    (ht : ∀ a b c, eq a b = true → eq b c = true → eq a c = true) (l : List α) : ∀ (b x : α), (b = x ∨ eq b x = true) →
    uniqFrom eq b l = ((x :: l).zip l).filterMap (fun ab => if eq ab.1 ab.2 then none else some ab.2) := by
  induction l with
  | nil => intro b x _; simp [uniqFrom]
  | cons y l ih =>
    intro b x hbx
    unfold uniqFrom
    have hxy : eq x y = eq b y := by
      rcases hbx with rfl | hbx
      · rfl
      · cases h : eq b y with
        | true => exact ht x b y (by rw [hs]; exact hbx) h
        | false =>
          cases h2 : eq x y with
          | false => rfl
          | true => have := ht b x y hbx h2; simp_all
    rw [List.zip_cons_cons, List.filterMap_cons]
    simp only [hxy]
    by_cases h : eq b y = true
    · rw [if_pos h]; simp only [h, if_true]; exact ih b y (Or.inr h)
    · rw [if_neg h]; simp only [h]; rw [ih y y (Or.inl rfl)]; simp

/-- **C31 unique**: for an equivalence relation, keeps exactly the first element of every run. -/
theorem C31_unique (eq : α → α → Bool) (hs : ∀ a b, eq a b = eq b a)
    (ht : ∀ a b c, eq a b = true → eq b c = true → eq a c = true) (P S : Mem α) (X : List α) :
    ∃ T : Mem α, unique eq (P ++ full X ++ S) P.length (P.length + X.length) =
      .ok (P ++ full (Spec.firstOfRuns eq X) ++ T ++ S, P.length + (Spec.firstOfRuns eq X).length) ∧
      (Spec.firstOfRuns eq X).length + T.length = X.length := by
  unfold unique
  cases X with
  | nil => exact ⟨[], by simp [Spec.firstOfRuns, full]; rfl, rfl⟩
  | cons x X =>
    have hat := at_mid P S (x :: X)
    obtain ⟨hx, hX⟩ := At.cons_iff.1 hat
    obtain ⟨m', e, a, u⟩ := uniqueFind_spec eq X _ P.length (P.length + (x :: X).length) x hx hX (by simp; omega)
    have hr : Spec.firstOfRuns eq (x :: X) = x :: uniqFrom eq x X := by
      unfold Spec.firstOfRuns
      rw [uniqFrom_eq hs ht X x x (Or.inl rfl)]
    rw [hr]
    have hle : ∀ (l : List α) b, (uniqFrom eq b l).length ≤ l.length := by
      intro l
      induction l with
      | nil => intro b; simp [uniqFrom]
      | cons y l ih =>
        intro b; unfold uniqFrom; split
        · exact Nat.le_succ_of_le (ih b)
        · simpa using ih y
    obtain ⟨T, h1, h2⟩ := rebuild_pre (X := x :: X) (u.mono (fun j => by unfold Seg; omega)) a (by simpa using hle X x)
    refine ⟨T, ?_, h2⟩
    rw [if_pos (by simp), e, h1, List.length_cons]
    congr 2; omega

/-- **C31 shift_left**: drops the first `n` elements and moves the rest to the front; nothing happens when `n` is not
smaller than the length (the returned end is `first`). -/
theorem C31_shift_left (P S : Mem α) (X : List α) (n : Nat) :
    ∃ T : Mem α, shiftLeft (P ++ full X ++ S) P.length (P.length + X.length) n =
      .ok (if n < X.length then P ++ full (X.drop n) ++ T ++ S else P ++ full X ++ S, P.length + (X.length - n)) ∧
      (n < X.length → T.length = n) := by
  unfold shiftLeft
  by_cases h0 : n = 0
  · subst h0
    refine ⟨[], ?_, fun _ => rfl⟩
    rw [if_pos rfl]
    by_cases hX : 0 < X.length
    · rw [if_pos hX]; simp; rfl
    · rw [if_neg hX]; simp; rfl
  rw [if_neg h0]
  by_cases h1 : X.length ≤ n
  · refine ⟨[], ?_, fun h => by omega⟩
    rw [if_pos (by omega), if_neg (by omega), show X.length - n = 0 by omega]; rfl
  rw [if_neg (by omega)]
  simp only [show n < X.length by omega, if_true]
  have hat := at_mid P S X
  have hd : At (P ++ full X ++ S) (P.length + n) (X.drop n) := by
    rw [← List.take_append_drop n X] at hat
    have := (At.append_iff.1 hat).2
    rw [List.length_take, Nat.min_eq_left (by omega), List.take_append_drop] at this
    exact this
  obtain ⟨m', e, a, u⟩ := moveFwd_spec _ (P.length + n) (P.length + X.length) P.length (X.drop n) hd (by simp; omega) (by omega) (by simp; omega)
  simp only [List.length_drop] at e u
  obtain ⟨T, k1, k2⟩ := rebuild_pre (X := X) (u.mono (fun j => by unfold Seg; omega)) a (by simp)
  refine ⟨T, by rw [e, k1], fun _ => by simp at k2; omega⟩

/-- what both `shift_right` implementations compute -/
theorem shiftRight_aux {P S m' : Mem α} {X : List α} {n : Nat} (hn : n < X.length)
    (a : At m' (P.length + n) (X.take (X.length - n)))
    (u : Upd (P ++ full X ++ S) m' (Seg P.length (P.length + X.length))) :
    ∃ T : Mem α, m' = P ++ T ++ full (X.take (X.length - n)) ++ S ∧ T.length = n := by
  obtain ⟨Q, h1, h2, h3⟩ := rebuild_mid u (by simp)
  refine ⟨Q.take n, ?_, by simp; omega⟩
  have : Q.drop n = full (X.take (X.length - n)) := by
    apply eq_full_of_at
    · intro i hi
      have := a i hi
      simp only [List.length_take] at hi
      rw [Nat.zero_add, List.getElem?_drop, ← this, h1, List.append_assoc, List.getElem?_append_right (by omega),
        List.getElem?_append_left (by omega)]
      congr 1; omega
    · simp; omega
  rw [← this, List.append_assoc P, List.take_append_drop, h1]

/-- **C31 shift_right** (bidirectional and forward implementations): for `n` smaller than the length the first
`length - n` elements end up at the back and the returned position is their start; otherwise the values are untouched and
the returned position is `last` (for `n = 0`, `first`). -/
theorem C31_shift_right (P S : Mem α) (X : List α) (n : Nat) :
    let m := P ++ full X ++ S
    (n < X.length → ∃ T : Mem α, T.length = n ∧
      shiftRight m P.length (P.length + X.length) n = .ok (P ++ T ++ full (X.take (X.length - n)) ++ S, P.length + n)) ∧
    (n < X.length → ∃ T : Mem α, T.length = n ∧
      shiftRightFwd m P.length (P.length + X.length) n = .ok (P ++ T ++ full (X.take (X.length - n)) ++ S, P.length + n)) ∧
    (X.length ≤ n → shiftRight m P.length (P.length + X.length) n = .ok (m, P.length + X.length) ∧
      shiftRightFwd m P.length (P.length + X.length) n = .ok (m, P.length + X.length)) := by
  intro m
  have hat := at_mid P S X
  refine ⟨fun hn => ?_, fun hn => ?_, fun hn => ?_⟩
  · unfold shiftRight
    by_cases h0 : n = 0
    · subst h0; exact ⟨[], rfl, by simp [m]; rfl⟩
    rw [if_neg h0, if_neg (by omega)]
    have hd : At m P.length (X.take (X.length - n)) := by
      rw [← List.take_append_drop (X.length - n) X] at hat
      have := (At.append_iff.1 hat).1
      rw [List.take_append_drop] at this
      exact this
    obtain ⟨m', e, a, u⟩ := moveBackward_spec' _ m P.length (P.length + X.length - n) (P.length + X.length) _ rfl hd (by simp; omega) (by omega) (by simp; omega)
      (by simp [m])
    simp only [List.length_take] at a u
    obtain ⟨T, k1, k2⟩ := shiftRight_aux hn (by convert a using 1; omega) (u.mono (fun j => by unfold Seg; omega))
    exact ⟨T, k2, by rw [e, R.ok_bind, k1]; rfl⟩
  · unfold shiftRightFwd
    by_cases h0 : n = 0
    · subst h0; exact ⟨[], rfl, by simp [m]; rfl⟩
    rw [if_neg h0, if_neg (by omega)]
    obtain ⟨r, e, hr⟩ := shiftRightProbe_spec m P.length (P.length + n) (P.length + X.length) P.length (P.length + n) X hat rfl
      (by omega) (by omega) (by omega) (by omega)
    simp only [e, R.ok_bind]
    rcases hr with ⟨rfl, hle⟩ | ⟨_, m', rfl, a, u⟩
    · have hsplit : X = X.take n ++ X.drop n := (List.take_append_drop n X).symm
      have hC : At m P.length (X.take n) ∧ At m (P.length + n) (X.drop n) := by
        rw [hsplit] at hat
        have := At.append_iff.1 hat
        rw [List.length_take, Nat.min_eq_left (by omega), List.take_append_drop] at this
        exact this
      obtain ⟨m', e2, a, u⟩ := shiftRightSwap_spec m P.length (P.length + n) (P.length + X.length) P.length (P.length + n) (P.length + n + n)
        (X.take n) [] (X.drop n) hC.1 (At.nil _ _) hC.2 (by simp) (by simp; omega) (by
          intro h; have := congrArg List.length h; rw [List.length_take, List.length_nil] at this; omega) (by omega) (by rw [Nat.add_sub_cancel_left]) (by simp; omega) (by omega)
      simp only [List.append_nil, List.take_append_drop, List.length_drop] at a
      obtain ⟨T, k1, k2⟩ := shiftRight_aux hn a (u.mono (fun j => by unfold Seg; omega))
      exact ⟨T, k2, by simp only [e2, R.ok_bind, k1]; rfl⟩
    · rw [show P.length + X.length - (P.length + n) = X.length - n by omega] at a
      obtain ⟨T, k1, k2⟩ := shiftRight_aux hn a u
      exact ⟨T, k2, by simp only [k1]; rfl⟩
  · unfold shiftRight shiftRightFwd
    by_cases h0 : n = 0
    · subst h0
      have : X = [] := List.length_eq_zero_iff.1 (by omega)
      subst this
      exact ⟨rfl, rfl⟩
    · rw [if_neg h0, if_pos (by omega), if_neg h0]
      refine ⟨rfl, ?_⟩
      by_cases h1 : X.length < n
      · rw [if_pos (by omega)]; rfl
      · have hX : X.length = n := by omega
        rw [if_neg (by omega)]
        have e : shiftRightProbe m P.length (P.length + n) (P.length + X.length) P.length (P.length + n) = .ok (some m) := by
          unfold shiftRightProbe
          rw [dif_pos (by omega), if_pos (by omega)]
          unfold moveFwd
          rw [dif_neg (by omega)]; rfl
        simp only [e, R.ok_bind]
        rw [hX]; rfl

/-- **C31 partition** (bidirectional and forward implementations): permutes the range so that the elements satisfying the
predicate come first, and returns the boundary. -/
theorem C31_partition (p : α → Bool) (P S : Mem α) (X : List α) :
    let m := P ++ full X ++ S
    (∃ T F, partitionBidi p (X.length + 1) m P.length (P.length + X.length) = .ok (P ++ full (T ++ F) ++ S, P.length + T.length) ∧
      (T ++ F).Perm X ∧ (∀ a ∈ T, p a = true) ∧ (∀ a ∈ F, p a = false)) ∧
    (∃ T F, partitionFwd p m P.length (P.length + X.length) = .ok (P ++ full (T ++ F) ++ S, P.length + T.length) ∧
      (T ++ F).Perm X ∧ (∀ a ∈ T, p a = true) ∧ (∀ a ∈ F, p a = false)) := by
  intro m
  have key : ∀ x, PartPost p m P.length X x → ∃ T F, x = .ok (P ++ full (T ++ F) ++ S, P.length + T.length) ∧
      (T ++ F).Perm X ∧ (∀ a ∈ T, p a = true) ∧ (∀ a ∈ F, p a = false) := by
    rintro x ⟨m', T, F, e, a, q, h1, h2, u⟩
    exact ⟨T, F, by rw [e, rebuild_all u a q.length_eq], q, h1, h2⟩
  exact ⟨key _ (partitionBidi_spec p _ _ _ _ X (at_mid P S X) rfl (by omega)), key _ (partitionFwd_spec p _ _ _ X (at_mid P S X) rfl)⟩

/-- **C31 stable_partition**, for every capacity `tmp.length` of the temporary buffer actually obtained (placed after the
user's memory): trues then falses, each in the original order. -/
theorem C31_stable_partition (p : α → Bool) (P S tmp : Mem α) (X : List α) :
    ∃ tmp' : Mem α, stablePartition p (P ++ full X ++ S ++ tmp) P.length (P.length + X.length) (P ++ full X ++ S).length tmp.length =
      .ok (P ++ full (X.filter p ++ X.filter (fun x => !p x)) ++ S ++ tmp', P.length + (X.filter p).length) ∧
      tmp'.length = tmp.length := by
  have hat : At (P ++ full X ++ S ++ tmp) P.length X := by
    rw [List.append_assoc _ S]; exact at_mid P (S ++ tmp) X
  obtain ⟨m', e, a, u⟩ := stablePartition_spec p (P ++ full X ++ S ++ tmp) P.length (P.length + X.length) (P ++ full X ++ S).length tmp.length X hat rfl
    (by simp) (by simp; omega)
  rw [e]
  -- final memory = take (user) ++ drop (user)
  have hlen := u.len
  simp at hlen
  have u2 : Upd (P ++ full X ++ S) (m'.take (P ++ full X ++ S).length) (Seg P.length (P.length + X.length)) := by
    refine ⟨by simp; omega, fun j hj => ?_⟩
    by_cases h : j < (P ++ full X ++ S).length
    · rw [List.getElem?_take_of_lt h, u.out j (by unfold Seg at *; omega), List.getElem?_append_left h]
    · rw [List.getElem?_eq_none (by simp at *; omega), List.getElem?_eq_none (by simp at *; omega)]
  have hfl := filter_len p X
  have a2 : At (m'.take (P ++ full X ++ S).length) P.length (X.filter p ++ X.filter (fun x => !p x)) := by
    intro i hi
    rw [List.getElem?_take_of_lt (by simp at *; omega)]
    exact a i hi
  have := rebuild_all u2 a2 (by simp only [List.length_append]; omega)
  refine ⟨m'.drop (P ++ full X ++ S).length, ?_, by simp; omega⟩
  rw [← this, List.take_append_drop]

/-! Non-vacuity: the theorems have no hypotheses except those of `unique`, which equality on `Nat` meets. -/
example : (∀ a b : Nat, (a == b) = (b == a)) ∧ (∀ a b c : Nat, (a == b) = true → (b == c) = true → (a == c) = true) := by
  constructor
  · intro a b; rw [Bool.eq_iff_iff, beq_iff_eq, beq_iff_eq]; omega
  · intro a b c; simp; omega

example : Spec.firstOfRuns (fun a b : Nat => a == b) [1, 1, 2, 3, 3, 3, 1] = [1, 2, 3, 1] := by decide

end STL
