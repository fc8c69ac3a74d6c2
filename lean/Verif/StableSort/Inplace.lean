import Verif.StableSort.Merge

/-! Lemmas about `_Buffered_inplace_merge_unchecked` and `inplace_merge`. -/

namespace STL
variable {α : Type _} {lt : α → α → Bool}

theorem rotateOneRight_spec (m : Mem α) (first mid : Nat) (A : List α) (b : α) (hA : At m first (A ++ [b]))
    (hm : mid = first + A.length) :
    ∃ m', rotateOneRight m first mid (mid + 1) = .ok m' ∧ At m' first (b :: A) ∧ Upd m m' (Seg first (mid + 1)) := by
  obtain ⟨aA, hb⟩ := At.snoc_iff.1 hA
  rw [← hm] at hb
  have hlen := lt_of_cell hb
  obtain ⟨m1, e1, u1⟩ := mv_upd hb
  obtain ⟨m2, e2, a2, u2⟩ := moveBackward_spec' _ m1 first mid (mid + 1) A rfl (aA.upd u1 (fun j _ _ => by omega)) hm (by omega) (by omega)
    (by rw [u1.len]; omega)
  rw [show mid + 1 - A.length = first + 1 by omega] at a2 u2
  obtain ⟨m3, e3, u3, g3⟩ := wr_upd (m := m2) (j := first) (x := b) (by rw [u2.len, u1.len]; omega)
  refine ⟨m3, ?_, At.cons_iff.2 ⟨g3, a2.upd u3 (fun j _ _ => by omega)⟩, ((u1.trans u2).trans u3).mono (fun j => by unfold Seg; omega)⟩
  unfold rotateOneRight
  rw [e1, R.ok_bind]; simp only; rw [e2, R.ok_bind, e3]

theorem rotateOneLeft_spec (m : Mem α) (first last : Nat) (a : α) (B : List α) (hA : At m first (a :: B))
    (hl : last = first + 1 + B.length) :
    ∃ m', rotateOneLeft m first (first + 1) last = .ok m' ∧ At m' first (B ++ [a]) ∧ Upd m m' (Seg first last) := by
  have hlen := hA.le_length (by simp)
  simp only [List.length_cons] at hlen
  obtain ⟨ha, aB⟩ := At.cons_iff.1 hA
  obtain ⟨m1, e1, u1⟩ := mv_upd ha
  obtain ⟨m2, e2, a2, u2⟩ := moveFwd_spec m1 (first + 1) last first B (aB.upd u1 (fun j _ _ => by omega)) hl (by omega)
    (by rw [u1.len]; omega)
  obtain ⟨m3, e3, u3, g3⟩ := wr_upd (m := m2) (j := first + B.length) (x := a) (by rw [u2.len, u1.len]; omega)
  refine ⟨m3, ?_, At.snoc_iff.2 ⟨a2.upd u3 (fun j _ _ => by omega), g3⟩, ((u1.trans u2).trans u3).mono (fun j => by unfold Seg; omega)⟩
  unfold rotateOneLeft
  rw [e1, R.ok_bind]; simp only; rw [e2, R.ok_bind]; simp only; rw [e3]

/-- The left trimming loop drops a prefix of elements not greater than `b`. -/
theorem trimLeft_spec (m : Mem α) (mid : Nat) (b : α) (hb : m[mid]? = some (some b)) (A : List α) : ∀ (first : Nat),
    At m first A → mid = first + A.length →
    (trimLeft lt m first mid = .ok none ∧ ∀ a ∈ A, lt b a = false) ∨
    (∃ A1 a A2, A = A1 ++ a :: A2 ∧ trimLeft lt m first mid = .ok (some (first + A1.length)) ∧ (∀ z ∈ A1, lt b z = false) ∧
      lt b a = true) := by
  induction A with
  | nil => intro first _ hm; left; unfold trimLeft; simp at hm; subst hm; exact ⟨by simp; rfl, by simp⟩
  | cons a A ih =>
    intro first hA hm
    obtain ⟨ha, hA⟩ := At.cons_iff.1 hA
    simp only [List.length_cons] at hm
    unfold trimLeft
    rw [dif_pos (by omega), rd_of hb, R.ok_bind, rd_of ha, R.ok_bind]
    by_cases hc : lt b a = true
    · right
      rw [if_pos hc]
      exact ⟨[], a, A, rfl, rfl, by simp, hc⟩
    · rw [if_neg hc]
      rcases ih (first + 1) hA (by omega) with ⟨h1, h2⟩ | ⟨A1, a', A2, h1, h2, h3, h4⟩
      · left
        exact ⟨h1, fun z hz => by rcases List.mem_cons.1 hz with rfl | hz; simpa using hc; exact h2 z hz⟩
      · right
        refine ⟨a :: A1, a', A2, by rw [h1]; rfl, ?_, fun z hz => ?_, h4⟩
        · rw [h2]; simp; omega
        · rcases List.mem_cons.1 hz with rfl | hz
          · simpa using hc
          · exact h3 z hz

/-- The right trimming loop drops a suffix of elements not less than `a`, never the first element `b`. -/
theorem trimRight_spec (m : Mem α) (mid : Nat) (a : α) (hm : 0 < mid) (ha : m[mid - 1]? = some (some a)) (n : Nat) : ∀ (B : List α) (b : α) (last : Nat),
    B.length = n → At m mid (b :: B) → last = mid + 1 + B.length →
    (trimRight lt m mid last = .ok none ∧ ∀ z ∈ B, lt z a = false) ∨
    (∃ B1 c B2, B = B1 ++ c :: B2 ∧ trimRight lt m mid last = .ok (some (mid + 1 + (B1.length + 1))) ∧ (∀ z ∈ B2, lt z a = false) ∧
      lt c a = true) := by
  induction n with
  | zero =>
    intro B b last hn _ hl
    have := List.length_eq_zero_iff.1 hn; subst this
    left; unfold trimRight; simp at hl; subst hl; exact ⟨by simp; rfl, by simp⟩
  | succ n ih =>
    intro B b last hn hB hl
    obtain h | ⟨B, c, rfl⟩ := snoc_cases B
    · subst h; simp at hn
    simp only [List.length_append, List.length_cons, List.length_nil] at hn hl
    rw [← List.cons_append] at hB
    obtain ⟨hB, hc'⟩ := At.snoc_iff.1 hB
    rw [show mid + (b :: B).length = last - 1 by simp; omega] at hc'
    unfold trimRight
    rw [dif_pos (by omega), rd_of hc', R.ok_bind, rd_of ha, R.ok_bind]
    by_cases hc : lt c a = true
    · right
      rw [if_pos hc]
      exact ⟨B, c, [], by simp, by rw [hl]; rfl, by simp, hc⟩
    · rw [if_neg hc]
      rcases ih B b (last - 1) (by omega) hB (by omega) with ⟨h1, h2⟩ | ⟨B1, c', B2, h1, h2, h3, h4⟩
      · left
        refine ⟨h1, fun z hz => ?_⟩
        rcases List.mem_append.1 hz with hz | hz
        · exact h2 z hz
        · simp at hz; subst hz; simpa using hc
      · right
        refine ⟨B1, c', B2 ++ [c], by rw [h1]; simp, h2, fun z hz => ?_, h4⟩
        rcases List.mem_append.1 hz with hz | hz
        · exact h3 z hz
        · simp at hz; subst hz; simpa using hc

theorem lowerBoundLoop_at {β : Type _} (ltE : α → β → Bool) (m : Mem α) (v : β) (n : Nat) : ∀ (first : Nat) (X Y : List α),
    At m first (X ++ Y) → n = X.length + Y.length → (∀ x ∈ X, ltE x v = true) → (∀ y ∈ Y, ltE y v = false) →
    lowerBoundLoop ltE m v first n = .ok (first + X.length) := by
  induction n using Nat.strongRecOn with
  | ind n ih =>
    intro first X Y hat hn hX hY
    unfold lowerBoundLoop
    split
    · rename_i hpos
      have hr := hat.rd (n / 2) (by simp; omega)
      simp only []
      rw [hr, R.ok_bind]
      by_cases hlt : n / 2 < X.length
      · have e : (X ++ Y)[n / 2]'(by simp; omega) = X[n / 2] := List.getElem_append_left hlt
        rw [e, if_pos (hX _ (List.getElem_mem _))]
        have hd : At m (first + n / 2 + 1) (X.drop (n / 2 + 1) ++ Y) := by
          have : X ++ Y = X.take (n/2+1) ++ (X.drop (n / 2 + 1) ++ Y) := by rw [← List.append_assoc, List.take_append_drop]
          rw [this] at hat
          have := (At.append_iff.1 hat).2
          rw [show first + (X.take (n/2+1)).length = first + n / 2 + 1 by simp; omega] at this
          exact this
        rw [ih (n - (n / 2 + 1)) (by omega) (first + n / 2 + 1) (X.drop (n / 2 + 1)) Y hd (by simp; omega)
          (fun x hx => hX x (List.mem_of_mem_drop hx)) hY]
        simp; omega
      · have e : (X ++ Y)[n / 2]'(by simp; omega) = Y[n / 2 - X.length]'(by omega) := List.getElem_append_right (by omega)
        rw [e, if_neg (by rw [hY _ (List.getElem_mem _)]; simp)]
        refine ih (n / 2) (by omega) first X (Y.take (n / 2 - X.length)) ?_ (by simp; omega) hX (fun y hy => hY y (List.mem_of_mem_take hy))
        have : X ++ Y = (X ++ Y.take (n / 2 - X.length)) ++ Y.drop (n / 2 - X.length) := by rw [List.append_assoc, List.take_append_drop]
        rw [this] at hat
        exact (At.append_iff.1 hat).1
    · have : X = [] := List.length_eq_zero_iff.1 (by omega)
      subst this; rfl

theorem upperBoundLoop_at {β : Type _} (ltV : β → α → Bool) (m : Mem α) (v : β) (n : Nat) (first : Nat) (X Y : List α)
    (h : At m first (X ++ Y)) (hn : n = X.length + Y.length) (hX : ∀ x ∈ X, ltV v x = false) (hY : ∀ y ∈ Y, ltV v y = true) :
    upperBoundLoop ltV m v first n = .ok (first + X.length) := by
  have key : ∀ n first, upperBoundLoop ltV m v first n = lowerBoundLoop (fun x v => !ltV v x) m v first n := by
    intro n
    induction n using Nat.strongRecOn with
    | ind n ih =>
      intro first
      unfold upperBoundLoop lowerBoundLoop
      split
      · show (rd m (first + n / 2) >>= fun x => _) = (rd m (first + n / 2) >>= fun x => _)
        congr 1
        funext x
        cases ltV v x
        · simp; exact ih _ (by omega) _
        · simp; exact ih _ (by omega) _
      · rfl
  rw [key]
  exact lowerBoundLoop_at _ m v n first X Y h hn (fun x hx => by simp [hX x hx]) (fun y hy => by simp [hY y hy])

/-- a sorted list splits at the boundary of `· < v` -/
theorem Srt.split_lt (hlt : SWO lt) (v : α) {X : List α} (h : Srt lt X) :
    ∃ X1 X2, X = X1 ++ X2 ∧ (∀ x ∈ X1, lt x v = true) ∧ (∀ x ∈ X2, lt x v = false) := by
  induction X with
  | nil => exact ⟨[], [], rfl, by simp, by simp⟩
  | cons x X ih =>
    by_cases hc : lt x v = true
    · obtain ⟨X1, X2, h1, h2, h3⟩ := ih h.tail
      exact ⟨x :: X1, X2, by rw [h1]; rfl, by simpa [hc] using h2, h3⟩
    · exact ⟨[], x :: X, rfl, by simp, h.le_all hlt (by simpa using hc)⟩

theorem Srt.split_le (hlt : SWO lt) (v : α) {X : List α} (h : Srt lt X) :
    ∃ X1 X2, X = X1 ++ X2 ∧ (∀ x ∈ X1, lt v x = false) ∧ (∀ x ∈ X2, lt v x = true) := by
  induction X with
  | nil => exact ⟨[], [], rfl, by simp, by simp⟩
  | cons x X ih =>
    by_cases hc : lt v x = true
    · exact ⟨[], x :: X, rfl, by simp, h.lt_all hlt hc⟩
    · obtain ⟨X1, X2, h1, h2, h3⟩ := ih h.tail
      exact ⟨x :: X1, X2, by rw [h1]; rfl, by simpa [hc] using h2, h3⟩

/-- What merging the sorted `A`, `B` at `first` in place must achieve. -/
def MergePost (lt : α → α → Bool) (m : Mem α) (first last tmp cap : Nat) (A B : List α) (r : R (Mem α)) : Prop :=
  ∃ m' Y, r = .ok m' ∧ At m' first Y ∧ SS lt (A ++ B) Y ∧ Upd m m' (fun j => Seg first last j ∨ Seg tmp (tmp + cap) j)

theorem imb_trim (hlt : SWO lt) {m : Mem α} {first last tmp cap : Nat} {A B A1 A2 B1 B2 : List α} {b h : α} {r : R (Mem α)}
    (hat : At m first (A ++ B)) (hl : last = first + A.length + B.length) (ht : last ≤ tmp)
    (sA : Srt lt A) (sB : Srt lt B) (eA : A = A1 ++ A2) (eB : B = B1 ++ B2)
    (hb : b ∈ B1.head?) (hlow : ∀ z ∈ A1, lt b z = false) (hh : h ∈ A2.getLast?) (hhigh : ∀ z ∈ B2, lt z h = false)
    (hr : MergePost lt m (first + A1.length) (last - B2.length) tmp cap A2 B1 r) :
    MergePost lt m first last tmp cap A B r := by
  subst eA; subst eB
  obtain ⟨m', Y, e, aY, sY, u⟩ := hr
  have hYl := sY.len
  have hat' : At m first A1 ∧ At m (first + A1.length + A2.length + B1.length) B2 := by
    rw [show A1 ++ A2 ++ (B1 ++ B2) = A1 ++ (A2 ++ (B1 ++ B2)) by simp, At.append_iff, At.append_iff, At.append_iff] at hat
    exact ⟨hat.1, hat.2.2.2⟩
  simp only [List.length_append] at hl hYl
  have hA1 : At m' first A1 := hat'.1.upd u (fun j _ _ => by unfold Seg; omega)
  have hB2 : At m' (first + A1.length + Y.length) B2 := by
    have := hat'.2.upd u (fun j _ _ => by unfold Seg; omega)
    rw [hYl, ← Nat.add_assoc]; exact this
  have hB1 : ∀ z ∈ B1, lt z b = false := by
    match B1, hb with
    | x :: B1, hb =>
      simp at hb; subst hb
      exact Srt.le_all hlt (Srt.left sB) (hlt.irrefl _)
  have hA2 : ∀ z ∈ A2, lt h z = false := by
    obtain h' | ⟨Q, q, rfl⟩ := snoc_cases A2
    · subst h'; simp at hh
    · simp at hh; subst hh
      exact Srt.all_le hlt (Srt.right sA) (hlt.irrefl _)
  have hmem : b ∈ B1 := List.mem_of_mem_head? hb
  have hmemh : h ∈ A2 := List.mem_of_mem_getLast? hh
  refine ⟨m', A1 ++ Y ++ B2, e, ?_, ?_, u.mono (fun j => by unfold Seg; omega)⟩
  · rw [At.append_iff, At.append_iff]
    refine ⟨⟨hA1, aY⟩, ?_⟩
    simpa [Nat.add_assoc] using hB2
  · have s1 := SS.append (SS.self (Srt.left sA)) sY (lt := lt) (fun x hx z hz => by
      rcases List.mem_append.1 hz with hz | hz
      · exact (List.pairwise_append.1 sA).2.2 x hx z hz
      · exact hlt.le_trans (hlow x hx) (hB1 z hz))
    have s2 := SS.append s1 (SS.self (Srt.right sB)) (lt := lt) (fun x hx z hz => by
      rcases List.mem_append.1 hx with hx | hx
      · exact hlt.le_trans (hlow x hx) ((List.pairwise_append.1 sB).2.2 b hmem z hz)
      · rcases List.mem_append.1 hx with hx | hx
        · exact hlt.le_trans (hA2 x hx) (hhigh z hz)
        · exact (List.pairwise_append.1 sB).2.2 x hx z hz)
    simpa [List.append_assoc] using s2

end STL
