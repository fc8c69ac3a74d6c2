import Verif.Base
import Verif.Sort.Heap
import Verif.Tac

/-!
# Pointwise reasoning about cell memory

`At m p X`: the cells from position `p` on hold the values `X`. `Upd m m' S`: `m'` differs from `m` only at positions in
`S`. Helper notions for proofs; they model nothing in /repo.
-/

namespace STL
variable {α : Type _}

/-- The cells `p, p+1, …` of `m` hold exactly the values `X`. -/
def At (m : Mem α) (p : Nat) (X : List α) : Prop := ∀ i (h : i < X.length), m[p + i]? = some (some X[i])

/-- `m'` has the same size as `m` and agrees with it outside `S`. -/
structure Upd (m m' : Mem α) (S : Nat → Prop) : Prop where
  len : m'.length = m.length
  out : ∀ j, ¬ S j → m'[j]? = m[j]?

theorem Upd.refl (m : Mem α) (S : Nat → Prop) : Upd m m S := ⟨rfl, fun _ _ => rfl⟩

theorem Upd.trans {m m' m'' : Mem α} {S T : Nat → Prop} (h₁ : Upd m m' S) (h₂ : Upd m' m'' T) :
    Upd m m'' (fun j => S j ∨ T j) :=
  ⟨h₂.len.trans h₁.len, fun j hj => (h₂.out j (fun h => hj (Or.inr h))).trans (h₁.out j (fun h => hj (Or.inl h)))⟩

theorem Upd.mono {m m' : Mem α} {S T : Nat → Prop} (h : Upd m m' S) (hst : ∀ j, S j → T j) : Upd m m' T :=
  ⟨h.len, fun j hj => h.out j (fun hs => hj (hst j hs))⟩

theorem At.nil (m : Mem α) (p : Nat) : At m p [] := fun i h => absurd h (by simp)

theorem At.cons_iff {m : Mem α} {p : Nat} {x : α} {X : List α} :
    At m p (x :: X) ↔ m[p]? = some (some x) ∧ At m (p + 1) X := by
  constructor
  · intro h
    refine ⟨h 0 (Nat.succ_pos _), fun i hi => ?_⟩
    have := h (i + 1) (by simpa using hi)
    rw [show p + 1 + i = p + (i + 1) by omega]
    simpa using this
  · rintro ⟨h0, h⟩ i hi
    cases i with
    | zero => simpa using h0
    | succ i =>
      have := h i (by simpa using hi)
      rw [show p + 1 + i = p + (i + 1) by omega] at this
      simpa using this

theorem At.append_iff {m : Mem α} {p : Nat} {X Y : List α} :
    At m p (X ++ Y) ↔ At m p X ∧ At m (p + X.length) Y := by
  induction X generalizing p with
  | nil => simp [At.nil]
  | cons x X ih =>
    rw [List.cons_append, At.cons_iff, At.cons_iff, ih, List.length_cons]
    rw [show p + 1 + X.length = p + (X.length + 1) by omega, and_assoc]

theorem At.snoc_iff {m : Mem α} {p : Nat} {x : α} {X : List α} :
    At m p (X ++ [x]) ↔ At m p X ∧ m[p + X.length]? = some (some x) := by
  rw [At.append_iff, At.cons_iff]; simp [At.nil]

theorem At.upd {m m' : Mem α} {S : Nat → Prop} {p : Nat} {X : List α} (h : At m p X) (hu : Upd m m' S)
    (hs : ∀ j, p ≤ j → j < p + X.length → ¬ S j) : At m' p X := by
  intro i hi
  rw [hu.out _ (hs _ (by omega) (by omega))]; exact h i hi

theorem At.rd {m : Mem α} {p : Nat} {X : List α} (h : At m p X) (i : Nat) (hi : i < X.length) :
    STL.rd m (p + i) = .ok X[i] := by
  simp [STL.rd, h i hi]

theorem rd_of {m : Mem α} {i : Nat} {x : α} (h : m[i]? = some (some x)) : rd m i = .ok x := by simp [rd, h]

theorem lt_of_cell {m : Mem α} {i : Nat} {c : Option α} (h : m[i]? = some c) : i < m.length :=
  (List.getElem?_eq_some_iff.1 h).1

theorem At.le_length {m : Mem α} {p : Nat} {X : List α} (h : At m p X) (hX : X ≠ []) : p + X.length ≤ m.length := by
  have hl := List.length_pos_iff.2 hX
  have := lt_of_cell (h (X.length - 1) (by omega))
  omega

theorem wr_upd {m : Mem α} {j : Nat} {x : α} (hj : j < m.length) :
    ∃ m', wr m j x = .ok m' ∧ Upd m m' (· = j) ∧ m'[j]? = some (some x) := by
  refine ⟨m.set j (some x), by simp [wr, hj], ⟨by simp, fun k hk => ?_⟩, by simp [hj]⟩
  rw [List.getElem?_set_ne (Ne.symm hk)]

theorem mv_upd {m : Mem α} {s : Nat} {x : α} (hs : m[s]? = some (some x)) :
    ∃ m', mv m s = .ok (x, m') ∧ Upd m m' (· = s) := by
  refine ⟨m.set s none, by simp only [mv, rd_of hs]; rfl, ⟨by simp, fun k hk => ?_⟩⟩
  rw [List.getElem?_set_ne (Ne.symm hk)]

theorem mvTo_upd {m : Mem α} {d s : Nat} {x : α} (hs : m[s]? = some (some x)) (hd : d < m.length) :
    ∃ m', mvTo m d s = .ok m' ∧ Upd m m' (fun j => j = d ∨ j = s) ∧ m'[d]? = some (some x) := by
  obtain ⟨m1, h1, u1⟩ := mv_upd hs
  obtain ⟨m2, h2, u2, g2⟩ := wr_upd (m := m1) (j := d) (x := x) (by rw [u1.len]; exact hd)
  refine ⟨m2, ?_, (u1.trans u2).mono (fun j => by omega), g2⟩
  unfold mvTo; rw [h1]; exact h2

theorem swp_upd {m : Mem α} {i j : Nat} {x y : α} (hi : m[i]? = some (some x)) (hj : m[j]? = some (some y)) :
    ∃ m', swp m i j = .ok m' ∧ Upd m m' (fun k => k = i ∨ k = j) ∧ m'[i]? = some (some y) ∧ m'[j]? = some (some x) := by
  obtain ⟨m1, h1, u1, g1⟩ := wr_upd (m := m) (j := i) (x := y) (lt_of_cell hi)
  obtain ⟨m2, h2, u2, g2⟩ := wr_upd (m := m1) (j := j) (x := x) (by rw [u1.len]; exact lt_of_cell hj)
  refine ⟨m2, ?_, (u1.trans u2).mono (fun k => by omega), ?_, g2⟩
  · unfold swp
    rw [rd_of hi, rd_of hj]
    show wr m i y >>= _ = _
    rw [h1]; exact h2
  · by_cases hij : i = j
    · subst hij
      rw [hi] at hj
      have : x = y := by simpa using hj
      rw [g2, this]
    · rw [u2.out i hij]; exact g1

theorem at_full (xs : List α) : At (full xs) 0 xs := by
  intro i h; simp [full, h]

theorem at_full_append (P X S : List α) (t : Mem α) : At (full (P ++ X ++ S) ++ t) P.length X := by
  intro i h
  have : P.length + i < (full (P ++ X ++ S)).length := by simp; omega
  rw [List.getElem?_append_left this]
  simp [full, List.getElem?_append, h]

theorem eq_full_of_at {m : Mem α} {X : List α} (h : At m 0 X) (hl : m.length = X.length) : m = full X := by
  apply List.ext_getElem?
  intro i
  by_cases hi : i < X.length
  · have := h i hi
    rw [Nat.zero_add] at this
    rw [this]; simp [full, hi]
  · rw [List.getElem?_eq_none (by omega), List.getElem?_eq_none (by simp; omega)]

/-- Rebuilding the user's range and the temporary buffer after an update confined to a segment and the buffer. -/
theorem rebuild {P X Y S : List α} {t m' : Mem α} {Z : Nat → Prop} (hu : Upd (full (P ++ X ++ S) ++ t) m' Z)
    (hZ : ∀ j, Z j → (P.length ≤ j ∧ j < P.length + X.length) ∨ P.length + X.length + S.length ≤ j)
    (hY : Y.length = X.length) (hat : At m' P.length Y) :
    ∃ t', m' = full (P ++ Y ++ S) ++ t' ∧ t'.length = t.length := by
  have hlen := hu.len
  simp at hlen
  have hP : At m' 0 P := by
    have : At (full (P ++ X ++ S) ++ t) 0 P := by
      have := at_full_append [] P (X ++ S) t
      simpa using this
    exact this.upd hu (fun j h1 h2 hz => by have := hZ j hz; omega)
  have hS : At m' (P.length + Y.length) S := by
    have : At (full (P ++ X ++ S) ++ t) (P.length + Y.length) S := by
      have := at_full_append (P ++ X) S [] t
      simpa [hY] using this
    exact this.upd hu (fun j h1 h2 hz => by have := hZ j hz; omega)
  have hall : At m' 0 (P ++ Y ++ S) := by
    rw [At.append_iff, At.append_iff]
    simp [hP, hat, hS]
  refine ⟨m'.drop (P ++ Y ++ S).length, ?_, by simp; omega⟩
  have e : m'.take (P ++ Y ++ S).length = full (P ++ Y ++ S) := by
    apply eq_full_of_at
    · intro i hi
      rw [List.getElem?_take_of_lt (by omega)]
      exact hall i hi
    · simp; omega
  rw [← e, List.take_append_drop]

end STL
