import Verif.Sort.Isort
import Verif.Reorder.Lemmas
import Verif.Tac

/-! Stable rearrangement and stable sorting as relations on lists. Helper notions for proofs; they model nothing in /repo. -/

namespace STL
variable {α : Type _} {lt : α → α → Bool}

/-- sorted lists -/
abbrev Srt (lt : α → α → Bool) (X : List α) : Prop := X.Pairwise (fun a b => lt b a = false)

/-- `Y` is a rearrangement of `X` keeping equivalent elements in order. -/
structure SEq (lt : α → α → Bool) (X Y : List α) : Prop where
  perm : Y.Perm X
  stab : Stab lt X Y

namespace SEq
theorem refl (X : List α) : SEq lt X X := ⟨.refl _, Stab.refl _ _⟩
theorem trans {X Y Z : List α} (h₁ : SEq lt X Y) (h₂ : SEq lt Y Z) : SEq lt X Z :=
  ⟨h₂.perm.trans h₁.perm, h₁.stab.trans h₂.stab⟩
theorem append {X Y X' Y' : List α} (h₁ : SEq lt X Y) (h₂ : SEq lt X' Y') : SEq lt (X ++ X') (Y ++ Y') :=
  ⟨h₁.perm.append h₂.perm, fun k => by rw [List.filter_append, List.filter_append, h₁.stab k, h₂.stab k]⟩
theorem cons {X Y : List α} (a : α) (h : SEq lt X Y) : SEq lt (a :: X) (a :: Y) := (refl [a]).append h
theorem len {X Y : List α} (h : SEq lt X Y) : Y.length = X.length := h.perm.length_eq
theorem mem {X Y : List α} (h : SEq lt X Y) {z : α} : z ∈ Y ↔ z ∈ X := h.perm.mem_iff

/-- Exchanging two adjacent blocks when everything in the right one is strictly less. -/
theorem swap (hlt : SWO lt) {A B : List α} (h : ∀ a ∈ A, ∀ b ∈ B, lt b a = true) : SEq lt (A ++ B) (B ++ A) := by
  refine ⟨List.perm_append_comm, fun k => ?_⟩
  rw [List.filter_append, List.filter_append]
  by_cases hA : A.filter (eqv lt k) = []
  · simp [hA]
  by_cases hB : B.filter (eqv lt k) = []
  · simp [hB]
  exfalso
  obtain ⟨a, ha⟩ := List.exists_mem_of_ne_nil _ hA
  obtain ⟨b, hb⟩ := List.exists_mem_of_ne_nil _ hB
  simp only [List.mem_filter, eqv, Bool.and_eq_true, Bool.not_eq_true'] at ha hb
  have := h a ha.1 b hb.1
  rw [(hlt.equiv_trans a k b ha.2.1 ha.2.2 hb.2.2 hb.2.1).2] at this
  exact absurd this (by decide)
end SEq

/-- `Y` is the stable sort of `X`. -/
structure SS (lt : α → α → Bool) (X Y : List α) : Prop extends SEq lt X Y where
  srt : Srt lt Y

namespace SS

theorem of_seq {X Y Z : List α} (h : SEq lt X Y) (h' : SS lt Y Z) : SS lt X Z := ⟨h.trans h'.toSEq, h'.srt⟩

theorem self {X : List α} (h : Srt lt X) : SS lt X X := ⟨SEq.refl _, h⟩

theorem self_nil {X : List α} (h : Srt lt X) : SS lt (X ++ []) X := by simpa using self h
theorem nil_self {X : List α} (h : Srt lt X) : SS lt ([] ++ X) X := self h

theorem append {X Y X' Y' : List α} (h₁ : SS lt X Y) (h₂ : SS lt X' Y') (h : ∀ a ∈ X, ∀ b ∈ X', lt b a = false) :
    SS lt (X ++ X') (Y ++ Y') :=
  ⟨h₁.toSEq.append h₂.toSEq, List.pairwise_append.2 ⟨h₁.srt, h₂.srt, fun a ha b hb => h a (h₁.mem.1 ha) b (h₂.mem.1 hb)⟩⟩

theorem cons_left {a : α} {X Y : List α} (h : SS lt X Y) (ha : ∀ z ∈ X, lt z a = false) : SS lt (a :: X) (a :: Y) :=
  append (X := [a]) (self (by simp)) h (by simpa using ha)

theorem snoc_right {b : α} {X Y : List α} (h : SS lt X Y) (hb : ∀ z ∈ X, lt b z = false) : SS lt (X ++ [b]) (Y ++ [b]) :=
  append h (self (by simp)) (by simpa using hb)

theorem cons_right (hlt : SWO lt) {b : α} {A B Y : List α} (h : SS lt (A ++ B) Y) (h1 : ∀ z ∈ A, lt b z = true)
    (h2 : ∀ z ∈ B, lt z b = false) : SS lt (A ++ b :: B) (b :: Y) := by
  have e : SEq lt (A ++ b :: B) (b :: (A ++ B)) := by
    have := (SEq.swap hlt (A := A) (B := [b]) (by simpa using h1)).append (SEq.refl B)
    simpa using this
  refine of_seq e (cons_left h ?_)
  intro z hz
  rcases List.mem_append.1 hz with hz | hz
  · exact hlt.asymm (h1 z hz)
  · exact h2 z hz

theorem snoc_left (hlt : SWO lt) {a : α} {A B Y : List α} (h : SS lt (A ++ B) Y) (h1 : ∀ z ∈ B, lt z a = true)
    (h2 : ∀ z ∈ A, lt a z = false) : SS lt (A ++ [a] ++ B) (Y ++ [a]) := by
  have e : SEq lt (A ++ [a] ++ B) (A ++ B ++ [a]) := by
    have := (SEq.refl (lt := lt) A).append (SEq.swap hlt (A := [a]) (B := B) (by simpa using h1))
    simpa using this
  refine of_seq e (snoc_right h ?_)
  intro z hz
  rcases List.mem_append.1 hz with hz | hz
  · exact h2 z hz
  · exact hlt.asymm (h1 z hz)

end SS

theorem Srt.head_le {a : α} {X : List α} (h : Srt lt (a :: X)) : ∀ z ∈ X, lt z a = false := (List.pairwise_cons.1 h).1
theorem Srt.tail {a : α} {X : List α} (h : Srt lt (a :: X)) : Srt lt X := (List.pairwise_cons.1 h).2
theorem Srt.left {X Y : List α} (h : Srt lt (X ++ Y)) : Srt lt X := (List.pairwise_append.1 h).1
theorem Srt.right {X Y : List α} (h : Srt lt (X ++ Y)) : Srt lt Y := (List.pairwise_append.1 h).2.1
theorem Srt.le_last {a : α} {X : List α} (h : Srt lt (X ++ [a])) : ∀ z ∈ X, lt a z = false :=
  fun z hz => (List.pairwise_append.1 h).2.2 z hz a (by simp)

/-- everything in a sorted list is not less than something less than its head -/
theorem Srt.lt_all (hlt : SWO lt) {a b : α} {X : List α} (h : Srt lt (a :: X)) (hb : lt b a = true) :
    ∀ z ∈ a :: X, lt b z = true := by
  intro z hz
  rcases List.mem_cons.1 hz with rfl | hz
  · exact hb
  · exact hlt.lt_of_lt_of_le hb (h.head_le z hz)

theorem Srt.le_all (hlt : SWO lt) {a b : α} {X : List α} (h : Srt lt (a :: X)) (hb : lt a b = false) :
    ∀ z ∈ a :: X, lt z b = false := by
  intro z hz
  rcases List.mem_cons.1 hz with rfl | hz
  · exact hb
  · exact hlt.le_trans hb (h.head_le z hz)

theorem Srt.all_lt (hlt : SWO lt) {a b : α} {X : List α} (h : Srt lt (X ++ [a])) (hb : lt a b = true) :
    ∀ z ∈ X ++ [a], lt z b = true := by
  intro z hz
  rcases List.mem_append.1 hz with hz | hz
  · exact hlt.lt_of_le_of_lt (h.le_last z hz) hb
  · simp at hz; subst hz; exact hb

theorem Srt.all_le (hlt : SWO lt) {a b : α} {X : List α} (h : Srt lt (X ++ [a])) (hb : lt b a = false) :
    ∀ z ∈ X ++ [a], lt b z = false := by
  intro z hz
  rcases List.mem_append.1 hz with hz | hz
  · exact hlt.le_trans (h.le_last z hz) hb
  · simp at hz; subst hz; exact hb

end STL
