import Verif.Hash.Spec

/-! # Contiguous groups and bucket arrays, on lists. Proofs only. -/

namespace STL.UH
open STL STL.DL
variable {α K β : Type}

/-- The elements that satisfy `p` are neighbours. -/
def Contig (p : β → Bool) (X : List β) : Prop :=
  ∃ A B C, X = A ++ B ++ C ∧ (∀ a ∈ A, p a = false) ∧ (∀ b ∈ B, p b = true) ∧ ∀ c ∈ C, p c = false

theorem filter_none {p : β → Bool} {X : List β} : X.filter p = [] ↔ ∀ a ∈ X, p a = false := by
  simp [List.filter_eq_nil_iff]

theorem filter_all {p : β → Bool} {X : List β} (h : ∀ a ∈ X, p a = true) : X.filter p = X := List.filter_eq_self.2 h

theorem filter_parts {p : β → Bool} {A B C : List β} (hA : ∀ a ∈ A, p a = false) (hB : ∀ b ∈ B, p b = true) (hC : ∀ c ∈ C, p c = false) :
    (A ++ B ++ C).filter p = B := by
  rw [List.filter_append, List.filter_append, filter_none.2 hA, filter_none.2 hC, filter_all hB]; simp

theorem Contig.nil {p : β → Bool} : Contig p [] := ⟨[], [], [], by simp⟩

theorem Contig.split {p : β → Bool} {X : List β} (c : Contig p X) : ∃ A C, X = A ++ X.filter p ++ C ∧ (∀ a ∈ A, p a = false) ∧ ∀ c ∈ C, p c = false := by
  obtain ⟨A, B, C, rfl, hA, hB, hC⟩ := c
  exact ⟨A, C, by rw [filter_parts hA hB hC], hA, hC⟩

theorem Contig.none {p : β → Bool} {X : List β} (h : ∀ a ∈ X, p a = false) : Contig p X := ⟨X, [], [], by simp, h, by simp, by simp⟩

/-- Contiguity is inherited by sublists. -/
theorem Contig.sub {p : β → Bool} {X Y : List β} (c : Contig p X) (s : Y.Sublist X) : Contig p Y := by
  obtain ⟨A, B, C, rfl, hA, hB, hC⟩ := c
  obtain ⟨Y1, C', rfl, s1, s2⟩ := List.sublist_append_iff.1 s
  obtain ⟨A', B', rfl, s3, s4⟩ := List.sublist_append_iff.1 s1
  exact ⟨A', B', C', rfl, fun a h => hA a (s3.subset h), fun a h => hB a (s4.subset h), fun a h => hC a (s2.subset h)⟩

/-- Nothing between two elements of a group is outside it. -/
theorem Contig.mid {p : β → Bool} {L M N : List β} {a b : β} (c : Contig p (L ++ [a] ++ M ++ [b] ++ N)) (ha : p a = true) (hb : p b = true) : ∀ m ∈ M, p m = true := by
  intro m hm
  obtain ⟨M1, M2, rfl⟩ := List.append_of_mem hm
  have c' : Contig p [a, m, b] := c.sub (by
    have h1 : [a].Sublist (L ++ [a]) := List.sublist_append_right _ _
    have h2 : [m].Sublist (M1 ++ m :: M2) := by simp
    have h3 : [b].Sublist ([b] ++ N) := List.sublist_append_left _ _
    have := (h1.append h2).append h3
    simpa using this)
  obtain ⟨A, B, C, e, hA, hB, hC⟩ := c'
  have hf : [a, m, b].filter p = B := by rw [e, filter_parts hA hB hC]
  by_contra hp
  have hp : p m = false := by simpa using hp
  simp [ha, hb, hp] at hf
  rw [← hf] at e
  rcases A with _ | ⟨x, A⟩
  · simp at e; have := e.1; rw [this, hb] at hp; simp at hp
  · have hx := hA x (by simp)
    simp at e; rw [← e.1, ha] at hx; simp at hx

theorem mem_split2 {p : β → Bool} {X : List β} (h : ¬ ∀ a ∈ X, p a = false) : ∃ A a B, X = A ++ [a] ++ B ∧ p a = true := by
  simp only [not_forall, Bool.not_eq_false] at h
  obtain ⟨a, ha, hp⟩ := h
  obtain ⟨A, B, rfl⟩ := List.append_of_mem ha
  exact ⟨A, a, B, by simp, hp⟩

/-- A group seen from one of its elements. -/
theorem Contig.around {p : β → Bool} {L N : List β} {a : β} (c : Contig p (L ++ [a] ++ N)) (ha : p a = true) :
    ∃ A B1 B2 C, L = A ++ B1 ∧ N = B2 ++ C ∧ (∀ x ∈ A, p x = false) ∧ (∀ x ∈ B1, p x = true) ∧ (∀ x ∈ B2, p x = true) ∧ ∀ x ∈ C, p x = false := by
  have hN : N = N.takeWhile p ++ N.dropWhile p := List.takeWhile_append_dropWhile.symm
  have hL : L = (L.reverse.dropWhile p).reverse ++ (L.reverse.takeWhile p).reverse := by
    rw [← List.reverse_append, List.takeWhile_append_dropWhile, List.reverse_reverse]
  refine ⟨_, _, _, _, hL, hN, ?_, ?_, ?_, ?_⟩
  · by_contra hh
    obtain ⟨A, u, B, e, hu⟩ := mem_split2 hh
    cases hd : L.reverse.dropWhile p with
    | nil => rw [hd] at e; simp at e
    | cons z Z =>
      have hz : p z = false := by
        have := List.head?_dropWhile_not p L.reverse; rw [hd] at this; simpa using this
      rw [hd, List.reverse_cons] at e
      rw [hd, List.reverse_cons, e] at hL
      have hB : B ≠ [] := by
        rintro rfl
        rw [List.append_nil] at e
        have := (List.append_inj' e rfl).2
        simp at this; rw [this, hu] at hz; simp at hz
      have := Contig.mid (L := A) (a := u) (M := B ++ (L.reverse.takeWhile p).reverse) (b := a) (N := N) (by rw [hL] at c; simpa using c) hu ha z (by
        have hzz : z ∈ B := by
          have h1 : (Z.reverse ++ [z]).getLast? = some z := by simp
          rw [e, List.getLast?_append_of_ne_nil _ hB] at h1
          exact List.mem_of_getLast? h1
        simp [hzz])
      rw [hz] at this; simp at this
  · intro x hx; exact mem_takeWhile_imp (List.mem_reverse.1 hx)
  · intro x hx; exact mem_takeWhile_imp hx
  · by_contra hh
    obtain ⟨A, u, B, e, hu⟩ := mem_split2 hh
    cases hd : N.dropWhile p with
    | nil => rw [hd] at e; simp at e
    | cons z Z =>
      have hz : p z = false := by
        have := List.head?_dropWhile_not p N; rw [hd] at this; simpa using this
      rw [e] at hN
      have hA : z ∈ A := by
        rw [hd] at e
        cases A with
        | nil => simp at e; rw [e.1, hu] at hz; simp at hz
        | cons y A => simp at e; simp [e.1]
      have := Contig.mid (L := L) (a := a) (M := N.takeWhile p ++ A) (b := u) (N := B) (by rw [hN] at c; simpa using c) ha hu z (by simp [hA])
      rw [hz] at this; simp at this

/-- Insertion of an element of the group next to the group. -/
theorem Contig.insP {p : β → Bool} {L N : List β} {x : β} (c : Contig p (L ++ N)) (hx : p x = true)
    (h : (∃ L' a, L = L' ++ [a] ∧ p a = true) ∨ (∃ r N', N = r :: N' ∧ p r = true) ∨ ∀ a ∈ L ++ N, p a = false) : Contig p (L ++ x :: N) := by
  rcases h with ⟨L', a, rfl, ha⟩ | ⟨r, N', rfl, hr⟩ | h
  · obtain ⟨A, B1, B2, C, rfl, rfl, hA, h1, h2, hC⟩ := Contig.around c ha
    refine ⟨A, B1 ++ [a] ++ [x] ++ B2, C, by simp, hA, ?_, hC⟩
    simp only [List.mem_append, List.mem_singleton]; grind
  · obtain ⟨A, B1, B2, C, rfl, rfl, hA, h1, h2, hC⟩ := Contig.around (L := L) (N := N') (a := r) (by simpa using c) hr
    refine ⟨A, B1 ++ [x] ++ [r] ++ B2, C, by simp, hA, ?_, hC⟩
    simp only [List.mem_append, List.mem_singleton]; grind
  · exact ⟨L, [x], N, by simp, fun a ha => h a (by simp [ha]), by simpa using hx, fun a ha => h a (by simp [ha])⟩

/-- Insertion of another element outside the group. -/
theorem Contig.insN {p : β → Bool} {L N : List β} {x : β} (c : Contig p (L ++ N)) (hx : p x = false)
    (h : (∀ a ∈ L, p a = false) ∨ ∀ a ∈ N, p a = false) : Contig p (L ++ x :: N) := by
  rcases h with h | h
  · obtain ⟨A, B, C, rfl, hA, hB, hC⟩ := c.sub (List.sublist_append_right L N)
    refine ⟨L ++ [x] ++ A, B, C, by simp, ?_, hB, hC⟩
    simp only [List.mem_append, List.mem_singleton]; grind
  · obtain ⟨A, B, C, rfl, hA, hB, hC⟩ := c.sub (List.sublist_append_left L N)
    refine ⟨A, B, C ++ [x] ++ N, by simp, hA, hB, ?_⟩
    simp only [List.mem_append, List.mem_singleton]; grind

/-- An element between two elements of a group belongs to it. -/
theorem Contig.between {p : β → Bool} {L N : List β} {a : β} (c : Contig p (L ++ [a] ++ N)) (ha : p a = false) : (∀ x ∈ L, p x = false) ∨ ∀ x ∈ N, p x = false := by
  by_contra hh
  rw [not_or] at hh
  obtain ⟨A, u, B, rfl, hu⟩ := mem_split2 hh.1
  obtain ⟨C, v, D, rfl, hv⟩ := mem_split2 hh.2
  have := Contig.mid (L := A) (a := u) (M := B ++ [a] ++ C) (b := v) (N := D) (by simpa using c) hu hv a (by simp)
  rw [ha] at this; simp at this

end STL.UH
