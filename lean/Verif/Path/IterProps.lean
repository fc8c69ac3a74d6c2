import Verif.Path.IterProof
import Verif.Path.Props

/-!
# Elements, comparison and hash of paths (C41)
-/

namespace STL.Path
open Spec (slash plain)

/-- **Iteration.** From `begin` by `++` come the elements of the path, in order, then `end`; `--` goes back the same way; the positions are increasing, so two iterators are
equal exactly if they are at the same element; nothing outside of the text is read. -/
theorem C41_iterate (s : Text) : ∃ its : List It, its.map (·.elem) = Spec.elements s ∧ ((its ++ [endIt s]).map (·.pos)).Pairwise (· < ·) ∧
    begin s = .ok ((its ++ [endIt s])[0]'(by simp)) ∧
    ∀ i (h : i < its.length), next s ((its ++ [endIt s])[i]'(by simp; omega)) = .ok ((its ++ [endIt s])[i + 1]'(by simp; omega)) ∧
      prev s ((its ++ [endIt s])[i + 1]'(by simp; omega)) = .ok ((its ++ [endIt s])[i]'(by simp; omega)) := by
  obtain ⟨h1, h2, h3, h4⟩ := chain_items s
  refine ⟨items s, items_elements s, ?_, ?_, fun i h => ?_⟩
  · rw [List.map_append, List.pairwise_append]
    refine ⟨List.pairwise_map.2 h2, List.pairwise_singleton _ _, ?_⟩
    intro a ha b hb
    obtain ⟨it, hit, rfl⟩ := List.mem_map.1 ha
    obtain rfl := List.mem_singleton.1 hb
    exact h3 it hit
  · rw [h4]
    congr 1
    cases items s <;> rfl
  · have := h1.get i h
    have e : ((items s ++ [endIt s])[i]'(by simp; omega)) = (items s)[i] := List.getElem_append_left h
    rw [e]
    exact this

/-- **Comparison.** `compare` is negative, zero or positive as the paths compare: root-names, presence of a root-directory, elements of the relative paths. -/
theorem C41_compare (s t : Text) : ∃ z, compare s t = .ok z ∧ (z < 0 ↔ Spec.cmpPath s t = .lt) ∧ (z = 0 ↔ Spec.cmpPath s t = .eq) ∧ (0 < z ↔ Spec.cmpPath s t = .gt) := by
  obtain ⟨z, h1, h2⟩ := compare_ok s t
  exact ⟨z, h1, h2.iff⟩

theorem root01 {a b : Text} : ((if a = [] then 0 else 1) = if b = [] then (0 : Nat) else 1) ↔ (a = [] ↔ b = []) := by
  by_cases h1 : a = [] <;> by_cases h2 : b = [] <;> simp [h1, h2]

/-- **Order.** Paths are equal exactly if they have the same root-name, both or neither have a root-directory, and the same elements in the relative path;
`compare` is antisymmetric and transitive. -/
theorem C41_order (s t u : Text) :
    (compare s t = .ok 0 ↔ Spec.rootName s = Spec.rootName t ∧ (Spec.rootDir s = [] ↔ Spec.rootDir t = []) ∧ Spec.names (Spec.relative s) = Spec.names (Spec.relative t)) ∧
    (∃ y z, compare s t = .ok y ∧ compare t s = .ok z ∧ (y < 0 ↔ 0 < z) ∧ (y = 0 ↔ z = 0)) ∧
    (∃ x y z, compare s t = .ok x ∧ compare t u = .ok y ∧ compare s u = .ok z ∧ (x < 0 → y < 0 → z < 0) ∧ (x ≤ 0 → y ≤ 0 → z ≤ 0)) := by
  have T := total_key
  obtain ⟨x, x1, x2⟩ := compare_ok s t
  obtain ⟨x', x1', x2'⟩ := compare_ok t s
  obtain ⟨y, y1, y2⟩ := compare_ok t u
  obtain ⟨z, z1, z2⟩ := compare_ok s u
  have e1 : Spec.cmpPath t s = (Spec.cmpPath s t).swap := T.swap (key s) (key t)
  have e2 : ∀ a b, Spec.cmpPath a b = .eq ↔ key a = key b := fun a b => T.eq (key a) (key b)
  have e3 : ∀ a b c, Spec.cmpPath a b = .lt → Spec.cmpPath b c = .lt → Spec.cmpPath a c = .lt := fun a b c => T.trans (key a) (key b) (key c)
  refine ⟨?_, ⟨x, x', x1, x1', ?_, ?_⟩, x, y, z, x1, y1, z1, ?_, ?_⟩
  · rw [x1]
    constructor
    · intro h
      cases h
      have := (e2 s t).1 (x2.iff.2.1.1 rfl)
      unfold key at this
      simp only [Prod.mk.injEq] at this
      exact ⟨this.1, root01.1 this.2.1, this.2.2⟩
    · rintro ⟨h1, h2, h3⟩
      have : key s = key t := by
        unfold key
        rw [h1, h3, root01.2 h2]
      rw [x2.iff.2.1.2 ((e2 s t).2 this)]
  · rw [x2.iff.1, x2'.iff.2.2, e1]
    cases Spec.cmpPath s t <;> simp [Ordering.swap]
  · rw [x2.iff.2.1, x2'.iff.2.1, e1]
    cases Spec.cmpPath s t <;> simp [Ordering.swap]
  · rw [x2.iff.1, y2.iff.1, z2.iff.1]
    exact e3 s t u
  · intro h1 h2
    rcases Int.lt_or_eq_of_le h1 with h1 | h1
    · rcases Int.lt_or_eq_of_le h2 with h2 | h2
      · exact Int.le_of_lt (z2.iff.1.2 (e3 s t u (x2.iff.1.1 h1) (y2.iff.1.1 h2)))
      · have : Spec.cmpPath s u = Spec.cmpPath s t := by
          rw [cmpPath_key s u, cmpPath_key s t, (e2 t u).1 (y2.iff.2.1.1 h2)]
        exact Int.le_of_lt (z2.iff.1.2 (this.trans (x2.iff.1.1 h1)))
    · have : Spec.cmpPath s u = Spec.cmpPath t u := by
        rw [cmpPath_key s u, cmpPath_key t u, (e2 s t).1 (x2.iff.2.1.1 h1)]
      rcases Int.lt_or_eq_of_le h2 with h2 | h2
      · exact Int.le_of_lt (z2.iff.1.2 (this.trans (y2.iff.1.1 h2)))
      · exact Int.le_of_eq (z2.iff.2.1.2 (this.trans (y2.iff.2.1.1 h2)))

/-- **Hash.** Equal paths have equal hashes. -/
theorem C41_hash (s t : Text) (h : compare s t = .ok 0) : ∃ v, hashValue s = .ok v ∧ hashValue t = .ok v := by
  obtain ⟨h1, h2, h3⟩ := (C41_order s t s).1.1 h
  refine ⟨_, hashValue_ok s, ?_⟩
  rw [hashValue_ok t, h1, h3]
  have : (if Spec.rootDir t = [] then ([] : Text) else [92]) = if Spec.rootDir s = [] then [] else [92] := by
    by_cases hs : Spec.rootDir s = []
    · rw [if_pos hs, if_pos (h2.1 hs)]
    · rw [if_neg hs, if_neg fun h => hs (h2.2 h)]
  rw [this]

/-! ## Concrete cases -/

example : begin (w "c:/a//b/") = .ok ⟨0, w "c:"⟩ ∧ next (w "c:/a//b/") ⟨0, w "c:"⟩ = .ok ⟨2, w "/"⟩ ∧ next (w "c:/a//b/") ⟨2, w "/"⟩ = .ok ⟨3, w "a"⟩ ∧
    next (w "c:/a//b/") ⟨3, w "a"⟩ = .ok ⟨6, w "b"⟩ ∧ next (w "c:/a//b/") ⟨6, w "b"⟩ = .ok ⟨7, []⟩ ∧ next (w "c:/a//b/") ⟨7, []⟩ = .ok (endIt (w "c:/a//b/")) := by decide +kernel
example : prev (w "c:/a//b/") ⟨8, []⟩ = .ok ⟨7, []⟩ ∧ prev (w "c:/a//b/") ⟨7, []⟩ = .ok ⟨6, w "b"⟩ ∧ prev (w "c:/a//b/") ⟨6, w "b"⟩ = .ok ⟨3, w "a"⟩ ∧
    prev (w "c:/a//b/") ⟨3, w "a"⟩ = .ok ⟨2, w "/"⟩ ∧ prev (w "c:/a//b/") ⟨2, w "/"⟩ = .ok ⟨0, w "c:"⟩ := by decide +kernel
example : compare (w "a//b") (w "a\\b") = .ok 0 ∧ compare (w "a/b") (w "ab") = .ok (-1) ∧ compare (w "a/") (w "a") = .ok 1 ∧ compare (w "/a") (w "a") = .ok 1 := by decide +kernel
example : hashValue (w "/a//b/") = hashValue (w "\\a\\b\\") ∧ hashValue (w "a") ≠ hashValue (w "/a") := by decide +kernel

end STL.Path
