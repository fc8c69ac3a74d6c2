import Verif.Random.SampleProof
import Verif.Random.Props

/-!
# C23: `sample` is unbiased

`sample` selects `min(count, n)` elements of the population, and all such selections have the same probability. `Unbiased` is
defined in `Props.lean`.
-/

namespace STL.Rnd
open STL

variable {E : Eng} {α : Type}

/-- A run that needs no engine value. -/
theorem unbiased_pure {β : Type} {b : β} {S : β → Prop} (hS : ∀ c, S c ↔ c = b) (K : Nat) : Unbiased E (fun l => .ok (b, l)) S K where
  safe := fun l _ => Or.inl ⟨b, [], l, rfl, (hS b).2 rfl, fun r' _ => rfl⟩
  possible := fun c hc => by rw [hS] at hc; subst hc; exact ⟨0, [], rfl, by intro e he; simp at he, rfl⟩
  finite := fun c n => by
    refine (Set.finite_singleton ([] : List Nat)).subset ?_
    rintro p ⟨_, _, h⟩
    simp only [Except.ok.injEq, Prod.mk.injEq] at h
    exact h.2
  equal := fun c c' hc hc' n => by rw [hS] at hc hc'; rw [hc, hc']

/-- **C23** (`sample`, forward iterators): for every engine, population and count the result is a subsequence of the population (in the order of
the population) with `min(count, n)` elements, and all of them have the same probability. -/
theorem C23_sample (E : Eng) (o : E.Ok) (a : List α) (hnd : a.Nodup) (hlen : a.length < 2 ^ E.W) (count : Int) :
    Unbiased E (sample E a count) (fun b => b.Sublist a ∧ b.length = min count.toNat a.length) (a.length * (2 * E.W)) := by
  by_cases h : 0 < count
  · have e : sample E a count = selLoop E a.length a [] (min count.toNat a.length) := by
      funext l
      unfold sample; rw [if_pos h]
      have : (if count > (a.length : Int) then a.length else count.toNat) = min count.toNat a.length := by split <;> omega
      simp only [this]
    rw [e]
    obtain ⟨f, h1, h2⟩ := sel_good o hnd hlen (c := min count.toNat a.length) (by omega)
    exact h1.unbiased h2
  · have e : sample E a count = fun l => .ok ([], l) := by
      funext l; unfold sample; rw [if_neg h]
    rw [e]
    refine unbiased_pure ?_ _
    intro c
    constructor
    · rintro ⟨_, h2⟩; exact List.length_eq_zero_iff.1 (by omega)
    · rintro rfl; exact ⟨List.nil_sublist _, by simp; omega⟩

/-- **C23** (`sample`, input iterators, and `ranges::sample` with input iterators): the output has `min(count, n)` different elements of the
population, and all sets of that many elements have the same probability. -/
theorem C23_sample_input [DecidableEq α] (E : Eng) (o : E.Ok) (a : List α) (hnd : a.Nodup) (hlen : a.length < 2 ^ E.W) (count : Int) :
    Unbiased E (fun l => (sampleInput E a count l).map fun x => (x.1.toFinset, x.2)) (fun s => s ⊆ a.toFinset ∧ s.card = min count.toNat a.length) (a.length * (2 * E.W)) ∧
    ∀ l b r, Vals E l → sampleInput E a count l = .ok (b, r) → b.Nodup ∧ b.length = min count.toNat a.length ∧ ∀ x ∈ b, x ∈ a := by
  by_cases h : 0 < count
  · by_cases hc : count.toNat ≤ a.length
    · have e : ∀ l, sampleInput E a count l = resLoop E count.toNat (a.drop count.toNat) count.toNat (a.take count.toNat) l := by
        intro l
        unfold sampleInput; rw [if_pos h, resFill_eq _ _ _ _ (by omega)]
        simp [hc]
      obtain ⟨f, h1, h2, h3⟩ := res_good o hnd hlen hc
      rw [Nat.min_eq_left hc]
      refine ⟨h1.unbiased fun l hl => ?_, ?_⟩
      · rw [e, h3 l hl]; cases f l <;> rfl
      · intro l b r hl hb
        rw [e, h3 l hl] at hb
        cases hf : f l with
        | none => rw [hf] at hb; cases hb
        | some x =>
          rw [hf] at hb
          injection hb with hb
          rw [hb] at hf
          exact h2 l b r hl hf
    · have e : ∀ l, sampleInput E a count l = .ok (a, l) := by
        intro l
        unfold sampleInput; rw [if_pos h, resFill_eq _ _ _ _ (by omega)]
        simp only [Nat.sub_zero]
        rw [List.drop_of_length_le (by omega), List.take_of_length_le (by omega)]
        simp [resLoop]
      rw [Nat.min_eq_right (by omega)]
      refine ⟨?_, ?_⟩
      · simp only [e]
        refine unbiased_pure (b := a.toFinset) ?_ _
        intro s
        have hcd := List.toFinset_card_of_nodup hnd
        constructor
        · rintro ⟨g1, g2⟩; exact Finset.eq_of_subset_of_card_le g1 (by omega)
        · rintro rfl; exact ⟨Finset.Subset.refl _, hcd⟩
      · intro l b r _ hb
        rw [e] at hb; injection hb with hb; injection hb with hb _; subst hb
        exact ⟨hnd, rfl, fun x hx => hx⟩
  · have e : ∀ l, sampleInput E a count l = .ok ([], l) := by
      intro l; unfold sampleInput; rw [if_neg h]
    refine ⟨?_, ?_⟩
    · simp only [e]
      refine unbiased_pure (b := ∅) ?_ _
      intro s
      constructor
      · rintro ⟨_, g2⟩; exact Finset.card_eq_zero.1 (by omega)
      · rintro rfl; exact ⟨Finset.empty_subset _, by simp; omega⟩
    · intro l b r _ hb
      rw [e] at hb; injection hb with hb; injection hb with hb _; subst hb
      simp; omega

theorem selLoop_zero : ∀ (a d : List α) (l : List Nat) (b : List α) (r : List Nat), selLoop E a.length a d 0 l = .ok (b, r) → b = d := by
  intro a
  induction a with
  | nil => intro d l b r h; simp [selLoop] at h; exact h.1.symm
  | cons x a ih =>
    intro d l b r h
    simp only [List.length_cons, selLoop] at h
    cases hg : gen E (a.length + 1) l with
    | error e => rw [hg] at h; cases h
    | ok y => rw [hg, G.ok_bind, if_neg (by omega)] at h; exact ih _ _ _ _ h

theorem rsel_agrees (o : E.Ok) : ∀ (a d : List α) (c : Nat) (l : List Nat) (b : List α) (r : List Nat), 1 ≤ c ∨ a = [] → selLoop E a.length a d c l = .ok (b, r) → ∃ r', rselLoop E a.length a d c l = .ok (b, r') := by
  intro a
  induction a with
  | nil => intro d c l b r _ h; simp [selLoop] at h; exact ⟨l, by simp [rselLoop, h.1]⟩
  | cons x a ih =>
    intro d c l b r hc h
    have hc : 1 ≤ c := hc.resolve_right (by simp)
    simp only [List.length_cons, selLoop, rselLoop] at h ⊢
    cases hg : gen E (a.length + 1) l with
    | error e => rw [hg] at h; cases h
    | ok y =>
      rw [hg, G.ok_bind] at h
      rw [G.ok_bind]
      split at h
      · rename_i hy
        rw [if_pos hy]
        by_cases h1 : c - 1 = 0
        · rw [if_pos h1]
          rw [h1] at h
          exact ⟨y.2, by rw [selLoop_zero _ _ _ _ _ h]⟩
        · rw [if_neg h1]; exact ih _ _ _ _ _ (Or.inl (by omega)) h
      · rename_i hy
        rw [if_neg hy]; exact ih _ _ _ _ _ (Or.inl hc) h

/-- **C23** (`ranges::sample`, forward iterators): whenever `sample` ends, `ranges::sample` ends on the same engine output with the same
selection; it may use fewer engine values. So every selection has the same probability as with `sample`. -/
theorem C23_ranges_sample (E : Eng) (o : E.Ok) (a : List α) (count : Int) (l : List Nat) (b : List α) (r : List Nat)
    (h : sample E a count l = .ok (b, r)) : ∃ r', rsample E a count l = .ok (b, r') := by
  unfold sample at h
  unfold rsample
  by_cases hc : 0 < count
  · rw [if_pos hc] at h
    rw [if_neg (by omega)]
    refine rsel_agrees o a [] _ l b r ?_ h
    by_cases ha : a = []
    · exact Or.inr ha
    · have : 0 < a.length := List.length_pos_of_ne_nil ha
      left; split <;> omega
  · rw [if_neg hc] at h
    rw [if_pos (by omega)]
    exact ⟨r, h⟩

theorem selLoop_map {β : Type} (g : α → β) : ∀ (n : Nat) (a d : List α) (c : Nat) (l : List Nat),
    selLoop E n (a.map g) (d.map g) c l = (selLoop E n a d c l).map fun x => (x.1.map g, x.2)
  | 0, a, d, c, l => rfl
  | n + 1, [], d, c, l => rfl
  | n + 1, x :: a, d, c, l => by
    simp only [List.map_cons, selLoop]
    rw [G.map_bind]
    congr 1
    funext r
    split
    · rw [← selLoop_map g n a (d ++ [x])]; simp
    · exact selLoop_map g n a d c _

theorem resLoop_map {β : Type} (g : α → β) (c : Nat) : ∀ (a : List α) (pop : Nat) (d : List α) (l : List Nat),
    resLoop E c (a.map g) pop (d.map g) l = (resLoop E c a pop d l).map fun x => (x.1.map g, x.2)
  | [], pop, d, l => rfl
  | x :: a, pop, d, l => by
    simp only [List.map_cons, resLoop]
    rw [G.map_bind]
    congr 1
    funext r
    simp only [List.length_map]
    split
    · split
      · rw [← resLoop_map g c a _ (d.set r.1 x)]; simp [List.map_set]
      · rfl
    · exact resLoop_map g c a _ d _

theorem range_map [Inhabited α] (a : List α) : (List.range a.length).map (fun i => a[i]!) = a := by
  apply List.ext_getElem (by simp)
  intro i h1 h2
  simp [h2]

/-- **C23** (`sample` with equal elements): what happens depends on positions only, so the theorems for the positions `0, 1, …, n-1` describe
every population. -/
theorem C23_sample_positions [Inhabited α] (E : Eng) (a : List α) (count : Int) (l : List Nat) :
    sample E a count l = (sample E (List.range a.length) count l).map (fun x => (x.1.map fun i => a[i]!, x.2)) ∧
    sampleInput E a count l = (sampleInput E (List.range a.length) count l).map fun x => (x.1.map fun i => a[i]!, x.2) := by
  constructor
  · conv_lhs => rw [← range_map a]
    unfold sample
    split
    · simp only [List.length_map, List.length_range]
      exact selLoop_map (fun i => a[i]!) _ (List.range a.length) [] _ l
    · rfl
  · conv_lhs => rw [← range_map a]
    unfold sampleInput
    split
    · rw [resFill_eq _ _ _ _ (by omega), resFill_eq _ _ _ _ (by omega)]
      simp only [List.length_map, List.nil_append, ← List.map_drop, ← List.map_take]
      exact resLoop_map (fun i => a[i]!) _ _ _ _ l
    · rfl

/-! ## Concrete cases -/

example : sample die ['a', 'b', 'c', 'd'] 2 [1, 8, 8, 1] = .ok (['a', 'd'], []) := by decide
example : sample die ['a', 'b', 'c', 'd'] 2 [1, 8, 8] = .error .more := by decide
example : rsample die ['a', 'b', 'c', 'd'] 2 [1, 2, 4] = .ok (['a', 'b'], [4]) := by decide
example : sampleInput die ['a', 'b', 'c', 'd'] 2 [8, 4] = .ok (['a', 'd'], []) := by decide
example : sampleInput die ['a', 'b'] 5 [8, 4] = .ok (['a', 'b'], [8, 4]) := by decide
example : Unbiased mt (sample mt (List.range 1000) 10) (fun b => b.Sublist (List.range 1000) ∧ b.length = 10) (1000 * 64) := by
  simpa [mt] using C23_sample mt mt_ok (List.range 1000) List.nodup_range (by simp [mt]) 10

end STL.Rnd
