import Verif.Mdspan.Stride

/-! # `extents`: proofs -/

namespace STL.Mds
open STL

/-- The extents specified by the template arguments and the values for the dynamic ones, in order. -/
def fill : List (Option Int) → List Int → List Int
  | [], _ => []
  | some s :: ss, as => s :: fill ss as
  | none :: ss, a :: as => a :: fill ss as
  | none :: _, [] => []

theorem dynIndices_get : ∀ (stat : List (Option Int)) (c r : Nat), r ≤ stat.length → (dynIndices stat c)[r]? = some (c + rankDynamic (stat.take r))
  | [], c, r, h => by simp at h; subst h; simp [dynIndices, rankDynamic]
  | s :: ss, c, 0, h => by simp [dynIndices, rankDynamic]
  | s :: ss, c, r + 1, h => by
    unfold dynIndices
    rw [List.getElem?_cons_succ, dynIndices_get ss _ r (by simpa using h)]
    unfold rankDynamic
    rw [List.take_succ_cons, List.countP_cons]
    cases s <;> simp <;> omega

theorem rankDynamic_cons_none (ss : List (Option Int)) : rankDynamic (none :: ss) = rankDynamic ss + 1 := by simp [rankDynamic]
theorem rankDynamic_cons_some (s : Int) (ss : List (Option Int)) : rankDynamic (some s :: ss) = rankDynamic ss := by simp [rankDynamic]

theorem fill_get : ∀ (stat : List (Option Int)) (as : List Int), as.length = rankDynamic stat → ∀ r (_ : r < stat.length),
    (∀ s, stat[r]? = some (some s) → (fill stat as)[r]? = some s) ∧ (stat[r]? = some none → (fill stat as)[r]? = as[rankDynamic (stat.take r)]?)
  | [], _, _, r, h => by simp at h
  | some s :: ss, as, hl, 0, _ => by simp [fill]
  | none :: ss, [], hl, _, _ => by rw [rankDynamic_cons_none] at hl; simp at hl
  | none :: ss, a :: as, hl, 0, _ => by simp [fill, rankDynamic]
  | some s :: ss, as, hl, r + 1, h => by
    rw [rankDynamic_cons_some] at hl
    have := fill_get ss as hl r (by simpa using h)
    simpa [fill, rankDynamic_cons_some] using this
  | none :: ss, a :: as, hl, r + 1, h => by
    rw [rankDynamic_cons_none] at hl
    have := fill_get ss as (by simpa using hl) r (by simpa using h)
    simpa [fill, rankDynamic_cons_none] using this

theorem rank_take_lt {stat : List (Option Int)} {r : Nat} (h : stat[r]? = some none) : rankDynamic (stat.take r) < rankDynamic stat := by
  induction stat generalizing r with
  | nil => simp at h
  | cons s ss ih =>
    cases r with
    | zero => simp at h; subst h; rw [rankDynamic_cons_none]; simp [rankDynamic]
    | succ r =>
      have := ih (r := r) (by simpa using h)
      rw [List.take_succ_cons]
      cases s with
      | none => rw [rankDynamic_cons_none, rankDynamic_cons_none]; omega
      | some s => rw [rankDynamic_cons_some, rankDynamic_cons_some]; exact this

theorem extent_fill {stat : List (Option Int)} {as : List Int} (hl : as.length = rankDynamic stat) {r : Nat} (hr : r < stat.length) :
    ∃ v, (fill stat as)[r]? = some v ∧ (⟨stat, as⟩ : Ext).extent r = .ok v := by
  obtain ⟨f1, f2⟩ := fill_get stat as hl r hr
  unfold Ext.extent
  simp only
  have hg : stat[r]? = some stat[r] := List.getElem?_eq_getElem hr
  cases hs : stat[r] with
  | some s =>
    rw [hs] at hg
    exact ⟨s, f1 s hg, by rw [hg]⟩
  | none =>
    rw [hs] at hg
    have hlt := rank_take_lt hg
    rw [hg, dynIndices_get stat 0 r (by omega), zero_add]
    simp only
    have : as[rankDynamic (stat.take r)]? = some (as[rankDynamic (stat.take r)]'(by omega)) := List.getElem?_eq_getElem (by omega)
    rw [f2 hg, this]
    exact ⟨_, rfl, rfl⟩

/-- Selecting the values at the dynamic positions and filling gives the values back. -/
theorem gets_ok (args : List Int) : ∀ (stat : List (Option Int)) (i : Nat), i + stat.length = args.length → (∀ r s, stat[r]? = some (some s) → args[i + r]? = some s) →
    ∃ d, gets args (dynIndicesInv stat i) = .ok d ∧ d.length = rankDynamic stat ∧ fill stat d = args.drop i
  | [], i, hl, _ => ⟨[], rfl, rfl, by simp at hl; simp [fill, hl]⟩
  | s :: ss, i, hl, h => by
    simp only [List.length_cons] at hl
    obtain ⟨d, h1, h2, h3⟩ := gets_ok args ss (i + 1) (by omega) fun r s' hs' => by
      have := h (r + 1) s' (by simpa using hs')
      rw [← this]; congr 1; omega
    have hi : args[i]? = some (args[i]'(by omega)) := List.getElem?_eq_getElem (by omega)
    have hd : args.drop i = args[i]'(by omega) :: args.drop (i + 1) := List.drop_eq_getElem_cons (by omega)
    cases s with
    | some s =>
      refine ⟨d, by simpa [dynIndicesInv] using h1, by rw [rankDynamic_cons_some]; exact h2, ?_⟩
      have := h 0 s (by simp)
      rw [Nat.add_zero, hi] at this
      injection this with this
      unfold fill
      rw [h3, hd, this]
    | none =>
      refine ⟨args[i]'(by omega) :: d, ?_, by rw [rankDynamic_cons_none]; simp [h2], ?_⟩
      · unfold dynIndicesInv
        rw [if_pos rfl]
        unfold gets
        rw [hi, h1]; rfl
      · unfold fill
        rw [h3, hd]

end STL.Mds
