import Verif.Perm.Basic
import Mathlib.Data.List.Permutation

/-!
# Property C27: `next_permutation` and `prev_permutation`
-/

namespace STL
variable {α : Type} {lt : α → α → Bool}

namespace Spec
/-- `lexicographical_compare` of two sequences ([alg.lex.comparison]). -/
def lexLt (lt : α → α → Bool) : List α → List α → Bool
  | _, [] => false
  | [], _ :: _ => true
  | x :: xs, y :: ys => lt x y || (!lt y x && lexLt lt xs ys)

/-- Same length and corresponding elements are equivalent: indistinguishable by `lt`. -/
def EquivSeq (lt : α → α → Bool) (xs ys : List α) : Prop := List.Forall₂ (fun x y => lt x y = false ∧ lt y x = false) xs ys

/-- `ys` is reached from `xs` by calls of `next_permutation`, each returning `true`. -/
inductive ReachesNext (lt : α → α → Bool) : List α → List α → Prop
  | refl (xs) : ReachesNext lt xs xs
  | step {xs ys zs} : nextPermutation lt (full xs) 0 xs.length = .ok (full ys, true) → ReachesNext lt ys zs → ReachesNext lt xs zs
end Spec
open Spec

/-! ### lexicographic order, up to permutation -/

/-- every equivalence class has the same number of elements in both. -/
def CPerm (lt : α → α → Bool) (xs ys : List α) : Prop := ∀ k, (cls lt k xs).length = (cls lt k ys).length

theorem cperm_of_perm {xs ys : List α} (h : xs.Perm ys) : CPerm lt xs ys := fun _ => (h.filter _).length_eq

theorem CPerm.symm {xs ys : List α} (h : CPerm lt xs ys) : CPerm lt ys xs := fun k => (h k).symm
theorem CPerm.trans {xs ys zs : List α} (h : CPerm lt xs ys) (h' : CPerm lt ys zs) : CPerm lt xs zs := fun k => (h k).trans (h' k)

theorem CPerm.cancel (h : SWO lt) {x y : α} {xs ys : List α} (h1 : lt x y = false) (h2 : lt y x = false)
    (hc : CPerm lt (x :: xs) (y :: ys)) : CPerm lt xs ys := by
  intro k
  have := hc k
  simp only [cls, List.filter_cons] at this ⊢
  have e : (!lt x k && !lt k x) = (!lt y k && !lt k y) := by
    have aux : ∀ {x y : α}, lt x y = false → lt y x = false → (!lt x k && !lt k x) = true → (!lt y k && !lt k y) = true := by
      intro x y h1 h2 h3
      simp at h3 ⊢
      have := h.equiv_trans y x k h2 h1 h3.1 h3.2
      exact this
    cases hx : (!lt x k && !lt k x) with
    | true => rw [aux h1 h2 hx]
    | false =>
      cases hy : (!lt y k && !lt k y) with
      | false => rfl
      | true => have := aux h2 h1 hy; rw [hx] at this; contradiction
  rw [e] at this
  split at this <;> simpa using this

theorem CPerm.mem (h : SWO lt) {x : α} {xs ys : List α} (hc : CPerm lt xs ys) (hx : x ∈ xs) :
    ∃ y ∈ ys, lt x y = false ∧ lt y x = false := by
  have h1 : x ∈ cls lt x xs := by simp [cls, hx, h.irrefl]
  have h2 : 0 < (cls lt x ys).length := by rw [← hc x]; exact List.length_pos_of_mem h1
  obtain ⟨y, hy⟩ := List.exists_mem_of_length_pos h2
  simp [cls] at hy
  exact ⟨y, hy.1, hy.2.2, hy.2.1⟩

theorem lexLt_flip_cons {x y : α} {xs ys : List α} : lexLt lt (x :: xs) (y :: ys) = true ↔
    lt x y = true ∨ (lt y x = false ∧ lexLt lt xs ys = true) := by simp [lexLt]

/-- a non-increasing sequence is lexicographically maximal -/
theorem desc_max (h : SWO lt) (D : List α) : ∀ W, D.Pairwise (fun x y => lt x y = false) → CPerm lt D W → lexLt lt D W = false := by
  induction D with
  | nil =>
    intro W _ hc
    cases W with
    | nil => rfl
    | cons w W => obtain ⟨y, hy, _⟩ := hc.symm.mem h (x := w) (by simp); simp at hy
  | cons d D ih =>
    intro W hd hc
    cases W with
    | nil => rfl
    | cons w W =>
      rw [List.pairwise_cons] at hd
      cases hx : lexLt lt (d :: D) (w :: W) with
      | false => rfl
      | true =>
        exfalso
        have h1 : lt d w = false := by
          obtain ⟨y, hy, e1, e2⟩ := hc.symm.mem h (x := w) (by simp)
          rcases List.mem_cons.1 hy with rfl | hy
          · exact e2
          · exact h.le_trans e2 (hd.1 y hy)
        rcases lexLt_flip_cons.1 hx with h2 | ⟨h2, h3⟩
        · rw [h1] at h2; contradiction
        · rw [ih W hd.2 (hc.cancel h h1 h2)] at h3; contradiction

/-- a non-decreasing sequence is lexicographically minimal -/
theorem asc_min (h : SWO lt) (S : List α) : ∀ W, S.Pairwise (fun x y => lt y x = false) → CPerm lt S W → lexLt lt W S = false := by
  induction S with
  | nil => intro W _ _; cases W <;> rfl
  | cons s S ih =>
    intro W hd hc
    cases W with
    | nil => obtain ⟨y, hy, _⟩ := hc.mem h (x := s) (by simp); simp at hy
    | cons w W =>
      rw [List.pairwise_cons] at hd
      cases hx : lexLt lt (w :: W) (s :: S) with
      | false => rfl
      | true =>
        exfalso
        have h1 : lt w s = false := by
          obtain ⟨y, hy, e1, e2⟩ := hc.symm.mem h (x := w) (by simp)
          rcases List.mem_cons.1 hy with rfl | hy
          · exact e1
          · exact h.le_trans (hd.1 y hy) e1
        rcases lexLt_flip_cons.1 hx with h2 | ⟨h2, h3⟩
        · rw [h1] at h2; contradiction
        · rw [ih W hd.2 (hc.cancel h h2 h1)] at h3; contradiction

theorem lexLt_append_left (h : SWO lt) (B xs ys : List α) : lexLt lt (B ++ xs) (B ++ ys) = lexLt lt xs ys := by
  induction B with
  | nil => rfl
  | cons b B ih => simp [lexLt, h.irrefl, ih]

theorem dec_lexLt (h : SWO lt) (B : List α) {a c : α} {P Q : List α} (hd : PDec lt a P c Q) :
    lexLt lt (B ++ a :: (P ++ c :: Q)) (B ++ c :: (P ++ a :: Q).reverse) = true := by
  rw [lexLt_append_left h, lexLt_flip_cons]; exact Or.inl hd.up

theorem dec_perm (B : List α) {a c : α} {P Q : List α} :
    (B ++ c :: (P ++ a :: Q).reverse).Perm (B ++ a :: (P ++ c :: Q)) := by
  refine List.Perm.append_left B ?_
  refine ((List.reverse_perm _).cons c).trans ?_
  refine (List.perm_middle.cons c).trans ?_
  refine (List.Perm.swap a c _).trans ?_
  exact (List.perm_middle.symm).cons a

theorem dec_tight (h : SWO lt) (B : List α) : ∀ {a c : α} {P Q : List α} (zs : List α), PDec lt a P c Q →
    CPerm lt zs (B ++ a :: (P ++ c :: Q)) → lexLt lt (B ++ a :: (P ++ c :: Q)) zs = true →
    lexLt lt zs (B ++ c :: (P ++ a :: Q).reverse) = true → False := by
  induction B with
  | nil =>
    intro a c P Q zs hd hc h1 h2
    simp only [List.nil_append] at hc h1 h2
    cases zs with
    | nil => simp [lexLt] at h1
    | cons z W =>
      have hor : lt a z = true ∨ (lt a z = false ∧ lt z a = false ∧ lexLt lt (P ++ c :: Q) W = true) := by
        rcases lexLt_flip_cons.1 h1 with haz | ⟨hza, h3⟩
        · exact Or.inl haz
        · cases haz : lt a z with
          | true => exact Or.inl rfl
          | false => exact Or.inr ⟨rfl, hza, h3⟩
      rcases hor with haz | ⟨haz, hza, h3⟩
      · -- a < z
        have hcc : CPerm lt (c :: (P ++ a :: Q)) (a :: (P ++ c :: Q)) := by
          apply cperm_of_perm
          have := dec_perm (a := a) (c := c) (P := P) (Q := Q) []
          simp only [List.nil_append] at this
          exact ((List.reverse_perm (P ++ a :: Q)).symm.cons c).trans this
        rcases lexLt_flip_cons.1 h2 with hzc | ⟨hcz, h3⟩
        · obtain ⟨y, hy, e1, e2⟩ := hc.mem h (x := z) (by simp)
          have hya : lt a y = true := h.lt_of_lt_of_le haz e2
          have hyc : lt y c = true := h.lt_of_le_of_lt e1 hzc
          have hdd := hd.desc
          rw [List.pairwise_append] at hdd
          simp only [List.mem_cons, List.mem_append] at hy
          rcases hy with rfl | hy | rfl | hy
          · rw [h.irrefl] at hya; contradiction
          · rw [hdd.2.2 y hy c (by simp)] at hyc; contradiction
          · rw [h.irrefl] at hyc; contradiction
          · rw [hd.rest y hy] at hya; contradiction
        · have hzc : lt z c = false := by
            cases hzc : lt z c with
            | false => rfl
            | true =>
              exfalso
              obtain ⟨y, hy, e1, e2⟩ := hc.mem h (x := z) (by simp)
              have hya : lt a y = true := h.lt_of_lt_of_le haz e2
              have hyc : lt y c = true := h.lt_of_le_of_lt e1 hzc
              have hdd := hd.desc
              rw [List.pairwise_append] at hdd
              simp only [List.mem_cons, List.mem_append] at hy
              rcases hy with rfl | hy | rfl | hy
              · rw [h.irrefl] at hya; contradiction
              · rw [hdd.2.2 y hy c (by simp)] at hyc; contradiction
              · rw [h.irrefl] at hyc; contradiction
              · rw [hd.rest y hy] at hya; contradiction
          have hW : CPerm lt (P ++ a :: Q) W := ((hc.trans hcc.symm).cancel h hzc hcz).symm
          have hs : (P ++ a :: Q).reverse.Pairwise (fun x y => lt y x = false) := by
            have := (hd.flip h).desc
            simpa using this
          have := asc_min h _ W hs ((cperm_of_perm (List.reverse_perm _)).trans hW)
          rw [this] at h3; contradiction
      · have hW := (hc.cancel h hza haz).symm
        rw [desc_max h _ W hd.desc hW] at h3
        contradiction
  | cons b B ih =>
    intro a c P Q zs hd hc h1 h2
    cases zs with
    | nil => simp [lexLt] at h1
    | cons z W =>
      simp only [List.cons_append] at hc h1 h2
      rcases lexLt_flip_cons.1 h1 with hbz | ⟨hzb, h3⟩
      · rcases lexLt_flip_cons.1 h2 with hzb | ⟨hbz', _⟩
        · rw [h.asymm hbz] at hzb; contradiction
        · rw [hbz] at hbz'; contradiction
      · rcases lexLt_flip_cons.1 h2 with hzb' | ⟨hbz', h4⟩
        · rw [hzb] at hzb'; contradiction
        · exact ih W hd (hc.cancel h hzb hbz') h3 h4

/-! ### the lexicographic order is a strict weak order, with `EquivSeq` as its equivalence -/

theorem lexLt_irrefl (h : SWO lt) (xs : List α) : lexLt lt xs xs = false := by
  induction xs with
  | nil => rfl
  | cons x xs ih => simp [lexLt, h.irrefl, ih]

theorem lexLt_trans (h : SWO lt) (xs : List α) : ∀ ys zs, lexLt lt xs ys = true → lexLt lt ys zs = true → lexLt lt xs zs = true := by
  induction xs with
  | nil =>
    intro ys zs h1 h2
    cases zs with
    | nil => cases ys <;> simp [lexLt] at h2
    | cons z zs => rfl
  | cons x xs ih =>
    intro ys zs h1 h2
    cases ys with
    | nil => simp [lexLt] at h1
    | cons y ys =>
      cases zs with
      | nil => simp [lexLt] at h2
      | cons z zs =>
        rw [lexLt_flip_cons] at h1 h2 ⊢
        rcases h1 with h1 | ⟨h1, h1'⟩
        · rcases h2 with h2 | ⟨h2, _⟩
          · exact Or.inl (h.trans x y z h1 h2)
          · exact Or.inl (h.lt_of_lt_of_le h1 h2)
        · rcases h2 with h2 | ⟨h2, h2'⟩
          · exact Or.inl (h.lt_of_le_of_lt h1 h2)
          · exact Or.inr ⟨h.le_trans h1 h2, ih ys zs h1' h2'⟩

theorem equivSeq_of_not_lexLt (xs : List α) : ∀ ys : List α, xs.length = ys.length → lexLt lt xs ys = false →
    lexLt lt ys xs = false → EquivSeq lt xs ys := by
  induction xs with
  | nil => intro ys hl _ _; cases ys with | nil => exact .nil | cons => simp at hl
  | cons x xs ih =>
    intro ys hl h1 h2
    cases ys with
    | nil => simp at hl
    | cons y ys =>
      simp [lexLt] at h1 h2
      exact .cons ⟨h1.1, h2.1⟩ (ih ys (by simpa using hl) (h1.2 h2.1) (h2.2 h1.1))

/-! ### the theorems -/

/-- What one call does, for a range `X` inside a larger memory `P ++ X ++ S`. -/
theorem nextPermutation_mem (h : SWO lt) (P X S : List α) :
    ∃ ys b, nextPermutation lt (full (P ++ X ++ S)) P.length (P.length + X.length) = .ok (full (P ++ ys ++ S), b) ∧
      ((b = false ∧ X.Pairwise (fun x y => lt x y = false) ∧ ys = X.reverse) ∨
       (b = true ∧ ∃ B a C c D, X = B ++ a :: (C ++ c :: D) ∧ PDec lt a C c D ∧ ys = B ++ c :: (C ++ a :: D).reverse)) := by
  have hA : At (full (P ++ X ++ S)) P.length X := by simpa using at_full_append P X S []
  rcases perm_cases h X with hd | ⟨B, a, C, c, D, rfl, hd⟩
  · obtain ⟨m', h1, h2, h3⟩ := nextPermutation_desc _ _ (P.length + X.length) X hA hd rfl
    obtain ⟨t', ht, hl⟩ := rebuild (t := []) (Y := X.reverse) (by simpa using h3)
      (fun j hj => Or.inl hj) (by simp) h2
    obtain rfl : t' = [] := List.length_eq_zero_iff.1 (by simpa using hl)
    exact ⟨X.reverse, false, by rw [h1, ht]; simp, Or.inl ⟨rfl, hd, rfl⟩⟩
  · obtain ⟨m', h1, h2, h3⟩ := nextPermutation_dec h _ _ (P.length + (B ++ a :: (C ++ c :: D)).length) B a C c D hA hd rfl
    obtain ⟨t', ht, hl⟩ := rebuild (t := []) (X := B ++ a :: (C ++ c :: D)) (Y := B ++ c :: (C ++ a :: D).reverse)
      (by rw [List.append_nil]; exact h3) (fun j hj => Or.inl hj) (by simp; omega) h2
    obtain rfl : t' = [] := List.length_eq_zero_iff.1 (by simpa using hl)
    exact ⟨_, true, by rw [h1, ht]; simp, Or.inr ⟨rfl, B, a, C, c, D, rfl, hd, rfl⟩⟩

theorem prevPermutation_mem (h : SWO lt) (P X S : List α) :
    ∃ ys b, prevPermutation lt (full (P ++ X ++ S)) P.length (P.length + X.length) = .ok (full (P ++ ys ++ S), b) ∧
      ((b = false ∧ X.Pairwise (fun x y => lt y x = false) ∧ ys = X.reverse) ∨
       (b = true ∧ ∃ B a C c D, X = B ++ a :: (C ++ c :: D) ∧ PDec (fun x y => lt y x) a C c D ∧ ys = B ++ c :: (C ++ a :: D).reverse)) := by
  have := nextPermutation_mem h.flip P X S
  simp only [← prevPermutation_eq] at this
  exact this

/-- **C27.** `next_permutation` on a range inside a larger memory never has undefined behaviour, leaves the rest of
memory alone, and permutes the range. If it returns `true` the new arrangement is the immediate lexicographic successor
among all permutations of the range; if it returns `false` there was no greater permutation and the range is now
sorted. -/
theorem next_permutation_correct (h : SWO lt) (P X S : List α) :
    ∃ ys b, nextPermutation lt (full (P ++ X ++ S)) P.length (P.length + X.length) = .ok (full (P ++ ys ++ S), b) ∧
      ys.Perm X ∧
      (b = true → lexLt lt X ys = true ∧ ∀ zs, zs.Perm X → ¬ (lexLt lt X zs = true ∧ lexLt lt zs ys = true)) ∧
      (b = false → (∀ zs, zs.Perm X → lexLt lt X zs = false) ∧ (∀ zs, zs.Perm X → lexLt lt zs ys = false) ∧
        ys.Pairwise (fun x y => lt y x = false)) := by
  obtain ⟨ys, b, h1, h2⟩ := nextPermutation_mem h P X S
  refine ⟨ys, b, h1, ?_⟩
  rcases h2 with ⟨rfl, hd, rfl⟩ | ⟨rfl, B, a, C, c, D, rfl, hd, rfl⟩
  · have hs : X.reverse.Pairwise (fun x y => lt y x = false) := by rw [List.pairwise_reverse]; exact hd
    refine ⟨List.reverse_perm _, by simp, fun _ => ⟨?_, ?_, hs⟩⟩
    · intro zs hz; exact desc_max h X zs hd (cperm_of_perm hz.symm)
    · intro zs hz; exact asc_min h _ zs hs (cperm_of_perm ((List.reverse_perm X).trans hz.symm))
  · refine ⟨dec_perm B, fun _ => ⟨dec_lexLt h B hd, ?_⟩, by simp⟩
    intro zs hz ⟨h3, h4⟩
    exact dec_tight h B zs hd (cperm_of_perm hz) h3 h4

theorem lexLt_lt_flip (xs : List α) : ∀ ys : List α, xs.length = ys.length → lexLt (fun x y => lt y x) xs ys = lexLt lt ys xs := by
  induction xs with
  | nil => intro ys hl; cases ys with | nil => rfl | cons => simp at hl
  | cons x xs ih =>
    intro ys hl
    cases ys with
    | nil => simp at hl
    | cons y ys => simp only [lexLt]; rw [ih ys (by simpa using hl)]

/-- **C27.** `prev_permutation`: the immediate lexicographic predecessor, or the last arrangement when there is none. -/
theorem prev_permutation_correct (h : SWO lt) (P X S : List α) :
    ∃ ys b, prevPermutation lt (full (P ++ X ++ S)) P.length (P.length + X.length) = .ok (full (P ++ ys ++ S), b) ∧
      ys.Perm X ∧
      (b = true → lexLt lt ys X = true ∧ ∀ zs, zs.Perm X → ¬ (lexLt lt ys zs = true ∧ lexLt lt zs X = true)) ∧
      (b = false → (∀ zs, zs.Perm X → lexLt lt zs X = false) ∧ (∀ zs, zs.Perm X → lexLt lt ys zs = false) ∧
        ys.Pairwise (fun x y => lt x y = false)) := by
  obtain ⟨ys, b, h1, h2, h3, h4⟩ := next_permutation_correct h.flip P X S
  rw [← prevPermutation_eq] at h1
  refine ⟨ys, b, h1, h2, ?_, ?_⟩
  · intro hb
    obtain ⟨h5, h6⟩ := h3 hb
    rw [lexLt_lt_flip _ _ h2.length_eq.symm] at h5
    refine ⟨h5, fun zs hz => ?_⟩
    have := h6 zs hz
    rw [lexLt_lt_flip _ _ hz.length_eq.symm, lexLt_lt_flip _ _ (hz.trans h2.symm).length_eq] at this
    exact fun hh => this ⟨hh.2, hh.1⟩
  · intro hb
    obtain ⟨h5, h6, h7⟩ := h4 hb
    refine ⟨fun zs hz => ?_, fun zs hz => ?_, h7⟩
    · rw [← lexLt_lt_flip _ _ hz.length_eq.symm]; exact h5 zs hz
    · rw [← lexLt_lt_flip _ _ (hz.trans h2.symm).length_eq]; exact h6 zs hz

/-- **C27.** `prev_permutation` undoes `next_permutation` exactly, element by element, with the same return value. -/
theorem prev_permutation_inverts_next (h : SWO lt) (X ys : List α)
    (hn : nextPermutation lt (full X) 0 X.length = .ok (full ys, true)) :
    prevPermutation lt (full ys) 0 ys.length = .ok (full X, true) := by
  obtain ⟨ys', b, h1, h2⟩ := nextPermutation_mem h [] X []
  simp only [List.nil_append, List.append_nil, List.length_nil, Nat.zero_add] at h1
  rw [hn] at h1
  have inj : full ys = full ys' ∧ true = b := by simpa using h1
  obtain ⟨he, rfl⟩ := inj
  obtain rfl : ys = ys' := full_injective he
  rcases h2 with ⟨h3, _⟩ | ⟨_, B, a, C, c, D, rfl, hd, rfl⟩
  · simp at h3
  · rw [prevPermutation_eq]
    have hf := hd.flip h
    have e : B ++ c :: (C ++ a :: D).reverse = B ++ c :: (D.reverse ++ a :: C.reverse) := by simp
    rw [e]
    obtain ⟨m', g1, g2, g3⟩ := nextPermutation_dec h.flip (full (B ++ c :: (D.reverse ++ a :: C.reverse))) 0 _ B c D.reverse a C.reverse
      (at_full _) hf (Nat.zero_add _).symm
    rw [g1, eq_full_of_at g2 (by rw [g3.len]; simp; omega)]
    simp

/-- **C27.** `next_permutation` undoes `prev_permutation`. -/
theorem next_permutation_inverts_prev (h : SWO lt) (X ys : List α)
    (hn : prevPermutation lt (full X) 0 X.length = .ok (full ys, true)) :
    nextPermutation lt (full ys) 0 ys.length = .ok (full X, true) := by
  rw [prevPermutation_eq] at hn
  have := prev_permutation_inverts_next h.flip X ys hn
  rw [prevPermutation_eq] at this
  exact this

/-- **C27.** Starting from a sorted range, repeated calls of `next_permutation` reach every permutation of the range
(up to equivalence of elements) before it returns `false`. -/
theorem next_permutation_enumerates (h : SWO lt) (X : List α) (hs : X.Pairwise (fun x y => lt y x = false))
    (zs : List α) (hz : zs.Perm X) : ∃ ys, ReachesNext lt X ys ∧ EquivSeq lt ys zs := by
  have key : ∀ (n : Nat) (Y : List α), Y.Perm X → lexLt lt zs Y = false →
      (X.permutations.filter (fun w => lexLt lt Y w)).length = n → ∃ ys, ReachesNext lt Y ys ∧ EquivSeq lt ys zs := by
    intro n
    induction n using Nat.strongRecOn with
    | ind n ih =>
      intro Y hY hzY hn
      cases hYz : lexLt lt Y zs with
      | false => exact ⟨Y, .refl _, equivSeq_of_not_lexLt _ _ (hY.trans hz.symm).length_eq hYz hzY⟩
      | true =>
        obtain ⟨ys, b, h1, h2, h3, h4⟩ := next_permutation_correct h [] Y []
        simp only [List.nil_append, List.append_nil, List.length_nil, Nat.zero_add] at h1
        cases b with
        | false =>
          have := (h4 rfl).1 zs (hz.trans hY.symm)
          rw [hYz] at this; contradiction
        | true =>
          obtain ⟨h5, h6⟩ := h3 rfl
          have h7 := h6 zs (hz.trans hY.symm)
          have h8 : lexLt lt zs ys = false := by
            cases hh : lexLt lt zs ys with
            | false => rfl
            | true => exact absurd ⟨hYz, hh⟩ h7
          have hlt : (X.permutations.filter (fun w => lexLt lt ys w)).length < n := by
            rw [← hn]
            have hsub : (X.permutations.filter (fun w => lexLt lt ys w)) =
                (X.permutations.filter (fun w => lexLt lt Y w)).filter (fun w => lexLt lt ys w) := by
              rw [List.filter_filter]
              apply List.filter_congr
              intro w _
              cases hw : lexLt lt ys w with
              | false => simp
              | true => simp [lexLt_trans h _ _ _ h5 hw]
            rw [hsub]
            have hle := List.length_filter_le (fun w => lexLt lt ys w) (X.permutations.filter (fun w => lexLt lt Y w))
            rcases Nat.lt_or_ge ((X.permutations.filter (fun w => lexLt lt Y w)).filter (fun w => lexLt lt ys w)).length
              (X.permutations.filter (fun w => lexLt lt Y w)).length with hl | hl
            · exact hl
            · have := (List.length_filter_eq_length_iff.1 (Nat.le_antisymm hle hl)) ys
                (by simp [List.mem_permutations, h2.trans hY, h5])
              rw [lexLt_irrefl h] at this; contradiction
          obtain ⟨w, hw1, hw2⟩ := ih _ hlt ys (h2.trans hY) h8 rfl
          exact ⟨w, .step h1 hw1, hw2⟩
  exact key _ X (List.Perm.refl _) (asc_min h X zs hs (cperm_of_perm hz.symm)) rfl

/-! ### non-vacuity -/

example : nextPermutation (fun a b : Nat => decide (a < b)) (full [1, 3, 3, 2]) 0 4 = .ok (full [2, 1, 3, 3], true) := by
  have h := next_permutation_correct swo_nat [] [1, 3, 3, 2] []
  simp [nextPermutation, nextPermLoop, nextPermMid, rd, swp, wr, full, reverse, bind, Except.bind, pure, Except.pure]

example : prevPermutation (fun a b : Nat => decide (a < b)) (full [2, 1, 3, 3]) 0 4 = .ok (full [1, 3, 3, 2], true) :=
  prev_permutation_inverts_next swo_nat [1, 3, 3, 2] [2, 1, 3, 3] (by
    simp [nextPermutation, nextPermLoop, nextPermMid, rd, swp, wr, full, reverse, bind, Except.bind, pure, Except.pure])

example : ∃ ys, ReachesNext (fun a b : Nat => decide (a < b)) [1, 2, 2, 3] ys ∧
    EquivSeq (fun a b : Nat => decide (a < b)) ys [3, 2, 1, 2] :=
  next_permutation_enumerates swo_nat _ (by simp) _ (by decide)

end STL
