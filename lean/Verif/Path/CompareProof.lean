import Verif.Path.IterModel
import Verif.Path.IterSpec

/-! # `path::compare` and `hash_value`. Proofs only. -/

namespace STL.Path
open Spec (slash plain)

/-- The elements of the rest of a text, from the middle of an element on. -/
def pieces : Text → List Text
  | [] => [[]]
  | c :: r =>
    if slash c then [] :: pieces (r.dropWhile slash)
    else match pieces r with
      | x :: xs => (c :: x) :: xs
      | [] => [[c]]
termination_by r => r.length
decreasing_by
  · have := (List.dropWhile_suffix slash (l := r)).length_le
    simp; omega
  · simp

theorem pieces_nil : pieces [] = [[]] := by simp [pieces]
theorem pieces_slash {c : WChar} {r : Text} (h : slash c = true) : pieces (c :: r) = [] :: pieces (r.dropWhile slash) := by
  rw [pieces]; simp [h]

theorem pieces_ne (r : Text) : pieces r ≠ [] := by
  cases r with
  | nil => simp [pieces]
  | cons c r =>
    rw [pieces]
    split
    · simp
    · split <;> simp

theorem pieces_plain {c : WChar} {r : Text} (h : slash c = false) : ∃ x xs, pieces r = x :: xs ∧ pieces (c :: r) = (c :: x) :: xs := by
  cases hp : pieces r with
  | nil => exact absurd hp (pieces_ne r)
  | cons x xs =>
    refine ⟨x, xs, rfl, ?_⟩
    rw [pieces]
    simp [h, hp]

theorem plain_eq (c : WChar) : plain c = !slash c := rfl

theorem pieces_run (run rest : Text) (h : ∀ c ∈ run, slash c = false) : ∃ x xs, pieces rest = x :: xs ∧ pieces (run ++ rest) = (run ++ x) :: xs := by
  induction run with
  | nil =>
    cases hp : pieces rest with
    | nil => exact absurd hp (pieces_ne rest)
    | cons x xs => exact ⟨x, xs, rfl, hp⟩
  | cons c run ih =>
    obtain ⟨x, xs, h1, h2⟩ := ih fun d hd => h d (List.mem_cons_of_mem _ hd)
    obtain ⟨y, ys, h3, h4⟩ := pieces_plain (r := run ++ rest) (h c List.mem_cons_self)
    rw [h2] at h3
    cases h3
    exact ⟨x, xs, h1, h4⟩

theorem mem_takeWhile_plain {r : Text} {c : WChar} (h : c ∈ r.takeWhile plain) : slash c = false := by
  have := List.mem_takeWhile_imp h
  simpa [plain_eq] using this

theorem names_pieces (n : Nat) : ∀ r : Text, r.length ≤ n → r ≠ [] → Spec.names r = pieces r := by
  induction n with
  | zero =>
    intro r h hne
    exact absurd (List.length_eq_zero_iff.1 (Nat.le_zero.1 h)) hne
  | succ n ih =>
    intro r hl hne
    rw [Spec.names, if_neg hne]
    obtain ⟨x, xs, h1, h2⟩ := pieces_run (r.takeWhile plain) (r.dropWhile plain) fun c => mem_takeWhile_plain
    rw [List.takeWhile_append_dropWhile] at h2
    rw [h2]
    by_cases hd : r.dropWhile plain = []
    · rw [if_pos hd]
      rw [hd, pieces_nil] at h1
      cases h1
      simp
    · rw [if_neg hd]
      cases hr : r.dropWhile plain with
      | nil => exact absurd hr hd
      | cons c q =>
        have hc : slash c = true := by
          have := List.head_dropWhile_not plain (l := r) hd
          simp only [hr, List.head_cons, plain_eq, Bool.not_eq_false'] at this
          simpa using this
        rw [hr, pieces_slash hc] at h1
        cases h1
        rw [List.dropWhile_cons_of_pos hc, List.append_nil]
        congr 1
        by_cases hq : q.dropWhile slash = []
        · rw [if_pos hq, hq, pieces_nil]
        · rw [if_neg hq]
          refine ih _ ?_ hq
          have e1 : (r.dropWhile plain).length ≤ r.length := (List.dropWhile_suffix _).length_le
          have e2 : (q.dropWhile slash).length ≤ q.length := (List.dropWhile_suffix _).length_le
          rw [hr] at e1
          simp at e1
          omega

theorem pieces_names (r : Text) : pieces r = if Spec.names r = [] then [[]] else Spec.names r := by
  by_cases h : r = []
  · subst h
    rw [Spec.names]
    simp [pieces_nil]
  · rw [← names_pieces _ r (Nat.le_refl _) h, if_neg]
    rw [names_pieces _ r (Nat.le_refl _) h]
    exact pieces_ne r

/-! ## Signs -/

/-- The sign of a number. -/
def Sign (z : Int) : Ordering → Prop
  | .lt => z < 0
  | .eq => z = 0
  | .gt => 0 < z

theorem Sign.iff {z : Int} {o : Ordering} (h : Sign z o) : (z < 0 ↔ o = .lt) ∧ (z = 0 ↔ o = .eq) ∧ (0 < z ↔ o = .gt) := by
  cases o <;> simp [Sign] at h ⊢ <;> omega

theorem ne_of_toNat {a b : WChar} : a.toNat = b.toNat ↔ a = b := ⟨UInt16.toNat_inj.1, fun h => by rw [h]⟩

theorem sign_char (a b : WChar) : Sign ((a.toNat : Int) - b.toNat) (Ord.compare a.toNat b.toNat) := by
  rcases Nat.lt_trichotomy a.toNat b.toNat with h | h | h
  · rw [Nat.compare_eq_lt.2 h]; show (_ : Int) < 0; omega
  · rw [Nat.compare_eq_eq.2 h]; show (_ : Int) = 0; omega
  · rw [Nat.compare_eq_gt.2 h]; show 0 < (_ : Int); omega

theorem sign_then {z z' : Int} {o o' : Ordering} (h : Sign z o) (h' : z = 0 → Sign z' o') : Sign (if z ≠ 0 then z else z') (o.then o') := by
  cases o
  · have h : z < 0 := h
    rw [if_pos (by omega)]; exact h
  · have h : z = 0 := h
    rw [if_neg (by omega)]; exact h' h
  · have h : 0 < z := h
    rw [if_pos (by omega)]; exact h

theorem sign_range (a b : Text) : Sign (rangeCompare a b) (Spec.cmpText a b) := by
  unfold rangeCompare Spec.cmpText
  dsimp only
  induction a generalizing b with
  | nil =>
    cases b with
    | nil => exact rfl
    | cons d b => show (_ : Int) < 0; simp [wmemcmp]
  | cons c a ih =>
    cases b with
    | nil => show 0 < (_ : Int); simp [wmemcmp]
    | cons d b =>
      have hm : min (c :: a).length (d :: b).length = min a.length b.length + 1 := by simp
      rw [hm]
      rw [Spec.lex]
      have hw : wmemcmp (c :: a) (d :: b) (min a.length b.length + 1) = if c < d then -1 else if d < c then 1 else wmemcmp a b (min a.length b.length) := rfl
      rcases Nat.lt_trichotomy c.toNat d.toNat with h | h | h
      · have l1 : c < d := UInt16.lt_iff_toNat_lt.2 h
        rw [if_pos l1] at hw
        rw [hw, Nat.compare_eq_lt.2 h]
        show (_ : Int) < 0
        simp
      · have l1 : ¬ c < d := fun h' => by have := UInt16.lt_iff_toNat_lt.1 h'; omega
        have l2 : ¬ d < c := fun h' => by have := UInt16.lt_iff_toNat_lt.1 h'; omega
        rw [if_neg l1, if_neg l2] at hw
        rw [hw, Nat.compare_eq_eq.2 h]
        have := ih b
        simp only [List.length_cons, Nat.add_lt_add_iff_right]
        exact this
      · have l1 : ¬ c < d := fun h' => by have := UInt16.lt_iff_toNat_lt.1 h'; omega
        have l2 : d < c := UInt16.lt_iff_toNat_lt.2 h
        rw [if_neg l1, if_pos l2] at hw
        rw [hw, Nat.compare_eq_gt.2 h]
        show 0 < (_ : Int)
        simp

theorem cmpText_nil : Spec.cmpText [] [] = .eq := rfl
theorem cmpText_nil_cons (c : WChar) (x : Text) : Spec.cmpText [] (c :: x) = .lt := rfl
theorem cmpText_cons_nil (c : WChar) (x : Text) : Spec.cmpText (c :: x) [] = .gt := rfl
theorem cmpText_cons (c d : WChar) (x y : Text) : Spec.cmpText (c :: x) (d :: y) = (Ord.compare c.toNat d.toNat).then (Spec.cmpText x y) := rfl

theorem lex_nil_ne {α : Type} {cmp : α → α → Ordering} {l : List α} (h : l ≠ []) : Spec.lex cmp [] l = .lt := by
  cases l with
  | nil => exact absurd rfl h
  | cons => rfl

theorem lex_ne_nil {α : Type} {cmp : α → α → Ordering} {l : List α} (h : l ≠ []) : Spec.lex cmp l [] = .gt := by
  cases l with
  | nil => exact absurd rfl h
  | cons => rfl

theorem pieces_cmp_nil {b : Text} (h : b ≠ []) : Spec.lex Spec.cmpText (pieces []) (pieces b) = .lt := by
  rw [pieces_nil]
  cases b with
  | nil => exact absurd rfl h
  | cons c r =>
    by_cases hc : slash c = true
    · rw [pieces_slash hc, Spec.lex, cmpText_nil]
      exact lex_nil_ne (pieces_ne _)
    · obtain ⟨x, xs, -, h2⟩ := pieces_plain (r := r) (by simpa using hc)
      rw [h2]
      rfl

theorem pieces_cmp_nil' {b : Text} (h : b ≠ []) : Spec.lex Spec.cmpText (pieces b) (pieces []) = .gt := by
  rw [pieces_nil]
  cases b with
  | nil => exact absurd rfl h
  | cons c r =>
    by_cases hc : slash c = true
    · rw [pieces_slash hc, Spec.lex, cmpText_nil]
      exact lex_ne_nil (pieces_ne _)
    · obtain ⟨x, xs, -, h2⟩ := pieces_plain (r := r) (by simpa using hc)
      rw [h2]
      rfl

theorem then_assoc (a b c : Ordering) : (a.then b).then c = a.then (b.then c) := by cases a <;> rfl

theorem drop_findNot (s : Text) (i : Nat) : s.drop (i + ((s.drop i).takeWhile slash).length) = (s.drop i).dropWhile slash := by
  rw [← List.drop_drop]
  conv => lhs; arg 2; rw [← List.takeWhile_append_dropWhile (p := slash) (l := s.drop i)]
  rw [List.drop_left]

theorem findNot_ok (s : Text) (i : Nat) (h : i ≤ s.length) :
    findIf (fun c => !isSlash c) s i = .ok (i + ((s.drop i).takeWhile slash).length) ∧ i + ((s.drop i).takeWhile slash).length ≤ s.length := by
  refine ⟨?_, ?_⟩
  · rw [findIf_ok _ _ _ h]
    simp [isSlash_eq]
  · have := takeWhile_le slash (s.drop i)
    simp at this
    omega

theorem cmpLoop_ok (s t : Text) : ∀ fuel i j, i ≤ s.length → j ≤ t.length → s.length - i < fuel →
    ∃ z, cmpLoop s t fuel i j = .ok z ∧ Sign z (Spec.lex Spec.cmpText (pieces (s.drop i)) (pieces (t.drop j))) := by
  intro fuel
  induction fuel with
  | zero => intro i j h1 h2 h3; omega
  | succ fuel ih =>
    intro i j hi hj hf
    unfold cmpLoop
    dsimp only
    by_cases h1 : i = s.length
    · have e1 : s.drop i = [] := List.drop_eq_nil_of_le (by omega)
      rw [if_pos (by simp [h1])]
      refine ⟨_, rfl, ?_⟩
      by_cases h2 : j = t.length
      · have e2 : t.drop j = [] := List.drop_eq_nil_of_le (by omega)
        rw [e1, e2, pieces_nil]
        simp [h1, h2, Spec.lex, cmpText_nil, Sign, b2i]
      · rw [e1, pieces_cmp_nil (by simp; omega)]
        simp [h1, h2, Sign, b2i]
    · by_cases h2 : j = t.length
      · have e2 : t.drop j = [] := List.drop_eq_nil_of_le (by omega)
        rw [if_pos (by simp [h1, h2, b2i])]
        refine ⟨_, rfl, ?_⟩
        rw [e2, pieces_cmp_nil' (by simp; omega)]
        simp [h1, h2, Sign, b2i]
      · have hi' : i < s.length := by omega
        have hj' : j < t.length := by omega
        rw [if_neg (by simp [h1, h2, b2i])]
        rw [rdc_ok _ _ hi', rdc_ok _ _ hj', R.ok_bind, R.ok_bind]
        rw [isSlash_eq, isSlash_eq, List.drop_eq_getElem_cons hi', List.drop_eq_getElem_cons hj']
        generalize s[i] = a
        generalize t[j] = b
        by_cases ha : slash a = true <;> by_cases hb : slash b = true
        · rw [if_neg (by simp [ha, hb, b2i]), if_pos ha]
          obtain ⟨f1, f2⟩ := findNot_ok s (i + 1) (by omega)
          obtain ⟨f3, f4⟩ := findNot_ok t (j + 1) (by omega)
          rw [f1, f3, R.ok_bind, R.ok_bind]
          obtain ⟨z, hz1, hz2⟩ := ih _ _ f2 f4 (by omega)
          refine ⟨z, hz1, ?_⟩
          rw [pieces_slash ha, pieces_slash hb]
          rw [drop_findNot, drop_findNot] at hz2
          exact hz2
        · rw [if_pos (by simp [ha, hb, b2i])]
          refine ⟨_, rfl, ?_⟩
          obtain ⟨x, xs, -, e⟩ := pieces_plain (c := b) (r := t.drop (j + 1)) (by simpa using hb)
          rw [pieces_slash ha, e]
          simp [ha, hb, b2i, Spec.lex, cmpText_nil_cons, Sign]
        · rw [if_pos (by simp [ha, hb, b2i])]
          refine ⟨_, rfl, ?_⟩
          obtain ⟨x, xs, -, e⟩ := pieces_plain (c := a) (r := s.drop (i + 1)) (by simpa using ha)
          rw [pieces_slash hb, e]
          simp [ha, hb, b2i, Spec.lex, cmpText_cons_nil, Sign]
        · rw [if_neg (by simp [ha, hb, b2i]), if_neg ha]
          obtain ⟨x, xs, e1, e2⟩ := pieces_plain (c := a) (r := s.drop (i + 1)) (by simpa using ha)
          obtain ⟨y, ys, e3, e4⟩ := pieces_plain (c := b) (r := t.drop (j + 1)) (by simpa using hb)
          rw [e2, e4, Spec.lex, cmpText_cons, then_assoc]
          have hs := sign_char a b
          by_cases hab : a.toNat = b.toNat
          · rw [if_neg (by omega)]
            obtain ⟨z, hz1, hz2⟩ := ih (i + 1) (j + 1) (by omega) (by omega) (by omega)
            refine ⟨z, hz1, ?_⟩
            rw [Nat.compare_eq_eq.2 hab]
            rw [e1, e3] at hz2
            exact hz2
          · rw [if_pos (by omega)]
            refine ⟨_, rfl, ?_⟩
            rcases Nat.lt_trichotomy a.toNat b.toNat with h | h | h
            · rw [Nat.compare_eq_lt.2 h]; show (_ : Int) < 0; omega
            · exact absurd h hab
            · rw [Nat.compare_eq_gt.2 h]; show 0 < (_ : Int); omega

theorem relative_head' (s : Text) : ∀ c ∈ (Spec.relative s).head?, slash c = false := by
  intro c hc
  unfold Spec.relative at hc
  cases h : (Spec.afterName s).dropWhile slash with
  | nil => rw [h] at hc; cases hc
  | cons d q =>
    rw [h] at hc
    cases hc
    have := List.head_dropWhile_not slash (l := Spec.afterName s) (by rw [h]; simp)
    simpa [h] using this

theorem names_nil : Spec.names [] = [] := by rw [Spec.names]; simp

theorem lex_names {a b : Text} (ha : ∀ c ∈ a.head?, slash c = false) (hb : ∀ c ∈ b.head?, slash c = false) :
    Spec.lex Spec.cmpText (Spec.names a) (Spec.names b) = Spec.lex Spec.cmpText (pieces a) (pieces b) := by
  by_cases h1 : a = [] <;> by_cases h2 : b = []
  · subst h1; subst h2; rw [names_nil, pieces_nil]; rfl
  · subst h1
    rw [names_nil, pieces_cmp_nil h2, names_pieces _ b (Nat.le_refl _) h2]
    exact lex_nil_ne (pieces_ne _)
  · subst h2
    rw [names_nil, pieces_cmp_nil' h1, names_pieces _ a (Nat.le_refl _) h1]
    exact lex_ne_nil (pieces_ne _)
  · rw [names_pieces _ a (Nat.le_refl _) h1, names_pieces _ b (Nat.le_refl _) h2]

theorem compare_ok (s t : Text) : ∃ z, compare s t = .ok z ∧ Sign z (Spec.cmpPath s t) := by
  unfold compare
  rw [findRootNameEnd_ok, findRootNameEnd_ok, R.ok_bind, R.ok_bind]
  have e1 : sub s 0 (Spec.rootName s).length = Spec.rootName s := by rw [sub, rootName_eq_take]; rfl
  have e2 : sub t 0 (Spec.rootName t).length = Spec.rootName t := by rw [sub, rootName_eq_take]; rfl
  rw [e1, e2]
  have hr := sign_range (Spec.rootName s) (Spec.rootName t)
  unfold Spec.cmpPath
  by_cases hz : rangeCompare (Spec.rootName s) (Spec.rootName t) = 0
  · rw [if_neg (by omega)]
    have hq : Spec.cmpText (Spec.rootName s) (Spec.rootName t) = .eq := hr.iff.2.1.1 hz
    rw [hq, findNotSlash_ok, findNotSlash_ok, R.ok_bind, R.ok_bind]
    have d1 : decide ((Spec.rootName s).length ≠ rootLen s) = decide (Spec.rootDir s ≠ []) := by
      congr 1
      unfold rootLen
      rw [← List.length_pos_iff]
      exact propext ⟨fun h => by omega, fun h => by omega⟩
    have d2 : decide ((Spec.rootName t).length ≠ rootLen t) = decide (Spec.rootDir t ≠ []) := by
      congr 1
      unfold rootLen
      rw [← List.length_pos_iff]
      exact propext ⟨fun h => by omega, fun h => by omega⟩
    rw [d1, d2]
    have hl := lex_names (relative_head' s) (relative_head' t)
    obtain ⟨z, hz1, hz2⟩ := cmpLoop_ok s t (s.length + 1) (rootLen s) (rootLen t) (rootLen_le s) (rootLen_le t) (by omega)
    rw [← relative_eq_drop, ← relative_eq_drop, ← hl] at hz2
    by_cases h1 : Spec.rootDir s = [] <;> by_cases h2 : Spec.rootDir t = []
    · rw [if_neg (by simp [h1, h2, b2i])]
      exact ⟨z, hz1, by simpa [h1, h2] using hz2⟩
    · rw [if_pos (by simp [h1, h2, b2i])]
      refine ⟨_, rfl, ?_⟩
      rw [if_pos h1, if_neg h2]
      show (_ : Int) < 0
      simp [h1, h2, b2i]
    · rw [if_pos (by simp [h1, h2, b2i])]
      refine ⟨_, rfl, ?_⟩
      rw [if_pos h2, if_neg h1]
      show 0 < (_ : Int)
      simp [h1, h2, b2i]
    · rw [if_neg (by simp [h1, h2, b2i])]
      exact ⟨z, hz1, by simpa [h1, h2] using hz2⟩
  · rw [if_pos hz]
    refine ⟨_, rfl, ?_⟩
    have h := sign_then (z' := 0) (o' := (Ord.compare (if Spec.rootDir s = [] then 0 else 1) (if Spec.rootDir t = [] then 0 else 1)).then
      (Spec.lex Spec.cmpText (Spec.names (Spec.relative s)) (Spec.names (Spec.relative t)))) hr (fun h => absurd h hz)
    rw [if_pos hz] at h
    exact h

/-! ## The order -/

/-- A total order. -/
structure Total {α : Type} (cmp : α → α → Ordering) : Prop where
  eq : ∀ a b, cmp a b = .eq ↔ a = b
  swap : ∀ a b, cmp b a = (cmp a b).swap
  trans : ∀ a b c, cmp a b = .lt → cmp b c = .lt → cmp a c = .lt

theorem total_nat : Total (fun a b : Nat => Ord.compare a b) where
  eq := fun a b => Nat.compare_eq_eq
  swap := fun a b => (Nat.compare_swap a b).symm
  trans := fun a b c h1 h2 => by
    rw [Nat.compare_eq_lt] at *
    omega

theorem total_char : Total (fun a b : WChar => Ord.compare a.toNat b.toNat) where
  eq := fun a b => by rw [Nat.compare_eq_eq]; exact ne_of_toNat
  swap := fun a b => total_nat.swap _ _
  trans := fun a b c => total_nat.trans _ _ _

theorem then_lt {a b : Ordering} : a.then b = .lt ↔ a = .lt ∨ (a = .eq ∧ b = .lt) := by cases a <;> simp [Ordering.then]
theorem then_eq {a b : Ordering} : a.then b = .eq ↔ a = .eq ∧ b = .eq := by cases a <;> simp [Ordering.then]

theorem total_then {α β : Type} {c : α → α → Ordering} {d : β → β → Ordering} (hc : Total c) (hd : Total d) :
    Total (fun a b : α × β => (c a.1 b.1).then (d a.2 b.2)) where
  eq := fun a b => by
    rw [then_eq, hc.eq, hd.eq]
    exact ⟨fun h => Prod.ext h.1 h.2, fun h => by rw [h]; exact ⟨rfl, rfl⟩⟩
  swap := fun a b => by
    rw [hc.swap, hd.swap]
    cases c a.1 b.1 <;> rfl
  trans := fun x y z h1 h2 => by
    rw [then_lt] at *
    rcases h1 with h1 | ⟨h1, h1'⟩ <;> rcases h2 with h2 | ⟨h2, h2'⟩
    · exact .inl (hc.trans _ _ _ h1 h2)
    · rw [← (hc.eq _ _).1 h2]; exact .inl h1
    · rw [(hc.eq _ _).1 h1]; exact .inl h2
    · refine .inr ⟨?_, hd.trans _ _ _ h1' h2'⟩
      rw [(hc.eq _ _).1 h1]; exact h2

theorem total_lex {α : Type} {c : α → α → Ordering} (hc : Total c) : Total (Spec.lex c) where
  eq := fun a => by
    induction a with
    | nil => intro b; cases b <;> simp [Spec.lex]
    | cons x a ih =>
      intro b
      cases b with
      | nil => simp [Spec.lex]
      | cons y b => rw [Spec.lex, then_eq, hc.eq, ih]; simp
  swap := fun a => by
    induction a with
    | nil => intro b; cases b <;> rfl
    | cons x a ih =>
      intro b
      cases b with
      | nil => rfl
      | cons y b => rw [Spec.lex, Spec.lex, hc.swap, ih]; cases c x y <;> rfl
  trans := fun a => by
    induction a with
    | nil =>
      intro b d h1 h2
      cases d with
      | nil => cases b <;> simp [Spec.lex] at h1 h2
      | cons z d => rfl
    | cons x a ih =>
      intro b d h1 h2
      cases b with
      | nil => simp [Spec.lex] at h1
      | cons y b =>
        cases d with
        | nil => simp [Spec.lex] at h2
        | cons z d =>
          rw [Spec.lex, then_lt] at *
          rcases h1 with h1 | ⟨h1, h1'⟩ <;> rcases h2 with h2 | ⟨h2, h2'⟩
          · exact .inl (hc.trans _ _ _ h1 h2)
          · rw [← (hc.eq _ _).1 h2]; exact .inl h1
          · rw [(hc.eq _ _).1 h1]; exact .inl h2
          · refine .inr ⟨?_, ih _ _ h1' h2'⟩
            rw [(hc.eq _ _).1 h1]; exact h2

/-- What is compared. -/
def key (s : Text) : Text × Nat × List Text := (Spec.rootName s, if Spec.rootDir s = [] then 0 else 1, Spec.names (Spec.relative s))

theorem total_key : Total (fun a b : Text × Nat × List Text =>
    (Spec.cmpText a.1 b.1).then ((Ord.compare a.2.1 b.2.1).then (Spec.lex Spec.cmpText a.2.2 b.2.2))) :=
  total_then (total_lex total_char) (total_then total_nat (total_lex (total_lex total_char)))

theorem cmpPath_key (s t : Text) : Spec.cmpPath s t = (Spec.cmpText (key s).1 (key t).1).then
    ((Ord.compare (key s).2.1 (key t).2.1).then (Spec.lex Spec.cmpText (key s).2.2 (key t).2.2)) := rfl

/-! ## The hash -/

/-- The text that is hashed: every run of slashes is one backslash. -/
def collapse : Bool → Text → Text
  | _, [] => []
  | ins, c :: r => if slash c then (if ins then collapse true r else 92 :: collapse true r) else c :: collapse false r

theorem hashLoop_ok (s : Text) : ∀ fuel i ins v, i ≤ s.length → s.length - i < fuel →
    hashLoop s fuel i ins v = .ok ((collapse ins (s.drop i)).foldl fnvAppend v) := by
  intro fuel
  induction fuel with
  | zero => intro i ins v h1 h2; omega
  | succ fuel ih =>
    intro i ins v hi hf
    unfold hashLoop
    by_cases h : i = s.length
    · rw [if_pos h, List.drop_eq_nil_of_le (by omega)]
      rfl
    · have hi' : i < s.length := by omega
      rw [if_neg h, rdc_ok _ _ hi', R.ok_bind, isSlash_eq, List.drop_eq_getElem_cons hi', collapse]
      by_cases hc : slash s[i] = true
      · rw [if_pos hc, if_pos hc]
        cases ins with
        | false =>
          rw [if_pos (by rfl), ih _ _ _ (by omega) (by omega)]
          rfl
        | true =>
          rw [if_neg (by simp), ih _ _ _ (by omega) (by omega)]
          rfl
      · rw [if_neg hc, if_neg hc, ih _ _ _ (by omega) (by omega)]
        rfl

theorem collapse_skip : ∀ r : Text, collapse true r = collapse false (r.dropWhile slash) ∨ r.dropWhile slash = [] ∧ collapse true r = [] := by
  intro r
  induction r with
  | nil => exact .inl rfl
  | cons c r ih =>
    by_cases hc : slash c = true
    · rw [List.dropWhile_cons_of_pos hc, collapse, if_pos hc, if_pos rfl]
      exact ih
    · rw [List.dropWhile_cons_of_neg hc, collapse, if_neg hc, collapse, if_neg hc]
      exact .inl rfl

theorem collapse_true (r : Text) : collapse true r = collapse false (r.dropWhile slash) := by
  rcases collapse_skip r with h | ⟨h1, h2⟩
  · exact h
  · rw [h1, h2]; rfl

/-- Elements with backslashes between them. -/
def join : List Text → Text
  | [] => []
  | [x] => x
  | x :: y :: l => x ++ 92 :: join (y :: l)

theorem join_cons {x : Text} {l : List Text} (h : l ≠ []) : join (x :: l) = x ++ 92 :: join l := by
  cases l with
  | nil => exact absurd rfl h
  | cons => rfl

theorem collapse_pieces (n : Nat) : ∀ r : Text, r.length ≤ n → collapse false r = join (pieces r) := by
  induction n with
  | zero =>
    intro r h
    obtain rfl := List.length_eq_zero_iff.1 (Nat.le_zero.1 h)
    rw [pieces_nil]; rfl
  | succ n ih =>
    intro r h
    cases r with
    | nil => rw [pieces_nil]; rfl
    | cons c r =>
      simp only [List.length_cons, Nat.add_le_add_iff_right] at h
      by_cases hc : slash c = true
      · rw [pieces_slash hc, join_cons (pieces_ne _), collapse, if_pos hc, if_neg (by simp), collapse_true]
        rw [ih _ (Nat.le_trans (List.dropWhile_suffix _).length_le h)]
        rfl
      · obtain ⟨x, xs, e1, e2⟩ := pieces_plain (r := r) (by simpa using hc)
        rw [e2, collapse, if_neg hc, ih r h, e1]
        cases xs <;> rfl

theorem collapse_dir (d r : Text) (hd : ∀ c ∈ d, slash c = true) (hr : ∀ c ∈ r.head?, slash c = false) :
    collapse false (d ++ r) = (if d = [] then [] else [92]) ++ collapse false r := by
  cases d with
  | nil => rfl
  | cons c d =>
    rw [List.cons_append, collapse, if_pos (hd c List.mem_cons_self), if_neg (by simp), if_neg (by simp), collapse_true]
    have : (d ++ r).dropWhile slash = r := by
      rw [List.dropWhile_append_of_pos (fun c hc => hd c (List.mem_cons_of_mem _ hc))]
      cases r with
      | nil => rfl
      | cons e q => exact List.dropWhile_cons_of_neg (by simp [hr e rfl])
    rw [this]
    rfl

theorem hashValue_ok (s : Text) : hashValue s = .ok ((Spec.rootName s ++ ((if Spec.rootDir s = [] then [] else [92]) ++
    join (if Spec.names (Spec.relative s) = [] then [[]] else Spec.names (Spec.relative s)))).foldl fnvAppend 14695981039346656037) := by
  unfold hashValue
  rw [findRootNameEnd_ok, R.ok_bind, hashLoop_ok _ _ _ _ _ (rootName_le s) (by omega)]
  have e1 : sub s 0 (Spec.rootName s).length = Spec.rootName s := by rw [sub, rootName_eq_take]; rfl
  rw [e1, List.foldl_append]
  congr 2
  have e2 : s.drop (Spec.rootName s).length = Spec.rootDir s ++ Spec.relative s := by
    conv => lhs; arg 2; rw [← decompose s, List.append_assoc]
    rw [List.drop_left]
  rw [e2, collapse_dir (Spec.rootDir s) _ (fun c hc => List.mem_takeWhile_imp (l := Spec.afterName s) hc) (relative_head' s), collapse_pieces _ _ (Nat.le_refl _), pieces_names]

end STL.Path
