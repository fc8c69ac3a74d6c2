/-!
# Common modelling base

Outcome monad, memory cells, strict weak orders. See DESIGN.md section 2.
This file models no particular function of /repo; it fixes the conventions used by all models.
-/

namespace STL

/-- C++ exceptions the modelled code can throw. -/
inductive Exc where
  | lengthError | outOfRange | badAlloc | overflowError | invalidArgument | badVariantAccess | user
  deriving DecidableEq, Repr

/-- Abnormal outcomes: undefined behaviour, exhausted fuel of a model loop, or a thrown exception. -/
inductive Err where
  | ub
  | fuel
  | exc (e : Exc)
  deriving DecidableEq, Repr

/-- Outcome of a modelled function. -/
abbrev R (α : Type _) := Except Err α

theorem R.ok_bind {α β : Type _} (x : α) (f : α → R β) : ((Except.ok x : R α) >>= f) = f x := rfl
theorem R.pure_bind {α β : Type _} (x : α) (f : α → R β) : ((pure x : R α) >>= f) = f x := rfl

/-- A range of objects. `none` is an object whose value has been moved out. -/
abbrev Mem (α : Type _) := List (Option α)

/-- Read `*(first + i)`; out of range or moved-from is undefined behaviour. -/
def rd {α} (m : Mem α) (i : Nat) : R α :=
  match m[i]? with
  | some (some x) => .ok x
  | _ => .error .ub

/-- Assign `*(first + i) = x`; out of range is undefined behaviour. -/
def wr {α} (m : Mem α) (i : Nat) (x : α) : R (Mem α) :=
  if i < m.length then .ok (m.set i (some x)) else .error .ub

/-- `T v(std::move(*(first + i)))`: take the value, leaving a moved-from object. -/
def mv {α} (m : Mem α) (i : Nat) : R (α × Mem α) := do
  let x ← rd m i
  return (x, m.set i none)

/-- `*(first + dst) = std::move(*(first + src))`. -/
def mvTo {α} (m : Mem α) (dst src : Nat) : R (Mem α) := do
  let (x, m) ← mv m src
  wr m dst x

/-- `swap(*(first + i), *(first + j))`. -/
def swp {α} (m : Mem α) (i j : Nat) : R (Mem α) := do
  let x ← rd m i
  let y ← rd m j
  let m ← wr m i y
  wr m j x

/-- `if (c) swap(*(first + i), *(first + j));` -/
def swpIf {α} (c : Prop) [Decidable c] (m : Mem α) (i j : Nat) : R (Mem α) := if c then swp m i j else pure m

/-- `--it` for an iterator of the range; decrementing `begin` is undefined behaviour. -/
def decIt (i : Nat) : R Nat := if i = 0 then .error .ub else .ok (i - 1)

/-- `comp` induces a strict weak ordering ([alg.sorting.general]/4). -/
structure SWO {α : Type _} (lt : α → α → Bool) : Prop where
  irrefl : ∀ a, lt a a = false
  trans : ∀ a b c, lt a b = true → lt b c = true → lt a c = true
  equiv_trans : ∀ a b c, lt a b = false → lt b a = false → lt b c = false → lt c b = false →
    lt a c = false ∧ lt c a = false

namespace SWO
variable {α : Type _} {lt : α → α → Bool}

theorem asymm (h : SWO lt) {a b : α} (hab : lt a b = true) : lt b a = false := by
  cases hba : lt b a with
  | false => rfl
  | true => have := h.trans a b a hab hba; rw [h.irrefl] at this; contradiction

/-- `¬ b < a` is transitive: the "not greater" relation. -/
theorem le_trans (h : SWO lt) {a b c : α} (hab : lt b a = false) (hbc : lt c b = false) : lt c a = false := by
  cases hca : lt c a with
  | false => rfl
  | true =>
    cases hab' : lt a b with
    | true => have := h.trans c a b hca hab'; rw [hbc] at this; contradiction
    | false =>
      cases hbc' : lt b c with
      | true => have := h.trans b c a hbc' hca; rw [hab] at this; contradiction
      | false => have := (h.equiv_trans a b c hab' hab hbc' hbc).2; rw [hca] at this; contradiction

theorem le_total (h : SWO lt) (a b : α) : lt a b = false ∨ lt b a = false := by
  cases hab : lt a b with
  | false => exact Or.inl rfl
  | true => exact Or.inr (h.asymm hab)

theorem lt_of_le_of_lt (h : SWO lt) {a b c : α} (hab : lt b a = false) (hbc : lt b c = true) : lt a c = true := by
  cases hac : lt a c with
  | true => rfl
  | false => have := h.le_trans hac hab; rw [hbc] at this; contradiction

theorem lt_of_lt_of_le (h : SWO lt) {a b c : α} (hab : lt a b = true) (hbc : lt c b = false) : lt a c = true := by
  cases hac : lt a c with
  | true => rfl
  | false => have := h.le_trans hbc hac; rw [hab] at this; contradiction

end SWO

/-- The natural numbers under `<` are a strict weak order (used by the non-vacuity examples). -/
theorem swo_nat : SWO (fun a b : Nat => decide (a < b)) where
  irrefl := by simp
  trans := by simp; omega
  equiv_trans := by simp; omega

/-- Comparing pairs by their first component only: a strict weak order with distinct equivalent elements. -/
theorem swo_fst {β : Type} : SWO (fun a b : Nat × β => decide (a.1 < b.1)) where
  irrefl := by simp
  trans := by simp; omega
  equiv_trans := by simp; omega

/-! ## Lemmas about cell memory -/

/-- Memory in which every object holds its value. -/
def full {α} (xs : List α) : Mem α := xs.map some
/-- Memory in which exactly the object at `h` is moved-from. -/
def holed {α} (xs : List α) (h : Nat) : Mem α := (xs.map some).set h none

/-- Swap two elements of a list (identity when out of range). -/
def swapL {α} (xs : List α) (i j : Nat) : List α :=
  match xs[i]?, xs[j]? with
  | some x, some y => (xs.set i y).set j x
  | _, _ => xs

section
variable {α : Type _}

@[simp] theorem full_length (xs : List α) : (full xs).length = xs.length := by simp [full]
@[simp] theorem holed_length (xs : List α) (h : Nat) : (holed xs h).length = xs.length := by simp [holed]
@[simp] theorem swapL_length (xs : List α) (i j : Nat) : (swapL xs i j).length = xs.length := by
  unfold swapL; split <;> simp

theorem swapL_eq (xs : List α) (i j : Nat) (hi : i < xs.length) (hj : j < xs.length) :
    swapL xs i j = (xs.set i xs[j]).set j xs[i] := by
  simp [swapL, hi, hj]

theorem swapL_perm (xs : List α) (i j : Nat) : (swapL xs i j).Perm xs := by
  unfold swapL
  split
  · rename_i x y hx hy
    obtain ⟨hi, rfl⟩ := List.getElem?_eq_some_iff.1 hx
    obtain ⟨hj, rfl⟩ := List.getElem?_eq_some_iff.1 hy
    exact List.set_set_perm hi hj
  · exact List.Perm.refl _

theorem getElem_swapL (xs : List α) (i j k : Nat) (hi : i < xs.length) (hj : j < xs.length)
    (hk : k < (swapL xs i j).length) :
    (swapL xs i j)[k] = if k = j then xs[i] else if k = i then xs[j] else xs[k]'(by simpa using hk) := by
  simp only [swapL_eq xs i j hi hj, List.getElem_set]
  grind

theorem getElem?_swapL_of_ne (xs : List α) (i j k : Nat) (hi : k ≠ i) (hj : k ≠ j) :
    (swapL xs i j)[k]? = xs[k]? := by
  unfold swapL; split
  · simp [Ne.symm hi, Ne.symm hj]
  · rfl

@[simp] theorem rd_full (xs : List α) (i : Nat) (h : i < xs.length) : rd (full xs) i = .ok xs[i] := by
  simp [rd, full, h]

theorem rd_full_oob (xs : List α) (i : Nat) (h : xs.length ≤ i) : rd (full xs) i = .error .ub := by
  simp [rd, full, List.getElem?_eq_none h]

theorem rd_holed (xs : List α) (h i : Nat) (hi : i < xs.length) (hne : i ≠ h) :
    rd (holed xs h) i = .ok xs[i] := by
  simp [rd, holed, hi, Ne.symm hne]

@[simp] theorem mv_full (xs : List α) (i : Nat) (h : i < xs.length) :
    mv (full xs) i = .ok (xs[i], holed xs i) := by
  simp [mv, h, holed]
  rfl

theorem mvTo_holed (xs : List α) (h i : Nat) (hh : h < xs.length) (hi : i < xs.length) (hne : i ≠ h) :
    mvTo (holed xs h) h i = .ok (holed (swapL xs h i) i) := by
  simp only [mvTo, mv, rd_holed xs h i hi hne]
  simp only [bind, Except.bind, pure, Except.pure, wr, List.length_set, holed_length, hh, if_true]
  congr 1
  apply List.ext_getElem?
  intro k
  simp only [holed, swapL_eq xs h i hh hi, List.getElem?_set, List.length_set, List.length_map, List.map_set]
  grind

theorem wr_holed (xs : List α) (h : Nat) (v : α) (hh : h < xs.length) :
    wr (holed xs h) h v = .ok (full (xs.set h v)) := by
  simp [wr, holed, full, hh, List.map_set]

theorem wr_holed_self (xs : List α) (h : Nat) (hh : h < xs.length) :
    wr (holed xs h) h xs[h] = .ok (full xs) := by
  rw [wr_holed _ _ _ hh]; simp

@[simp] theorem swp_full (xs : List α) (i j : Nat) (hi : i < xs.length) (hj : j < xs.length) :
    swp (full xs) i j = .ok (full (swapL xs i j)) := by
  simp only [swp, rd_full xs i hi, rd_full xs j hj]
  simp [hi, hj, bind, Except.bind, wr, swapL_eq, full, List.map_set]

@[simp] theorem wr_full (xs : List α) (i : Nat) (v : α) (hi : i < xs.length) :
    wr (full xs) i v = .ok (full (xs.set i v)) := by
  simp [wr, full, hi, List.map_set]

theorem full_injective {xs ys : List α} (h : full xs = full ys) : xs = ys := by
  unfold full at h
  exact (List.map_inj_right (by simp)).1 h

end

/-! ## Segments: permutations confined to `[f, l)` -/

/-- `ys` is obtained from `xs` by permuting the elements at positions `[f, l)` only. -/
structure SegPerm {α} (f l : Nat) (xs ys : List α) : Prop where
  perm : ys.Perm xs
  out : ∀ i, (i < f ∨ l ≤ i) → ys[i]? = xs[i]?

namespace SegPerm
variable {α : Type _} {f l : Nat} {xs ys zs : List α}

theorem len (h : SegPerm f l xs ys) : ys.length = xs.length := h.perm.length_eq

theorem refl (f l : Nat) (xs : List α) : SegPerm f l xs xs := ⟨.refl _, fun _ _ => rfl⟩

theorem trans (h₁ : SegPerm f l xs ys) (h₂ : SegPerm f l ys zs) : SegPerm f l xs zs :=
  ⟨h₂.perm.trans h₁.perm, fun i hi => (h₂.out i hi).trans (h₁.out i hi)⟩

theorem symm (h : SegPerm f l xs ys) : SegPerm f l ys xs :=
  ⟨h.perm.symm, fun i hi => (h.out i hi).symm⟩

theorem mono {f' l' : Nat} (h : SegPerm f l xs ys) (hf : f' ≤ f) (hl : l ≤ l') : SegPerm f' l' xs ys :=
  ⟨h.perm, fun i hi => h.out i (by omega)⟩

theorem swap (xs : List α) {f l i j : Nat} (hi : f ≤ i ∧ i < l) (hj : f ≤ j ∧ j < l) :
    SegPerm f l xs (swapL xs i j) :=
  ⟨swapL_perm _ _ _, fun k hk => getElem?_swapL_of_ne xs i j k (by omega) (by omega)⟩

/-- The segment itself is permuted. -/
theorem slice (h : SegPerm f l xs ys) : ((ys.take l).drop f).Perm ((xs.take l).drop f) := by
  have hlen := h.len
  have decomp : ∀ zs : List α, zs = zs.take f ++ (zs.take l).drop f ++ zs.drop (max f l) := by
    intro zs
    by_cases hfl : f ≤ l
    · rw [Nat.max_eq_right hfl]
      have : zs.take f = (zs.take l).take f := by rw [List.take_take, Nat.min_eq_left hfl]
      rw [this, List.take_append_drop, List.take_append_drop]
    · rw [Nat.max_eq_left (by omega)]
      have : (zs.take l).drop f = [] := List.drop_eq_nil_of_le (by simp; omega)
      rw [this, List.append_nil, List.take_append_drop]
  have h1 : ys.take f = xs.take f := by
    apply List.ext_getElem?; intro i
    simp only [List.getElem?_take]
    split
    · exact h.out i (Or.inl (by assumption))
    · rfl
  have h2 : ys.drop (max f l) = xs.drop (max f l) := by
    apply List.ext_getElem?; intro i
    simp only [List.getElem?_drop]
    exact h.out _ (Or.inr (by omega))
  have hp := h.perm
  rw [decomp ys, decomp xs, h1, h2] at hp
  exact (List.perm_append_left_iff _).1 ((List.perm_append_right_iff _).1 hp)

/-- A predicate that holds throughout the segment before holds throughout it afterwards. -/
theorem forall_seg (h : SegPerm f l xs ys) {P : α → Prop}
    (hP : ∀ i (hi : i < xs.length), f ≤ i → i < l → P xs[i]) :
    ∀ i (hi : i < ys.length), f ≤ i → i < l → P ys[i] := by
  intro i hi hfi hil
  have hmem : ys[i] ∈ (ys.take l).drop f := by
    rw [List.mem_iff_getElem]
    refine ⟨i - f, by simp; omega, ?_⟩
    simp; congr 1; omega
  have := (h.slice.mem_iff).1 hmem
  rw [List.mem_iff_getElem] at this
  obtain ⟨k, hk, hk'⟩ := this
  simp at hk hk'
  rw [← hk']
  exact hP _ (by omega) (by omega) (by omega)

theorem getElem_out (h : SegPerm f l xs ys) (i : Nat) (hi : i < f ∨ l ≤ i) (h1 : i < ys.length) :
    ys[i] = xs[i]'(h.len ▸ h1) := by
  have := h.out i hi
  rw [List.getElem?_eq_getElem h1, List.getElem?_eq_getElem (h.len ▸ h1)] at this
  exact Option.some.inj this

end SegPerm

/-- `[f, l)` is sorted: no element is ordered before an earlier one. -/
def SortedOn {α} (lt : α → α → Bool) (f l : Nat) (xs : List α) : Prop :=
  ∀ i j (hj : j < xs.length) (_ : f ≤ i) (hij : i < j) (_ : j < l),
    lt xs[j] (xs[i]'(by omega)) = false

theorem sortedOn_all {α} {lt : α → α → Bool} {xs : List α} {l : Nat} (hl : xs.length ≤ l)
    (h : SortedOn lt 0 l xs) : xs.Pairwise (fun a b => lt b a = false) := by
  rw [List.pairwise_iff_getElem]
  intro i j hi hj hij
  exact h i j hj (by omega) hij (by omega)

end STL
