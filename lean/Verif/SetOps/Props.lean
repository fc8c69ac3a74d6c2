import Verif.SetOps.Model
import Verif.StableSort.SS
import Verif.Sort.Props

/-!
# Property C32: merge, includes and the sorted-set algorithms
-/

namespace STL

namespace Spec
variable {α : Type}

/-- The elements of `xs` equivalent to `k`, in order. -/
def cls (lt : α → α → Bool) (k : α) (xs : List α) : List α := xs.filter (fun x => !lt x k && !lt k x)

end Spec

variable {α : Type} {lt : α → α → Bool}

theorem copyTo_spec (n : Nat) : ∀ (xs : List α) (i : Nat) (out : List α), n = xs.length - i →
    copyTo (full xs) i xs.length out = .ok (out ++ xs.drop i) := by
  induction n with
  | zero =>
    intro xs i out hn
    unfold copyTo
    rw [dif_neg (by omega), List.drop_eq_nil_of_le (by omega)]; simp; rfl
  | succ n ih =>
    intro xs i out hn
    unfold copyTo
    have hi : i < xs.length := by omega
    rw [dif_pos hi, rd_full _ _ hi, R.ok_bind, ih xs (i + 1) _ (by omega), List.drop_eq_getElem_cons hi]
    simp

/-! ### functional versions (proof helpers) -/

def mergeL (lt : α → α → Bool) : List α → List α → List α
  | [], ys => ys
  | x :: xs, [] => x :: xs
  | x :: xs, y :: ys => if lt y x then y :: mergeL lt (x :: xs) ys else x :: mergeL lt xs (y :: ys)
termination_by xs ys => xs.length + ys.length

def unionL (lt : α → α → Bool) : List α → List α → List α
  | [], ys => ys
  | x :: xs, [] => x :: xs
  | x :: xs, y :: ys => if lt x y then x :: unionL lt xs (y :: ys) else if lt y x then y :: unionL lt (x :: xs) ys
      else x :: unionL lt xs ys
termination_by xs ys => xs.length + ys.length

def interL (lt : α → α → Bool) : List α → List α → List α
  | [], _ => []
  | _ :: _, [] => []
  | x :: xs, y :: ys => if lt x y then interL lt xs (y :: ys) else if lt y x then interL lt (x :: xs) ys
      else x :: interL lt xs ys
termination_by xs ys => xs.length + ys.length

def diffL (lt : α → α → Bool) : List α → List α → List α
  | [], _ => []
  | x :: xs, [] => x :: xs
  | x :: xs, y :: ys => if lt x y then x :: diffL lt xs (y :: ys) else if lt y x then diffL lt (x :: xs) ys
      else diffL lt xs ys
termination_by xs ys => xs.length + ys.length

def symL (lt : α → α → Bool) : List α → List α → List α
  | [], ys => ys
  | x :: xs, [] => x :: xs
  | x :: xs, y :: ys => if lt x y then x :: symL lt xs (y :: ys) else if lt y x then y :: symL lt (x :: xs) ys
      else symL lt xs ys
termination_by xs ys => xs.length + ys.length

def inclL (lt : α → α → Bool) : List α → List α → Bool
  | _, [] => true
  | [], _ :: _ => false
  | x :: xs, y :: ys => if lt x y then inclL lt xs (y :: ys) else if lt y x then false else inclL lt xs ys
termination_by xs ys => xs.length + ys.length

section loops
variable (lt) (xs ys : List α)

theorem mergeL_nil_right : mergeL lt xs [] = xs := by cases xs <;> simp [mergeL]
theorem unionL_nil_right : unionL lt xs [] = xs := by cases xs <;> simp [unionL]
theorem interL_nil_right : interL lt xs [] = [] := by cases xs <;> simp [interL]
theorem diffL_nil_right : diffL lt xs [] = xs := by cases xs <;> simp [diffL]
theorem symL_nil_right : symL lt xs [] = xs := by cases xs <;> simp [symL]

theorem mergeLoop_spec (n : Nat) : ∀ (i j : Nat) (out : List α), n = (xs.length - i) + (ys.length - j) → i < xs.length → j < ys.length →
    (mergeLoop lt (full xs) (full ys) xs.length ys.length i j out >>= fun r =>
      copyTo (full xs) r.1 xs.length r.2.2 >>= fun out => copyTo (full ys) r.2.1 ys.length out)
      = .ok (out ++ mergeL lt (xs.drop i) (ys.drop j)) := by
  induction n using Nat.strongRecOn with
  | ind n ih =>
    intro i j out hn hi hj
    unfold mergeLoop
    rw [dif_pos ⟨hi, hj⟩, rd_full _ _ hj, R.ok_bind, rd_full _ _ hi, R.ok_bind,
      List.drop_eq_getElem_cons hi, List.drop_eq_getElem_cons hj, mergeL]
    by_cases h : lt ys[j] xs[i] = true
    · rw [if_pos h, if_pos h]
      by_cases he : j + 1 = ys.length
      · rw [if_pos he, R.pure_bind]
        simp only []
        rw [copyTo_spec _ xs i _ rfl, R.ok_bind, he, copyTo_spec _ ys _ _ rfl]
        simp [mergeL, mergeL_nil_right, List.getElem_cons_drop]
      · rw [if_neg he, ih _ (by omega) i (j + 1) _ rfl hi (by omega), List.drop_eq_getElem_cons hi]
        simp
    · rw [if_neg h, if_neg h]
      by_cases he : i + 1 = xs.length
      · rw [if_pos he, R.pure_bind]
        simp only []
        rw [he, copyTo_spec _ xs _ _ rfl, R.ok_bind, copyTo_spec _ ys _ _ rfl]
        simp [mergeL, mergeL_nil_right, List.getElem_cons_drop]
      · rw [if_neg he, ih _ (by omega) (i + 1) j _ rfl (by omega) hj, List.drop_eq_getElem_cons hj]
        simp

theorem merge_spec : merge lt (full xs) (full ys) xs.length ys.length = .ok (mergeL lt xs ys) := by
  unfold merge
  by_cases h : 0 ≠ xs.length ∧ 0 ≠ ys.length
  · rw [if_pos h]
    have := mergeLoop_spec lt xs ys _ 0 0 [] rfl (by omega) (by omega)
    simpa using this
  · rw [if_neg h, R.ok_bind]
    simp only []
    rw [copyTo_spec _ xs _ _ rfl, R.ok_bind, copyTo_spec _ ys _ _ rfl]
    match xs, ys, h with
    | [], ys, _ => simp [mergeL]
    | x :: xs, [], _ => simp [mergeL]
    | x :: xs, y :: ys, h => simp at h

theorem rangesMergeLoop_spec (n : Nat) : ∀ (i j : Nat) (out : List α), n = (xs.length - i) + (ys.length - j) →
    rangesMergeLoop lt (full xs) (full ys) xs.length ys.length i j out = .ok (out ++ mergeL lt (xs.drop i) (ys.drop j)) := by
  induction n using Nat.strongRecOn with
  | ind n ih =>
    intro i j out hn
    unfold rangesMergeLoop
    by_cases hi : i < xs.length
    · by_cases hj : j < ys.length
      · rw [dif_pos hi, dif_pos hj, rd_full _ _ hj, R.ok_bind, rd_full _ _ hi, R.ok_bind,
          ih _ (by omega) i (j + 1) _ rfl, ih _ (by omega) (i + 1) j _ rfl,
          List.drop_eq_getElem_cons hi, List.drop_eq_getElem_cons hj, mergeL]
        split <;> simp
      · rw [dif_pos hi, dif_neg hj, copyTo_spec _ xs _ _ rfl, List.drop_eq_nil_of_le (as := ys) (by omega), mergeL_nil_right]
    · rw [dif_neg hi, copyTo_spec _ ys _ _ rfl, List.drop_eq_nil_of_le (as := xs) (by omega), mergeL]

theorem setUnionLoop_spec (n : Nat) : ∀ (i j : Nat) (out : List α), n = (xs.length - i) + (ys.length - j) →
    setUnionLoop lt (full xs) (full ys) xs.length ys.length i j out = .ok (out ++ unionL lt (xs.drop i) (ys.drop j)) := by
  induction n using Nat.strongRecOn with
  | ind n ih =>
    intro i j out hn
    unfold setUnionLoop
    by_cases h : i < xs.length ∧ j < ys.length
    · obtain ⟨hi, hj⟩ := h
      rw [dif_pos ⟨hi, hj⟩, rd_full _ _ hi, R.ok_bind, rd_full _ _ hj, R.ok_bind,
          ih _ (by omega) i (j + 1) _ rfl, ih _ (by omega) (i + 1) j _ rfl, ih _ (by omega) (i + 1) (j + 1) _ rfl,
          List.drop_eq_getElem_cons hi, List.drop_eq_getElem_cons hj, unionL]
      split <;> simp
      split <;> simp
    · rw [dif_neg h, copyTo_spec _ xs _ _ rfl, R.ok_bind, copyTo_spec _ ys _ _ rfl]
      by_cases hi : i < xs.length
      · rw [List.drop_eq_nil_of_le (as := ys) (by omega), unionL_nil_right]; simp
      · rw [List.drop_eq_nil_of_le (as := xs) (by omega), unionL]; simp

theorem rangesSetUnionLoop_spec (hlt : SWO lt) (n : Nat) : ∀ (i j : Nat) (out : List α), n = (xs.length - i) + (ys.length - j) →
    rangesSetUnionLoop lt (full xs) (full ys) xs.length ys.length i j out = .ok (out ++ unionL lt (xs.drop i) (ys.drop j)) := by
  induction n using Nat.strongRecOn with
  | ind n ih =>
    intro i j out hn
    unfold rangesSetUnionLoop
    by_cases h : i < xs.length ∧ j < ys.length
    · obtain ⟨hi, hj⟩ := h
      rw [dif_pos ⟨hi, hj⟩, rd_full _ _ hj, R.ok_bind, rd_full _ _ hi, R.ok_bind,
          ih _ (by omega) i (j + 1) _ rfl, ih _ (by omega) (i + 1) j _ rfl, ih _ (by omega) (i + 1) (j + 1) _ rfl,
          List.drop_eq_getElem_cons hi, List.drop_eq_getElem_cons hj, unionL]
      cases h1 : lt ys[j] xs[i] with
      | true => rw [hlt.asymm h1]; simp
      | false => cases h2 : lt xs[i] ys[j] <;> simp
    · rw [dif_neg h, copyTo_spec _ xs _ _ rfl, R.ok_bind, copyTo_spec _ ys _ _ rfl]
      by_cases hi : i < xs.length
      · rw [List.drop_eq_nil_of_le (as := ys) (by omega), unionL_nil_right]; simp
      · rw [List.drop_eq_nil_of_le (as := xs) (by omega), unionL]; simp

theorem setIntersectionLoop_spec (n : Nat) : ∀ (i j : Nat) (out : List α), n = (xs.length - i) + (ys.length - j) →
    setIntersectionLoop lt (full xs) (full ys) xs.length ys.length i j out = .ok (out ++ interL lt (xs.drop i) (ys.drop j)) := by
  induction n using Nat.strongRecOn with
  | ind n ih =>
    intro i j out hn
    unfold setIntersectionLoop
    by_cases h : i < xs.length ∧ j < ys.length
    · obtain ⟨hi, hj⟩ := h
      rw [dif_pos ⟨hi, hj⟩, rd_full _ _ hi, R.ok_bind, rd_full _ _ hj, R.ok_bind,
          ih _ (by omega) i (j + 1) _ rfl, ih _ (by omega) (i + 1) j _ rfl, ih _ (by omega) (i + 1) (j + 1) _ rfl,
          List.drop_eq_getElem_cons hi, List.drop_eq_getElem_cons hj, interL]
      split <;> simp
      split <;> simp
    · rw [dif_neg h]
      by_cases hi : i < xs.length
      · rw [List.drop_eq_nil_of_le (as := ys) (by omega), interL_nil_right]; simp; rfl
      · rw [List.drop_eq_nil_of_le (as := xs) (by omega), interL]; simp; rfl

theorem setDifferenceLoop_spec (n : Nat) : ∀ (i j : Nat) (out : List α), n = (xs.length - i) + (ys.length - j) →
    setDifferenceLoop lt (full xs) (full ys) xs.length ys.length i j out = .ok (out ++ diffL lt (xs.drop i) (ys.drop j)) := by
  induction n using Nat.strongRecOn with
  | ind n ih =>
    intro i j out hn
    unfold setDifferenceLoop
    by_cases h : i < xs.length ∧ j < ys.length
    · obtain ⟨hi, hj⟩ := h
      rw [dif_pos ⟨hi, hj⟩, rd_full _ _ hi, R.ok_bind, rd_full _ _ hj, R.ok_bind,
          ih _ (by omega) i (j + 1) _ rfl, ih _ (by omega) (i + 1) j _ rfl, ih _ (by omega) (i + 1) (j + 1) _ rfl,
          List.drop_eq_getElem_cons hi, List.drop_eq_getElem_cons hj, diffL]
      split
      · simp
      · cases lt ys[j] xs[i] <;> simp
    · rw [dif_neg h, copyTo_spec _ xs _ _ rfl]
      by_cases hi : i < xs.length
      · rw [List.drop_eq_nil_of_le (as := ys) (by omega), diffL_nil_right]
      · rw [List.drop_eq_nil_of_le (as := xs) (by omega), diffL]

theorem setSymmetricDifferenceLoop_spec (n : Nat) : ∀ (i j : Nat) (out : List α), n = (xs.length - i) + (ys.length - j) →
    setSymmetricDifferenceLoop lt (full xs) (full ys) xs.length ys.length i j out = .ok (out ++ symL lt (xs.drop i) (ys.drop j)) := by
  induction n using Nat.strongRecOn with
  | ind n ih =>
    intro i j out hn
    unfold setSymmetricDifferenceLoop
    by_cases h : i < xs.length ∧ j < ys.length
    · obtain ⟨hi, hj⟩ := h
      rw [dif_pos ⟨hi, hj⟩, rd_full _ _ hi, R.ok_bind, rd_full _ _ hj, R.ok_bind,
          ih _ (by omega) i (j + 1) _ rfl, ih _ (by omega) (i + 1) j _ rfl, ih _ (by omega) (i + 1) (j + 1) _ rfl,
          List.drop_eq_getElem_cons hi, List.drop_eq_getElem_cons hj, symL]
      split <;> simp
      split <;> simp
    · rw [dif_neg h, copyTo_spec _ xs _ _ rfl, R.ok_bind, copyTo_spec _ ys _ _ rfl]
      by_cases hi : i < xs.length
      · rw [List.drop_eq_nil_of_le (as := ys) (by omega), symL_nil_right]; simp
      · rw [List.drop_eq_nil_of_le (as := xs) (by omega), symL]; simp

theorem includesLoop_spec (n : Nat) : ∀ (i j : Nat), n = (xs.length - i) + (ys.length - j) → i < xs.length → j < ys.length →
    includesLoop lt (full xs) (full ys) xs.length ys.length i j = .ok (inclL lt (xs.drop i) (ys.drop j)) := by
  induction n using Nat.strongRecOn with
  | ind n ih =>
    intro i j hn hi hj
    unfold includesLoop
    rw [dif_pos ⟨hi, hj⟩, rd_full _ _ hi, R.ok_bind, rd_full _ _ hj, R.ok_bind,
      List.drop_eq_getElem_cons hi, List.drop_eq_getElem_cons hj, inclL]
    split
    · rw [← List.drop_eq_getElem_cons hj]
      by_cases he : i + 1 = xs.length
      · rw [if_pos he, List.drop_eq_nil_of_le (as := xs) (by omega), List.drop_eq_getElem_cons hj, inclL]; rfl
      · rw [if_neg he]; exact ih _ (by omega) _ _ rfl (by omega) hj
    split
    · rfl
    by_cases he : j + 1 = ys.length
    · rw [if_pos he, List.drop_eq_nil_of_le (as := ys) (by omega), inclL]; rfl
    rw [if_neg he]
    have hj' : j + 1 < ys.length := by omega
    by_cases he : i + 1 = xs.length
    · rw [if_pos he, List.drop_eq_nil_of_le (as := xs) (by omega), List.drop_eq_getElem_cons hj', inclL]; rfl
    · rw [if_neg he]; exact ih _ (by omega) _ _ rfl (by omega) hj'

theorem includes_spec : includes lt (full xs) (full ys) xs.length ys.length = .ok (inclL lt xs ys) := by
  unfold includes
  match xs, ys with
  | xs, [] => simp [inclL]; rfl
  | [], y :: ys => simp [inclL]; rfl
  | x :: xs, y :: ys =>
    rw [if_neg (by simp), if_neg (by simp)]
    have := includesLoop_spec lt (x :: xs) (y :: ys) _ 0 0 rfl (by simp) (by simp)
    simpa using this

end loops

/-! ### facts about classes -/

open Spec (cls)

theorem cls_nil (k : α) : cls lt k [] = [] := rfl
theorem cls_cons_pos {k x : α} (xs : List α) (h1 : lt x k = false) (h2 : lt k x = false) : cls lt k (x :: xs) = x :: cls lt k xs := by
  simp [cls, h1, h2]
theorem cls_cons_neg {k x : α} (xs : List α) (h : lt x k = true ∨ lt k x = true) : cls lt k (x :: xs) = cls lt k xs := by
  rcases h with h | h <;> simp [cls, h]

/-- A class met at `x` is empty in a list all of whose elements are greater than `x`. -/
theorem cls_empty (hlt : SWO lt) {k x : α} {ys : List α} (h1 : lt x k = false) (h2 : lt k x = false) (h : ∀ y ∈ ys, lt x y = true) :
    cls lt k ys = [] := by
  unfold cls
  rw [List.filter_eq_nil_iff]
  intro y hy
  have := hlt.lt_of_le_of_lt h1 (h y hy)
  simp [this]

theorem cls_eq (hlt : SWO lt) {k x y : α} (h1 : lt x y = false) (h2 : lt y x = false) :
    (lt x k = false ∧ lt k x = false) ↔ (lt y k = false ∧ lt k y = false) := by
  constructor
  · rintro ⟨a, b⟩
    have := hlt.equiv_trans y x k h2 h1 a b
    exact this
  · rintro ⟨a, b⟩
    have := hlt.equiv_trans x y k h1 h2 a b
    exact this

theorem not_cls {k x : α} (h : ¬ (lt x k = false ∧ lt k x = false)) : lt x k = true ∨ lt k x = true := by
  cases h1 : lt x k <;> cases h2 : lt k x <;> simp_all

/-- What each algorithm does to one class of equivalent elements, and the elements it outputs. -/
theorem ops_cls (hlt : SWO lt) (k : α) (n : Nat) : ∀ (xs ys : List α), n = xs.length + ys.length → Srt lt xs → Srt lt ys →
    cls lt k (mergeL lt xs ys) = cls lt k xs ++ cls lt k ys ∧
    cls lt k (unionL lt xs ys) = cls lt k xs ++ (cls lt k ys).drop (cls lt k xs).length ∧
    cls lt k (interL lt xs ys) = (cls lt k xs).take (cls lt k ys).length ∧
    cls lt k (diffL lt xs ys) = (cls lt k xs).drop (cls lt k ys).length ∧
    cls lt k (symL lt xs ys) = (cls lt k xs).drop (cls lt k ys).length ++ (cls lt k ys).drop (cls lt k xs).length := by
  induction n using Nat.strongRecOn with
  | ind n ih =>
    intro xs ys hn sx sy
    match xs, ys with
    | [], ys => simp [mergeL, unionL, interL, diffL, symL, cls_nil]
    | x :: xs, [] => simp [mergeL, unionL, interL, diffL, symL, cls_nil]
    | x :: xs, y :: ys =>
      simp only [List.length_cons] at hn
      obtain ⟨m1, u1, i1, d1, s1⟩ := ih (xs.length + (ys.length + 1)) (by omega) xs (y :: ys) (by simp) sx.tail sy
      obtain ⟨m2, u2, i2, d2, s2⟩ := ih ((xs.length + 1) + ys.length) (by omega) (x :: xs) ys (by simp) sx sy.tail
      obtain ⟨m3, u3, i3, d3, s3⟩ := ih (xs.length + ys.length) (by omega) xs ys (by simp) sx.tail sy.tail
      rw [mergeL, unionL, interL, diffL, symL]
      by_cases hxy : lt x y = true
      · have hyx := hlt.asymm hxy
        simp only [hxy, hyx, if_true, Bool.false_eq_true, if_false]
        by_cases hk : lt x k = false ∧ lt k x = false
        · have e : cls lt k (y :: ys) = [] := cls_empty hlt hk.1 hk.2 (sy.lt_all hlt hxy)
          simp only [cls_cons_pos _ hk.1 hk.2, m1, u1, i1, d1, s1, e]
          simp
        · have hk := not_cls hk
          simp only [cls_cons_neg xs hk, cls_cons_neg _ hk, m1, u1, i1, d1, s1]
          simp
      · have hxy : lt x y = false := by simpa using hxy
        by_cases hyx : lt y x = true
        · simp only [hxy, hyx, if_true, Bool.false_eq_true, if_false]
          by_cases hk : lt y k = false ∧ lt k y = false
          · have e : cls lt k (x :: xs) = [] := cls_empty hlt hk.1 hk.2 (sx.lt_all hlt hyx)
            simp only [cls_cons_pos _ hk.1 hk.2, m2, u2, i2, d2, s2, e]
            simp
          · have hk := not_cls hk
            simp only [cls_cons_neg ys hk, cls_cons_neg _ hk, m2, u2, i2, d2, s2]
            simp
        · have hyx : lt y x = false := by simpa using hyx
          simp only [hxy, hyx, if_false, Bool.false_eq_true]
          by_cases hk : lt x k = false ∧ lt k x = false
          · have hk' := (cls_eq hlt hxy hyx).1 hk
            simp only [cls_cons_pos _ hk.1 hk.2, cls_cons_pos _ hk'.1 hk'.2, m1, u3, i3, d3, s3]
            simp
          · have hk' := not_cls (fun h => hk ((cls_eq hlt hxy hyx).2 h))
            have hk := not_cls hk
            simp only [cls_cons_neg _ hk, cls_cons_neg _ hk', m1, u3, i3, d3, s3]
            simp

theorem ops_mem (n : Nat) : ∀ (xs ys : List α), n = xs.length + ys.length → ∀ z,
    (z ∈ mergeL lt xs ys → z ∈ xs ∨ z ∈ ys) ∧ (z ∈ unionL lt xs ys → z ∈ xs ∨ z ∈ ys) ∧ (z ∈ interL lt xs ys → z ∈ xs) ∧
    (z ∈ diffL lt xs ys → z ∈ xs) ∧ (z ∈ symL lt xs ys → z ∈ xs ∨ z ∈ ys) := by
  induction n using Nat.strongRecOn with
  | ind n ih =>
    intro xs ys hn z
    match xs, ys with
    | [], ys => simp [mergeL, unionL, interL, diffL, symL]
    | x :: xs, [] => simp [mergeL, unionL, interL, diffL, symL]
    | x :: xs, y :: ys =>
      simp only [List.length_cons] at hn
      obtain ⟨m1, u1, i1, d1, s1⟩ := ih (xs.length + (ys.length + 1)) (by omega) xs (y :: ys) (by simp) z
      obtain ⟨m2, u2, i2, d2, s2⟩ := ih ((xs.length + 1) + ys.length) (by omega) (x :: xs) ys (by simp) z
      obtain ⟨m3, u3, i3, d3, s3⟩ := ih (xs.length + ys.length) (by omega) xs ys (by simp) z
      rw [mergeL, unionL, interL, diffL, symL]
      simp only [List.mem_cons] at *
      cases lt x y <;> cases lt y x <;> simp only [Bool.false_eq_true, if_true, if_false, List.mem_cons] <;> grind

theorem ops_srt (hlt : SWO lt) (n : Nat) : ∀ (xs ys : List α), n = xs.length + ys.length → Srt lt xs → Srt lt ys →
    Srt lt (mergeL lt xs ys) ∧ Srt lt (unionL lt xs ys) ∧ Srt lt (interL lt xs ys) ∧ Srt lt (diffL lt xs ys) ∧ Srt lt (symL lt xs ys) := by
  induction n using Nat.strongRecOn with
  | ind n ih =>
    intro xs ys hn sx sy
    match xs, ys with
    | [], ys => simpa [mergeL, unionL, interL, diffL, symL] using sy
    | x :: xs, [] => simpa [mergeL, unionL, interL, diffL, symL] using sx
    | x :: xs, y :: ys =>
      simp only [List.length_cons] at hn
      obtain ⟨m1, u1, i1, d1, s1⟩ := ih (xs.length + (ys.length + 1)) (by omega) xs (y :: ys) (by simp) sx.tail sy
      obtain ⟨m2, u2, i2, d2, s2⟩ := ih ((xs.length + 1) + ys.length) (by omega) (x :: xs) ys (by simp) sx sy.tail
      obtain ⟨m3, u3, i3, d3, s3⟩ := ih (xs.length + ys.length) (by omega) xs ys (by simp) sx.tail sy.tail
      have hx : lt y x = false → ∀ z, z ∈ xs ∨ z ∈ y :: ys → lt z x = false := by
        intro h z hz
        rcases hz with hz | hz
        · exact sx.head_le z hz
        · exact sy.le_all hlt h z hz
      have hx3 : lt y x = false → ∀ z, z ∈ xs ∨ z ∈ ys → lt z x = false := fun h z hz => hx h z (by simp only [List.mem_cons]; tauto)
      have hy : lt x y = false → ∀ z, z ∈ x :: xs ∨ z ∈ ys → lt z y = false := by
        intro h z hz
        rcases hz with hz | hz
        · exact sx.le_all hlt h z hz
        · exact sy.head_le z hz
      have mem1 := fun z => ops_mem (lt := lt) _ xs (y :: ys) rfl z
      have mem2 := fun z => ops_mem (lt := lt) _ (x :: xs) ys rfl z
      have mem3 := fun z => ops_mem (lt := lt) _ xs ys rfl z
      rw [mergeL, unionL, interL, diffL, symL]
      by_cases hxy : lt x y = true
      · have hyx := hlt.asymm hxy
        simp only [hxy, hyx, if_true, Bool.false_eq_true, if_false]
        exact ⟨List.pairwise_cons.2 ⟨fun z hz => hx hyx z ((mem1 z).1 hz), m1⟩,
          List.pairwise_cons.2 ⟨fun z hz => hx hyx z ((mem1 z).2.1 hz), u1⟩, i1,
          List.pairwise_cons.2 ⟨fun z hz => hx hyx z (Or.inl ((mem1 z).2.2.2.1 hz)), d1⟩,
          List.pairwise_cons.2 ⟨fun z hz => hx hyx z ((mem1 z).2.2.2.2 hz), s1⟩⟩
      · have hxy : lt x y = false := by simpa using hxy
        by_cases hyx : lt y x = true
        · simp only [hxy, hyx, if_true, Bool.false_eq_true, if_false]
          exact ⟨List.pairwise_cons.2 ⟨fun z hz => hy hxy z ((mem2 z).1 hz), m2⟩,
            List.pairwise_cons.2 ⟨fun z hz => hy hxy z ((mem2 z).2.1 hz), u2⟩, i2, d2,
            List.pairwise_cons.2 ⟨fun z hz => hy hxy z ((mem2 z).2.2.2.2 hz), s2⟩⟩
        · have hyx : lt y x = false := by simpa using hyx
          simp only [hxy, hyx, if_false, Bool.false_eq_true]
          exact ⟨List.pairwise_cons.2 ⟨fun z hz => hx hyx z ((mem1 z).1 hz), m1⟩,
            List.pairwise_cons.2 ⟨fun z hz => hx3 hyx z ((mem3 z).2.1 hz), u3⟩,
            List.pairwise_cons.2 ⟨fun z hz => hx3 hyx z (Or.inl ((mem3 z).2.2.1 hz)), i3⟩, d3, s3⟩

theorem inclL_iff (hlt : SWO lt) (n : Nat) : ∀ (xs ys : List α), n = xs.length + ys.length → Srt lt xs → Srt lt ys →
    (inclL lt xs ys = true ↔ ∀ k, (cls lt k ys).length ≤ (cls lt k xs).length) := by
  induction n using Nat.strongRecOn with
  | ind n ih =>
    intro xs ys hn sx sy
    match xs, ys with
    | xs, [] => simp [inclL, cls_nil]
    | [], y :: ys =>
      simp only [inclL, Bool.false_eq_true, false_iff]
      intro h
      have := h y
      rw [cls_cons_pos _ (hlt.irrefl y) (hlt.irrefl y)] at this
      simp [cls_nil] at this
    | x :: xs, y :: ys =>
      simp only [List.length_cons] at hn
      rw [inclL]
      by_cases hxy : lt x y = true
      · rw [if_pos hxy, ih (xs.length + (ys.length + 1)) (by omega) xs (y :: ys) (by simp) sx.tail sy]
        apply forall_congr'
        intro k
        by_cases hk : lt x k = false ∧ lt k x = false
        · rw [cls_cons_pos xs hk.1 hk.2, cls_empty hlt hk.1 hk.2 (sy.lt_all hlt hxy)]
          simp
        · rw [cls_cons_neg xs (not_cls hk)]
      rw [if_neg hxy]
      have hxy : lt x y = false := by simpa using hxy
      by_cases hyx : lt y x = true
      · rw [if_pos hyx]
        simp only [Bool.false_eq_true, false_iff]
        intro h
        have := h y
        rw [cls_cons_pos _ (hlt.irrefl y) (hlt.irrefl y), cls_empty hlt (hlt.irrefl y) (hlt.irrefl y) (sx.lt_all hlt hyx)] at this
        simp at this
      · rw [if_neg hyx, ih (xs.length + ys.length) (by omega) xs ys (by simp) sx.tail sy.tail]
        have hyx : lt y x = false := by simpa using hyx
        apply forall_congr'
        intro k
        by_cases hk : lt x k = false ∧ lt k x = false
        · have hk' := (cls_eq hlt hxy hyx).1 hk
          rw [cls_cons_pos xs hk.1 hk.2, cls_cons_pos ys hk'.1 hk'.2]
          simp
        · have hk' := not_cls (fun h => hk ((cls_eq hlt hxy hyx).2 h))
          rw [cls_cons_neg xs (not_cls hk), cls_cons_neg ys hk']

theorem mergeL_perm (n : Nat) : ∀ (xs ys : List α), n = xs.length + ys.length → (mergeL lt xs ys).Perm (xs ++ ys) := by
  induction n using Nat.strongRecOn with
  | ind n ih =>
    intro xs ys hn
    match xs, ys with
    | [], ys => simp [mergeL]
    | x :: xs, [] => simp [mergeL]
    | x :: xs, y :: ys =>
      simp only [List.length_cons] at hn
      rw [mergeL]
      split
      · have := ih ((xs.length + 1) + ys.length) (by omega) (x :: xs) ys (by simp)
        exact (this.cons y).trans (List.perm_middle.symm)
      · have := ih (xs.length + (ys.length + 1)) (by omega) xs (y :: ys) (by simp)
        exact this.cons x

/-! ## the theorems -/

/-- **C32 merge** (both `std::merge` and `ranges::merge`): the output is a sorted permutation of both inputs, and each
class of equivalent elements consists of those of the first range followed by those of the second, in order. -/
theorem C32_merge (hlt : SWO lt) (xs ys : List α) (sx : Spec.SortedBy lt xs) (sy : Spec.SortedBy lt ys) :
    ∃ zs, merge lt (full xs) (full ys) xs.length ys.length = .ok zs ∧ rangesMerge lt (full xs) (full ys) = .ok zs ∧
      zs.Perm (xs ++ ys) ∧ Spec.SortedBy lt zs ∧ ∀ k, cls lt k zs = cls lt k xs ++ cls lt k ys := by
  refine ⟨mergeL lt xs ys, merge_spec lt xs ys, ?_, mergeL_perm _ xs ys rfl, (ops_srt hlt _ xs ys rfl sx sy).1,
    fun k => (ops_cls hlt k _ xs ys rfl sx sy).1⟩
  have := rangesMergeLoop_spec lt xs ys _ 0 0 [] rfl
  simpa [rangesMerge] using this

/-- **C32 set_union** (`std` and `ranges`): of each class of equivalent elements, with `m` in the first range and `n` in
the second, the output has all `m` of the first followed by the final `max(n - m, 0)` of the second ([set.union]/5). -/
theorem C32_set_union (hlt : SWO lt) (xs ys : List α) (sx : Spec.SortedBy lt xs) (sy : Spec.SortedBy lt ys) :
    ∃ zs, setUnion lt (full xs) (full ys) = .ok zs ∧ rangesSetUnion lt (full xs) (full ys) = .ok zs ∧ Spec.SortedBy lt zs ∧
      ∀ k, cls lt k zs = cls lt k xs ++ (cls lt k ys).drop (cls lt k xs).length := by
  refine ⟨unionL lt xs ys, ?_, ?_, (ops_srt hlt _ xs ys rfl sx sy).2.1, fun k => (ops_cls hlt k _ xs ys rfl sx sy).2.1⟩
  · have := setUnionLoop_spec lt xs ys _ 0 0 [] rfl
    simpa [setUnion] using this
  · have := rangesSetUnionLoop_spec lt xs ys hlt _ 0 0 [] rfl
    simpa [rangesSetUnion] using this

/-- **C32 set_intersection**: the first `min(m, n)` elements of each class, taken from the first range. -/
theorem C32_set_intersection (hlt : SWO lt) (xs ys : List α) (sx : Spec.SortedBy lt xs) (sy : Spec.SortedBy lt ys) :
    ∃ zs, setIntersection lt (full xs) (full ys) = .ok zs ∧ Spec.SortedBy lt zs ∧
      ∀ k, cls lt k zs = (cls lt k xs).take (cls lt k ys).length := by
  refine ⟨interL lt xs ys, ?_, (ops_srt hlt _ xs ys rfl sx sy).2.2.1, fun k => (ops_cls hlt k _ xs ys rfl sx sy).2.2.1⟩
  have := setIntersectionLoop_spec lt xs ys _ 0 0 [] rfl
  simpa [setIntersection] using this

/-- **C32 set_difference**: the last `max(m - n, 0)` elements of each class of the first range. -/
theorem C32_set_difference (hlt : SWO lt) (xs ys : List α) (sx : Spec.SortedBy lt xs) (sy : Spec.SortedBy lt ys) :
    ∃ zs, setDifference lt (full xs) (full ys) = .ok zs ∧ Spec.SortedBy lt zs ∧
      ∀ k, cls lt k zs = (cls lt k xs).drop (cls lt k ys).length := by
  refine ⟨diffL lt xs ys, ?_, (ops_srt hlt _ xs ys rfl sx sy).2.2.2.1, fun k => (ops_cls hlt k _ xs ys rfl sx sy).2.2.2.1⟩
  have := setDifferenceLoop_spec lt xs ys _ 0 0 [] rfl
  simpa [setDifference] using this

/-- **C32 set_symmetric_difference**: the last `m - n` of the first range or the last `n - m` of the second. -/
theorem C32_set_symmetric_difference (hlt : SWO lt) (xs ys : List α) (sx : Spec.SortedBy lt xs) (sy : Spec.SortedBy lt ys) :
    ∃ zs, setSymmetricDifference lt (full xs) (full ys) = .ok zs ∧ Spec.SortedBy lt zs ∧
      ∀ k, cls lt k zs = (cls lt k xs).drop (cls lt k ys).length ++ (cls lt k ys).drop (cls lt k xs).length := by
  refine ⟨symL lt xs ys, ?_, (ops_srt hlt _ xs ys rfl sx sy).2.2.2.2, fun k => (ops_cls hlt k _ xs ys rfl sx sy).2.2.2.2⟩
  have := setSymmetricDifferenceLoop_spec lt xs ys _ 0 0 [] rfl
  simpa [setSymmetricDifference] using this

/-- **C32 includes**: true exactly when the multiset of the second range is contained in that of the first. -/
theorem C32_includes (hlt : SWO lt) (xs ys : List α) (sx : Spec.SortedBy lt xs) (sy : Spec.SortedBy lt ys) :
    ∃ b, includes lt (full xs) (full ys) xs.length ys.length = .ok b ∧
      (b = true ↔ ∀ k, (cls lt k ys).length ≤ (cls lt k xs).length) :=
  ⟨inclL lt xs ys, includes_spec lt xs ys, inclL_iff hlt _ xs ys rfl sx sy⟩

/-- non-vacuity: multisets with repeated equivalent, distinguishable elements meet the hypotheses. -/
example : Spec.SortedBy (fun a b : Nat × String => decide (a.1 < b.1)) [(1, "a"), (1, "b"), (2, "c"), (2, "d"), (5, "e")] ∧
    cls (fun a b : Nat × String => decide (a.1 < b.1)) (2, "q") [(1, "a"), (1, "b"), (2, "c"), (2, "d"), (5, "e")] = [(2, "c"), (2, "d")] := by
  simp [Spec.SortedBy, cls]

end STL
