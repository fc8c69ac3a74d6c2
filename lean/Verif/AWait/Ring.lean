import Verif.AWait.Model

/-!
# Chains of pointers
-/

namespace STL.AWait
open STL.Conc

variable {P : Type}

/-- From `p` through the elements of the list to `q`. -/
def path (f : P → Option P) (p : P) : List P → P → Prop
  | [], q => f p = some q
  | x :: l, q => f p = some x ∧ path f x l q

/-- The element before the end. -/
def lastOf (p : P) : List P → P
  | [] => p
  | x :: l => lastOf x l

theorem lastOf_append (p : P) (l : List P) (x : P) (m : List P) : lastOf p (l ++ x :: m) = lastOf x m := by
  induction l generalizing p with
  | nil => rfl
  | cons y l ih => exact ih y

theorem lastOf_mem (p : P) (l : List P) : lastOf p l = p ∨ lastOf p l ∈ l := by
  induction l generalizing p with
  | nil => exact .inl rfl
  | cons y l ih =>
    rcases ih y with h | h
    · exact .inr (by rw [lastOf, h]; simp)
    · exact .inr (by rw [lastOf]; exact List.mem_cons_of_mem _ h)

theorem path_congr {f g : P → Option P} {p q : P} {l : List P} (h : path f p l q) (hp : g p = f p) (hl : ∀ x ∈ l, g x = f x) : path g p l q := by
  induction l generalizing p with
  | nil => rw [path, hp]; exact h
  | cons x l ih => exact ⟨by rw [hp]; exact h.1, ih h.2 (hl x (by simp)) fun y hy => hl y (List.mem_cons_of_mem _ hy)⟩

theorem path_append {f : P → Option P} {p q r : P} {l m : List P} : path f p (l ++ q :: m) r ↔ path f p l q ∧ path f q m r := by
  induction l generalizing p with
  | nil => rfl
  | cons x l ih => simp only [List.cons_append, path, ih, and_assoc]

theorem path_last {f : P → Option P} {p q : P} {l : List P} (h : path f p l q) : f (lastOf p l) = some q := by
  induction l generalizing p with
  | nil => exact h
  | cons x l ih => exact ih h.2

/-- Redirect the last pointer. -/
theorem path_setLast [DecidableEq P] {f : P → Option P} {p q r : P} {l : List P} (h : path f p l q) (hn : (p :: l).Nodup) : path (upd f (lastOf p l) (some r)) p l r := by
  induction l generalizing p with
  | nil => rw [path, lastOf, upd_self]
  | cons x l ih =>
    refine ⟨?_, ih h.2 (List.nodup_cons.1 hn).2⟩
    rw [lastOf, upd_ne]
    · exact h.1
    · intro he
      have := (List.nodup_cons.1 hn).1
      apply this
      rw [he]
      rcases lastOf_mem x l with h | h
      · rw [h]; simp
      · exact List.mem_cons_of_mem _ h

theorem path_rev_first {f : P → Option P} {p q : P} {l : List P} (h : path f p l.reverse q) : f p = some (lastOf q l) := by
  rcases List.eq_nil_or_concat l with rfl | ⟨l', x, rfl⟩
  · exact h
  · rw [List.concat_eq_append] at h ⊢
    rw [List.reverse_append] at h
    rw [lastOf_append]
    exact h.1

theorem path_start {f : P → Option P} {p p' q : P} {l : List P} (h : path f p l q) (hp : f p' = f p) : path f p' l q := by
  cases l with
  | nil => rw [path, hp]; exact h
  | cons x l => exact ⟨by rw [hp]; exact h.1, h.2⟩

/-- Remove an element. -/
theorem path_unlink [DecidableEq P] {f : P → Option P} {p q t : P} {A B : List P} (h : path f p (A ++ t :: B) q) (hn : (p :: (A ++ t :: B)).Nodup) :
    path (upd f (lastOf p A) (f t)) p (A ++ B) q := by
  obtain ⟨h1, h2⟩ := path_append.1 h
  have hnA : (p :: A).Nodup := by
    have : List.Sublist (p :: A) (p :: (A ++ t :: B)) := by
      exact List.Sublist.cons_cons _ (List.sublist_append_left _ _)
    exact hn.sublist this
  cases B with
  | nil =>
    rw [List.append_nil, show f t = some q from h2]
    exact path_setLast h1 hnA
  | cons y B =>
    rw [h2.1]
    refine path_append.2 ⟨path_setLast h1 hnA, path_congr h2.2 ?_ ?_⟩
    · rw [upd_ne]
      rintro rfl
      have hd : (p :: A ++ t :: lastOf p A :: B).Nodup := hn
      rw [List.nodup_append] at hd
      rcases lastOf_mem p A with hh | hh
      · exact hd.2.2 p (by simp) (lastOf p A) (by simp) hh.symm
      · exact hd.2.2 (lastOf p A) (List.mem_cons_of_mem _ hh) (lastOf p A) (by simp) rfl
    · intro x hx
      rw [upd_ne]
      rintro rfl
      have hd : (p :: A ++ t :: y :: B).Nodup := hn
      rw [List.nodup_append] at hd
      rcases lastOf_mem p A with hh | hh
      · exact hd.2.2 p (by simp) (lastOf p A) (by simp [hx]) hh.symm
      · exact hd.2.2 (lastOf p A) (List.mem_cons_of_mem _ hh) (lastOf p A) (by simp [hx]) rfl

end STL.AWait
