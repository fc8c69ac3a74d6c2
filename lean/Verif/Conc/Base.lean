import Mathlib.Algebra.BigOperators.Group.Finset.Basic
import Mathlib.Algebra.BigOperators.Group.Finset.Piecewise
import Mathlib.Data.Fintype.BigOperators
import Mathlib.Algebra.Order.BigOperators.Group.Finset
import Verif.Base
import Verif.Tac

/-!
# Interleaving semantics: sums over threads

Concurrent code is modelled as a transition system: a shared state plus one local state per thread, each transition being
one atomic memory operation of one thread (sequentially consistent interleavings). `ι` is any finite set of threads.
-/

namespace STL.Conc

variable {ι : Type} [Fintype ι] [DecidableEq ι] {L : Type}

/-- Sum over all threads of a quantity of the local state. -/
def tot (f : L → Nat) (l : ι → L) : Nat := ∑ t, f (l t)

/-- Replace the local state of thread `t`. -/
def upd (l : ι → L) (t : ι) (x : L) : ι → L := fun u => if u = t then x else l u

omit [Fintype ι] in
@[simp] theorem upd_self (l : ι → L) (t : ι) (x : L) : upd l t x t = x := by simp [upd]
omit [Fintype ι] in
theorem upd_ne (l : ι → L) {t u : ι} (x : L) (h : u ≠ t) : upd l t x u = l u := by simp [upd, h]

theorem tot_upd (f : L → Nat) (l : ι → L) (t : ι) (x : L) : tot f (upd l t x) + f (l t) = tot f l + f x := by
  unfold tot
  rw [← Finset.add_sum_erase _ _ (Finset.mem_univ t), ← Finset.add_sum_erase _ (fun u => f (l u)) (Finset.mem_univ t)]
  have : ∑ u ∈ Finset.univ.erase t, f (upd l t x u) = ∑ u ∈ Finset.univ.erase t, f (l u) := by
    apply Finset.sum_congr rfl
    intro u hu
    rw [upd_ne _ _ (Finset.ne_of_mem_erase hu)]
  rw [this, upd_self]; omega

theorem le_tot (f : L → Nat) (l : ι → L) (t : ι) : f (l t) ≤ tot f l :=
  Finset.single_le_sum (f := fun u => f (l u)) (fun _ _ => Nat.zero_le _) (Finset.mem_univ t)

theorem tot_pos {f : L → Nat} {l : ι → L} (h : 0 < tot f l) : ∃ t, 0 < f (l t) := by
  by_contra hc
  push Not at hc
  have : tot f l = 0 := Finset.sum_eq_zero (fun u _ => Nat.le_zero.1 (hc u))
  omega

theorem tot_zero {f : L → Nat} {l : ι → L} (h : tot f l = 0) (t : ι) : f (l t) = 0 := by
  have := le_tot f l t; omega

theorem tot_eq_zero {f : L → Nat} {l : ι → L} (h : ∀ t, f (l t) = 0) : tot f l = 0 :=
  Finset.sum_eq_zero (fun u _ => h u)

theorem tot_mono {f g : L → Nat} {l : ι → L} (h : ∀ t, f (l t) ≤ g (l t)) : tot f l ≤ tot g l :=
  Finset.sum_le_sum (fun u _ => h u)

theorem tot_add (f g : L → Nat) (l : ι → L) : tot (fun x => f x + g x) l = tot f l + tot g l :=
  Finset.sum_add_distrib

/-- two different threads contribute separately -/
theorem le_tot_two (f : L → Nat) (l : ι → L) {t u : ι} (h : t ≠ u) : f (l t) + f (l u) ≤ tot f l := by
  unfold tot
  rw [← Finset.add_sum_erase _ _ (Finset.mem_univ t)]
  have : f (l u) ≤ ∑ v ∈ Finset.univ.erase t, f (l v) :=
    Finset.single_le_sum (f := fun v => f (l v)) (fun _ _ => Nat.zero_le _) (Finset.mem_erase.2 ⟨h.symm, Finset.mem_univ u⟩)
  omega

/-- a total split into the acting thread and the others -/
theorem split_tot (f : L → Nat) (l : ι → L) (t : ι) : ∃ r, tot f l = r + f (l t) ∧ ∀ x, tot f (upd l t x) = r + f x := by
  refine ⟨tot f l - f (l t), ?_, fun x => ?_⟩
  · have := le_tot f l t; omega
  · have := tot_upd f l t x; have := le_tot f l t; omega

end STL.Conc
