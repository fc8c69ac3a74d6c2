import Verif.Par.SortModel
import Mathlib.Algebra.BigOperators.Intervals
import Mathlib.Data.Multiset.Basic
import Mathlib.Algebra.Order.Group.Multiset

/-!
# The work-stealing deque: invariants and their preservation
-/

namespace STL.Par.PSort
open STL.Conc

variable {ι α : Type} [DecidableEq ι]

/-! ## Buffers -/

theorem slotOf_mod (log idx : Nat) : slotOf log idx = idx % 2 ^ log := Nat.and_two_pow_sub_one_eq_mod idx log

theorem slot_ne {log i j : Nat} (h1 : i < j) (h2 : j - i < 2 ^ log) : slotOf log i ≠ slotOf log j := by
  rw [slotOf_mod, slotOf_mod]
  intro h
  have e1 := Nat.div_add_mod i (2 ^ log)
  have e2 := Nat.div_add_mod j (2 ^ log)
  rw [h] at e1
  have h3 : i / 2 ^ log ≤ j / 2 ^ log := Nat.div_le_div_right (Nat.le_of_lt h1)
  rcases Nat.lt_or_eq_of_le h3 with h3 | h3
  · have : 2 ^ log * (i / 2 ^ log + 1) ≤ 2 ^ log * (j / 2 ^ log) := Nat.mul_le_mul_left _ h3
    rw [Nat.mul_add] at this
    omega
  · rw [h3] at e1
    omega

@[simp] theorem put_log (s : Seg) (i : Nat) (x : Item) : (s.put i x).log = s.log := rfl
@[simp] theorem put_rc (s : Seg) (i : Nat) (x : Item) : (s.put i x).rc = s.rc := rfl
@[simp] theorem put_live (s : Seg) (i : Nat) (x : Item) : (s.put i x).live = s.live := rfl
@[simp] theorem put_at_self (s : Seg) (i : Nat) (x : Item) : (s.put i x).at i = x := by simp [Seg.at, Seg.put]
theorem put_at_ne (s : Seg) {i j : Nat} (x : Item) (h : slotOf s.log j ≠ slotOf s.log i) : (s.put i x).at j = s.at j := by
  simp [Seg.at, Seg.put, h]

theorem growLoop_spec (old : Seg) : ∀ (n idx : Nat) (new : Seg), n ≤ 2 ^ new.log →
    (growLoop old n idx new).log = new.log ∧ (growLoop old n idx new).rc = new.rc ∧ (growLoop old n idx new).live = new.live ∧
    (∀ i, (∀ j, idx ≤ j → j < idx + n → slotOf new.log i ≠ slotOf new.log j) → (growLoop old n idx new).at i = new.at i) ∧
    ∀ i, idx ≤ i → i < idx + n → (growLoop old n idx new).at i = old.at i
  | 0, idx, new, _ => ⟨rfl, rfl, rfl, fun _ _ => rfl, fun i h1 h2 => by omega⟩
  | n + 1, idx, new, hn => by
    unfold growLoop
    obtain ⟨h1, h2, h3, h4, h5⟩ := growLoop_spec old n (idx + 1) (new.put idx (old.at idx)) (by rw [put_log]; omega)
    simp only [put_log] at h4
    refine ⟨h1, h2, h3, fun i hi => ?_, fun i hi1 hi2 => ?_⟩
    · rw [h4 i fun j hj1 hj2 => hi j (by omega) (by omega)]
      exact put_at_ne _ _ (hi idx (by omega) (by omega))
    · by_cases h : i = idx
      · subst h
        rw [h4 i fun j hj1 hj2 => slot_ne (by omega) (by omega), put_at_self]
      · exact h5 i (by omega) (by omega)

/-! ## Invariants -/

/-- The deque by itself. -/
structure DQ (d : Dq ι) : Prop where
  top_le : d.top ≤ d.lb
  room : d.lb - d.top ≤ 2 ^ (d.segs d.cur).log
  cont : ∀ i, d.top ≤ i → i < d.lb → (d.segs d.cur).at i = d.items i
  small : d.lb < 2 ^ 64
  cur_lt : d.cur < d.nseg
  bot : d.bottom ≤ d.lb

/-- What the owner knows. -/
def OC (d : Dq ι) (me : ι) (x : Th α) : Prop :=
  match x.pc with
  | .push1 => d.lb = d.bottom ∧ x.b = d.bottom ∧ x.b < 2 ^ 64 - 1
  | .grow => d.lb = d.bottom ∧ x.b = d.bottom ∧ x.b < 2 ^ 64 - 1 ∧ x.t ≤ d.top ∧ x.b - x.t ≤ 2 ^ (d.segs d.cur).log
  | .glock => d.lb = d.bottom ∧ x.b = d.bottom ∧ x.b < 2 ^ 64 - 1 ∧ x.g < d.nseg ∧ x.b - d.top < 2 ^ (d.segs x.g).log ∧ x.g ≠ d.cur ∧
      ∀ i, d.top ≤ i → i < d.lb → (d.segs x.g).at i = d.items i
  | .gxchg => d.lb = d.bottom ∧ x.b = d.bottom ∧ x.b < 2 ^ 64 - 1 ∧ x.g < d.nseg ∧ x.b - d.top < 2 ^ (d.segs x.g).log ∧ x.g ≠ d.cur ∧
      (∀ i, d.top ≤ i → i < d.lb → (d.segs x.g).at i = d.items i) ∧ d.lock = some me
  | .gunlock => d.lb = d.bottom ∧ x.b = d.bottom ∧ x.b < 2 ^ 64 - 1 ∧ x.b - d.top < 2 ^ (d.segs d.cur).log ∧ x.g ≠ d.cur ∧ d.lock = some me
  | .grel => d.lb = d.bottom ∧ x.b = d.bottom ∧ x.b < 2 ^ 64 - 1 ∧ x.b - d.top < 2 ^ (d.segs d.cur).log ∧ x.g ≠ d.cur
  | .wr0 => d.lb = d.bottom ∧ x.b = d.bottom ∧ x.b < 2 ^ 64 - 1 ∧ x.b - d.top < 2 ^ (d.segs d.cur).log
  | .wr1 => d.lb = d.bottom ∧ x.b = d.bottom ∧ x.b < 2 ^ 64 - 1 ∧ x.b - d.top < 2 ^ (d.segs d.cur).log ∧ ((d.segs d.cur).at x.b).off = x.rf.off
  | .wr2 => d.lb = d.bottom ∧ x.b = d.bottom ∧ x.b < 2 ^ 64 - 1 ∧ x.b - d.top < 2 ^ (d.segs d.cur).log ∧ ((d.segs d.cur).at x.b).off = x.rf.off ∧
      ((d.segs d.cur).at x.b).size = x.rf.size
  | .pushSt => d.lb = d.bottom ∧ x.b = d.bottom ∧ x.b < 2 ^ 64 - 1 ∧ x.b - d.top < 2 ^ (d.segs d.cur).log ∧ (d.segs d.cur).at x.b = x.rf
  | .pop1 => d.bottom = x.b + 1 ∧ d.lb = x.b + 1
  | .pop2 => d.bottom = x.b ∧ d.lb = x.b + 1
  | .pop3 => d.bottom = x.b ∧ (d.segs d.cur).at x.b = x.gi ∧ (x.t < x.b ∧ d.lb = x.b ∨ x.t = x.b ∧ x.b ≤ d.top ∧ d.lb = x.b + 1 ∧ d.items x.b = x.gi)
  | .pop4 => d.bottom = x.b ∧ x.t = x.b ∧ x.b ≤ d.top ∧ d.lb = x.b + 1 ∧ x.wi = d.items x.b
  | .pop5 => d.bottom = x.t ∧ d.lb = x.t + 1
  | .popR => d.lb = x.t
  | _ => d.lb = d.bottom

/-- What a thief knows of the deque that it steals from. -/
def TC (d : Dq ι) (me : ι) (x : Th α) : Prop :=
  match x.pc with
  | .s1 => x.t ≤ d.top
  | .s2 => x.t ≤ d.top ∧ (d.top = x.t → x.t < d.lb)
  | .s3 => x.t ≤ d.top ∧ (d.top = x.t → x.t < d.lb) ∧ d.lock = some me
  | .s4 => x.t ≤ d.top ∧ (d.top = x.t → x.t < d.lb) ∧ d.lock = some me ∧ x.g = d.cur
  | .s5 => x.t ≤ d.top ∧ (d.top = x.t → x.t < d.lb) ∧ d.lock = some me ∧ x.g < d.nseg ∧ (d.top = x.t → (d.segs x.g).at x.t = d.items x.t)
  | .s6 => x.t ≤ d.top ∧ (d.top = x.t → x.t < d.lb) ∧ x.g < d.nseg ∧ (d.top = x.t → (d.segs x.g).at x.t = d.items x.t)
  | .s7 => x.t ≤ d.top ∧ (d.top = x.t → x.t < d.lb) ∧ x.g < d.nseg ∧ (d.top = x.t → (d.segs x.g).at x.t = d.items x.t) ∧ (d.top = x.t → x.wi.off = (d.items x.t).off)
  | .s8 => x.t ≤ d.top ∧ (d.top = x.t → x.t < d.lb) ∧ x.g < d.nseg ∧ (d.top = x.t → (d.segs x.g).at x.t = d.items x.t) ∧
      (d.top = x.t → x.wi.off = (d.items x.t).off ∧ x.wi.size = (d.items x.t).size)
  | .s9 => x.t ≤ d.top ∧ (d.top = x.t → x.t < d.lb) ∧ (d.top = x.t → x.wi = d.items x.t)
  | .s10 => x.t ≤ d.top ∧ (d.top = x.t → x.t < d.lb) ∧ (d.top = x.t → x.wi = d.items x.t)
  | _ => True

/-- References of a thread to buffers of its own deque. -/
def holdOwn (x : Th α) (g : Nat) : Nat :=
  match x.pc with
  | .glock | .gxchg | .gunlock | .grel => if x.g = g then 1 else 0
  | _ => 0

/-- References of a thread to buffers of the deque that it steals from. -/
def holdThief (x : Th α) (g : Nat) : Nat :=
  match x.pc with
  | .s5 | .s6 | .s7 | .s8 | .s9 => if x.g = g then 1 else 0
  | _ => 0

/-- Reference counts: one for the deque, one for each thread. -/
structure RC (d : Dq ι) (H : Nat → Nat) : Prop where
  eq : ∀ g, (d.segs g).rc = H g + if g = d.cur then 1 else 0
  live : ∀ g, (d.segs g).live = decide (0 < (d.segs g).rc)
  lt : ∀ g, 0 < (d.segs g).rc → g < d.nseg

/-- The elements that nobody has taken. -/
def queued (d : Dq ι) : Multiset Item := ∑ i ∈ Finset.Ico d.top d.lb, {d.items i}

/-- The elements that a thread has. -/
def held (x : Th α) : Multiset Item :=
  match x.pc with
  | .work | .busy | .pop5 => {x.wi}
  | .push0 | .push1 | .grow | .glock | .gxchg | .gunlock | .grel | .wr0 | .wr1 | .wr2 | .pushSt | .serial | .serialBusy => {x.wi} + {x.rf}
  | .pop3 => if x.t < x.b then {x.gi} else 0
  | _ => 0

end STL.Par.PSort
