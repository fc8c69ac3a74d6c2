import Verif.Utc.Model
import Verif.Utc.Spec
import Mathlib.Algebra.BigOperators.Group.Finset.Basic
import Mathlib.Algebra.BigOperators.Ring.Finset
import Mathlib.Algebra.BigOperators.Intervals
import Mathlib.Algebra.Order.BigOperators.Group.Finset
import Mathlib.Tactic.Ring
import Mathlib.Tactic.Linarith

/-!
C54: leap seconds and utc_clock.
-/

namespace STL.Utc

open Spec

theorem net_succ (raw : List (Int × Bool)) (k : Nat) : net raw (k + 1) = net raw k + sgn raw k := Finset.sum_range_succ _ _
theorem net_zero (raw : List (Int × Bool)) : net raw 0 = 0 := rfl
theorem sgn_cases (raw : List (Int × Bool)) (k : Nat) :
    (pos raw k = true ∧ sgn raw k = 1) ∨ (pos raw k = false ∧ sgn raw k = -1) := by
  unfold sgn; cases pos raw k <;> simp
theorem net_bound (raw : List (Int × Bool)) (k : Nat) : -(k : Int) ≤ net raw k ∧ net raw k ≤ k := by
  induction k with
  | zero => simp [net_zero]
  | succ k ih => rw [net_succ]; rcases sgn_cases raw k with ⟨_, h⟩ | ⟨_, h⟩ <;> rw [h] <;> push_cast <;> omega

theorem start_eq (raw : List (Int × Bool)) (k : Nat) :
    start raw k = date raw k + net raw (k + 1) - (if pos raw k then 1 else 0) := by
  unfold start
  rw [net_succ]
  rcases sgn_cases raw k with ⟨h, h'⟩ | ⟨h, h'⟩ <;> rw [h, h'] <;> simp <;> omega

/-- The table entries. -/
theorem mkTable_get (raw : List (Int × Bool)) : ∀ (rest : List (Int × Bool)) (n : Nat), raw.drop n = rest →
    ∀ k, k < rest.length →
    (mkTable (net raw n) rest)[k]? = some ⟨date raw (n + k), pos raw (n + k), net raw (n + k + 1)⟩ := by
  intro rest
  induction rest with
  | nil => intro n _ k hk; simp at hk
  | cons x xs ih =>
    intro n hd k hk
    have hget : raw[n]? = some x := by
      have := congrArg (fun l => l[0]?) hd
      simpa using this
    have hx : raw.getD n (0, true) = x := by rw [List.getD_eq_getElem?_getD, hget]; rfl
    have he : (Leap.mk' x.1 x.2 (net raw n)) = ⟨date raw n, pos raw n, net raw (n + 1)⟩ := by
      rw [net_succ]
      simp only [Leap.mk', value, date, pos, sgn, hx]
    simp only [mkTable]
    rw [he]
    cases k with
    | zero => rfl
    | succ k =>
      have hd' : raw.drop (n + 1) = xs := by
        rw [← List.drop_drop, hd]; rfl
      have := ih (n + 1) hd' k (by simpa using hk)
      simp only [List.getElem?_cons_succ]
      rw [this, show n + 1 + k = n + (k + 1) by omega]

theorem mkTable_length : ∀ (raw : List (Int × Bool)) (p : Int), (mkTable p raw).length = raw.length := by
  intro raw
  induction raw with
  | nil => intro p; rfl
  | cons x xs ih => intro p; simp [mkTable, ih]

theorem tbl_get (raw : List (Int × Bool)) (k : Nat) (hk : k < raw.length) :
    (mkTable 0 raw)[k]? = some ⟨date raw k, pos raw k, net raw (k + 1)⟩ := by
  have := mkTable_get raw raw 0 rfl k hk
  simpa [net_zero] using this

/-- What `upper_bound` finds: a point with all dates before it not after `t`, and the next date after `t`. -/
theorem upperBound_spec : ∀ (tbl : List Leap) (t : Int),
    upperBound tbl t ≤ tbl.length ∧ (∀ k, k < upperBound tbl t → ∃ e, tbl[k]? = some e ∧ e.date ≤ t) ∧
    (∀ e, tbl[upperBound tbl t]? = some e → t < e.date) := by
  intro tbl
  induction tbl with
  | nil => intro t; exact ⟨Nat.le_refl _, fun k hk => by simp [upperBound] at hk, fun e he => by simp at he⟩
  | cons x xs ih =>
    intro t
    obtain ⟨h1, h2, h3⟩ := ih t
    simp only [upperBound]
    by_cases hx : x.date ≤ t
    · rw [if_pos hx]
      refine ⟨by simpa using h1, ?_, by simpa using h3⟩
      intro k hk
      cases k with
      | zero => exact ⟨x, rfl, hx⟩
      | succ k => simpa using h2 k (by omega)
    · rw [if_neg hx]
      refine ⟨by simp, fun k hk => by omega, ?_⟩
      intro e he
      simp at he
      subst he; omega

/-- What the loop finds. -/
theorem scan_spec (raw : List (Int × Bool)) (t : Int) : ∀ (rest : List (Int × Bool)) (n : Nat), raw.drop n = rest →
    scan (net raw n) (mkTable (net raw n) rest) t ≤ rest.length ∧
    (∀ k, k < scan (net raw n) (mkTable (net raw n) rest) t → start raw (n + k) ≤ t) ∧
    (scan (net raw n) (mkTable (net raw n) rest) t < rest.length →
      t < start raw (n + scan (net raw n) (mkTable (net raw n) rest) t)) := by
  intro rest
  induction rest with
  | nil => intro n _; exact ⟨Nat.le_refl _, fun k hk => by simp [mkTable, scan] at hk, fun h => by simp at h⟩
  | cons x xs ih =>
    intro n hd
    have hget : raw[n]? = some x := by
      have := congrArg (fun l => l[0]?) hd
      simpa using this
    have hx : raw.getD n (0, true) = x := by rw [List.getD_eq_getElem?_getD, hget]; rfl
    have he : (Leap.mk' x.1 x.2 (net raw n)) = ⟨date raw n, pos raw n, net raw (n + 1)⟩ := by
      rw [net_succ]
      simp only [Leap.mk', value, date, pos, sgn, hx]
    have hd' : raw.drop (n + 1) = xs := by rw [← List.drop_drop, hd]; rfl
    obtain ⟨h1, h2, h3⟩ := ih (n + 1) hd'
    simp only [mkTable]
    rw [he]
    simp only [scan]
    have hb : date raw n + (if pos raw n = true then net raw n else net raw (n + 1)) = start raw n := rfl
    rw [hb]
    by_cases hs : start raw n > t
    · rw [if_pos hs]
      exact ⟨by simp, fun k hk => by omega, fun _ => by simpa using hs⟩
    · rw [if_neg hs]
      refine ⟨by simpa using h1, ?_, ?_⟩
      · intro k hk
        cases k with
        | zero => simpa using hs
        | succ k => rw [show n + (k + 1) = n + 1 + k by omega]; exact h2 k (by omega)
      · intro hl
        rw [← Nat.add_assoc, Nat.add_right_comm]
        exact h3 (by simpa using hl)

theorem start_step (raw : List (Int × Bool)) (hs : Separated raw) (k : Nat) (hk : k + 1 < raw.length) :
    start raw k < start raw (k + 1) := by
  have h := hs k hk
  rw [start_eq, start_eq, net_succ raw (k + 1)]
  rcases sgn_cases raw (k + 1) with ⟨h1, h2⟩ | ⟨h1, h2⟩ <;> rw [h1, h2] <;> split <;> simp <;> omega

theorem mono_of_step (f : Nat → Int) (N : Nat) (h : ∀ k, k + 1 < N → f k < f (k + 1)) :
    ∀ a b, a < b → b < N → f a < f b := by
  intro a b hab
  induction b with
  | zero => omega
  | succ b ih =>
    intro hb
    have := h b hb
    by_cases c : a = b
    · subst c; exact this
    · have := ih (by omega) (by omega); omega

theorem start_mono (raw : List (Int × Bool)) (hs : Separated raw) (a b : Nat) (h : a < b) (hb : b < raw.length) :
    start raw a < start raw b := mono_of_step _ _ (start_step raw hs) a b h hb

theorem date_mono (raw : List (Int × Bool)) (hs : Separated raw) (a b : Nat) (h : a < b) (hb : b < raw.length) :
    date raw a < date raw b :=
  mono_of_step _ raw.length (fun k hk => by have := hs k hk; omega) a b h hb

theorem filter_sum (raw : List (Int × Bool)) (f : Nat → Int) (t : Int) (c : Nat) (hc : c ≤ raw.length)
    (h1 : ∀ k, k < c → f k ≤ t) (h2 : ∀ k, c ≤ k → k < raw.length → t < f k) :
    (∑ k ∈ Finset.range raw.length, if f k ≤ t then sgn raw k else 0) = net raw c := by
  unfold net
  have e : Finset.range raw.length = Finset.range c ∪ (Finset.range raw.length \ Finset.range c) := by
    rw [Finset.union_sdiff_of_subset]; intro x hx; simp at hx ⊢; omega
  rw [e, Finset.sum_union Finset.disjoint_sdiff]
  have a1 : (∑ k ∈ Finset.range c, if f k ≤ t then sgn raw k else 0) = ∑ k ∈ Finset.range c, sgn raw k := by
    apply Finset.sum_congr rfl
    intro k hk; rw [if_pos (h1 k (by simpa using hk))]
  have a2 : (∑ k ∈ Finset.range raw.length \ Finset.range c, if f k ≤ t then sgn raw k else 0) = 0 := by
    apply Finset.sum_eq_zero
    intro k hk
    simp at hk
    rw [if_neg (by have := h2 k hk.2 hk.1; omega)]
  rw [a1, a2, add_zero]

/-- The point up to which leap seconds have begun. -/
structure Cut (raw : List (Int × Bool)) (t : Int) (c : Nat) : Prop where
  le : c ≤ raw.length
  before : ∀ k, k < c → start raw k ≤ t
  after : c < raw.length → t < start raw c

theorem Cut.elapsed {raw : List (Int × Bool)} {t : Int} {c : Nat} (hs : Separated raw) (h : Cut raw t c) :
    elapsed raw t = net raw c := by
  unfold Spec.elapsed
  apply filter_sum raw _ t c h.le h.before
  intro k h1 h2
  have := h.after (by omega)
  by_cases e : k = c
  · subst e; exact this
  · have := start_mono raw hs c k (by omega) h2; omega

theorem Cut.isLeap {raw : List (Int × Bool)} {t : Int} {c : Nat} (hs : Separated raw) (h : Cut raw t c) :
    IsLeap raw t ↔ 0 < c ∧ pos raw (c - 1) = true ∧ start raw (c - 1) = t := by
  constructor
  · rintro ⟨k, hk, hp, he⟩
    have hkc : k < c := by
      by_contra hc
      have := h.after (by omega)
      by_cases e : k = c
      · subst e; omega
      · have := start_mono raw hs c k (by omega) hk; omega
    have : k = c - 1 := by
      by_contra hne
      have h1 := start_mono raw hs k (c - 1) (by omega) (by have := h.le; omega)
      have h2 := h.before (c - 1) (by omega)
      omega
    subst this
    exact ⟨by omega, hp, he⟩
  · rintro ⟨h0, hp, he⟩
    exact ⟨c - 1, by have := h.le; omega, hp, he⟩

theorem allPositive_pos (raw : List (Int × Bool)) (h : allPositive raw = true) (k : Nat) : pos raw k = true := by
  unfold pos
  rw [List.getD_eq_getElem?_getD]
  cases hk : raw[k]? with
  | none => rfl
  | some x =>
    unfold allPositive at h
    rw [List.all_eq_true] at h
    simpa using h x (List.mem_of_getElem? hk)

theorem net_allPos (raw : List (Int × Bool)) (h : ∀ k, pos raw k = true) (k : Nat) : net raw k = k := by
  induction k with
  | zero => rfl
  | succ k ih => rw [net_succ, ih]; unfold sgn; rw [h k]; simp

theorem cut_exists (raw : List (Int × Bool)) (t : Int) : ∃ c, Cut raw t c ∧ c = scan 0 (mkTable 0 raw) t := by
  have h := scan_spec raw t raw 0 rfl
  rw [net_zero] at h
  exact ⟨_, ⟨h.1, fun k hk => by simpa using h.2.1 k hk, fun hl => by simpa using h.2.2 hl⟩, rfl⟩

theorem info_eq (raw : List (Int × Bool)) (hs : Separated raw) (t : Int) (c : Nat) (h : Cut raw t c) :
    info (mkTable 0 raw) (allPositive raw) t =
      some (decide (0 < c) && pos raw (c - 1) && decide (start raw (c - 1) = t), net raw c) := by
  have hgen : ∀ c', 0 < c' → c' ≤ raw.length → (mkTable 0 raw)[c' - 1]? =
      some ⟨date raw (c' - 1), pos raw (c' - 1), net raw c'⟩ := by
    intro c' h0 hl
    have := tbl_get raw (c' - 1) (by omega)
    rw [show c' - 1 + 1 = c' by omega] at this
    exact this
  unfold info
  by_cases hp : allPositive raw = true
  · rw [hp]
    simp only [if_true, true_and]
    have hpos := allPositive_pos raw hp
    have hnet := net_allPos raw hpos
    have hst : ∀ k, start raw k = date raw k + k := by intro k; unfold start; rw [hpos k, hnet]; simp
    obtain ⟨u1, u2, u3⟩ := upperBound_spec (mkTable 0 raw) t
    rw [mkTable_length] at u1
    generalize upperBound (mkTable 0 raw) t = u at *
    have hd1 : ∀ k, k < u → date raw k ≤ t := by
      intro k hk
      obtain ⟨e, he, hle⟩ := u2 k hk
      rw [tbl_get raw k (by omega)] at he
      injection he with he
      rw [← he] at hle; exact hle
    have hd2 : u < raw.length → t < date raw u := by
      intro hu
      exact u3 _ (tbl_get raw u hu)
    have hcu : c ≤ u := by
      by_contra hc
      have h1 := h.before u (by omega)
      rw [hst] at h1
      have := hd2 (by have := h.le; omega)
      omega
    by_cases hu0 : u = 0
    · have hc0 : c = 0 := by omega
      rw [if_pos hu0, hc0]
      simp [net_zero]
    · rw [if_neg hu0, hgen u (by omega) u1]
      simp only [bind, Option.bind_some]
      have hls : date raw (u - 1) + net raw u - 1 = start raw (u - 1) := by
        rw [hst, hnet]; omega
      rw [hls]
      by_cases hgt : start raw (u - 1) > t
      · rw [if_pos hgt]
        have hu1 : u - 1 ≠ 0 := by
          intro e
          have := hd1 0 (by omega)
          rw [e, hst] at hgt
          simp at hgt; omega
        have hcu1 : c = u - 1 := by
          have hc1 : c ≤ u - 1 := by
            by_contra hc
            have := h.before (u - 1) (by omega)
            omega
          by_contra hne
          have := h.after (by omega)
          have hm : start raw (u - 2) < t := by
            have h1 := hs (u - 2) (by omega)
            have h2 := hd1 (u - 1) (by omega)
            rw [show u - 2 + 1 = u - 1 by omega] at h1
            rw [hst]; omega
          by_cases e : c = u - 2
          · rw [e] at this; omega
          · have := start_mono raw hs c (u - 2) (by omega) (by omega); omega
        rw [if_neg hu1]
        have := hgen (u - 1) (by omega) (by omega)
        rw [this]
        simp only [Option.bind_some, pure]
        have hne1 : ¬ start raw (u - 1) = t := by omega
        have hne2 : ¬ start raw (c - 1) = t := by
          have h1 := hs (u - 2) (by omega)
          have h2 := hd1 (u - 1) (by omega)
          rw [show u - 2 + 1 = u - 1 by omega] at h1
          rw [hcu1, show u - 1 - 1 = u - 2 by omega, hst]; omega
        rw [decide_eq_false hne1, decide_eq_false hne2, hcu1]
        simp
      · rw [if_neg hgt]
        have hcu1 : c = u := by
          by_contra hne
          have := h.after (by omega)
          by_cases e : c = u - 1
          · rw [e] at this; omega
          · have := start_mono raw hs c (u - 1) (by omega) (by omega); omega
        rw [hcu1, decide_eq_true (show 0 < u by omega)]
        simp
  · have hp' : allPositive raw = false := by simpa using hp
    rw [hp']
    simp only [Bool.false_eq_true, if_false, false_and]
    have hcs : c = scan 0 (mkTable 0 raw) t := by
      obtain ⟨c', h', e'⟩ := cut_exists raw t
      rw [← e']
      by_contra hne
      rcases Nat.lt_or_gt_of_ne hne with hlt | hlt
      · have h1 := h.after (by have := h'.le; omega)
        have h2 := h'.before c hlt
        omega
      · have h1 := h'.after (by have := h.le; omega)
        have h2 := h.before c' hlt
        omega
    rw [← hcs]
    by_cases hc0 : c = 0
    · rw [if_pos hc0, hc0]; simp [net_zero]
    · rw [if_neg hc0, hgen c (by omega) h.le]
      simp only [bind, Option.bind_some, pure]
      rw [decide_eq_true (show 0 < c by omega), Bool.true_and]
      cases hq : pos raw (c - 1) with
      | false => simp
      | true =>
        have : date raw (c - 1) + net raw c - 1 = start raw (c - 1) := by
          rw [start_eq, hq, show c - 1 + 1 = c by omega]; simp
        rw [this]

/-- **C54 (info)**: for every table of separated leap seconds, positive and negative, and every UTC second,
`get_leap_second_info` gives the sum of the leap seconds that have begun, and tells exactly the inserted seconds. -/
theorem C54_info (raw : List (Int × Bool)) (hs : Separated raw) (t : Int) :
    ∃ b, info (mkTable 0 raw) (allPositive raw) t = some (b, elapsed raw t) ∧ (b = true ↔ IsLeap raw t) := by
  obtain ⟨c, h, _⟩ := cut_exists raw t
  refine ⟨_, by rw [info_eq raw hs t c h, h.elapsed hs], ?_⟩
  rw [h.isLeap hs]
  simp [and_assoc]

/-- The known table is separated; a negative entry after it is a further case. -/
theorem known_separated : Separated known := by
  have h : ∀ k, k < 27 → k + 1 < known.length → date known k + known.length + 3 ≤ date known (k + 1) := by decide
  intro k hk
  exact h k (by have : known.length = 27 := by decide
                omega) hk
theorem known_negative_separated : Separated (known ++ [(1600000000, false), (1700000000, true)]) := by
  have h : ∀ k, k < 29 → k + 1 < (known ++ [(1600000000, false), (1700000000, true)]).length →
      date (known ++ [(1600000000, false), (1700000000, true)]) k + (known ++ [(1600000000, false), (1700000000, true)]).length + 3 ≤
        date (known ++ [(1600000000, false), (1700000000, true)]) (k + 1) := by decide
  intro k hk
  exact h k (by have : (known ++ [((1600000000 : Int), false), (1700000000, true)]).length = 29 := by decide
                omega) hk
example : info (mkTable 0 known) (allPositive known) 1483228826 = some (true, 27) := by decide
example : info (mkTable 0 known) (allPositive known) 1483228825 = some (false, 26) := by decide

/-- **C54 (from_sys)**: system time is moved by the leap seconds that took effect. -/
theorem C54_from_sys (raw : List (Int × Bool)) (hs : Separated raw) (P s : Int) :
    fromSys (mkTable 0 raw) P s = some (s + offset raw (s / P) * P) := by
  obtain ⟨u1, u2, u3⟩ := upperBound_spec (mkTable 0 raw) (s / P)
  rw [mkTable_length] at u1
  unfold fromSys
  simp only []
  generalize upperBound (mkTable 0 raw) (s / P) = u at *
  have hoff : offset raw (s / P) = net raw u := by
    unfold offset
    apply filter_sum raw _ _ u u1
    · intro k hk
      obtain ⟨e, he, hle⟩ := u2 k hk
      rw [tbl_get raw k (by omega)] at he
      injection he with he
      rw [← he] at hle; exact hle
    · intro k h1 h2
      have := u3 _ (tbl_get raw u (by omega))
      simp only at this
      by_cases e : k = u
      · subst e; exact this
      · have := date_mono raw hs u k (by omega) h2; omega
  rw [hoff]
  by_cases h0 : u = 0
  · simp [h0, net_zero]
  · have := tbl_get raw (u - 1) (by omega)
    rw [show u - 1 + 1 = u by omega] at this
    simp [h0, this]

theorem toSys_eq (raw : List (Int × Bool)) (hs : Separated raw) (P t : Int) :
    (IsLeap raw (t / P) → toSys (mkTable 0 raw) (allPositive raw) P t = some ((t / P - elapsed raw (t / P)) * P + (P - 1))) ∧
    (¬ IsLeap raw (t / P) → toSys (mkTable 0 raw) (allPositive raw) P t = some (t - elapsed raw (t / P) * P)) := by
  obtain ⟨b, e, hb⟩ := C54_info raw hs (t / P)
  unfold toSys
  constructor
  · intro h
    have : b = true := hb.mpr h
    subst this
    simp only [e, bind, Option.bind_some, if_true, pure]
  · intro h
    have : b = false := by cases b with
      | false => rfl
      | true => exact absurd (hb.mp rfl) h
    subst this
    simp only [e, bind, Option.bind_some, Bool.false_eq_true, if_false, pure]

/-- **C54 (inserted second)**: every time within an inserted second converts to the last tick before its date. -/
theorem C54_leap_to_sys (raw : List (Int × Bool)) (hs : Separated raw) (P : Int) (k : Nat) (hk : k < raw.length)
    (hp : pos raw k = true) (t : Int) (ht : t / P = start raw k) :
    toSys (mkTable 0 raw) (allPositive raw) P t = some (date raw k * P - 1) := by
  have hl : IsLeap raw (t / P) := ⟨k, hk, hp, ht.symm⟩
  rw [(toSys_eq raw hs P t).1 hl]
  obtain ⟨c, h, _⟩ := cut_exists raw (t / P)
  rw [h.elapsed hs]
  obtain ⟨h0, hp', he⟩ := (h.isLeap hs).mp hl
  have hkc : k = c - 1 := by
    by_contra hne
    have hcl := h.le
    rcases Nat.lt_or_gt_of_ne hne with hlt | hlt
    · have := start_mono raw hs k (c - 1) hlt (by omega); omega
    · have := start_mono raw hs (c - 1) k hlt hk; omega
  subst hkc
  rw [ht, start_eq, hp', show c - 1 + 1 = c by omega]
  simp only [if_true]
  congr 1
  ring

/-- **C54 (round trip)**: converting to UTC and back is the identity, except in the second that a negative leap second
removes. -/
theorem C54_roundtrip (raw : List (Int × Bool)) (hs : Separated raw) (P s : Int) (hP : 1 ≤ P)
    (hneg : ∀ k, k < raw.length → pos raw k = false → s / P ≠ date raw k - 1) :
    ∃ t, fromSys (mkTable 0 raw) P s = some t ∧ toSys (mkTable 0 raw) (allPositive raw) P t = some s := by
  refine ⟨_, C54_from_sys raw hs P s, ?_⟩
  obtain ⟨u1, u2, u3⟩ := upperBound_spec (mkTable 0 raw) (s / P)
  rw [mkTable_length] at u1
  generalize upperBound (mkTable 0 raw) (s / P) = u at *
  have hd1 : ∀ k, k < u → date raw k ≤ s / P := by
    intro k hk
    obtain ⟨e, he, hle⟩ := u2 k hk
    rw [tbl_get raw k (by omega)] at he
    injection he with he
    rw [← he] at hle; exact hle
  have hd2 : ∀ k, u ≤ k → k < raw.length → s / P < date raw k := by
    intro k h1 h2
    have := u3 _ (tbl_get raw u (by omega))
    simp only at this
    by_cases e : k = u
    · subst e; exact this
    · have := date_mono raw hs u k (by omega) h2; omega
  have hoff : offset raw (s / P) = net raw u := filter_sum raw _ _ u u1 hd1 hd2
  rw [hoff]
  have hdiv : (s + net raw u * P) / P = s / P + net raw u := Int.add_mul_ediv_right _ _ (by omega)
  have hcut : Cut raw (s / P + net raw u) u := by
    refine ⟨u1, ?_, ?_⟩
    · intro k hk
      have hlast : start raw (u - 1) ≤ s / P + net raw u := by
        have := hd1 (u - 1) (by omega)
        rw [start_eq, show u - 1 + 1 = u by omega]
        split <;> omega
      by_cases e : k = u - 1
      · rw [e]; exact hlast
      · have := start_mono raw hs k (u - 1) (by omega) (by omega); omega
    · intro hu
      have h1 := hd2 u (Nat.le_refl _) hu
      rw [start_eq, net_succ]
      rcases sgn_cases raw u with ⟨hp, hsg⟩ | ⟨hp, hsg⟩
      · rw [hp, hsg]; simp; omega
      · have h2 := hneg u hu hp
        rw [hp, hsg]; simp; omega
  have hnl : ¬ IsLeap raw ((s + net raw u * P) / P) := by
    rw [hdiv, hcut.isLeap hs]
    rintro ⟨h0, hp, he⟩
    have := hd1 (u - 1) (by omega)
    rw [start_eq, hp, show u - 1 + 1 = u by omega] at he
    simp at he
    omega
  rw [(toSys_eq raw hs P _).2 hnl, hdiv, hcut.elapsed hs]
  congr 1
  ring

/-- **C54 (monotone)**: for every table, a later UTC time is never converted to an earlier system time. -/
theorem C54_monotone (raw : List (Int × Bool)) (hs : Separated raw) (P : Int) (hP : 1 ≤ P) (t t' : Int) (h : t ≤ t') :
    ∃ s s', toSys (mkTable 0 raw) (allPositive raw) P t = some s ∧
      toSys (mkTable 0 raw) (allPositive raw) P t' = some s' ∧ s ≤ s' := by
  obtain ⟨c, hc, _⟩ := cut_exists raw (t / P)
  obtain ⟨c', hc', _⟩ := cut_exists raw (t' / P)
  have hdiv : t / P ≤ t' / P := Int.ediv_le_ediv (by omega) h
  have hm1 := Int.emod_add_mul_ediv t P
  have hm2 := Int.emod_add_mul_ediv t' P
  have hr1 := Int.emod_nonneg t (show P ≠ 0 by omega)
  have hr2 := Int.emod_lt_of_pos t (show 0 < P by omega)
  have hr3 := Int.emod_nonneg t' (show P ≠ 0 by omega)
  have hr4 := Int.emod_lt_of_pos t' (show 0 < P by omega)
  have hcc : c ≤ c' := by
    by_contra hlt
    have h1 := hc'.after (by have := hc.le; omega)
    have h2 := hc.before c' (by omega)
    omega
  have key : t / P - net raw c < t' / P - net raw c' ∨
      (t / P - net raw c = t' / P - net raw c' ∧ (c = c' ∨ IsLeap raw (t' / P))) := by
    by_cases hEq : c = c'
    · subst hEq; omega
    · have hl := hc'.le
      have h1 := hc.after (by omega)
      have h2 := hc'.before (c' - 1) (by omega)
      have hd : date raw c ≤ date raw (c' - 1) := by
        by_cases e : c = c' - 1
        · rw [e]
        · have := date_mono raw hs c (c' - 1) (by omega) (by omega); omega
      have hA : t / P - net raw c ≤ date raw c - 1 := by
        rw [start_eq, net_succ] at h1
        rcases sgn_cases raw c with ⟨hp, hsg⟩ | ⟨hp, hsg⟩ <;> rw [hp, hsg] at h1 <;> simp at h1 <;> omega
      have hst := start_eq raw (c' - 1)
      rw [show c' - 1 + 1 = c' by omega] at hst
      rcases sgn_cases raw (c' - 1) with ⟨hp, _⟩ | ⟨hp, _⟩
      · rw [hp] at hst
        simp only [if_true] at hst
        by_cases hq : start raw (c' - 1) = t' / P
        · have : IsLeap raw (t' / P) := ⟨c' - 1, by omega, hp, hq⟩
          rcases Int.lt_or_le (t / P - net raw c) (t' / P - net raw c') with hx | hx
          · exact Or.inl hx
          · exact Or.inr ⟨by omega, Or.inr this⟩
        · left; omega
      · rw [hp] at hst
        simp at hst
        left; omega
  have hval : ∀ (x : Int) (n : Nat), Cut raw (x / P) n → ∃ r, toSys (mkTable 0 raw) (allPositive raw) P x =
      some ((x / P - net raw n) * P + r) ∧ 0 ≤ r ∧ r ≤ P - 1 ∧ (IsLeap raw (x / P) → r = P - 1) ∧
      (¬ IsLeap raw (x / P) → r = x % P) := by
    intro x n hn
    have e1 := Int.emod_nonneg x (show P ≠ 0 by omega)
    have e2 := Int.emod_lt_of_pos x (show 0 < P by omega)
    by_cases hl : IsLeap raw (x / P)
    · refine ⟨P - 1, ?_, by omega, by omega, fun _ => rfl, fun h => absurd hl h⟩
      rw [(toSys_eq raw hs P x).1 hl, hn.elapsed hs]
    · refine ⟨x % P, ?_, e1, by omega, fun h => absurd h hl, fun _ => rfl⟩
      rw [(toSys_eq raw hs P x).2 hl, hn.elapsed hs]
      congr 1
      have := Int.emod_add_mul_ediv x P
      linarith [mul_comm P (x / P), sub_mul (x / P) (net raw n) P]
  obtain ⟨r, e1, a1, a2, a3, a4⟩ := hval t c hc
  obtain ⟨r', e2, b1, b2, b3, b4⟩ := hval t' c' hc'
  refine ⟨_, _, e1, e2, ?_⟩
  have hdivA : c = c' → t / P - net raw c = t' / P - net raw c' → t / P = t' / P := by rintro rfl; omega
  generalize hA : t / P - net raw c = A at *
  rcases key with hlt | ⟨heq, hor⟩
  · generalize t' / P - net raw c' = B at *
    have : (A + 1) * P ≤ B * P := Int.mul_le_mul_of_nonneg_right (by omega) (by omega)
    rw [add_mul, one_mul] at this
    omega
  · rw [← heq]
    suffices r ≤ r' by omega
    by_cases hl' : IsLeap raw (t' / P)
    · rw [b3 hl']; exact a2
    · rcases hor with rfl | hor
      · have hq : t / P = t' / P := by
          have := hdivA rfl; omega
        have hl : ¬ IsLeap raw (t / P) := by rw [hq]; exact hl'
        rw [a4 hl, b4 hl']
        rw [hq] at hm1
        omega
      · exact absurd hor hl'

/-- **C54 (TAI and GPS)**: the clocks convert to UTC and back without loss; the GPS epoch is the system date 1980-01-06 (day
3657), the TAI epoch is ten seconds before 1958-01-01 (day -4383) and TAI is 19 seconds ahead of GPS. -/
theorem C54_tai_gps (P t : Int) :
    taiFromUtc P (taiToUtc P t) = t ∧ taiToUtc P (taiFromUtc P t) = t ∧
    gpsFromUtc P (gpsToUtc P t) = t ∧ gpsToUtc P (gpsFromUtc P t) = t ∧
    gpsToUtc P 0 = 315964809 * P ∧ toSys (mkTable 0 known) (allPositive known) 1 (gpsToUtc 1 0) = some (3657 * 86400) ∧
    taiToUtc P 0 = -(4383 * 86400 + 10) * P ∧
    taiFromUtc P (gpsToUtc P t) = t + (8040 * 86400 + 19) * P := by
  refine ⟨?_, ?_, ?_, ?_, ?_, by decide, ?_, ?_⟩ <;> simp only [taiFromUtc, taiToUtc, gpsFromUtc, gpsToUtc] <;> ring

/-- A second that is not inserted belongs to the system second with the same leap seconds in effect. -/
theorem Cut.offset_of_not_leap {raw : List (Int × Bool)} {t : Int} {c : Nat} (hs : Separated raw) (h : Cut raw t c)
    (hl : ¬ IsLeap raw t) : offset raw (t - net raw c) = net raw c ∧
      (∀ k, k < c → date raw k ≤ t - net raw c) ∧ (c < raw.length → t - net raw c < date raw c) := by
  have hle := h.le
  have h1 : ∀ k, k < c → date raw k ≤ t - net raw c := by
    intro k hk
    have hlast : date raw (c - 1) ≤ t - net raw c := by
      have hb := h.before (c - 1) (by omega)
      have hst := start_eq raw (c - 1)
      rw [show c - 1 + 1 = c by omega] at hst
      rcases sgn_cases raw (c - 1) with ⟨hp, _⟩ | ⟨hp, _⟩
      · have : start raw (c - 1) ≠ t := fun e => hl ⟨c - 1, by omega, hp, e⟩
        rw [hp] at hst; simp only [if_true] at hst; omega
      · rw [hp] at hst; simp at hst; omega
    by_cases e : k = c - 1
    · rw [e]; exact hlast
    · have := date_mono raw hs k (c - 1) (by omega) (by omega); omega
  have h2 : c < raw.length → t - net raw c < date raw c := by
    intro hc
    have ha := h.after hc
    rw [start_eq, net_succ] at ha
    rcases sgn_cases raw c with ⟨hp, hsg⟩ | ⟨hp, hsg⟩ <;> rw [hp, hsg] at ha <;> simp at ha <;> omega
  refine ⟨filter_sum raw _ _ c hle h1 ?_, h1, h2⟩
  intro k hk hkl
  have := h2 (by omega)
  by_cases e : k = c
  · rw [e]; exact this
  · have := date_mono raw hs c k (by omega) hkl; omega

/-- **C54 (round trip from UTC)**: converting a UTC time outside of inserted seconds to system time and back is the
identity. -/
theorem C54_roundtrip_utc (raw : List (Int × Bool)) (hs : Separated raw) (P t : Int) (hP : 1 ≤ P)
    (hl : ¬ IsLeap raw (t / P)) :
    ∃ s, toSys (mkTable 0 raw) (allPositive raw) P t = some s ∧ fromSys (mkTable 0 raw) P s = some t := by
  obtain ⟨c, hc, _⟩ := cut_exists raw (t / P)
  refine ⟨_, (toSys_eq raw hs P t).2 hl, ?_⟩
  rw [C54_from_sys raw hs, hc.elapsed hs]
  have hdiv : (t - net raw c * P) / P = t / P - net raw c := by
    rw [sub_eq_add_neg, ← neg_mul, Int.add_mul_ediv_right _ _ (by omega)]; rfl
  rw [hdiv, (hc.offset_of_not_leap hs hl).1]
  congr 1
  ring

/-- The table consists of the known leap seconds and ones after 2018-06-01 (as `_Tzdb_generate_leap_seconds`
builds it). -/
structure Extends (raw : List (Int × Bool)) : Prop where
  ex : ∃ later, raw = known ++ later ∧ ∀ x ∈ later, (1527811200 : Int) < x.1

theorem known_length : known.length = 27 := by decide

theorem Extends.known_pos {raw : List (Int × Bool)} (h : Extends raw) (k : Nat) (hk : k < 27) :
    pos raw k = true ∧ date raw k < cutoff := by
  obtain ⟨later, rfl, _⟩ := h.ex
  have e : (known ++ later).getD k (0, true) = known.getD k (0, true) := by
    rw [List.getD_eq_getElem?_getD, List.getD_eq_getElem?_getD, List.getElem?_append_left (by rw [known_length]; exact hk)]
  unfold pos date
  rw [e]
  have : ∀ k, k < 27 → (known.getD k (0, true)).2 = true ∧ (known.getD k (0, true)).1 < cutoff := by decide
  exact this k hk

theorem Extends.later_date {raw : List (Int × Bool)} (h : Extends raw) (k : Nat) (hk : 27 ≤ k) (hl : k < raw.length) :
    cutoff < date raw k := by
  obtain ⟨later, rfl, hla⟩ := h.ex
  unfold date
  rw [List.getD_eq_getElem?_getD, List.getElem?_append_right (by rw [known_length]; exact hk), known_length]
  rw [List.length_append, known_length] at hl
  have hm : k - 27 < later.length := by omega
  rw [List.getElem?_eq_getElem hm]
  exact (hla _ (List.getElem_mem hm))

theorem Extends.length {raw : List (Int × Bool)} (h : Extends raw) : 27 ≤ raw.length := by
  obtain ⟨later, rfl, _⟩ := h.ex
  rw [List.length_append, known_length]; omega

theorem Extends.net {raw : List (Int × Bool)} (h : Extends raw) (k : Nat) (hk : k ≤ 27) : net raw k = k := by
  induction k with
  | zero => rfl
  | succ k ih =>
    rw [net_succ, ih (by omega)]
    unfold sgn
    rw [(h.known_pos k (by omega)).1]; simp

theorem ediv_lt (x C P : Int) (hP : 1 ≤ P) : x < C * P ↔ x / P < C := (Int.ediv_lt_iff_lt_mul (by omega)).symm

/-- **C54 (file_clock to UTC)**: file times count from 1601-01-01 (day -134774), with the leap seconds in effect before
2018-06-01 (day 17683) and with 27 plus all that the system itself counts since then. -/
theorem C54_file_to_utc (raw : List (Int × Bool)) (hs : Separated raw) (P s : Int) (hP : 1 ≤ P) :
    fileToUtc (mkTable 0 raw) P (s + 134774 * 86400 * P) =
      some (s + (if s / P < 17683 * 86400 then offset raw (s / P) else 27) * P) := by
  unfold fileToUtc
  simp only []
  rw [show s + 134774 * 86400 * P - fileAdjust * P = s by simp only [fileAdjust]; ring_nf]
  by_cases h : s < cutoff * P
  · rw [if_pos h, if_pos (show s / P < 17683 * 86400 from (ediv_lt _ _ _ hP).mp h)]
    exact C54_from_sys raw hs P s
  · rw [if_neg h, if_neg (fun h' : s / P < 17683 * 86400 => h ((ediv_lt _ _ _ hP).mpr h'))]
    rfl

/-- **C54 (file_clock)**: `file_clock` converts to UTC and back without loss. -/
theorem C54_file_roundtrip (raw : List (Int × Bool)) (hs : Separated raw) (he : Extends raw) (P f : Int) (hP : 1 ≤ P) :
    ∃ t, fileToUtc (mkTable 0 raw) P f = some t ∧ fileFromUtc (mkTable 0 raw) (allPositive raw) P t = some f := by
  unfold fileToUtc
  simp only []
  by_cases hx : f - fileAdjust * P < cutoff * P
  · rw [if_pos hx]
    generalize hy : f - fileAdjust * P = x at *
    have hx' := (ediv_lt _ _ _ hP).mp hx
    obtain ⟨t, e1, e2⟩ := C54_roundtrip raw hs P x hP (by
      intro k hk hp
      by_cases h27 : k < 27
      · rw [(he.known_pos k h27).1] at hp; exact absurd hp (by decide)
      · have := he.later_date k (by omega) hk; omega)
    refine ⟨t, e1, ?_⟩
    rw [C54_from_sys raw hs] at e1
    injection e1 with e1
    have hoff : offset raw (x / P) ≤ 27 := by
      unfold offset
      have hb : (∑ k ∈ Finset.range raw.length, if date raw k ≤ x / P then sgn raw k else 0) ≤
          ∑ k ∈ Finset.range raw.length, if k < 27 then (1 : Int) else 0 := by
        apply Finset.sum_le_sum
        intro k hk
        simp only [Finset.mem_range] at hk
        by_cases h27 : k < 27
        · rw [if_pos h27]
          split
          · rcases sgn_cases raw k with ⟨_, h⟩ | ⟨_, h⟩ <;> rw [h] <;> decide
          · decide
        · rw [if_neg h27, if_neg]
          have := he.later_date k (by omega) hk; omega
      have hc : (∑ k ∈ Finset.range raw.length, if k < 27 then (1 : Int) else 0) = 27 := by
        have hl := he.length
        obtain ⟨d, hd⟩ := Nat.exists_eq_add_of_le hl
        rw [hd, Finset.sum_range_add]
        have h2 : (∑ i ∈ Finset.range d, if 27 + i < 27 then (1 : Int) else 0) = 0 := by
          apply Finset.sum_eq_zero; intro i _; rw [if_neg (by omega)]
        rw [h2]; decide
      omega
    have hlt : t < (cutoff + skipped) * P := by
      rw [← e1, add_mul]
      have : offset raw (x / P) * P ≤ 27 * P := Int.mul_le_mul_of_nonneg_right hoff (by omega)
      unfold skipped
      omega
    unfold fileFromUtc
    rw [if_pos hlt, e2]
    simp only [Option.map_some]
    congr 1
    omega
  · rw [if_neg hx]
    refine ⟨_, rfl, ?_⟩
    unfold fileFromUtc
    rw [if_neg (by rw [add_mul]; omega)]
    congr 1
    omega

/-- **C54 (file_clock from UTC)**: and from UTC and back, except within an inserted second before 2018-06-01. -/
theorem C54_file_roundtrip_utc (raw : List (Int × Bool)) (hs : Separated raw) (he : Extends raw) (P t : Int) (hP : 1 ≤ P)
    (hl : t / P < 1527811200 → ¬ IsLeap raw (t / P)) :
    ∃ f, fileFromUtc (mkTable 0 raw) (allPositive raw) P t = some f ∧ fileToUtc (mkTable 0 raw) P f = some t := by
  unfold fileFromUtc
  by_cases hx : t < (cutoff + skipped) * P
  · rw [if_pos hx]
    have hx' := (ediv_lt _ _ _ hP).mp hx
    obtain ⟨c, hc, _⟩ := cut_exists raw (t / P)
    have hnl : ¬ IsLeap raw (t / P) := by
      intro hlp
      by_cases hlt : t / P < 1527811200
      · exact hl hlt hlp
      · obtain ⟨k, hk, hp, hst⟩ := hlp
        by_cases h27 : k < 27
        · have := he.known_pos k h27
          have hd : ∀ k, k < 27 → (known.getD k (0, true)).1 ≤ 1483228800 := by decide
          have hd' : date raw k ≤ 1483228800 := by
            obtain ⟨later, rfl, _⟩ := he.ex
            have e : (known ++ later).getD k (0, true) = known.getD k (0, true) := by
              rw [List.getD_eq_getElem?_getD, List.getD_eq_getElem?_getD,
                List.getElem?_append_left (by rw [known_length]; exact h27)]
            unfold date; rw [e]; exact hd k h27
          unfold start at hst
          rw [hp] at hst
          simp only [if_true] at hst
          rw [he.net k (by omega)] at hst
          omega
        · have hk27 : start raw 27 ≤ start raw k := by
            by_cases e : k = 27
            · rw [e]
            · have := start_mono raw hs 27 k (by omega) hk; omega
          have h1 := he.later_date 27 (by omega) (by omega)
          have h2 := start_eq raw 27
          rw [net_succ, he.net 27 (by omega)] at h2
          unfold skipped at hx'
          rcases sgn_cases raw 27 with ⟨hp, hsg⟩ | ⟨hp, hsg⟩ <;> rw [hp, hsg] at h2 <;> simp at h2 <;> omega
    obtain ⟨s, e1, e2⟩ := C54_roundtrip_utc raw hs P t hP hnl
    refine ⟨_, by rw [e1]; rfl, ?_⟩
    unfold fileToUtc
    simp only []
    rw [show fileAdjust * P + s - fileAdjust * P = s by omega, if_pos, e2]
    rw [(toSys_eq raw hs P t).2 hnl, hc.elapsed hs] at e1
    injection e1 with e1
    have hdiv : (t - Spec.net raw c * P) / P = t / P - Spec.net raw c := by
      rw [sub_eq_add_neg, ← neg_mul, Int.add_mul_ediv_right _ _ (by omega)]; rfl
    rw [ediv_lt _ _ _ hP, ← e1, hdiv]
    obtain ⟨_, h1, h2⟩ := hc.offset_of_not_leap hs hnl
    have hlen := he.length
    unfold skipped at hx'
    by_cases c27 : c < 27
    · have := h2 (by omega)
      have := (he.known_pos c c27).2
      omega
    · by_cases e : c = 27
      · subst e; rw [he.net 27 (by omega)]; omega
      · exfalso
        have hb := hc.before 27 (by omega)
        have h1 := he.later_date 27 (by omega) (by have := hc.le; omega)
        have h2 := start_eq raw 27
        rw [net_succ, he.net 27 (by omega)] at h2
        rcases sgn_cases raw 27 with ⟨hp, hsg⟩ | ⟨hp, hsg⟩ <;> rw [hp, hsg] at h2 <;> simp at h2 <;> omega
  · rw [if_neg hx]
    refine ⟨_, rfl, ?_⟩
    unfold fileToUtc
    simp only []
    rw [if_neg (by rw [add_mul] at hx; omega)]
    congr 1
    omega

/-! Concrete cases. -/
section Examples
def mixed : List (Int × Bool) := known ++ [(1600000000, false), (1700000000, true)]
theorem mixed_separated : Separated mixed := known_negative_separated
example : fromSys (mkTable 0 known) 1000 1483228800000 = some 1483228827000 := by decide
example : toSys (mkTable 0 known) (allPositive known) 1000 1483228826500 = some 1483228799999 := by decide
example : toSys (mkTable 0 known) (allPositive known) 1000 1483228827000 = some 1483228800000 := by decide
example : start mixed 27 = 1600000026 := by decide
example : start mixed 28 = 1700000026 ∧ pos mixed 28 = true := by decide
example : fromSys (mkTable 0 mixed) 1000 1599999998999 = some 1600000025999 := by decide
example : toSys (mkTable 0 mixed) (allPositive mixed) 1000 1600000025999 = some 1599999998999 := by decide
example : toSys (mkTable 0 mixed) (allPositive mixed) 1000 1600000026000 = some 1600000000000 := by decide
example : toSys (mkTable 0 mixed) (allPositive mixed) 1000 1700000026123 = some 1699999999999 := by decide
/-- The excluded second of the round trip: 1599999999 does not exist in UTC. -/
example : (fromSys (mkTable 0 mixed) 1 1599999999).bind (toSys (mkTable 0 mixed) (allPositive mixed) 1) = some 1600000000 := by
  decide
example : (∀ k, k < mixed.length → pos mixed k = false → (1600000000123 : Int) / 1000 ≠ date mixed k - 1) := by decide
theorem known_extends : Extends known := ⟨[], by simp, by simp⟩
theorem mixed_extends : Extends mixed := ⟨_, rfl, by decide⟩
/-- 1601-01-01, the epoch of file_clock. -/
example : fileToUtc (mkTable 0 known) 10000000 0 = some (-116444736000000000) := by decide
example : fileFromUtc (mkTable 0 mixed) (allPositive mixed) 1 (cutoff + 27) = some (fileAdjust + cutoff) := by decide
example : fileFromUtc (mkTable 0 mixed) (allPositive mixed) 1 (cutoff + 26) = some (fileAdjust + cutoff - 1) := by decide
end Examples

end STL.Utc
