import Verif.Utc.TableModel
import Verif.Utc.Props
import Verif.Chrono.Props

/-!
C54: the table.
-/

namespace STL.Utc

open Spec

theorem mkTable_append : ∀ (a b : List (Int × Bool)) (p : Int),
    mkTable p (a ++ b) = mkTable p a ++ mkTable (p + (a.map fun x => value x.2).sum) b := by
  intro a
  induction a with
  | nil => intro b p; simp [mkTable]
  | cons x xs ih =>
    intro b p
    simp only [List.cons_append, mkTable, ih, List.map_cons, List.sum_cons, Leap.mk']
    rw [show p + (value x.2 + (xs.map fun x => value x.2).sum) = p + value x.2 + (xs.map fun x => value x.2).sum by omega]

theorem mkTable_getLast : ∀ (a : List (Int × Bool)) (p : Int), a ≠ [] →
    ∃ e, (mkTable p a).getLast? = some e ∧ e.elapsed = p + (a.map fun x => value x.2).sum := by
  intro a
  induction a with
  | nil => intro p h; exact absurd rfl h
  | cons x xs ih =>
    intro p _
    by_cases hx : xs = []
    · subst hx; exact ⟨Leap.mk' x.1 x.2 p, rfl, by simp [Leap.mk']⟩
    · obtain ⟨e, h1, h2⟩ := ih (Leap.mk' x.1 x.2 p).elapsed hx
      refine ⟨e, ?_, ?_⟩
      · simp only [mkTable]
        rw [List.getLast?_cons, h1]; rfl
      · rw [h2]; simp only [Leap.mk', List.map_cons, List.sum_cons]; omega

/-- The entry of the registry is a date of the calendar. -/
def RegLeap.ymd (r : RegLeap) : Chrono.Ymd := ⟨r.year, r.month, r.day⟩

theorem regDate_eq (r : RegLeap) (h : Chrono.Spec.Valid r.ymd) :
    regDate r = .ok (Chrono.dayNum r.ymd * 86400 + (r.hour + 1) * 3600) := by
  have h1 : Chrono.mkYear r.year = r.year := by
    have := h.yhi
    simp only [RegLeap.ymd] at this
    unfold Chrono.mkYear toS
    omega
  have h2 : Chrono.mkMonth r.month = r.month := by
    have := h.mhi; simp only [RegLeap.ymd] at this
    unfold Chrono.mkMonth; omega
  have h3 : Chrono.mkDay r.day = r.day := by
    have := Chrono.valid_d31 h; simp only [RegLeap.ymd] at this
    unfold Chrono.mkDay; omega
  unfold regDate
  rw [h1, h2, h3]
  have := Chrono.daysFromCivil_spec r.ymd h
  unfold RegLeap.ymd at this
  rw [this]
  rfl

/-- The raw entry that a registry entry stands for: the next full hour. -/
def RegLeap.raw (r : RegLeap) : Int × Bool := (Chrono.dayNum r.ymd * 86400 + (r.hour + 1) * 3600, !r.negative)

theorem regLoop_eq : ∀ (reg : List RegLeap) (a : List (Int × Bool)), a ≠ [] → (∀ r ∈ reg, Chrono.Spec.Valid r.ymd) →
    regLoop (mkTable 0 a) (allPositive a) reg =
      .ok (mkTable 0 (a ++ reg.map RegLeap.raw), allPositive (a ++ reg.map RegLeap.raw)) := by
  intro reg
  induction reg with
  | nil => intro a _ _; simp [regLoop, pure, Except.pure]
  | cons r rs ih =>
    intro a ha hv
    obtain ⟨e, h1, h2⟩ := mkTable_getLast a 0 ha
    simp only [regLoop]
    rw [regDate_eq r (hv r (by simp)), R.ok_bind, h1]
    simp only []
    rw [h2]
    have e1 : mkTable 0 a ++ [Leap.mk' (Chrono.dayNum r.ymd * 86400 + (r.hour + 1) * 3600) (!r.negative)
        (0 + (a.map fun x => value x.2).sum)] = mkTable 0 (a ++ [r.raw]) := by
      rw [mkTable_append]; rfl
    have e2 : (allPositive a && !r.negative) = allPositive (a ++ [r.raw]) := by
      simp [allPositive, RegLeap.raw]
    rw [e1, e2, ih (a ++ [r.raw]) (by simp) (fun x hx => hv x (by simp [hx]))]
    simp

theorem knownTable_eq : knownTable = mkTable 0 known := by decide

/-- **C54 (table)**: whatever valid dates the registry holds, the table is the known leap seconds followed by those of the
registry, each at the hour after the one recorded, with its accumulated count; it is empty exactly when nothing is new. -/
theorem C54_generate (cur : Nat) (reg : List RegLeap) (hv : ∀ r ∈ reg, Chrono.Spec.Valid r.ymd) :
    generate cur reg = .ok (if cur < 27 + reg.length
      then (mkTable 0 (known ++ reg.map RegLeap.raw), allPositive (known ++ reg.map RegLeap.raw)) else ([], true)) := by
  unfold generate
  simp only []
  by_cases h : cur < 27 + reg.length
  · rw [if_pos h, if_pos h, knownTable_eq]
    exact regLoop_eq reg known (by decide) hv
  · rw [if_neg h, if_neg h]; rfl

/-- The months after which a second was inserted (IERS Bulletin C): year and month of the following first day. -/
def history : List (Int × Nat) := [(1972, 7), (1973, 1), (1974, 1), (1975, 1), (1976, 1), (1977, 1), (1978, 1), (1979, 1),
  (1980, 1), (1981, 7), (1982, 7), (1983, 7), (1985, 7), (1988, 1), (1990, 1), (1991, 1), (1992, 7), (1993, 7), (1994, 7),
  (1996, 1), (1997, 7), (1999, 1), (2006, 1), (2009, 1), (2012, 7), (2015, 7), (2017, 1)]

/-- **C54 (known table)**: the known entries are exactly the midnights after the inserted seconds. -/
theorem C54_known :
    known.map (fun x => (Chrono.civilFromDays (x.1 / 86400), x.1 % 86400, x.2)) =
      history.map (fun x => (.ok ⟨x.1, x.2, 1⟩, 0, true)) := by
  rfl

/-- A registry with a second removed at the end of June 2030 and one inserted at the end of 2032. -/
def sampleReg : List RegLeap := [⟨2030, 6, 30, 23, true⟩, ⟨2032, 12, 31, 23, false⟩]
example : ∀ r ∈ sampleReg, Chrono.Spec.Valid r.ymd := by
  intro r hr
  simp only [sampleReg, List.mem_cons, List.not_mem_nil, or_false] at hr
  rcases hr with rfl | rfl <;> exact (Chrono.C12_ok_iff _).1 (by decide)
example : (generate 0 sampleReg).toOption.map (fun x => (x.1.length, x.2)) = some (29, false) := by rfl
example : sampleReg.map RegLeap.raw = [(1909094400, false), (1988150400, true)] := by decide

end STL.Utc
