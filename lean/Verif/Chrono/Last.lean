import Verif.Chrono.LastModel
import Verif.Chrono.Props

/-!
# Property C12: last days, last weekdays, existing weekdays
-/

namespace STL.Chrono
open STL Spec

theorem monthLen_bounds (y : Int) (m : Nat) (h1 : 1 ≤ m) (h2 : m ≤ 12) : 28 ≤ monthLen y m ∧ monthLen y m ≤ 31 := by
  interval_cases m <;> simp [monthLen]
  split <;> omega

theorem valid_mk {y : Int} {m d : Nat} (hy1 : -32767 ≤ y) (hy2 : y ≤ 32767) (h1 : 1 ≤ m) (h2 : m ≤ 12) (h3 : 1 ≤ d)
    (h4 : d ≤ monthLen y m) : Valid ⟨y, m, d⟩ := ⟨hy1, hy2, h1, h2, h3, h4⟩

theorem dayNum_day (y : Int) (m d : Nat) : dayNum ⟨y, m, d⟩ = dayNum ⟨y, m, 1⟩ + (d - 1) := by
  unfold dayNum yp mp; simp only; push_cast; ring

theorem dayNum_range (x : Ymd) (h : Valid x) : -12687428 ≤ dayNum x ∧ dayNum x ≤ 11248737 := by
  obtain ⟨t, g1, _, g3, g4⟩ := C12_days_from_civil x h
  rw [daysFromCivil_spec x h] at g1
  injection g1 with g1
  rw [g1]; exact ⟨g3, g4⟩

/-- **C12 (last day)**: `year_month_day_last` is the last day of its month. -/
theorem C12_last_day (y : Int) (m : Nat) (hy1 : -32767 ≤ y) (hy2 : y ≤ 32767) (h1 : 1 ≤ m) (h2 : m ≤ 12) :
    ∃ t, ymdlToDays y m = .ok t ∧ civilFromDays t = .ok ⟨y, m, monthLen y m⟩ := by
  have hb := monthLen_bounds y m h1 h2
  have hv : Valid ⟨y, m, monthLen y m⟩ := valid_mk hy1 hy2 h1 h2 (by omega) (Nat.le_refl _)
  unfold ymdlToDays
  rw [lastDay_spec y m h1 h2]
  obtain ⟨t, g1, g2, _⟩ := C12_days_from_civil _ hv
  exact ⟨t, g1, g2⟩

theorem week_sub (L : Int) (df w wd : Nat) (h1 : (w : Int) = (L + 4) % 7) (h2 : (wd + df) % 7 = w) (hw : wd ≤ 6) :
    (L - df + 4) % 7 = wd := by
  obtain ⟨a, ha⟩ : ∃ a : Int, L + 4 = 7 * a + w := ⟨(L + 4) / 7, by rw [h1]; omega⟩
  obtain ⟨c, hc⟩ : ∃ c : Nat, wd + df = 7 * c + w := ⟨(wd + df) / 7, by omega⟩
  clear h1 h2
  have : L - df + 4 = wd + 7 * (a - c) := by omega
  rw [this, Int.add_mul_emod_self_left]
  exact Int.emod_eq_of_lt (by omega) (by omega)

theorem week_add (f : Int) (df w wd k : Nat) (h1 : (w : Int) = (f + 4) % 7) (h2 : (w + df) % 7 = wd) :
    (f + (df + 7 * k : Nat) + 4) % 7 = wd := by
  obtain ⟨a, ha⟩ : ∃ a : Int, f + 4 = 7 * a + w := ⟨(f + 4) / 7, by rw [h1]; omega⟩
  obtain ⟨c, hc⟩ : ∃ c : Nat, w + df = 7 * c + wd := ⟨(w + df) / 7, by omega⟩
  have hw : wd < 7 := by rw [← h2]; exact Nat.mod_lt _ (by decide)
  clear h1 h2
  have : f + (df + 7 * k : Nat) + 4 = wd + 7 * (a + c + k) := by push_cast; omega
  rw [this, Int.add_mul_emod_self_left]
  exact Int.emod_eq_of_lt (by omega) (by omega)

theorem week_unique (f : Int) (df w wd e : Nat) (h1 : (w : Int) = (f + 4) % 7) (h2 : df ≤ 6 ∧ (w + df) % 7 = wd)
    (h3 : (f + e + 4) % 7 = wd) : e = df + 7 * (e / 7) := by
  obtain ⟨a, ha⟩ : ∃ a : Int, f + 4 = 7 * a + w := ⟨(f + 4) / 7, by rw [h1]; omega⟩
  obtain ⟨c, hc⟩ : ∃ c : Nat, w + df = 7 * c + wd := ⟨(w + df) / 7, by omega⟩
  obtain ⟨b, hb⟩ : ∃ b : Int, f + e + 4 = 7 * b + wd := ⟨(f + e + 4) / 7, by omega⟩
  have h6 := h2.1
  clear h1 h2 h3
  have key : (e : Int) = 7 * (b - a - c) + df := by omega
  clear ha hb hc
  omega

/-- **C12 (last weekday)**: `year_month_weekday_last` is the day with that weekday in the last seven days of the month. -/
theorem C12_last_weekday (y : Int) (m wd : Nat) (hy1 : -32767 ≤ y) (hy2 : y ≤ 32767) (h1 : 1 ≤ m) (h2 : m ≤ 12)
    (hw : wd ≤ 6) :
    ∃ t d, ymwdlToDays y m wd = .ok t ∧ civilFromDays t = .ok ⟨y, m, d⟩ ∧ (t + 4) % 7 = wd ∧ 1 ≤ d ∧
      d ≤ monthLen y m ∧ monthLen y m < d + 7 := by
  have hb := monthLen_bounds y m h1 h2
  have hv : Valid ⟨y, m, monthLen y m⟩ := valid_mk hy1 hy2 h1 h2 (by omega) (Nat.le_refl _)
  have hl : ymdlToDays y m = .ok (dayNum ⟨y, m, monthLen y m⟩) := by
    unfold ymdlToDays; rw [lastDay_spec y m h1 h2]; exact daysFromCivil_spec _ hv
  have hr := dayNum_range _ hv
  have he : ∀ df, df ≤ 6 → dayNum ⟨y, m, monthLen y m - df⟩ = dayNum ⟨y, m, monthLen y m⟩ - df := by
    intro df hdf
    rw [dayNum_day, dayNum_day y m (monthLen y m)]
    generalize dayNum ⟨y, m, 1⟩ = f
    generalize monthLen y m = n at hb
    clear * - hb hdf
    omega
  have hv' : ∀ df, df ≤ 6 → Valid ⟨y, m, monthLen y m - df⟩ := by
    intro df hdf
    exact valid_mk hy1 hy2 h1 h2 (by clear * - hb hdf; omega) (Nat.sub_le _ _)
  unfold ymwdlToDays
  rw [hl, R.ok_bind]
  simp only []
  generalize dayNum ⟨y, m, monthLen y m⟩ = L at *
  have hwl := C12_weekday L (by clear * - hr; omega) (by clear * - hr; omega)
  generalize weekdayFromDays L = w at *
  have hw6 : w ≤ 6 := by clear * - hwl; omega
  have hdiff := C12_weekday_diff w wd hw6 hw
  generalize weekdayDiff w wd = df at *
  have hs : toS 32 (df : Int) = df := by
    have := hdiff.1
    clear * - this
    unfold toS; omega
  rw [hs, chkI_ok (by have := hdiff.1; clear * - this hr; omega)]
  have hd6 := hdiff.1
  refine ⟨L - df, monthLen y m - df, rfl, ?_, ?_, (hv' df hd6).dlo, (hv' df hd6).dhi, by clear * - hd6 hb; omega⟩
  · rw [← he df hd6]; exact civilFromDays_spec _ (hv' df hd6)
  · exact week_sub L df w wd hwl hdiff.2 hw

/-- **C12 (which weekdays exist)**: `year_month_weekday::ok` holds exactly if the month has that many such weekdays, and the
conversion then gives that day. -/
theorem C12_ymwd_ok (y : Int) (m wd idx : Nat) :
    ∃ b, ymwdOk y m wd idx = .ok b ∧
      (b = true ↔ ∃ d t, Valid ⟨y, m, d⟩ ∧ civilFromDays t = .ok ⟨y, m, d⟩ ∧ daysFromCivil ⟨y, m, d⟩ = .ok t ∧
        (t + 4) % 7 = wd ∧ (d - 1) / 7 + 1 = idx ∧ ymwdToDays y m wd idx = .ok t) := by
  by_cases hok : (-32767 ≤ y ∧ y ≤ 32767) ∧ (1 ≤ m ∧ m ≤ 12) ∧ wd ≤ 6 ∧ 1 ≤ idx ∧ idx ≤ 5
  · obtain ⟨⟨hy1, hy2⟩, ⟨h1, h2⟩, hw, hi1, hi2⟩ := hok
    have hb := monthLen_bounds y m h1 h2
    have hv1 : Valid ⟨y, m, 1⟩ := valid_mk hy1 hy2 h1 h2 (by omega) (by omega)
    have hf := daysFromCivil_spec _ hv1
    have hr := dayNum_range _ hv1
    have hday := dayNum_day y m
    generalize hfd : dayNum ⟨y, m, 1⟩ = f at *
    have hw1 := C12_weekday f (by clear * - hr; omega) (by clear * - hr; omega)
    generalize hwf : weekdayFromDays f = w at *
    have hw6 : w ≤ 6 := by clear * - hw1; omega
    have hdiff := C12_weekday_diff wd w hw hw6
    generalize hdf : weekdayDiff wd w = df at *
    have hd6 := hdiff.1
    have hs : toS 32 (df : Int) = df := by clear * - hd6; unfold toS; omega
    have hg : (df + 1 + 7 * (idx - 1) ≤ monthLen y m) ↔
        ∃ d t, Valid ⟨y, m, d⟩ ∧ civilFromDays t = .ok ⟨y, m, d⟩ ∧ daysFromCivil ⟨y, m, d⟩ = .ok t ∧
        (t + 4) % 7 = wd ∧ (d - 1) / 7 + 1 = idx ∧ ymwdToDays y m wd idx = .ok t := by
      constructor
      · intro hle
        have hv : Valid ⟨y, m, df + 1 + 7 * (idx - 1)⟩ := valid_mk hy1 hy2 h1 h2 (by clear * -; omega) hle
        have he : dayNum ⟨y, m, df + 1 + 7 * (idx - 1)⟩ = f + (df + 7 * (idx - 1) : Nat) := by
          rw [hday]; clear * -; omega
        refine ⟨_, dayNum ⟨y, m, df + 1 + 7 * (idx - 1)⟩, hv, civilFromDays_spec _ hv, daysFromCivil_spec _ hv, ?_, ?_, ?_⟩
        · rw [he]; exact week_add f df w wd _ hw1 hdiff.2
        · clear * - hd6 hi1; omega
        · unfold ymwdToDays
          rw [hf, R.ok_bind]
          simp only []
          rw [hwf, hdf, hs, chkI_ok (by clear * - hd6 hi1 hi2; omega), R.ok_bind,
            chkI_ok (by clear * - hd6 hi1 hi2 hr; omega), he]
          refine congrArg Except.ok ?_
          clear * - hi1
          omega
      · rintro ⟨d, t, hv, _, hdc, hwt, hidx, _⟩
        rw [daysFromCivil_spec _ hv] at hdc
        injection hdc with hdc
        have he := hday d
        have hd1 := hv.dlo
        have hd2 := hv.dhi
        simp only at hd1 hd2
        have e1 : t = f + (d - 1 : Nat) := by rw [← hdc, he]; clear * - hd1; omega
        rw [e1] at hwt
        have := week_unique f df w wd (d - 1) hw1 hdiff hwt
        clear * - this hidx hd1 hd2
        omega
    unfold ymwdOk
    rw [if_neg (by simp [yearOk, monthOk, hy1, hy2, h1, h2, hw, hi1, hi2])]
    by_cases h4 : idx ≤ 4
    · rw [if_pos h4]
      refine ⟨true, rfl, ?_⟩
      rw [← hg]
      exact ⟨fun _ => by clear * - hd6 h4 hb; omega, fun _ => rfl⟩
    · rw [if_neg h4, hf, R.ok_bind, hwf, hdf]
      rw [hs, chkI_ok (by clear * - hd6; omega), R.ok_bind, chkI_ok (by clear * - hd6; omega), R.ok_bind, lastDay_spec y m h1 h2]
      refine ⟨_, rfl, ?_⟩
      rw [decide_eq_true_iff, ← hg]
      have hu : toU 32 ((df : Int) + 1 + 28) = df + 29 := by clear * - hd6; unfold toU; omega
      rw [hu]
      clear * - h4 hi2
      omega
  · refine ⟨false, ?_, ?_⟩
    · unfold ymwdOk
      rw [if_pos]
      simp only [yearOk, monthOk, Bool.or_eq_true, Bool.not_eq_true', Bool.and_eq_false_iff, decide_eq_false_iff_not]
      omega
    · constructor
      · intro h; cases h
      · rintro ⟨d, t, hv, _, _, hwt, hidx, _⟩
        exfalso
        have hd := valid_d31 hv
        have hwd : wd ≤ 6 := by clear * - hwt; omega
        have a1 := hv.ylo; have a2 := hv.yhi; have a3 := hv.mlo; have a4 := hv.mhi; have a5 := hv.dlo
        simp only at hd a1 a2 a3 a4 a5
        apply hok
        refine ⟨⟨a1, a2⟩, ⟨a3, a4⟩, hwd, by clear * - hidx; omega, by clear * - hidx hd; omega⟩

/-! Concrete cases: 2024-02-29 is a fifth Thursday (valid, day 19782), and the hypotheses hold for February 2024. -/
example : Valid ⟨2024, 2, 29⟩ ∧ dayNum ⟨2024, 2, 29⟩ = 19782 ∧ (19782 + 4 : Int) % 7 = 4 ∧ (29 - 1) / 7 + 1 = 5 :=
  ⟨(C12_ok_iff _).1 (by decide), by decide, by decide, by decide⟩
example := C12_last_weekday 2024 2 5 (by decide) (by decide) (by decide) (by decide) (by decide)
example : monthLen 2024 2 = 29 := by decide

end STL.Chrono
