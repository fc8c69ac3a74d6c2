import Verif.Chrono.Model
import Verif.Tac
import Mathlib.Algebra.Order.Ring.Int

/-!
# Property C12: the calendar conversions are the proleptic Gregorian calendar
-/

namespace STL.Chrono
open STL

namespace Spec

/-- Gregorian leap years. -/
def Leap (y : Int) : Prop := (4 : Int) ∣ y ∧ (¬ (100 : Int) ∣ y ∨ (400 : Int) ∣ y)

instance (y : Int) : Decidable (Leap y) := by unfold Leap; infer_instance

/-- Length of a Gregorian month. -/
def monthLen (y : Int) : Nat → Nat
  | 1 => 31 | 2 => if Leap y then 29 else 28 | 3 => 31 | 4 => 30 | 5 => 31 | 6 => 30
  | 7 => 31 | 8 => 31 | 9 => 30 | 10 => 31 | 11 => 30 | 12 => 31 | _ => 0

/-- The valid dates of `chrono::year`'s range. -/
structure Valid (x : Ymd) : Prop where
  ylo : -32767 ≤ x.y
  yhi : x.y ≤ 32767
  mlo : 1 ≤ x.m
  mhi : x.m ≤ 12
  dlo : 1 ≤ x.d
  dhi : x.d ≤ monthLen x.y x.m

/-- The next date in the calendar. -/
def nextDay (x : Ymd) : Ymd :=
  if x.d < monthLen x.y x.m then ⟨x.y, x.m, x.d + 1⟩
  else if x.m < 12 then ⟨x.y, x.m + 1, 1⟩
  else ⟨x.y + 1, 1, 1⟩

/-- The first and last representable dates. -/
def firstDate : Ymd := ⟨-32767, 1, 1⟩
def lastDate : Ymd := ⟨32767, 12, 31⟩

end Spec
open Spec

/-- year starting in March -/
def yp (x : Ymd) : Int := if x.m ≤ 2 then x.y - 1 else x.y
/-- month counted from March -/
def mp (x : Ymd) : Nat := if x.m ≤ 2 then x.m + 9 else x.m - 3

/-- closed form of the day number -/
def dayNum (x : Ymd) : Int :=
  1461 * yp x / 4 - yp x / 100 + yp x / 100 / 4 + ((979 * mp x + 19) / 32 : Nat) + x.d - 1 - 719468

theorem cdiv_floor100 (a : Int) : cdiv (if a ≥ 0 then a else a - 99) 100 = a / 100 := by
  unfold cdiv; split
  · rw [Int.tdiv_eq_ediv_of_nonneg (by omega)]
  · have : a - 99 = -(99 - a) := by ring
    rw [this, Int.neg_tdiv, Int.tdiv_eq_ediv_of_nonneg (by omega)]; omega

theorem leap_iff (y : Int) : Leap y ↔ (y % 4 = 0 ∧ (y % 100 ≠ 0 ∨ y % 400 = 0)) := by
  unfold Leap; omega

theorem isLeap_iff (y : Int) : isLeap y = true ↔ Leap y := by
  unfold isLeap
  have h : ∀ k : Int, (Int.tmod y k = 0) ↔ k ∣ y := fun k => ⟨Int.dvd_of_tmod_eq_zero, Int.tmod_eq_zero_of_dvd⟩
  simp [Leap, h]

theorem lastDay_spec (y : Int) (m : Nat) (h1 : 1 ≤ m) (h2 : m ≤ 12) : lastDay y m = monthLen y m := by
  unfold lastDay
  by_cases hl : Leap y
  · have := (isLeap_iff y).2 hl
    interval_cases m <;> simp [this, monthLen, hl, lastDayTable, toU]
  · have : isLeap y = false := by
      cases h : isLeap y with
      | false => rfl
      | true => exact absurd ((isLeap_iff y).1 h) hl
    interval_cases m <;> simp [this, monthLen, hl, lastDayTable, toU]

/-- **C12.** `year_month_day::ok` accepts exactly the dates of the Gregorian calendar. -/
theorem C12_ok_iff (x : Ymd) : x.ok = true ↔ Valid x := by
  unfold Ymd.ok yearOk monthOk
  constructor
  · intro h
    split at h
    · cases h
    · rename_i h'
      simp at h' h
      have e := lastDay_spec x.y x.m (by omega) h'.2.2
      exact ⟨h'.1.1, h'.1.2, by omega, h'.2.2, by omega, by rw [← e]; exact h.2⟩
  · intro h
    have e := lastDay_spec x.y x.m h.mlo h.mhi
    rw [if_neg (by simp [h.ylo, h.yhi, h.mlo, h.mhi])]
    simp [h.dlo, e, h.dhi]

theorem valid_d31 {x : Ymd} (h : Valid x) : x.d ≤ 31 := by
  have h1 := h.dhi; have h2 := h.mlo; have h3 := h.mhi
  obtain ⟨y, m, d⟩ := x
  simp only at h1 h2 h3 ⊢
  interval_cases m <;> simp [monthLen] at h1 <;> (try split at h1) <;> omega

theorem daysFromCivil_spec (x : Ymd) (h : Valid x) : daysFromCivil x = .ok (dayNum x) := by
  have hd := valid_d31 h
  have h1 := h.ylo; have h2 := h.yhi; have h3 := h.mlo; have h4 := h.mhi; have h5 := h.dlo
  obtain ⟨y, m, d⟩ := x
  simp only at h1 h2 h3 h4 h5 hd
  have e1 : (y - if m ≤ 2 then 1 else 0) = yp ⟨y, m, d⟩ := by unfold yp; simp only; split <;> omega
  have hy : -32768 ≤ yp ⟨y, m, d⟩ ∧ yp ⟨y, m, d⟩ ≤ 32767 := by unfold yp; simp only; split <;> omega
  have emp : (m + (if m > 2 then toU 32 (-3) else 9)) % 2 ^ 32 = mp ⟨y, m, d⟩ := by
    unfold mp toU; simp only
    split <;> split <;> omega
  have hmp : mp ⟨y, m, d⟩ ≤ 11 := by unfold mp; simp only; split <;> omega
  unfold daysFromCivil dayNum
  simp only [e1, emp]
  generalize yp ⟨y, m, d⟩ = Y at *
  generalize mp ⟨y, m, d⟩ = M at *
  clear e1 emp h h1 h2 h3 h4
  have emm : ((979 * M % 2 ^ 32 + 19) % 2 ^ 32) >>> 5 = (979 * M + 19) / 32 := by
    rw [Nat.shiftRight_eq_div_pow]; omega
  rw [chkI_ok (by omega), R.ok_bind, chkI_ok (by split <;> omega), R.ok_bind, cdiv_floor100, emm]
  have etos : toS 32 (((979 * M + 19) / 32 + d : Nat) : Int) = (((979 * M + 19) / 32 : Nat) : Int) + d := by
    unfold toS; omega
  have hb : (979 * M + 19) / 32 ≤ 340 := by omega
  generalize (979 * M + 19) / 32 = T at *
  clear emm hmp
  rw [etos]; clear etos
  rw [chkI_ok (by omega), R.ok_bind, chkI_ok (by omega), R.ok_bind]
  unfold sar
  rw [chkI_ok (by omega), R.ok_bind, chkI_ok (by omega), R.ok_bind, chkI_ok (by omega), R.ok_bind, chkI_ok (by omega)]
  congr 1
  omega

theorem div4a (y : Int) (h : y % 4 ≠ 0) : 1461 * (y - 1) / 4 + 365 = 1461 * y / 4 := by
  obtain ⟨a, r, e, h1, h2⟩ : ∃ a r, y = 4 * a + r ∧ 1 ≤ r ∧ r ≤ 3 := ⟨y / 4, y % 4, by omega, by omega, by omega⟩
  subst e; interval_cases r <;> omega

theorem div4b (y : Int) (h : y % 4 = 0) : 1461 * (y - 1) / 4 + 366 = 1461 * y / 4 := by
  obtain ⟨a, e⟩ : ∃ a, y = 4 * a := ⟨y / 4, by omega⟩
  subst e; omega

theorem dayNum_next (x : Ymd) (h : Valid x) : dayNum (nextDay x) = dayNum x + 1 := by
  have h1 := h.ylo; have h2 := h.yhi; have h3 := h.mlo; have h4 := h.mhi; have h5 := h.dlo; have h6 := h.dhi
  obtain ⟨y, m, d⟩ := x
  simp only at h1 h2 h3 h4 h5 h6
  unfold nextDay
  simp only
  by_cases hl : d < monthLen y m
  · rw [if_pos hl]; simp only [dayNum, yp, mp]; push_cast; ring
  · rw [if_neg hl]
    have hd : d = monthLen y m := by omega
    clear h6 hl
    by_cases hlp : Leap y
    · have hlp' := (leap_iff y).1 hlp
      interval_cases m <;> simp only [monthLen, hlp, if_true] at hd <;> subst hd <;>
        simp [dayNum, yp, mp] <;> omega
    · have hlp' := mt (leap_iff y).2 hlp
      have hcase : (y % 4 ≠ 0 ∧ (y - 1) / 100 = y / 100) ∨ (y % 100 = 0 ∧ y % 400 ≠ 0 ∧ (y - 1) / 100 = y / 100 - 1) := by
        by_cases c : y % 4 = 0 <;> omega
      have hdiv4 := div4a y
      have hdiv4' := div4b y
      clear h1 h2 h5 hlp'
      interval_cases m <;> simp only [monthLen, hlp, if_false] at hd <;> subst hd <;>
        simp [dayNum, yp, mp] <;> omega

theorem valid_next (x : Ymd) (h : Valid x) (hne : x ≠ lastDate) : Valid (nextDay x) := by
  have h1 := h.ylo; have h2 := h.yhi; have h3 := h.mlo; have h4 := h.mhi; have h5 := h.dlo; have h6 := h.dhi
  obtain ⟨y, m, d⟩ := x
  simp only at h1 h2 h3 h4 h5 h6
  have hml : ∀ y m, 1 ≤ m → m ≤ 12 → 1 ≤ monthLen y m := by
    intro y m a b
    interval_cases m <;> simp [monthLen]
    split <;> omega
  unfold nextDay
  simp only
  by_cases hl : d < monthLen y m
  · rw [if_pos hl]; exact ⟨h1, h2, h3, h4, by simp, hl⟩
  · rw [if_neg hl]
    by_cases hm : m < 12
    · rw [if_pos hm]; exact ⟨h1, h2, by simp, by simp; omega, by simp, hml _ _ (by simp) (by simp; omega)⟩
    · rw [if_neg hm]
      have : m = 12 := by omega
      subst this
      simp [monthLen] at hl h6
      have hy : y ≠ 32767 := by
        rintro rfl
        apply hne
        have : d = 31 := by omega
        subst this; rfl
      exact ⟨by simp; omega, by simp; omega, by simp, by simp, by simp, by simp [monthLen]⟩

/-- every date but the first is the next day of some date -/
theorem exists_prev (x : Ymd) (h : Valid x) (hne : x ≠ firstDate) : ∃ z, Valid z ∧ nextDay z = x ∧ z ≠ lastDate := by
  have h1 := h.ylo; have h2 := h.yhi; have h3 := h.mlo; have h4 := h.mhi; have h5 := h.dlo; have h6 := h.dhi
  obtain ⟨y, m, d⟩ := x
  simp only at h1 h2 h3 h4 h5 h6
  have hml : ∀ y m, 1 ≤ m → m ≤ 12 → 1 ≤ monthLen y m := by
    intro y m a b
    interval_cases m <;> simp [monthLen]
    split <;> omega
  by_cases hd : 1 < d
  · refine ⟨⟨y, m, d - 1⟩, ⟨h1, h2, h3, h4, by simp; omega, by simp; omega⟩, ?_, ?_⟩
    · unfold nextDay; simp only; rw [if_pos (by omega)]; congr 1; omega
    · intro e
      simp [lastDate] at e
      obtain ⟨rfl, rfl, e⟩ := e
      simp [monthLen] at h6; omega
  · have : d = 1 := by omega
    subst this
    by_cases hm : 1 < m
    · refine ⟨⟨y, m - 1, monthLen y (m - 1)⟩, ⟨h1, h2, by simp; omega, by simp; omega, hml _ _ (by omega) (by omega), by simp⟩, ?_, ?_⟩
      · unfold nextDay; simp only; rw [if_neg (by omega), if_pos (by omega)]; congr 1; omega
      · intro e; simp [lastDate] at e; omega
    · have : m = 1 := by omega
      subst this
      have hy : y ≠ -32767 := by rintro rfl; exact hne rfl
      refine ⟨⟨y - 1, 12, 31⟩, ⟨by simp; omega, by simp; omega, by simp, by simp, by simp, by simp [monthLen]⟩, ?_, ?_⟩
      · unfold nextDay; simp [monthLen]
      · intro e; simp [lastDate] at e; omega

/-- the start of each March-based month and its inverse formula -/
theorem mp_formula (M r : Nat) (hM : M ≤ 11) (hr : r < (979 * (M + 1) + 19) / 32 - (979 * M + 19) / 32) (hlt : (979 * M + 19) / 32 + r ≤ 365) :
    (535 * ((979 * M + 19) / 32 + r) + 333) / 2 ^ 14 = M := by
  interval_cases M <;> omega

theorem monthLen_formula (x : Ymd) (h : Valid x) : x.d - 1 < (979 * (mp x + 1) + 19) / 32 - (979 * mp x + 19) / 32 ∧
    (979 * mp x + 19) / 32 + (x.d - 1) ≤ 365 ∧ mp x ≤ 11 ∧
    ((979 * mp x + 19) / 32 + (x.d - 1) = 365 → Leap (yp x + 1)) := by
  have h3 := h.mlo; have h4 := h.mhi; have h5 := h.dlo; have h6 := h.dhi
  obtain ⟨y, m, d⟩ := x
  simp only at h3 h4 h5 h6
  have hlp := leap_iff y
  unfold mp yp
  simp only
  interval_cases m <;> simp only [monthLen] at h6 <;> simp <;> (try split at h6) <;> (try omega)
  · refine ⟨by omega, by omega, fun _ => by assumption⟩

theorem yoc_formula (Yc doy : Nat) (h1 : Yc ≤ 99) (h2 : doy ≤ 365) (h3 : doy = 365 → Yc % 4 = 3) :
    91867 * (1461 * Yc / 4 + doy + 1) / 33554432 = Yc := by
  obtain ⟨q, hq⟩ : ∃ q, q = 1461 * Yc / 4 := ⟨_, rfl⟩
  rw [← hq]
  apply Nat.div_eq_of_lt_le
  · omega
  · by_cases h : doy = 365
    · have := h3 h; subst h; omega
    · omega

theorem edoy_aux (doc Yc doy : Nat) (h : doc = 1461 * Yc / 4 + doy) (h1 : Yc ≤ 99) (h2 : doc ≤ 36524) :
    toU 32 ((doc : Int) - ((((1461 * Yc) % 2 ^ 32) >>> 2 : Nat) : Int)) = doy := by
  have : (1461 * Yc) % 2 ^ 32 = 1461 * Yc := by omega
  rw [this, Nat.shiftRight_eq_div_pow]; unfold toU; omega

theorem emp_aux (doy M : Nat) (h : doy ≤ 365) (h1 : (535 * doy + 333) / 2 ^ 14 = M) :
    (((535 * doy) % 2 ^ 32 + 333) % 2 ^ 32) >>> 14 = M := by
  have : ((535 * doy) % 2 ^ 32 + 333) % 2 ^ 32 = 535 * doy + 333 := by omega
  rw [this, Nat.shiftRight_eq_div_pow]; exact h1

theorem eT_aux (M : Nat) (h : M ≤ 11) : (((979 * M) % 2 ^ 32 + 19) % 2 ^ 32) >>> 5 = (979 * M + 19) / 32 := by
  have : ((979 * M) % 2 ^ 32 + 19) % 2 ^ 32 = 979 * M + 19 := by omega
  rw [this, Nat.shiftRight_eq_div_pow]

theorem eday_aux (doy T d : Nat) (h : T + (d - 1) = doy) (h1 : 1 ≤ d) (h2 : d ≤ 31) :
    (toU 32 ((doy : Int) - (T : Int)) + 1) % 2 ^ 32 = d := by
  unfold toU; omega

theorem century_formula (zx C : Int) (doc : Nat) (h : zx = 36524 * C + C / 4 + doc) (h1 : doc ≤ 36524) (h2 : doc = 36524 → C % 4 = 3) :
    cdiv (if zx ≥ 0 then 4 * zx + 3 else 4 * zx - 146093) 146097 = C := by
  have key : 146097 * C ≤ 4 * zx + 3 ∧ 4 * zx + 3 < 146097 * (C + 1) := by
    constructor
    · omega
    · by_cases e : doc = 36524
      · have := h2 e; omega
      · omega
  unfold cdiv; split
  · rw [Int.tdiv_eq_ediv_of_nonneg (by omega)]; omega
  · have : 4 * zx - 146093 = -(146093 - 4 * zx) := by ring
    rw [this, Int.neg_tdiv, Int.tdiv_eq_ediv_of_nonneg (by omega)]; clear h h1 h2; omega

theorem civilFromDays_spec (x : Ymd) (h : Valid x) : civilFromDays (dayNum x) = .ok x := by
  obtain ⟨hr, hle, hM, hleap⟩ := monthLen_formula x h
  have hmp : (535 * ((979 * mp x + 19) / 32 + (x.d - 1)) + 333) / 2 ^ 14 = mp x := mp_formula _ _ hM hr hle
  have hd31 := valid_d31 h
  have h1 := h.ylo; have h2 := h.yhi; have h3 := h.mlo; have h4 := h.mhi; have h5 := h.dlo
  have hY : -32768 ≤ yp x ∧ yp x ≤ 32767 := by unfold yp; split <;> omega
  have hyp : yp x + (if x.m ≤ 2 then 1 else 0) = x.y := by unfold yp; split <;> omega
  have hmonth : (mp x + (if mp x < 10 then 3 else toU 32 (-9))) % 2 ^ 32 = x.m := by
    unfold mp toU; split <;> split <;> omega
  rw [leap_iff] at hleap
  -- decompose the day number
  set Y := yp x with hYdef
  set T := (979 * mp x + 19) / 32 with hT
  have hzx : dayNum x + 719468 = 36524 * (Y / 100) + Y / 100 / 4 + 1461 * (Y % 100) / 4 + (T + (x.d - 1) : Nat) := by
    unfold dayNum
    rw [← hYdef, ← hT]
    push_cast [Nat.cast_sub h5]
    omega
  generalize hdoy : T + (x.d - 1) = doy at *
  generalize hC : Y / 100 = C at *
  obtain ⟨Yc, hYc⟩ : ∃ Yc : Nat, Y % 100 = Yc := ⟨(Y % 100).toNat, by omega⟩
  have hYcl : Yc ≤ 99 := by omega
  rw [hYc] at hzx
  have hYeq : Y = 100 * C + Yc := by omega
  -- the last day of a year occurs in leap years only
  have hdoc : 1461 * Yc / 4 + doy ≤ 36524 ∧ (1461 * Yc / 4 + doy = 36524 → C % 4 = 3) := by
    constructor
    · omega
    · intro e; have : doy = 365 := by omega
      have := hleap this; omega
  have hyoc : 91867 * (1461 * Yc / 4 + doy + 1) / 33554432 = Yc :=
    yoc_formula Yc doy hYcl hle (fun e => by have := hleap e; omega)
  have hZ : ∃ doc : Nat, doc = 1461 * Yc / 4 + doy := ⟨_, rfl⟩
  obtain ⟨doc, hdocdef⟩ := hZ
  have hzx' : dayNum x + 719468 = 36524 * C + C / 4 + doc := by rw [hzx, hdocdef]; push_cast; omega
  rw [← hdocdef] at hdoc hyoc
  generalize hz : dayNum x + 719468 = zx at *
  clear hzx
  have hdn : dayNum x = zx - 719468 := by omega
  unfold civilFromDays
  simp only [hz]
  have hCb : -328 ≤ C ∧ C ≤ 327 := by omega
  have hcent := century_formula zx C doc hzx' hdoc.1 hdoc.2
  rw [chkI_ok (by omega), R.ok_bind, chkI_ok (by omega), R.ok_bind, chkI_ok (by split <;> omega), R.ok_bind, hcent,
    chkI_ok (by omega), R.ok_bind, chkI_ok (by omega), R.ok_bind]
  have edoc : zx - sar (146097 * C) 2 = (doc : Int) := by unfold sar; omega
  rw [edoc, chkI_ok (by omega), R.ok_bind]
  have eU : toU 32 (doc : Int) = doc := by unfold toU; omega
  have eyoc : ((91867 * ((doc + 1) % 2 ^ 32)) % 2 ^ 32) >>> 25 = Yc := by
    rw [Nat.shiftRight_eq_div_pow]
    have : (91867 * ((doc + 1) % 2 ^ 32)) % 2 ^ 32 = 91867 * (doc + 1) := by omega
    rw [this]; exact hyoc
  have edoy := edoy_aux doc Yc doy hdocdef hYcl hdoc.1
  have emp := emp_aux doy (mp x) hle hmp
  have eT : (((979 * mp x) % 2 ^ 32 + 19) % 2 ^ 32) >>> 5 = T := eT_aux (mp x) hM
  have eday : (toU 32 ((doy : Int) - (T : Int)) + 1) % 2 ^ 32 = x.d := eday_aux doy T x.d hdoy h5 hd31
  simp only [eU, eyoc, edoy, emp, eT, eday, hmonth]
  have eY : (Yc : Int) + C * 100 = Y := by rw [hYeq]; ring
  have hCb' : -2147483648 ≤ C * 100 ∧ C * 100 < 2147483648 := by clear * - hCb; omega
  have hYb' : -2147483648 ≤ Y ∧ Y < 2147483648 := by clear * - hY; omega
  have hyb' : -2147483648 ≤ x.y ∧ x.y < 2147483648 := by clear * - h1 h2; omega
  rw [chkI_ok hCb', R.ok_bind, eY, chkI_ok hYb', R.ok_bind, hyp, chkI_ok hyb', R.ok_bind]
  have f1 : mkYear x.y = x.y := by unfold mkYear toS; clear * - h1 h2; omega
  have f2 : mkMonth x.m = x.m := by unfold mkMonth; clear * - h4; omega
  have f3 : mkDay x.d = x.d := by unfold mkDay; clear * - hd31; omega
  rw [f1, f2, f3]

theorem dayNum_firstDate : dayNum firstDate = -12687428 := by decide
theorem dayNum_lastDate : dayNum lastDate = 11248737 := by decide
theorem dayNum_epoch : dayNum ⟨1970, 1, 1⟩ = 0 := by decide

theorem valid_firstDate : Valid firstDate := (C12_ok_iff _).1 (by decide)
theorem valid_lastDate : Valid lastDate := (C12_ok_iff _).1 (by decide)

/-- each day number in range is the day number of a valid date -/
theorem exists_date (n : Nat) : ∀ t : Int, t = -12687428 + n → t ≤ 11248737 → ∃ x, Valid x ∧ dayNum x = t := by
  induction n with
  | zero => intro t ht _; exact ⟨firstDate, valid_firstDate, by rw [dayNum_firstDate, ht]; rfl⟩
  | succ n ih =>
    intro t ht hle
    obtain ⟨x, hx, he⟩ := ih (t - 1) (by push_cast at ht; omega) (by omega)
    have hne : x ≠ lastDate := by rintro rfl; rw [dayNum_lastDate] at he; omega
    exact ⟨nextDay x, valid_next x hx hne, by rw [dayNum_next x hx, he]; omega⟩

/-- **C12.** Day 0 is 1970-01-01. -/
theorem C12_epoch : civilFromDays 0 = .ok ⟨1970, 1, 1⟩ := by
  have := civilFromDays_spec ⟨1970, 1, 1⟩ ((C12_ok_iff _).1 (by decide))
  rwa [dayNum_epoch] at this

/-- **C12.** Every day count in the range of `chrono::year` converts, without undefined behaviour, to a valid date, the next
day count converts to the next date of the calendar, and converting the date back gives the day count. -/
theorem C12_civil_from_days (t : Int) (hlo : -12687428 ≤ t) (hhi : t ≤ 11248737) :
    ∃ x, civilFromDays t = .ok x ∧ Valid x ∧ daysFromCivil x = .ok t ∧
      (t < 11248737 → civilFromDays (t + 1) = .ok (nextDay x)) := by
  obtain ⟨x, hx, he⟩ := exists_date (t + 12687428).toNat t (by omega) hhi
  refine ⟨x, by rw [← he]; exact civilFromDays_spec x hx, hx, by rw [daysFromCivil_spec x hx, he], fun hlt => ?_⟩
  have hne : x ≠ lastDate := by rintro rfl; rw [dayNum_lastDate] at he; omega
  have := civilFromDays_spec (nextDay x) (valid_next x hx hne)
  rwa [dayNum_next x hx, he] at this

/-- **C12.** Every valid date converts to a day count in range and back to itself. -/
theorem C12_days_from_civil (x : Ymd) (h : Valid x) :
    ∃ t, daysFromCivil x = .ok t ∧ civilFromDays t = .ok x ∧ -12687428 ≤ t ∧ t ≤ 11248737 := by
  refine ⟨dayNum x, daysFromCivil_spec x h, civilFromDays_spec x h, ?_, ?_⟩
  · have hd := valid_d31 h
    have h1 := h.ylo; have h3 := h.mlo; have h4 := h.mhi; have h5 := h.dlo
    obtain ⟨y, m, d⟩ := x
    simp only at h1 h3 h4 h5
    unfold dayNum yp mp
    simp only
    interval_cases m <;> simp <;> omega
  · have hd := valid_d31 h
    have h1 := h.yhi; have h3 := h.mlo; have h4 := h.mhi
    obtain ⟨y, m, d⟩ := x
    simp only at h1 h3 h4 hd
    unfold dayNum yp mp
    simp only
    interval_cases m <;> simp <;> omega

/-! ### weekdays -/

/-- **C12.** For every `int` day count (the whole range of the type, not only that of `year`) the weekday is the mathematical
one: day 0 is a Thursday (4), and it advances by one day, cyclically. -/
theorem C12_weekday (t : Int) (hlo : -2147483648 ≤ t) (hhi : t < 2147483648) :
    (weekdayFromDays t : Int) = (t + 4) % 7 := by
  unfold weekdayFromDays toU
  split <;> omega

/-- **C12.** `_Calculate_weekday` of a valid date agrees with the weekday of its day count. -/
theorem C12_calculate_weekday (x : Ymd) (h : Valid x) :
    ∃ t, daysFromCivil x = .ok t ∧ calculateWeekday x = .ok (weekdayFromDays t : Int) := by
  obtain ⟨t, h1, _, h3, h4⟩ := C12_days_from_civil x h
  refine ⟨t, h1, ?_⟩
  rw [C12_weekday t (by omega) (by omega)]
  rw [daysFromCivil_spec x h] at h1
  have ht : dayNum x = t := by injection h1
  rw [← ht]
  have hd := valid_d31 h
  have h1 := h.ylo; have h2 := h.yhi; have h3 := h.mlo; have h4 := h.mhi; have h5 := h.dlo
  obtain ⟨y, m, d⟩ := x
  simp only at h1 h2 h3 h4 h5 hd
  have e1 : (y - if m ≤ 2 then 1 else 0) = yp ⟨y, m, d⟩ := by unfold yp; simp only; split <;> omega
  have hy : -32768 ≤ yp ⟨y, m, d⟩ ∧ yp ⟨y, m, d⟩ ≤ 32767 := by unfold yp; simp only; split <;> omega
  have emp : ((m : Int) + (if m > 2 then -3 else 9)) = mp ⟨y, m, d⟩ := by
    unfold mp; simp only
    split <;> split <;> omega
  have hmp : mp ⟨y, m, d⟩ ≤ 11 := by unfold mp; simp only; split <;> omega
  unfold calculateWeekday dayNum
  simp only [e1, emp]
  generalize yp ⟨y, m, d⟩ = Y at *
  generalize mp ⟨y, m, d⟩ = M at *
  have hdiv : cdiv (if Y ≥ 0 then Y else Y - 399) 400 = Y / 400 := by
    unfold cdiv; split
    · rw [Int.tdiv_eq_ediv_of_nonneg (by omega)]
    · have : Y - 399 = -(399 - Y) := by ring
      rw [this, Int.neg_tdiv, Int.tdiv_eq_ediv_of_nonneg (by omega)]; omega
  rw [chkI_ok (by omega), R.ok_bind, chkI_ok (by split <;> omega), R.ok_bind, hdiv, chkI_ok (by omega), R.ok_bind]
  have hT : sar (979 * (M : Int) + 19) 5 = ((979 * M + 19) / 32 : Nat) := by unfold sar; push_cast; rfl
  have hTb : (979 * M + 19) / 32 ≤ 340 := by omega
  rw [hT]
  generalize (979 * M + 19) / 32 = T at *
  have hq : cdiv (Y - Y / 400 * 400) 100 = (Y - Y / 400 * 400) / 100 := by
    unfold cdiv; rw [Int.tdiv_eq_ediv_of_nonneg (by omega)]
  rw [chkI_ok (by omega), R.ok_bind, hq]
  unfold sar
  rw [chkI_ok (by omega), R.ok_bind]
  rw [Int.tmod_eq_emod_of_nonneg (by omega)]
  congr 1
  obtain ⟨E, r, hE, hr0, hr1⟩ : ∃ E r : Int, Y = 400 * E + r ∧ 0 ≤ r ∧ r < 400 := ⟨Y / 400, Y % 400, by omega, by omega, by omega⟩
  have q1 : Y - Y / 400 * 400 = r := by omega
  have q2 : Y / 100 = 4 * E + r / 100 := by omega
  have q3 : Y / 100 / 4 = E := by omega
  have q4 : 1461 * Y / 4 = 146100 * E + 1461 * r / 4 := by omega
  rw [q1, q3, q2, q4, show (2 : Int) ^ 2 = 4 by norm_num]
  generalize 1461 * r / 4 = A
  generalize r / 100 = B
  clear * - 
  omega

/-- **C12.** Adding any `int` number of days to a weekday is addition modulo 7. -/
theorem C12_weekday_plus (wd : Nat) (hwd : wd ≤ 6) (k : Int) (hlo : -2147483648 ≤ k) (hhi : k < 2147483648) :
    ∃ r, weekdayPlus wd k = .ok r ∧ r ≤ 6 ∧ (r : Int) = (wd + k) % 7 := by
  have hdiv : cdiv (if (wd : Int) + k ≥ 0 then (wd : Int) + k else (wd : Int) + k - 6) 7 = ((wd : Int) + k) / 7 := by
    unfold cdiv; split
    · rw [Int.tdiv_eq_ediv_of_nonneg (by omega)]
    · have : (wd : Int) + k - 6 = -(6 - (wd + k)) := by ring
      rw [this, Int.neg_tdiv, Int.tdiv_eq_ediv_of_nonneg (by omega)]; omega
  unfold weekdayPlus
  rw [chkL_ok (by omega), R.ok_bind, chkL_ok (by split <;> omega), R.ok_bind]
  simp only []
  rw [hdiv, chkL_ok (by omega), R.ok_bind]
  refine ⟨_, rfl, ?_, ?_⟩ <;> (unfold mkWeekday toU; split <;> omega)

/-- **C12.** The difference of two weekdays is the unique number of days in `[0, 6]` from one to the other. -/
theorem C12_weekday_diff (a b : Nat) (ha : a ≤ 6) (hb : b ≤ 6) :
    weekdayDiff a b ≤ 6 ∧ (b + weekdayDiff a b) % 7 = a := by
  unfold weekdayDiff toU
  simp only
  split <;> omega

/-! ### month and year arithmetic -/

theorem monthSplit_spec (m : Nat) (h1 : 1 ≤ m) (h2 : m ≤ 12) (k : Int) (hlo : -2147483648 < k) (hhi : k < 2147483648) :
    monthSplit m k = .ok (((m : Int) + k - 1) / 12, (((m : Int) + k - 1) % 12).toNat + 1) := by
  have hdiv : cdiv (if (m : Int) + (k - 1) ≥ 0 then (m : Int) + (k - 1) else (m : Int) + (k - 1) - 11) 12 = ((m : Int) + k - 1) / 12 := by
    unfold cdiv; split
    · rw [Int.tdiv_eq_ediv_of_nonneg (by omega)]; congr 1; ring
    · have : (m : Int) + (k - 1) - 11 = -(11 - (m + (k - 1))) := by ring
      rw [this, Int.neg_tdiv, Int.tdiv_eq_ediv_of_nonneg (by omega)]; omega
  unfold monthSplit
  rw [chkI_ok (by omega), R.ok_bind, chkL_ok (by omega), R.ok_bind, chkL_ok (by split <;> omega), R.ok_bind]
  simp only []
  rw [hdiv, chkL_ok (by omega), R.ok_bind]
  congr 2
  unfold mkMonth toU
  omega

/-- **C12.** Adding months to a `month` is addition modulo 12 (for every count but `INT_MIN`, where the code's
`count() - 1` overflows). -/
theorem C12_month_plus (m : Nat) (h1 : 1 ≤ m) (h2 : m ≤ 12) (k : Int) (hlo : -2147483648 < k) (hhi : k < 2147483648) :
    ∃ r, monthPlus m k = .ok r ∧ 1 ≤ r ∧ r ≤ 12 ∧ ((r : Int) - 1) % 12 = (m - 1 + k) % 12 := by
  unfold monthPlus
  simp only [monthSplit_spec m h1 h2 k hlo hhi, R.ok_bind]
  refine ⟨_, rfl, ?_, ?_, ?_⟩ <;> omega

/-- **C12.** The difference of two months is the unique count in `[0, 11]` leading from one to the other. -/
theorem C12_month_diff (a b : Nat) (ha : 1 ≤ a ∧ a ≤ 12) (hb : 1 ≤ b ∧ b ≤ 12) :
    monthDiff a b ≤ 11 ∧ (b - 1 + monthDiff a b) % 12 = a - 1 := by
  unfold monthDiff toU
  simp only
  split <;> omega

/-- **C12.** `year_month + months` is addition on the linear month count, and subtracting recovers the count, whenever the
resulting year is representable. -/
theorem C12_year_month_plus (y : Int) (m : Nat) (k : Int) (hy : -32767 ≤ y ∧ y ≤ 32767) (hm : 1 ≤ m ∧ m ≤ 12)
    (hlo : -2147483648 < k) (hhi : k < 2147483648)
    (hr : -32767 * 12 ≤ y * 12 + (m - 1) + k ∧ y * 12 + (m - 1) + k < 32768 * 12) :
    ∃ y' m', ymPlus y m k = .ok (y', m') ∧ 1 ≤ m' ∧ m' ≤ 12 ∧ y' * 12 + (m' - 1) = y * 12 + (m - 1) + k ∧
      ymDiff (y', m') (y, m) = .ok k := by
  have e0 : toS 32 (((m : Int) + k - 1) / 12) = ((m : Int) + k - 1) / 12 := by unfold toS; omega
  have e1 : mkYear (y + ((m : Int) + k - 1) / 12) = y + ((m : Int) + k - 1) / 12 := by unfold mkYear toS; omega
  refine ⟨y + ((m : Int) + k - 1) / 12, (((m : Int) + k - 1) % 12).toNat + 1, ?_, by omega, by omega, by omega, ?_⟩
  · unfold ymPlus
    simp only [monthSplit_spec m hm.1 hm.2 k hlo hhi, R.ok_bind]
    rw [e0, chkI_ok (by omega), R.ok_bind, e1]
  · unfold ymDiff
    simp only
    rw [chkI_ok (by omega), R.ok_bind, chkI_ok (by omega), R.ok_bind, chkI_ok (by omega), R.ok_bind, chkI_ok (by omega)]
    congr 1
    push_cast
    omega

/-- **C12.** Converting a day count to `year_month_weekday` and back is the identity; the index is `1..5` and counts that
weekday's occurrences in the month. -/
theorem C12_ymwd_roundtrip (t : Int) (hlo : -12687428 ≤ t) (hhi : t ≤ 11248737) :
    ∃ y m wd idx, ymwdFromDays t = .ok (y, m, wd, idx) ∧ (wd : Int) = (t + 4) % 7 ∧ 1 ≤ idx ∧ idx ≤ 5 ∧
      ymwdToDays y m wd idx = .ok t := by
  obtain ⟨x, h1, h2, h3, _⟩ := C12_civil_from_days t hlo hhi
  have hd := valid_d31 h2
  have h5 := h2.dlo
  have hwd := C12_weekday t (by omega) (by omega)
  have hv1 : Valid ⟨x.y, x.m, 1⟩ := ⟨h2.ylo, h2.yhi, h2.mlo, h2.mhi, by simp, le_trans h5 h2.dhi⟩
  have hf := daysFromCivil_spec _ hv1
  have ht : dayNum x = t := by rw [daysFromCivil_spec x h2] at h3; injection h3
  have hfirst : dayNum ⟨x.y, x.m, 1⟩ = t - (x.d - 1) := by
    rw [← ht]; unfold dayNum yp mp; simp only; push_cast; ring
  obtain ⟨t1, g1, _, g3, g4⟩ := C12_days_from_civil _ hv1
  rw [hf] at g1
  have : dayNum ⟨x.y, x.m, 1⟩ = t1 := by injection g1
  subst this
  generalize dayNum ⟨x.y, x.m, 1⟩ = f at *
  have hw1 := C12_weekday f (by clear * - g3; omega) (by clear * - g4; omega)
  have hi : toU 32 ((x.d : Int) - 1) = x.d - 1 := by unfold toU; clear * - hd h5; omega
  have hm : weekdayFromDays t % 256 = weekdayFromDays t := by clear * - hwd; omega
  have hwle : weekdayFromDays t ≤ 6 := by clear * - hwd; omega
  have hwle1 : weekdayFromDays f ≤ 6 := by clear * - hw1; omega
  rw [← hm] at hwd hwle
  refine ⟨x.y, x.m, weekdayFromDays t % 256, (x.d - 1) / 7 + 1, ?_, hwd, by clear * -; omega, by clear * - hd; omega, ?_⟩
  · unfold ymwdFromDays; rw [h1, R.ok_bind, hi]
  · unfold ymwdToDays
    rw [hf, R.ok_bind]
    simp only []
    have hdiff := C12_weekday_diff (weekdayFromDays t % 256) (weekdayFromDays f) hwle hwle1
    generalize weekdayDiff (weekdayFromDays t % 256) (weekdayFromDays f) = df at *
    generalize weekdayFromDays t % 256 = w at *
    generalize weekdayFromDays f = w1 at *
    clear * - hdiff hwd hw1 hfirst hd h5 hlo hhi
    have : toS 32 (df : Int) = df := by unfold toS; omega
    rw [this, chkI_ok (by omega), R.ok_bind, chkI_ok (by omega)]
    refine congrArg Except.ok ?_
    push_cast
    clear this
    obtain ⟨a, ha⟩ : ∃ a : Int, t + 4 = 7 * a + w := ⟨(t + 4) / 7, by rw [hwd]; omega⟩
    obtain ⟨b, hb⟩ : ∃ b : Int, f + 4 = 7 * b + w1 := ⟨(f + 4) / 7, by rw [hw1]; omega⟩
    obtain ⟨c, hc⟩ : ∃ c : Nat, w1 + df = 7 * c + w := ⟨(w1 + df) / 7, by omega⟩
    obtain ⟨e, he⟩ : ∃ e : Nat, x.d = e + 1 := ⟨x.d - 1, by omega⟩
    have hle := hdiff.1
    clear hwd hw1 hdiff
    have key : (e : Int) = 7 * (a - b - c) + df := by omega
    rw [he, show e + 1 - 1 = e from rfl]
    omega

/-! ### non-vacuity -/

example : Valid ⟨2024, 2, 29⟩ ∧ nextDay ⟨2024, 2, 29⟩ = ⟨2024, 3, 1⟩ ∧ ¬ Valid ⟨1900, 2, 29⟩ :=
  ⟨(C12_ok_iff _).1 (by decide), by decide, fun h => absurd ((C12_ok_iff _).2 h) (by decide)⟩

end STL.Chrono
