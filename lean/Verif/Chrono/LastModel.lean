import Verif.Chrono.Model

/-!
C12: the last day and the last weekday of a month, and which `year_month_weekday` exist.
-/

namespace STL.Chrono

/-- `year_month_day_last::day`, `year_month_day_last::operator sys_days`, `chrono:1097-1103`. -/
def ymdlToDays (y : Int) (m : Nat) : R Int := daysFromCivil ⟨y, m, lastDay y m⟩

/-- `year_month_weekday_last::operator sys_days`, `chrono:1336-1340`. -/
def ymwdlToDays (y : Int) (m wd : Nat) : R Int := do
  let last ← ymdlToDays y m
  let diff := weekdayDiff (weekdayFromDays last) wd
  chkI (last - toS 32 diff)

/-- `year_month_weekday::ok`, `chrono:1225-1241`, with `weekday_indexed::ok` (`chrono:527-529`). -/
def ymwdOk (y : Int) (m wd idx : Nat) : R Bool :=
  if !yearOk y || !monthOk m || !(decide (wd ≤ 6) && decide (1 ≤ idx) && decide (idx ≤ 5)) then .ok false
  else if idx ≤ 4 then .ok true
  else do
    let first ← daysFromCivil ⟨y, m, 1⟩
    let firstWeekday ← chkI (toS 32 (weekdayDiff wd (weekdayFromDays first)) + 1)
    let last ← chkI (firstWeekday + 28)
    .ok (decide (toU 32 last ≤ lastDay y m))

end STL.Chrono
