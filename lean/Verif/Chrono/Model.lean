import Verif.CInt

/-!
# Model of the calendar types of `<chrono>`

`/repo/stl/inc/chrono:270-1260`. `int` arithmetic is checked for overflow, unsigned arithmetic wraps, stored fields are
truncated as in the source (`year` is a `short`, `month`, `day`, `weekday` are `unsigned char`).
A field read (`static_cast<unsigned int>(month)`) is the stored number. Not modelled: stream output and formatting, time
zones, `local_days` (same code as `sys_days`).
-/

namespace STL.Chrono
open STL

/-- `year_month_day`, `chrono:794-886`. -/
structure Ymd where
  y : Int
  m : Nat
  d : Nat
  deriving DecidableEq, Repr

/-- `year::year(int)`, `chrono:341`: stores a `short`. -/
def mkYear (v : Int) : Int := toS 16 v
/-- `month::month(unsigned)`, `chrono:271`: stores an `unsigned char`; likewise `day`. -/
def mkMonth (v : Nat) : Nat := v % 256
/-- `day::day(unsigned)`, `chrono:210`. -/
def mkDay (v : Nat) : Nat := v % 256

/-- `year::is_leap`, `chrono:382-384`. `%` truncates toward zero. -/
def isLeap (y : Int) : Bool := Int.tmod y 4 == 0 && (Int.tmod y 100 != 0 || Int.tmod y 400 == 0)

/-- `year::ok`, `chrono:390-392`. -/
def yearOk (y : Int) : Bool := decide (-32767 ≤ y) && decide (y ≤ 32767)
/-- `month::ok`, `chrono:297-299`. -/
def monthOk (m : Nat) : Bool := decide (1 ≤ m) && decide (m ≤ 12)

/-- `_Last_day_table`, `chrono:782-783`. -/
def lastDayTable : List Nat := [31, 28, 31, 30, 31, 30, 31, 31, 30, 31, 30, 31, 255, 255, 255, 255]

/-- `_Last_day`, `chrono:785-791`. -/
def lastDay (y : Int) (m : Nat) : Nat :=
  if m = 2 && isLeap y then 29 else lastDayTable.getD (toU 32 ((m : Int) - 1) &&& 0xF) 0

/-- `year_month_day::ok`, `chrono:829-835`. -/
def Ymd.ok (x : Ymd) : Bool :=
  if !yearOk x.y || !monthOk x.m then false else decide (1 ≤ x.d) && decide (x.d ≤ lastDay x.y x.m)

/-- `_Civil_from_days`, `chrono:965-987`. -/
def civilFromDays (tp : Int) : R Ymd := do
  let zx ← chkI (tp + 719468)
  let zx4 ← chkI (4 * zx)
  let num ← chkI (if zx ≥ 0 then zx4 + 3 else zx4 - 146093)
  let century ← chkI (cdiv num 146097)
  let c4 ← chkI (146097 * century)
  let doc ← chkI (zx - sar c4 2)
  let doc := toU 32 doc
  let yoc := ((91867 * ((doc + 1) % 2 ^ 32)) % 2 ^ 32) >>> 25
  let c100 ← chkI (century * 100)
  let yp ← chkI ((yoc : Int) + c100)
  let doy := toU 32 ((doc : Int) - ((((1461 * yoc) % 2 ^ 32) >>> 2 : Nat) : Int))
  let mp := (((535 * doy) % 2 ^ 32 + 333) % 2 ^ 32) >>> 14
  let day := (toU 32 ((doy : Int) - (((((979 * mp) % 2 ^ 32 + 19) % 2 ^ 32) >>> 5 : Nat) : Int)) + 1) % 2 ^ 32
  let month := (mp + (if mp < 10 then 3 else toU 32 (-9))) % 2 ^ 32
  let yr ← chkI (yp + (if month ≤ 2 then 1 else 0))
  .ok ⟨mkYear yr, mkMonth month, mkDay day⟩

/-- `_Days_from_civil`, `chrono:990-1001`. -/
def daysFromCivil (x : Ymd) : R Int := do
  let yp ← chkI (x.y - (if x.m ≤ 2 then 1 else 0))
  let num ← chkI (if yp ≥ 0 then yp else yp - 99)
  let century := cdiv num 100
  let mp := (x.m + (if x.m > 2 then toU 32 (-3) else 9)) % 2 ^ 32
  let doy ← chkI (toS 32 ((((((979 * mp) % 2 ^ 32 + 19) % 2 ^ 32) >>> 5) + x.d : Nat) : Int) - 1)
  let a ← chkI (1461 * yp)
  let a ← chkI (sar a 2 - century)
  let a ← chkI (a + sar century 2)
  let a ← chkI (a + doy)
  chkI (a - 719468)

/-- `weekday::_Weekday_from_days`, `chrono:478-482`. -/
def weekdayFromDays (tp : Int) : Nat := ((toU 32 tp + (if tp ≥ 0 then 4 else 0)) % 2 ^ 32) % 7

/-- `weekday::weekday(unsigned)`, `chrono:433-434`. -/
def mkWeekday (v : Nat) : Nat := (if v = 7 then 0 else v) % 256

/-- `operator+(const weekday&, const days&)`, `chrono:489-493`. -/
def weekdayPlus (wd : Nat) (days : Int) : R Nat := do
  let s ← chkL ((wd : Int) + days)
  let n ← chkL (if s ≥ 0 then s else s - 6)
  let div := cdiv n 7
  let r ← chkL (s - div * 7)
  .ok (mkWeekday (toU 32 r))

/-- `operator-(const weekday&, const weekday&)`, `chrono:500-504`. -/
def weekdayDiff (a b : Nat) : Nat :=
  let wd := toU 32 ((a : Int) - b)
  if wd ≤ 6 then wd else (wd + 7) % 2 ^ 32

/-- `year_month_day::_Calculate_weekday`, `chrono:837-847`. -/
def calculateWeekday (x : Ymd) : R Int := do
  let eraYear ← chkI (x.y - (if x.m ≤ 2 then 1 else 0))
  let num ← chkI (if eraYear ≥ 0 then eraYear else eraYear - 399)
  let era := cdiv num 400
  let yoe ← chkI (eraYear - era * 400)
  let ydayEra ← chkI (sar (979 * ((x.m : Int) + (if x.m > 2 then -3 else 9)) + 19) 5 + (x.d : Int) - 1)
  let doe ← chkI (sar (1461 * yoe) 2 - cdiv yoe 100 + ydayEra)
  .ok (Int.tmod (doe + 3) 7)

/-- The common start of `operator+(month, months)` `chrono:313-317` and `operator+(year_month, months)` `chrono:729-733`. -/
def monthSplit (m : Nat) (k : Int) : R (Int × Nat) := do
  let k1 ← chkI (k - 1)
  let mo ← chkL ((m : Int) + k1)
  let n ← chkL (if mo ≥ 0 then mo else mo - 11)
  let div := cdiv n 12
  let r ← chkL (mo - div * 12 + 1)
  .ok (div, mkMonth (toU 32 r))

/-- `operator+(const month&, const months&)`, `chrono:313-317`. -/
def monthPlus (m : Nat) (k : Int) : R Nat := do
  let (_, m) ← monthSplit m k
  .ok m

/-- `operator-(const month&, const month&)`, `chrono:324-327`. -/
def monthDiff (a b : Nat) : Nat :=
  let mo := toU 32 ((a : Int) - b)
  if mo ≤ 11 then mo else (mo + 12) % 2 ^ 32

/-- `operator+(const year_month&, const months&)`, `chrono:728-733` (with `year + years`, `chrono:412-414`; the `years`
count is an `int`). -/
def ymPlus (y : Int) (m : Nat) (k : Int) : R (Int × Nat) := do
  let (div, m) ← monthSplit m k
  let yr ← chkI (y + toS 32 div)
  .ok (mkYear yr, m)

/-- `operator-(const year_month&, const year_month&)`, `chrono:746-750`; the sum of `years` and `months` is in months. -/
def ymDiff (a b : Int × Nat) : R Int := do
  let dy ← chkI (a.1 - b.1)
  let dm ← chkI ((a.2 : Int) - b.2)
  let dy12 ← chkI (dy * 12)
  chkI (dy12 + dm)

/-- `year_month_weekday(sys_days)`, `_Ymwd_from_days`, `chrono:1252-1257`: year, month, weekday, index. -/
def ymwdFromDays (tp : Int) : R (Int × Nat × Nat × Nat) := do
  let x ← civilFromDays tp
  .ok (x.y, x.m, weekdayFromDays tp % 256, toU 32 ((x.d : Int) - 1) / 7 + 1)

/-- `year_month_weekday::operator sys_days`, `chrono:1217-1222`. -/
def ymwdToDays (y : Int) (m wd idx : Nat) : R Int := do
  let first ← daysFromCivil ⟨y, m, 1⟩
  let diff := weekdayDiff wd (weekdayFromDays first)
  let days ← chkI ((toS 32 diff) + ((idx : Int) - 1) * 7)
  chkI (first + days)

end STL.Chrono
