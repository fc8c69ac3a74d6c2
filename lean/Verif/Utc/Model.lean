/-!
# C54: leap seconds and utc_clock (stl/inc/chrono)

Times are unbounded integers: seconds in the table, ticks of `1/P` seconds elsewhere (overflow of 64-bit representations
is not modelled). An access outside the table is `none`.
-/

namespace STL.Utc

/-- stl/inc/chrono:1976-2003 `leap_second`: `date()`, `_Positive()`, `_Elapsed()`. -/
structure Leap where
  date : Int
  pos : Bool
  elapsed : Int
deriving DecidableEq

/-- stl/inc/chrono:1990-1992 `value()`. -/
def value (pos : Bool) : Int := if pos then 1 else -1

/-- stl/inc/chrono:1981-1985 constructor. -/
def Leap.mk' (date : Int) (pos : Bool) (prev : Int) : Leap := ⟨date, pos, prev + value pos⟩

/-- stl/inc/chrono:2228-2245 `_Tzdb_generate_leap_seconds`: each entry is built on the `_Elapsed()` of the one before
(the known entries are literals of that form). -/
def mkTable : (prev : Int) → List (Int × Bool) → List Leap
  | _, [] => []
  | prev, x :: xs => let e := Leap.mk' x.1 x.2 prev; e :: mkTable e.elapsed xs

/-- stl/inc/chrono:2229, 2243 `_All_ls_positive`. -/
def allPositive (raw : List (Int × Bool)) : Bool := raw.all fun x => x.2

/-- `upper_bound` by date (the subject of C04): the number of leading entries that are not after `t`. -/
def upperBound : List Leap → Int → Nat
  | [], _ => 0
  | x :: xs, t => if x.date ≤ t then upperBound xs t + 1 else 0

/-- stl/inc/chrono:2670-2684: the loop for tables with negative leap seconds. -/
def scan : (prev : Int) → List Leap → Int → Nat
  | _, [], _ => 0
  | prev, x :: xs, t =>
    let begin_ := x.date + (if x.pos then prev else x.elapsed)
    if begin_ > t then 0 else scan x.elapsed xs t + 1

/-- stl/inc/chrono:2634-2699 `get_leap_second_info`, `t` is the time rounded down to seconds. -/
def info (tbl : List Leap) (allPos : Bool) (t : Int) : Option (Bool × Int) :=
  let it := if allPos then upperBound tbl t else scan 0 tbl t
  if it = 0 then some (false, 0)
  else do
    let last ← tbl[it - 1]?
    let ls := last.date + last.elapsed - 1
    if allPos ∧ ls > t then
      if it - 1 = 0 then none
      else do
        let e ← tbl[it - 1 - 1]?
        pure (last.pos && decide (ls = t), e.elapsed)
    else pure (last.pos && decide (ls = t), last.elapsed)

/-- stl/inc/chrono:2712-2731 `utc_clock::to_sys` on integral ticks, `P` per second. -/
def toSys (tbl : List Leap) (allPos : Bool) (P : Int) (t : Int) : Option Int := do
  let lsi ← info tbl allPos (t / P)
  if lsi.1 then
    let leapSecMinusOne := (t / P - lsi.2) * P
    pure (leapSecMinusOne + (P - 1))
  else pure (t - lsi.2 * P)

/-- stl/inc/chrono:2733-2740 `utc_clock::from_sys`. -/
def fromSys (tbl : List Leap) (P : Int) (s : Int) : Option Int := do
  let it := upperBound tbl (s / P)
  let off ← if it = 0 then some 0 else (tbl[it - 1]?).map Leap.elapsed
  pure (s + off * P)

/-- stl/inc/chrono:2759, 2765-2769 `tai_clock::to_utc`. -/
def taiToUtc (P t : Int) : Int := t - 378691210 * P
/-- stl/inc/chrono:2771-2775 `tai_clock::from_utc`. -/
def taiFromUtc (P t : Int) : Int := t + 378691210 * P
/-- stl/inc/chrono:2794, 2800-2804 `gps_clock::to_utc`. -/
def gpsToUtc (P t : Int) : Int := t - (-315964809) * P
/-- stl/inc/chrono:2806-2810 `gps_clock::from_utc`. -/
def gpsFromUtc (P t : Int) : Int := t + (-315964809) * P

/-- stl/inc/chrono:2829, 2855 `__std_fs_file_time_epoch_adjustment`, as seconds (its unit is 100 ns). -/
def fileAdjust : Int := 0x19DB1DED53E8000 / 10000000
/-- stl/inc/chrono:2846-2847 `_Cutoff`: 2018-06-01, as seconds. -/
def cutoff : Int := 17683 * 86400
/-- stl/inc/chrono:2845 `_Skipped_filetime_leap_seconds`. -/
def skipped : Int := 27

/-- stl/inc/chrono:2849-2862 `file_clock::to_utc`. -/
def fileToUtc (tbl : List Leap) (P f : Int) : Option Int :=
  let ticks := f - fileAdjust * P
  if ticks < cutoff * P then fromSys tbl P ticks else some (ticks + skipped * P)

/-- stl/inc/chrono:2864-2878 `file_clock::from_utc`. -/
def fileFromUtc (tbl : List Leap) (allPos : Bool) (P t : Int) : Option Int :=
  if t < (cutoff + skipped) * P then (toSys tbl allPos P t).map (fileAdjust * P + ·)
  else some (fileAdjust * P + (t - skipped * P))

/-- stl/inc/chrono:2178-2206 `_Known_leap_seconds`: dates. -/
def knownDates : List Int := [78796800, 94694400, 126230400, 157766400, 189302400, 220924800, 252460800, 283996800,
  315532800, 362793600, 394329600, 425865600, 489024000, 567993600, 631152000, 662688000, 709948800, 741484800,
  773020800, 820454400, 867715200, 915148800, 1136073600, 1230768000, 1341100800, 1435708800, 1483228800]
/-- The known leap seconds, all of them positive. -/
def known : List (Int × Bool) := knownDates.map (·, true)

end STL.Utc
