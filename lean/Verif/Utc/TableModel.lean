import Verif.Utc.Model
import Verif.Chrono.Model

/-!
C54: the table of leap seconds is built from the known entries and those of the registry.
-/

namespace STL.Utc

/-- stl/inc/__msvc_tzdb.hpp:26-33 `__std_tzdb_leap_info`. -/
structure RegLeap where
  year : Nat
  month : Nat
  day : Nat
  hour : Nat
  negative : Bool

/-- stl/inc/chrono:2178-2206 `_Known_leap_seconds`: dates with the count before them, as written. -/
def knownLiterals : List (Int × Bool × Int) := [
  (78796800, true, 0), (94694400, true, 1), (126230400, true, 2), (157766400, true, 3), (189302400, true, 4),
  (220924800, true, 5), (252460800, true, 6), (283996800, true, 7), (315532800, true, 8), (362793600, true, 9),
  (394329600, true, 10), (425865600, true, 11), (489024000, true, 12), (567993600, true, 13), (631152000, true, 14),
  (662688000, true, 15), (709948800, true, 16), (741484800, true, 17), (773020800, true, 18), (820454400, true, 19),
  (867715200, true, 20), (915148800, true, 21), (1136073600, true, 22), (1230768000, true, 23), (1341100800, true, 24),
  (1435708800, true, 25), (1483228800, true, 26)]

/-- stl/inc/chrono:2179-2205: the constructed entries. -/
def knownTable : List Leap := knownLiterals.map fun x => Leap.mk' x.1 x.2.1 x.2.2

/-- stl/inc/chrono:2239-2241: the date of an entry of the registry. -/
def regDate (r : RegLeap) : R Int := do
  let d ← Chrono.daysFromCivil ⟨Chrono.mkYear r.year, Chrono.mkMonth r.month, Chrono.mkDay r.day⟩
  pure (d * 86400 + (r.hour + 1) * 3600)

/-- stl/inc/chrono:2235-2244: the loop over the entries of the registry. An empty vector has no `back()`. -/
def regLoop : List Leap → Bool → List RegLeap → R (List Leap × Bool)
  | tbl, allPos, [] => pure (tbl, allPos)
  | tbl, allPos, r :: rs => do
    let date ← regDate r
    match tbl.getLast? with
    | none => throw .ub
    | some b => regLoop (tbl ++ [Leap.mk' date (!r.negative) b.elapsed]) (allPos && !r.negative) rs

/-- stl/inc/chrono:2226-2248 `_Tzdb_generate_leap_seconds` after the registry has been read. -/
def generate (currentSize : Nat) (reg : List RegLeap) : R (List Leap × Bool) :=
  let newSize := 27 + reg.length
  if newSize > currentSize then regLoop knownTable true reg
  else pure ([], true)

end STL.Utc
