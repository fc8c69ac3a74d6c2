/-!
# C55: hh_mm_ss and the 12-hour clock (stl/inc/chrono)

Integral durations. Counts are unbounded integers; the period is `num / den` seconds in lowest terms. `x.cnt * x.num / den`
is the length of a duration in seconds; all durations that occur have the same `den`.
-/

namespace STL.Hms

/-- A duration: its count and the numerator of its period. -/
structure Dur where
  cnt : Int
  num : Nat

/-- `INTMAX_MAX`. -/
def intmax : Nat := 2 ^ 63 - 1

/-- stl/inc/chrono:1577-1581 `_Duration_underflows_with`, for a target of `u` seconds (its `den` is 1). -/
def underflows (den : Nat) (num u : Nat) : Bool := decide (den > intmax / (u / Nat.gcd num u))

/-- `duration_cast` to `u` seconds (`__msvc_chrono.hpp:452-479`, the subject of C13): the ratio of the periods in lowest
terms, truncation toward zero. -/
def cast (den : Nat) (x : Dur) (u : Nat) : Int :=
  Int.tdiv (x.cnt * (x.num / Nat.gcd x.num u : Nat)) ((u / Nat.gcd x.num u * den : Nat) : Int)

/-- stl/inc/chrono:1583-1590 `_Duration_cast_underflow_to_zero`. -/
def castZero (den : Nat) (x : Dur) (u : Nat) : Int :=
  if underflows den x.num u then 0 else cast den x u

/-- stl/inc/chrono:1592-1600 `_Remove_duration_part`: a count of the common type, whose period is `gcd / den`. -/
def removePart (den : Nat) (x : Dur) (u : Nat) : Dur :=
  let g := Nat.gcd x.num u
  if underflows den x.num u then ⟨x.cnt * (x.num / g : Nat), g⟩
  else
    let dp := cast den x u
    ⟨x.cnt * (x.num / g : Nat) - dp * (u / g * den : Nat), g⟩

/-- stl/inc/chrono:1619-1622: the loops of `fractional_width`: what remains and the number of divisions. -/
def strip (p : Nat) (n : Nat) : Nat × Nat :=
  if h : n % p = 0 ∧ 1 < p ∧ 0 < n then
    let r := strip p (n / p)
    (r.1, r.2 + 1)
  else (n, 0)
termination_by n
decreasing_by exact Nat.div_lt_self h.2.2 h.2.1

/-- stl/inc/chrono:1608-1628 `fractional_width`. -/
def fractionalWidth (den : Nat) : Nat :=
  let a := strip 2 den
  let b := strip 5 a.1
  if b.1 ≠ 1 then 6
  else
    let result := max a.2 b.2
    if result > 18 then 6 else result

/-- stl/inc/chrono:1684-1688: the members of `hh_mm_ss`. -/
structure Hms where
  neg : Bool
  hours : Int
  mins : Int
  secs : Int
  sub : Int

/-- stl/inc/chrono:1676-1682 `_Abs_if_needed`. -/
def absIfNeeded (x : Dur) (neg : Bool) : Dur := if neg then ⟨-x.cnt, x.num⟩ else x

/-- stl/inc/chrono:1634-1649: the constructor for integral representations. `subseconds` is a `duration_cast` from a period
`1 / den` to `1 / 10^fractional_width`. -/
def make (den : Nat) (x : Dur) : Hms :=
  let neg := decide (x.cnt < 0)
  let a := absIfNeeded x neg
  let w := fractionalWidth den
  let rest := removePart den a 1
  { neg := neg
    hours := castZero den a 3600
    mins := castZero den (removePart den a 3600) 60
    secs := castZero den (removePart den (removePart den a 3600) 60) 1
    sub := Int.tdiv (rest.cnt * (10 ^ w / Nat.gcd (10 ^ w) den : Nat)) ((den / Nat.gcd (10 ^ w) den : Nat) : Int) }

/-- stl/inc/chrono:1670-1673 `to_duration`, as a count of `1 / 10^fractional_width` seconds. -/
def toDuration (den : Nat) (h : Hms) : Int :=
  let t : Int := 10 ^ fractionalWidth den
  let dur := h.hours * 3600 * t + h.mins * 60 * t + h.secs * t + h.sub
  if h.neg then -dur else dur

/-- stl/inc/chrono:1691-1693 `is_am`. -/
def isAm (h : Int) : Bool := decide (h ≥ 0) && decide (h ≤ 11)
/-- stl/inc/chrono:1694-1696 `is_pm`. -/
def isPm (h : Int) : Bool := decide (h ≥ 12) && decide (h ≤ 23)

/-- stl/inc/chrono:1698-1706 `make12`. -/
def make12 (h : Int) : Int :=
  let ret := if h = 0 then 12 else h
  if ret > 12 then ret - 12 else ret

/-- stl/inc/chrono:1707-1715 `make24`. -/
def make24 (h : Int) (pm : Bool) : Int :=
  let ret := if h = 12 then 0 else h
  if pm then ret + 12 else ret

end STL.Hms
