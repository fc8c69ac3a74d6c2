import Verif.Base

/-!
# Model of the substring searchers

`search`, `search_n`, `find_end` (`/repo/stl/inc/algorithm`), the Boyer-Moore and Boyer-Moore-Horspool searchers
(`/repo/stl/inc/functional`) and the `string_view`/`string` find family (`/repo/stl/inc/__msvc_string_view.hpp`).
Haystack and needle are immutable lists, iterators are offsets. Not modelled: the separately compiled vectorised paths,
iterator unwrapping, allocation and reference counting of the searcher's shared table block.
-/

namespace STL
variable {α β : Type}

/-- Read an immutable range; out of range is undefined behaviour. -/
def rdc (xs : List α) (i : Nat) : R α :=
  match xs[i]? with
  | some x => .ok x
  | none => .error .ub

/-- `a[i - 1]` on an immutable array; `i = 0` would wrap around, which is undefined behaviour. -/
def rdc1 (xs : List α) (i : Nat) : R α := if i = 0 then .error .ub else rdc xs (i - 1)
/-- Read `a[i - 1]` of an array whose elements may be uninitialised. -/
def rd1 (xs : Mem α) (i : Nat) : R α := if i = 0 then .error .ub else rd xs (i - 1)
/-- Write `a[i - 1] = v`. -/
def wr1 (xs : Mem α) (i : Nat) (v : α) : R (Mem α) := if i = 0 then .error .ub else wr xs (i - 1) v

/-! ## search, find_end, search_n -/

/-- `_Equal_rev_pred_unchecked(first1, first2, last2, pred)`, `xutility:5565-5590` (general loop). -/
def equalRev (eq : α → β → Bool) (h : List α) (p : List β) (i j : Nat) : R Bool :=
  if _h : j < p.length then do
    let x ← rdc h i
    let y ← rdc p j
    if !eq x y then pure false else equalRev eq h p (i + 1) (j + 1)
  else pure true
termination_by p.length - j

/-- The candidate loop of random-access `search`, `algorithm:2505-2515`; `lastPossible` is `_Last_possible`. -/
def searchLoop (eq : α → β → Bool) (h : List α) (p : List β) (lastPossible first : Nat) : R Nat :=
  if _h : first ≤ lastPossible then do
    let b ← equalRev eq h p first 0
    if b then pure first
    else if first = lastPossible then pure h.length
    else searchLoop eq h p lastPossible (first + 1)
  else .error .ub
termination_by lastPossible + 1 - first

/-- `search`, random-access branch, `algorithm:2473-2516`. -/
def searchRA (eq : α → β → Bool) (h : List α) (p : List β) : R Nat :=
  if p.length ≤ h.length then searchLoop eq h p (h.length - p.length) 0 else pure h.length

/-- Inner loop of forward `search`, `algorithm:2520-2530`: `some (some r)` returns `r`. -/
def searchFwdInner (eq : α → β → Bool) (h : List α) (p : List β) (first mid1 mid2 : Nat) : R (Option Nat) :=
  if _h : mid2 = p.length then pure (some first)
  else if _h1 : mid1 = h.length then pure (some h.length)
  else if _h2 : p.length < mid2 then .error .ub
  else do
    let x ← rdc h mid1
    let y ← rdc p mid2
    if !eq x y then pure none
    else searchFwdInner eq h p first (mid1 + 1) (mid2 + 1)
termination_by p.length - mid2
decreasing_by omega

/-- Outer loop of forward `search`, `algorithm:2518-2532`. -/
def searchFwdLoop (eq : α → β → Bool) (h : List α) (p : List β) (first : Nat) : R Nat :=
  if _h : first ≤ h.length then do
    let r ← searchFwdInner eq h p first first 0
    match r with
    | some r => pure r
    | none => searchFwdLoop eq h p (first + 1)
  else .error .ub
termination_by h.length + 1 - first

/-- `search`, forward branch. -/
def searchFwd (eq : α → β → Bool) (h : List α) (p : List β) : R Nat := searchFwdLoop eq h p 0

/-- Candidate loop of random-access `find_end`, `algorithm:3643-3653`. -/
def findEndLoop (eq : α → β → Bool) (h : List α) (p : List β) : Nat → R Nat
  | 0 => do
    let b ← equalRev eq h p 0 0
    if b then pure 0 else pure h.length
  | c + 1 => do
    let b ← equalRev eq h p (c + 1) 0
    if b then pure (c + 1) else findEndLoop eq h p c

/-- `find_end`, random-access branch, `algorithm:3611-3656`. -/
def findEndRA (eq : α → β → Bool) (h : List α) (p : List β) : R Nat :=
  if 0 < p.length ∧ p.length ≤ h.length then findEndLoop eq h p (h.length - p.length) else pure h.length

/-- Inner loop of bidirectional `find_end`, `algorithm:3661-3677`: `some r` returns `r`, `none` tries the next candidate. -/
def findEndBidiInner (eq : α → β → Bool) (h : List α) (p : List β) (next1 next2 : Nat) : R (Option Nat) :=
  match next2 with
  | 0 => pure (some next1)
  | n2 + 1 =>
    match next1 with
    | 0 => pure (some h.length)
    | n1 + 1 => do
      let x ← rdc h n1
      let y ← rdc p n2
      if !eq x y then pure none else findEndBidiInner eq h p n1 n2

/-- Outer loop of bidirectional `find_end`, `algorithm:3657-3679`. -/
def findEndBidiLoop (eq : α → β → Bool) (h : List α) (p : List β) (cand : Nat) : R Nat := do
  let r ← findEndBidiInner eq h p cand p.length
  match r with
  | some r => pure r
  | none =>
    match cand with
    | 0 => .error .ub
    | c + 1 => findEndBidiLoop eq h p c

/-- `find_end`, bidirectional branch. -/
def findEndBidi (eq : α → β → Bool) (h : List α) (p : List β) : R Nat := findEndBidiLoop eq h p h.length

/-- Inner loop of forward `find_end`, `algorithm:3685-3705`: the (possibly updated) `_UResult` and whether the search is
finished. -/
def findEndFwdInner (eq : α → β → Bool) (h : List α) (p : List β) (first next1 next2 result : Nat) : R (Nat × Bool) :=
  if _h : p.length < next2 then .error .ub
  else
    let eon := next2 = p.length
    let result := if eon then first else result
    if next1 = h.length then pure (result, true)
    else if _h2 : next2 = p.length then pure (result, false)
    else do
      let x ← rdc h next1
      let y ← rdc p next2
      if !eq x y then pure (result, false)
      else findEndFwdInner eq h p first (next1 + 1) (next2 + 1) result
termination_by p.length - next2
decreasing_by omega

/-- Outer loop of forward `find_end`, `algorithm:3680-3712`. -/
def findEndFwdLoop (eq : α → β → Bool) (h : List α) (p : List β) (first result : Nat) : R Nat :=
  if _h : first ≤ h.length then do
    let (result, fin) ← findEndFwdInner eq h p first first 0 result
    if fin then pure result else findEndFwdLoop eq h p (first + 1) result
  else .error .ub
termination_by h.length + 1 - first

/-- `find_end`, forward branch. -/
def findEndFwd (eq : α → β → Bool) (h : List α) (p : List β) : R Nat := findEndFwdLoop eq h p 0 h.length

/-- "back up over any skipped prefix" of random-access `search_n`, `algorithm:2622-2626`: returns `_UFirst`, `_Count1`. -/
def searchNBack (pr : α → Bool) (h : List α) (old : Nat) (first count1 : Nat) : R (Nat × Nat) :=
  match first with
  | 0 => pure (0, count1)
  | f + 1 =>
    if old ≠ f + 1 then do
      let x ← rdc h f
      if pr x then searchNBack pr h old f (count1 - 1) else pure (f + 1, count1)
    else pure (f + 1, count1)

/-- "enough left, test suffix" loop, `algorithm:2629-2636`: `none` when the whole match was found, else the final `_UMid`. -/
def searchNSuffix (pr : α → Bool) (h : List α) (count1 mid : Nat) : R (Option Nat) :=
  match count1 with
  | 0 => .error .ub
  | 1 => pure none
  | c + 2 => do
    let x ← rdc h (mid + 1)
    if !pr x then pure (some (mid + 1)) else searchNSuffix pr h (c + 1) (mid + 1)

/-- Random-access `search_n` main loop, `algorithm:2614-2645`; `pr x` is `_Pred(x, _Val)`. -/
def searchNLoop (pr : α → Bool) (h : List α) (count : Nat) (fuel old inc : Nat) : R Nat :=
  match fuel with
  | 0 => .error .fuel
  | fuel + 1 =>
    if count ≤ h.length - old then do
      let first := old + inc
      let x ← rdc h first
      if pr x then do
        let mid := first
        let (first, count1) ← searchNBack pr h old first count
        let r ← (if count1 ≤ h.length - mid then searchNSuffix pr h count1 mid else .ok (some mid) : R _)
        match r with
        | none => pure first
        | some mid => searchNLoop pr h count fuel (mid + 1) 0
      else searchNLoop pr h count fuel (first + 1) (count - 1)
    else pure h.length

/-- `search_n`, random-access branch, `algorithm:2559-2646`. -/
def searchNRA (pr : α → Bool) (h : List α) (count : Nat) : R Nat :=
  if count = 0 then pure 0 else searchNLoop pr h count (h.length + 1) 0 0

/-- Inner loop of forward `search_n`, `algorithm:2652-2661`; `inl r`: return `r`, `inr mid`: mismatch at `mid`. -/
def searchNFwdInner (pr : α → Bool) (h : List α) (first count1 mid : Nat) : R (Nat ⊕ Nat) :=
  match count1 with
  | 0 => .error .ub
  | 1 => pure (.inl first)
  | c + 2 =>
    if mid + 1 = h.length then pure (.inl h.length)
    else do
      let x ← rdc h (mid + 1)
      if !pr x then pure (.inr (mid + 1)) else searchNFwdInner pr h first (c + 1) (mid + 1)

/-- Forward `search_n`, `algorithm:2647-2668`; after a failed match it continues just beyond the mismatch. -/
def searchNFwdLoop (pr : α → Bool) (h : List α) (count fuel first : Nat) : R Nat :=
  match fuel with
  | 0 => .error .fuel
  | fuel + 1 =>
    if first ≠ h.length then do
      let x ← rdc h first
      if pr x then do
        let r ← searchNFwdInner pr h first count first
        match r with
        | .inl r => pure r
        | .inr mid => searchNFwdLoop pr h count fuel (mid + 1)
      else searchNFwdLoop pr h count fuel (first + 1)
    else pure h.length

/-- `search_n`, forward branch. -/
def searchNFwd (pr : α → Bool) (h : List α) (count : Nat) : R Nat :=
  if count = 0 then pure 0 else searchNFwdLoop pr h count (h.length + 1) 0

/-- `ranges::_Search_n_sized`, bidirectional branch, `algorithm:2818-2853`; state `_First`, `_Dist`, `_Mid1`, `_Mid2`,
`_Last`; returns the position of the match or `none`. -/
def searchNSized (pr : α → Bool) (h : List α) (count : Nat) (fuel first dist mid1 mid2 last : Nat) : R (Option Nat) :=
  match fuel with
  | 0 => .error .fuel
  | fuel + 1 => do
    let mid2 ← decIt mid2
    let x ← rdc h mid2
    if pr x then
      if mid2 = mid1 then pure (some first)
      else searchNSized pr h count fuel first dist mid1 mid2 last
    else
      let mid2 := mid2 + 1
      let delta := mid2 - first
      if dist - delta < count then pure none
      else searchNSized pr h count fuel mid2 (dist - delta) last (last + delta) (last + delta)

/-- `ranges::search_n` on a sized bidirectional range, `algorithm:2775-2872`: the position of the subrange, or the end. -/
def rangesSearchN (pr : α → Bool) (h : List α) (count : Nat) : R Nat :=
  if count = 0 then pure 0
  else if count ≤ h.length then do
    let r ← searchNSized pr h count ((h.length + 2) * (h.length + 2)) 0 h.length 0 count count
    match r with
    | some r => pure r
    | none => pure h.length
  else pure h.length

/-! ## Boyer-Moore -/

/-- `unordered_map::insert_or_assign` on an association list (the map itself is property C07). -/
def assocInsert (eq : α → α → Bool) (k : α) (v : Nat) : List (α × Nat) → List (α × Nat)
  | [] => [(k, v)]
  | (k', v') :: l => if eq k' k then (k', v) :: l else (k', v') :: assocInsert eq k v l

/-- `unordered_map::find`. -/
def assocFind (eq : α → α → Bool) (k : α) : List (α × Nat) → Option Nat
  | [] => none
  | (k', v') :: l => if eq k' k then some v' else assocFind eq k l

/-- `_Boyer_moore_hash_delta_1_table` constructor loop, `functional:2890-2892`; `idx` is `_Idx`. -/
def hashDelta1Build (eq : α → α → Bool) (m : Nat) (idx : Nat) : List α → List (α × Nat) → List (α × Nat)
  | [], t => t
  | x :: rest, t => hashDelta1Build eq m (idx + 1) rest (assocInsert eq x (m - idx) t)

/-- `_Boyer_moore_hash_delta_1_table::_Lookup`, `functional:2895-2903`. -/
def hashDelta1Lookup (eq : α → α → Bool) (m : Nat) (t : List (α × Nat)) (c : α) : R Nat :=
  match assocFind eq c t with
  | none => .ok m
  | some s => .ok s

/-- `_Boyer_moore_flat_delta_1_table` constructor loop, `functional:2924-2927`; `val` is `_Unsigned_value`. -/
def flatDelta1Build (val : α → Nat) (m : Nat) (idx : Nat) : List α → Mem Nat → R (Mem Nat)
  | [], t => .ok t
  | x :: rest, t => do
    let t ← wr t (val x) (m - idx)
    flatDelta1Build val m (idx + 1) rest t

/-- `_Boyer_moore_flat_delta_1_table::_Lookup`, `functional:2930-2937`. -/
def flatDelta1Lookup (val : α → Nat) (m limit : Nat) (t : Mem Nat) (c : α) : R Nat :=
  if val c < limit then rd t (val c) else .ok m

/-- Choice of table size in `_Boyer_moore_traits_wchar_t_mode::_Build_boyer_moore`, `functional:3229-3234, 3248-3256`. -/
def wcharLimit (val : α → Nat) (p : List α) : Nat := if p.any (fun c => decide (val c > 255)) then 65536 else 256

/-- Inner `while` of the first phase of `_Build_boyer_moore_delta_2_table`, `functional:3014-3017`. -/
def d2Inner (eq : α → α → Bool) (p : List α) (m j : Nat) (fx : Mem Nat) (fuel t : Nat) (sh : Mem Nat) : R (Nat × Mem Nat) :=
  match fuel with
  | 0 => .error .fuel
  | fuel + 1 =>
    if t ≤ m then do
      let x ← rdc1 p j
      let y ← rdc1 p t
      if !eq x y then do
        let s ← rd1 sh t
        let sh ← wr1 sh t (min s (m - j))
        let t ← rd1 fx t
        d2Inner eq p m j fx fuel t sh
      else pure (t, sh)
    else pure (t, sh)

/-- First phase, `functional:3011-3018`: `for (_Jx = _Mx; _Jx > 0; --_Jx, --_Tx)`. -/
def d2Outer (eq : α → α → Bool) (p : List α) (m : Nat) : Nat → Nat → Mem Nat → Mem Nat → R (Nat × Mem Nat × Mem Nat)
  | 0, t, fx, sh => pure (t, fx, sh)
  | j + 1, t, fx, sh => do
    let fx ← wr1 fx (j + 1) t
    let (t, sh) ← d2Inner eq p m (j + 1) fx (m + 2) t sh
    let t ← decIt t
    d2Outer eq p m j t fx sh

/-- Inner `while` of the Rytter correction, `functional:3027-3029`. -/
def rytInner (eq : α → α → Bool) (p : List α) (j : Nat) (fx : Mem Nat) (fuel t1 : Nat) : R Nat :=
  match fuel with
  | 0 => .error .fuel
  | fuel + 1 =>
    if t1 ≥ 1 then do
      let x ← rdc1 p j
      let y ← rdc1 p t1
      if !eq x y then do
        let t1 ← rd1 fx t1
        rytInner eq p j fx fuel t1
      else pure t1
    else pure t1

/-- `for (_Jx = 1, _Tx1 = 0; _Jx <= _Tx; ++_Tx1, ++_Jx)`, `functional:3025-3030`. -/
def rytOuter (eq : α → α → Bool) (p : List α) (tx j t1 : Nat) (fx : Mem Nat) : R (Mem Nat) :=
  if _h : j ≤ tx then do
    let fx ← wr1 fx j t1
    let t1 ← rytInner eq p j fx (p.length + 2) t1
    rytOuter eq p tx (j + 1) (t1 + 1) fx
  else pure fx
termination_by tx + 1 - j

/-- `for (_Kx = _Qx1; _Kx <= _Qx; ++_Kx)`, `functional:3034-3036`. -/
def d2Min (m q k : Nat) (sh : Mem Nat) : R (Mem Nat) :=
  if _h : k ≤ q then do
    let s ← rd1 sh k
    let sh ← wr1 sh k (min s (m + q - k))
    d2Min m q (k + 1) sh
  else pure sh
termination_by q + 1 - k

/-- `while (_Qx < _Mx)`, `functional:3033-3043`. -/
def d2Fix (m : Nat) (fx : Mem Nat) (fuel q1 q tx : Nat) (sh : Mem Nat) : R (Mem Nat) :=
  match fuel with
  | 0 => .error .fuel
  | fuel + 1 =>
    if q < m then do
      let sh ← d2Min m q q1 sh
      let temp ← rd1 fx tx
      d2Fix m fx fuel (q + 1) (q + tx - temp) temp sh
    else pure sh

/-- `_Build_boyer_moore_delta_2_table`, `functional:2987-3045`; `maxDiff` is `numeric_limits<_Diff>::max()`. `_Fx` starts
uninitialised. -/
def buildDelta2 (eq : α → α → Bool) (maxDiff : Nat) (p : List α) : R (Mem Nat) :=
  let m := p.length
  if m = 0 then pure []
  else if maxDiff - m < m then .error (.exc .lengthError)
  else do
    let sh := (List.range m).map (fun k => some (2 * m - (k + 1)))
    let (t, fx, sh) ← d2Outer eq p m m (m + 1) (List.replicate m none) sh
    let q := t
    let tx := m + 1 - q
    let fx ← rytOuter eq p tx 1 0 fx
    d2Fix m fx (m + 1) 1 q tx sh

/-- Result of the backward comparison of `_Boyer_moore_search`. -/
inductive BmBack where
  | found (first : Nat)
  | mismatch (idx first : Nat)

/-- `do … while` backward comparison, `functional:3070-3080`. -/
def bmBack (eq : α → α → Bool) (h p : List α) : Nat → Nat → R BmBack
  | 0, first => pure (.found first)
  | idx + 1, first => do
    let first ← decIt first
    let x ← rdc h first
    let y ← rdc p idx
    if eq x y then bmBack eq h p idx first else pure (.mismatch idx first)

/-- Main loop of `_Boyer_moore_search`, `functional:3065-3083`. -/
def bmLoop (eq : α → α → Bool) (look : α → R Nat) (d2 : Mem Nat) (h p : List α) (fuel first shift : Nat) : R (Nat × Nat) :=
  match fuel with
  | 0 => .error .fuel
  | fuel + 1 =>
    if shift < h.length - first then do
      let first := first + shift
      let c ← rdc h first
      let shift ← look c
      if shift = 0 then do
        let r ← bmBack eq h p (p.length - 1) first
        match r with
        | .found first => pure (first, first + p.length)
        | .mismatch idx first => do
          let c ← rdc h first
          let l1 ← look c
          let l2 ← rd d2 idx
          bmLoop eq look d2 h p fuel first (max l1 l2)
      else bmLoop eq look d2 h p fuel first shift
    else pure (h.length, h.length)

/-- `_Boyer_moore_search`, `functional:3047-3086`. -/
def bmSearch (eq : α → α → Bool) (look : α → R Nat) (d2 : Mem Nat) (p h : List α) : R (Nat × Nat) :=
  if p.length = 0 then pure (0, 0) else bmLoop eq look d2 h p (h.length + 1) 0 (p.length - 1)

/-- `equal(first1, last1, first2, pred)` over the first `n` pattern elements, `functional:3108`. -/
def equalN (eq : α → α → Bool) (h p : List α) (cand : Nat) (n j : Nat) : R Bool :=
  if _h : j < n then do
    let x ← rdc p j
    let y ← rdc h (cand + j)
    if !eq x y then pure false else equalN eq h p cand n (j + 1)
  else pure true
termination_by n - j

/-- Main loop of `_Boyer_moore_horspool_search`, `functional:3103-3118`. -/
def bmhLoop (eq : α → α → Bool) (look : α → R Nat) (h p : List α) (fuel first shift : Nat) : R (Nat × Nat) :=
  match fuel with
  | 0 => .error .fuel
  | fuel + 1 =>
    if shift < h.length - first then do
      let first := first + shift
      let c ← rdc h first
      let shift ← look c
      if shift = 0 then
        if first < p.length - 1 then .error .ub
        else do
          let cand := first - (p.length - 1)
          let b ← equalN eq h p cand (p.length - 1) 0
          if b then pure (cand, cand + p.length)
          else bmhLoop eq look h p fuel first 1
      else bmhLoop eq look h p fuel first shift
    else pure (h.length, h.length)

/-- `_Boyer_moore_horspool_search`, `functional:3088-3122`. -/
def bmhSearch (eq : α → α → Bool) (look : α → R Nat) (p h : List α) : R (Nat × Nat) :=
  if p.length = 0 then pure (0, 0) else bmhLoop eq look h p (h.length + 1) 0 (p.length - 1)

/-- `boyer_moore_searcher(pat_first, pat_last, hash, eq)(first, last)` in general mode, `functional:3136-3175, 3331-3361`. -/
def boyerMoore (eq : α → α → Bool) (maxDiff : Nat) (p h : List α) : R (Nat × Nat) := do
  let t := hashDelta1Build eq p.length 1 p []
  let d2 ← buildDelta2 eq maxDiff p
  bmSearch eq (hashDelta1Lookup eq p.length t) d2 p h

/-- `boyer_moore_horspool_searcher` in general mode, `functional:3369-3399`. -/
def boyerMooreHorspool (eq : α → α → Bool) (p h : List α) : R (Nat × Nat) := do
  let t := hashDelta1Build eq p.length 1 p []
  bmhSearch eq (hashDelta1Lookup eq p.length t) p h

/-- `boyer_moore_searcher` in char/wchar_t mode with a flat table of `limit` entries, `functional:3196-3286`. -/
def boyerMooreFlat [DecidableEq α] (val : α → Nat) (limit maxDiff : Nat) (p h : List α) : R (Nat × Nat) := do
  let t ← flatDelta1Build val p.length 1 p (List.replicate limit (some p.length))
  let d2 ← buildDelta2 (fun a b => decide (a = b)) maxDiff p
  bmSearch (fun a b => decide (a = b)) (flatDelta1Lookup val p.length limit t) d2 p h

/-- `boyer_moore_horspool_searcher` in char/wchar_t mode. -/
def boyerMooreHorspoolFlat [DecidableEq α] (val : α → Nat) (limit : Nat) (p h : List α) : R (Nat × Nat) := do
  let t ← flatDelta1Build val p.length 1 p (List.replicate limit (some p.length))
  bmhSearch (fun a b => decide (a = b)) (flatDelta1Lookup val p.length limit t) p h

/-! ## string_view / string find family (`__msvc_string_view.hpp`); `none` is `npos` -/

/-- `char_traits::find(ptr, count, ch)`: the first position in `[i, i + count)` equal to `ch`. -/
def traitsFindCh [DecidableEq α] (h : List α) (ch : α) (i : Nat) : Nat → R (Option Nat)
  | 0 => pure none
  | n + 1 => do
    let x ← rdc h i
    if x = ch then pure (some i) else traitsFindCh h ch (i + 1) n

/-- `char_traits::compare(p1, p2, count) == 0`. -/
def traitsCmpEq [DecidableEq α] (h p : List α) (i j : Nat) : Nat → R Bool
  | 0 => pure true
  | n + 1 => do
    let x ← rdc h i
    let y ← rdc p j
    if x = y then traitsCmpEq h p (i + 1) (j + 1) n else pure false

/-- Loop of `_Traits_find`, `__msvc_string_view.hpp:758-769`; `pend` is `_Possible_matches_end`. -/
def traitsFindLoop [DecidableEq α] (h p : List α) (pend : Nat) (fuel mt : Nat) : R (Option Nat) :=
  match fuel with
  | 0 => .error .fuel
  | fuel + 1 =>
    if mt > pend then .error .ub
    else do
      let c ← rdc p 0
      let r ← traitsFindCh h c mt (pend - mt)
      match r with
      | none => pure none
      | some mt => do
        let b ← traitsCmpEq h p mt 0 p.length
        if b then pure (some mt) else traitsFindLoop h p pend fuel (mt + 1)

/-- `_Traits_find`, `__msvc_string_view.hpp:730-770`. -/
def traitsFind [DecidableEq α] (h p : List α) (start : Nat) : R (Option Nat) :=
  if p.length > h.length ∨ start > h.length - p.length then pure none
  else if p.length = 0 then pure (some start)
  else traitsFindLoop h p (h.length - p.length + 1) (h.length + 2) start

/-- `_Traits_find_ch`, `__msvc_string_view.hpp:779-806`. -/
def traitsFindChar [DecidableEq α] (h : List α) (start : Nat) (ch : α) : R (Option Nat) :=
  if start ≥ h.length then pure none else traitsFindCh h ch start (h.length - start)

/-- Loop of `_Traits_rfind`, `__msvc_string_view.hpp:838-846`. -/
def traitsRfindLoop [DecidableEq α] (h p : List α) (mt : Nat) : R (Option Nat) := do
  let x ← rdc h mt
  let c ← rdc p 0
  let b ← (if x = c then traitsCmpEq h p mt 0 p.length else .ok false : R Bool)
  if b then pure (some mt)
  else
    match mt with
    | 0 => pure none
    | k + 1 => traitsRfindLoop h p k

/-- `_Traits_rfind`, `__msvc_string_view.hpp:810-847`. -/
def traitsRfind [DecidableEq α] (h p : List α) (start : Nat) : R (Option Nat) :=
  if p.length = 0 then pure (some (min start h.length))
  else if p.length > h.length then pure none
  else traitsRfindLoop h p (min start (h.length - p.length))

/-- The backward "first position satisfying" loop shared by `_Traits_rfind_ch` (`:881-889`), `_Traits_find_last_of`
(`:1020-1040`), `_Traits_find_last_not_of` (`:1154-1174`) and `_Traits_rfind_not_ch` (`:1198-1206`); `q` is the test on
the character. -/
def traitsBack (q : α → R Bool) (h : List α) (mt : Nat) : R (Option Nat) := do
  let x ← rdc h mt
  let b ← q x
  if b then pure (some mt)
  else
    match mt with
    | 0 => pure none
    | k + 1 => traitsBack q h k

/-- The forward loop `for (_Match_try = _Hay_start; _Match_try < _Hay_end; ++_Match_try)` shared by
`_Traits_find_first_of` (`:971-989`), `_Traits_find_first_not_of` (`:1073-1091`), `_Traits_find_not_ch` (`:1117-1123`). -/
def traitsFwd (q : α → R Bool) (h : List α) (mt : Nat) : R (Option Nat) :=
  if _h : mt < h.length then do
    let x ← rdc h mt
    let b ← q x
    if b then pure (some mt) else traitsFwd q h (mt + 1)
  else pure none
termination_by h.length - mt

/-- `_Traits_rfind_ch`, `__msvc_string_view.hpp:855-890`. -/
def traitsRfindChar [DecidableEq α] (h : List α) (start : Nat) (ch : α) : R (Option Nat) :=
  if h.length = 0 then pure none else traitsBack (fun x => .ok (decide (x = ch))) h (min start (h.length - 1))

/-- `_String_bitmap::_Mark`, `:896-902` (character types: `wide = false`) and `:920-931` (`wide = true`: gives up with
`none` on a value above 255). `val` is the unsigned value of the character. -/
def bitmapMark (wide : Bool) (val : α → Nat) : List α → Mem Bool → R (Option (Mem Bool))
  | [], t => .ok (some t)
  | c :: rest, t =>
    if wide && decide (val c ≥ 256) then .ok none
    else do
      let t ← wr t (val c) true
      bitmapMark wide val rest t

/-- `_String_bitmap::_Match`, `:904-906`, `:933-935`. -/
def bitmapMatch (wide : Bool) (val : α → Nat) (t : Mem Bool) (c : α) : R Bool :=
  if wide && decide (val c ≥ 256) then .ok false else rd t (val c)

/-- The membership test used by the `find_*_of` family: the bitmap when `_Mark` succeeds, else `_Traits::find` in the
needle; `std` says whether `_Traits` is a standard `char_traits`. -/
def charTest [DecidableEq α] (std wide : Bool) (val : α → Nat) (needle : List α) : R (α → R Bool) := do
  let slow : α → R Bool := fun x => do
    let r ← traitsFindCh needle x 0 needle.length
    pure r.isSome
  if std then do
    let t ← bitmapMark wide val needle (List.replicate 256 (some false))
    match t with
    | some t => pure (bitmapMatch wide val t)
    | none => pure slow
  else pure slow

/-- `_Traits_find_first_of`, `:944-990`. -/
def traitsFindFirstOf [DecidableEq α] (std wide : Bool) (val : α → Nat) (h p : List α) (start : Nat) : R (Option Nat) :=
  if p.length = 0 ∨ start ≥ h.length then pure none
  else do
    let q ← charTest std wide val p
    traitsFwd q h start

/-- `_Traits_find_last_of`, `:993-1041`. -/
def traitsFindLastOf [DecidableEq α] (std wide : Bool) (val : α → Nat) (h p : List α) (start : Nat) : R (Option Nat) :=
  if p.length = 0 ∨ h.length = 0 then pure none
  else do
    let q ← charTest std wide val p
    traitsBack q h (min start (h.length - 1))

/-- Negated test `!…`. -/
def notTest (q : α → R Bool) (x : α) : R Bool := do
  let b ← q x
  pure (!b)

/-- `_Traits_find_first_not_of`, `:1044-1092`. -/
def traitsFindFirstNotOf [DecidableEq α] (std wide : Bool) (val : α → Nat) (h p : List α) (start : Nat) : R (Option Nat) :=
  if start ≥ h.length then pure none
  else do
    let q ← charTest std wide val p
    traitsFwd (notTest q) h start

/-- `_Traits_find_not_ch`, `:1095-1124`. -/
def traitsFindNotChar [DecidableEq α] (h : List α) (start : Nat) (ch : α) : R (Option Nat) :=
  if start ≥ h.length then pure none else traitsFwd (fun x => .ok (!decide (x = ch))) h start

/-- `_Traits_find_last_not_of`, `:1127-1175`. -/
def traitsFindLastNotOf [DecidableEq α] (std wide : Bool) (val : α → Nat) (h p : List α) (start : Nat) : R (Option Nat) :=
  if h.length = 0 then pure none
  else do
    let q ← charTest std wide val p
    traitsBack (notTest q) h (min start (h.length - 1))

/-- `_Traits_rfind_not_ch`, `:1178-1207`. -/
def traitsRfindNotChar [DecidableEq α] (h : List α) (start : Nat) (ch : α) : R (Option Nat) :=
  if h.length = 0 then pure none else traitsBack (fun x => .ok (!decide (x = ch))) h (min start (h.length - 1))

end STL
