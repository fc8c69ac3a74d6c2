import Verif.Utf.Utf16Props

/-!
# `codecvt_utf8_utf16` (stl/inc/codecvt:448-684)

The conversion state is 0 (nothing seen yet), 1, or (in `do_in`) the second surrogate still to be delivered, without its
last six bits, or (in `do_out`) the upper bits of a code whose first byte is already written.
-/

namespace STL.Utf

namespace Spec

/-- `h` is all but the last byte of a sequence of four to six bytes; the last one makes it the code `c0 + 0 … c0 + 63`. -/
def Half8 (c0 : Nat) (h : List Nat) : Prop :=
  ∃ b0 bs, h = b0 :: bs ∧ 2 ≤ bs.length ∧ (lead8 (bs.length + 1)).1 ≤ b0 ∧ b0 < (lead8 (bs.length + 1)).2 ∧
    (∀ x ∈ bs, Trail x) ∧ c0 = contVal (b0 - (lead8 (bs.length + 1)).1) bs * 64

end Spec

/-- The last byte of a noncanonical sequence, the header and the delivery (codecvt:537-566). `mid0` is `_Mid1` at the start
of the sequence. -/
def in816Last (C : Cfg) (st nskip ch : Nat) (m mid0 : List Nat) : R Step := do
  if nskip ≠ 0 ∧ m.length = 0 then return .brk mid0 mid0 st
  else
    let (good, m, ch) ← (if nskip ≠ 0 then do
        let b ← rdHead m
        return (decide ¬ (b < 0x80 ∨ 0xc0 ≤ b), m.drop 1, ch ||| (b &&& 0x3f))
      else .ok (true, m, ch) : R (Bool × List Nat × Nat))
    if !good then return .err m st
    else if st = 0 ∧ C.consume ∧ ch = 0xfeff then return .hdr m 1
    else return .emit [ch % 2 ^ C.w] m mid0 1

/-- The body of the loop of `codecvt_utf8_utf16::do_in` (codecvt:464-566). In the state 0 the loop is in its first pass, so
that `_First1` and `_Mid1` are equal at codecvt:504 and the roll back of codecvt:558 is the one in `cvtLoop`. -/
def in816Step (C : Cfg) (_room st : Nat) (first mid : List Nat) : R Step := do
  let b ← rdHead mid
  if 1 < st then
    if b < 0x80 ∨ 0xc0 ≤ b then return .err mid st
    else return .emit [(st ||| (b &&& 0x3f)) % 2 ^ C.w] (mid.drop 1) first 1
  else
    match inLead b with
    | none => return .err (mid.drop 1) st
    | some (ch, n) =>
      let nskip := if n < 3 then 0 else 1
      if n ≠ 0 ∧ mid.length < n + 1 - nskip then return .brk mid mid st
      else do
        let (good, m, ch) ← inCont (n - nskip) (mid.drop 1) ch
        if !good then return .err m st
        else
          let ch := if 0 < nskip then u32 (ch <<< 6) else ch
          if (if C.max < 0x10ffff then C.max else 0x10ffff) < ch then return .err m st
          else if 0xffff < ch then
            let w0 := (0xd800 ||| (ch >>> 10 - 0x0040)) % 65536
            return .emit [w0 % 2 ^ C.w] m mid ((0xdc00 ||| (ch &&& 0x03ff)) % 65536)
          else in816Last C st nskip ch m mid

/-- `codecvt_utf8_utf16::do_in` (codecvt:457-569). -/
def in816 (C : Cfg) (st : Nat) (s : List Nat) (room : Nat) : R CvtRes :=
  cvtLoop condNE (in816Step C) room (s.length + 1) s s [] st

/-- The code or its part, and `_Save` (codecvt:583-594); nothing for a bad second word. -/
def out816Code (st ch1 : Nat) : Option (Nat × Bool) :=
  if 1 < st then
    if ch1 < 0xdc00 ∨ 0xe000 ≤ ch1 then none else some (st <<< 10 ||| (ch1 - 0xdc00), false)
  else if 0xd800 ≤ ch1 ∧ ch1 < 0xdc00 then some ((ch1 - 0xd800 + 0x0040) <<< 10, true)
  else some (ch1, false)

/-- The first byte and `_Nextra` (codecvt:599-611). -/
def out816Lead (ch : Nat) : Nat × Nat :=
  if ch < 0x80 then (ch % 256, 0)
  else if ch < 0x800 then ((0xc0 ||| ch >>> 6) % 256, 1)
  else if ch < 0x10000 then ((0xe0 ||| ch >>> 12) % 256, 2)
  else ((0xf0 ||| ch >>> 18) % 256, 3)

/-- `for (; 0 < _Nput; --_Nput)` (codecvt:638-640): the second argument is `_Nput`, the third `_Nextra`. -/
def trailN (ch : Nat) : Nat → Nat → List Nat
  | 0, _ => []
  | k + 1, n => ((ch >>> (6 * (n - 1)) &&& 0x3f) ||| 0x80) % 256 :: trailN ch k (n - 1)

/-- The body of the loop of `codecvt_utf8_utf16::do_out` (codecvt:578-643). -/
def out816Step (C : Cfg) (room st : Nat) (first mid : List Nat) : R Step := do
  let c ← rdHead mid
  match out816Code st (c % 65536) with
  | none => return .err mid st
  | some (ch, save) =>
    let (b, n) := out816Lead ch
    let nput := if n < 3 then n + 1 else if save then 1 else 3
    if room < nput then return .brk mid first st
    else if C.gen ∧ st = 0 ∧ room < 3 + nput then return .brk mid first st
    else
      let pre := if C.gen ∧ st = 0 then bom8 else []
      let bytes := if save ∨ n < 3 then b :: trailN ch (nput - 1) n else trailN ch nput n
      return .emit (pre ++ bytes) (mid.drop 1) first (if save then ch >>> 10 % 65536 else 1)

/-- `codecvt_utf8_utf16::do_out` (codecvt:571-646). -/
def out816 (C : Cfg) (st : Nat) (s : List Nat) (room : Nat) : R CvtRes :=
  cvtLoop condNE (out816Step C) room (s.length + 1) s s [] st

/-! ## `do_in` -/

/-- The largest code that is delivered. -/
def lim16 (C : Cfg) : Nat := if C.max < 0x10ffff then C.max else 0x10ffff

/-- One conversion by `codecvt_utf8_utf16::do_in`: a whole code; all but the last byte of a code, giving the first
surrogate; the last byte, giving the second surrogate. The last six bits of long sequences do not take part in the check
against `_Mymax`. -/
def E816in (C : Cfg) (st : Nat) (a xs : List Nat) (st' : Nat) : Prop :=
  (st ≤ 1 ∧ st' = 1 ∧ ∃ c, Spec.Seq8 c a ∧ c < 0x10000 ∧ (if a.length ≤ 3 then c else c / 64 * 64) ≤ lim16 C ∧
    xs = [c % 2 ^ C.w]) ∨
  (st ≤ 1 ∧ ∃ c0, Spec.Half8 c0 a ∧ 0x10000 ≤ c0 ∧ c0 ≤ lim16 C ∧
    xs = [(0xD800 + (c0 - 0x10000) / 1024) % 2 ^ C.w] ∧ st' = 0xDC00 + (c0 - 0x10000) % 1024) ∨
  (1 < st ∧ ∃ b, a = [b] ∧ Spec.Trail b ∧ xs = [(st + (b - 0x80)) % 2 ^ C.w] ∧ st' = 1)

/-- The states that occur. -/
def I816 (C : Cfg) (st : Nat) : Prop :=
  (st ≤ 1 ∨ (0xDC00 ≤ st ∧ st < 0xE000 ∧ st % 64 = 0)) ∧ (st ≠ 0 ∨ C.consume = false)

theorem contVal_lt : ∀ (bs : List Nat) (v : Nat), (∀ x ∈ bs, Spec.Trail x) →
    Spec.contVal v bs < (v + 1) * 64 ^ bs.length
  | [], v, _ => by simp [Spec.contVal]
  | b :: bs, v, h => by
    have hb := h b (by simp)
    unfold Spec.Trail at hb
    have ih := contVal_lt bs (v * 64 + (b - 0x80)) (fun x hx => h x (by simp [hx]))
    have : Spec.contVal v (b :: bs) = Spec.contVal (v * 64 + (b - 0x80)) bs := by
      simp only [Spec.contVal, List.foldl_cons]
    rw [this, List.length_cons, Nat.pow_succ]
    refine lt_of_lt_of_le ih ?_
    rw [show (v + 1) * (64 ^ bs.length * 64) = ((v + 1) * 64) * 64 ^ bs.length by ring]
    exact Nat.mul_le_mul_right _ (by omega)

theorem contVal_append (v : Nat) (bs : List Nat) (b : Nat) :
    Spec.contVal v (bs ++ [b]) = Spec.contVal v bs * 64 + (b - 0x80) := by
  unfold Spec.contVal; rw [List.foldl_append]; rfl

/-- A last byte completes a half. -/
theorem half8_seq {c0 b : Nat} {h : List Nat} (hh : Spec.Half8 c0 h) (hb : Spec.Trail b) :
    Spec.Seq8 (c0 + (b - 0x80)) (h ++ [b]) := by
  obtain ⟨b0, bs, rfl, h1, h2, h3, h4, rfl⟩ := hh
  refine ⟨b0, bs ++ [b], rfl, ?_, ?_, ?_, ?_⟩
  · rw [List.length_append]; exact h2
  · rw [List.length_append]; exact h3
  · intro x hx
    rcases List.mem_append.1 hx with hx | hx
    · exact h4 x hx
    · rw [List.mem_singleton.1 hx]; exact hb
  · rw [contVal_append, List.length_append]; rfl

theorem half8_mod {c0 : Nat} {h : List Nat} (hh : Spec.Half8 c0 h) : c0 % 64 = 0 := by
  obtain ⟨b0, bs, rfl, h1, h2, h3, h4, rfl⟩ := hh
  omega

/-- No way to go on with the input makes it convertible. -/
def Bad816 (C : Cfg) (st : Nat) (s : List Nat) : Prop :=
  s ≠ [] ∧ ¬ ∃ u a xs st' t, E816in C st a xs st' ∧ s ++ u = a ++ t

/-- What a conversion in the states 0 and 1 takes: the first byte and the rest of a sequence. -/
theorem E816in_shape {C : Cfg} {st st' b n : Nat} {a xs s t : List Nat} (hst : st ≤ 1) (h : E816in C st a xs st')
    (h1 : (Spec.lead8 n).1 ≤ b) (h2 : b < (Spec.lead8 n).2) (he : b :: s = a ++ t) :
    ∃ bs, a = b :: bs ∧ s = bs ++ t ∧ (∀ x ∈ bs, Spec.Trail x) ∧
      ((bs.length = n ∧ (if n < 3 then Spec.contVal (b - (Spec.lead8 n).1) bs
          else Spec.contVal (b - (Spec.lead8 n).1) bs / 64 * 64) ≤ lim16 C ∧
          Spec.contVal (b - (Spec.lead8 n).1) bs < 0x10000) ∨
       (bs.length + 1 = n ∧ 3 ≤ n ∧ Spec.contVal (b - (Spec.lead8 n).1) bs * 64 ≤ lim16 C ∧
          0x10000 ≤ Spec.contVal (b - (Spec.lead8 n).1) bs * 64)) := by
  rcases h with ⟨_, _, c, ⟨b0, bs, rfl, h3, h4, h5, h6⟩, h7, h8, _⟩ |
    ⟨_, c0, ⟨b0, bs, rfl, h3, h4, h5, h6, h7⟩, h8, h9, _⟩ | ⟨h3, _⟩
  · simp only [List.cons_append, List.cons.injEq] at he
    obtain ⟨rfl, he⟩ := he
    have hn := lead8_unique h1 h2 h3 h4
    rw [← hn] at h6
    refine ⟨bs, rfl, he, h5, Or.inl ⟨hn.symm, ?_, by omega⟩⟩
    rw [← h6]
    by_cases h3 : n < 3
    · rw [if_pos h3]
      rw [if_pos (by simp only [List.length_cons]; omega)] at h8
      exact h8
    · rw [if_neg h3]
      rw [if_neg (by simp only [List.length_cons]; omega)] at h8
      exact h8
  · simp only [List.cons_append, List.cons.injEq] at he
    obtain ⟨rfl, he⟩ := he
    have hn := lead8_unique h1 h2 h4 h5
    rw [← hn] at h7
    exact ⟨bs, rfl, he, h6, Or.inr ⟨by omega, by omega, by omega, by omega⟩⟩
  · omega

theorem or_sixbits {s b : Nat} (hs : s % 64 = 0) (hb : Spec.Trail b) : s ||| (b &&& 0x3f) = s + (b - 0x80) := by
  unfold Spec.Trail at hb
  have h1 : b &&& 0x3f = b % 64 := Nat.and_two_pow_sub_one_eq_mod b 6
  have := Nat.two_pow_add_eq_or_of_lt (i := 6) (b := b % 64) (by omega) (s / 64)
  rw [h1]
  have h2 : 2 ^ 6 * (s / 64) = s := by omega
  rw [h2] at this
  rw [← this]; omega

theorem hi816 {ch : Nat} (h : 0x10000 ≤ ch) (h' : ch < 0x110000) :
    (0xd800 ||| (ch >>> 10 - 0x0040)) % 65536 = 0xD800 + (ch - 0x10000) / 1024 := by
  have h1 : ch >>> 10 = ch / 1024 := by rw [Nat.shiftRight_eq_div_pow]
  have := Nat.two_pow_add_eq_or_of_lt (i := 10) (b := ch >>> 10 - 0x0040) (by omega) 54
  rw [show 0xd800 = 2 ^ 10 * 54 by norm_num, ← this]; omega

theorem lo816 {ch : Nat} (h : 0x10000 ≤ ch) : (0xdc00 ||| (ch &&& 0x03ff)) % 65536 = 0xDC00 + (ch - 0x10000) % 1024 := by
  have h1 : (ch &&& 0x03ff) = ch % 1024 := Nat.and_two_pow_sub_one_eq_mod _ 10
  have := Nat.two_pow_add_eq_or_of_lt (i := 10) (b := ch % 1024) (by omega) 55
  rw [h1, show 0xdc00 = 2 ^ 10 * 55 by norm_num, ← this]; omega

/-- The text ends within a sequence, and what there is cannot be converted yet. -/
def Stuck816 (st : Nat) (s : List Nat) : Prop := st ≤ 1 ∧ Spec.Trunc8 s

/-- The body in the states 0 and 1, by cases on the text. In the second case `a` is what the pass consumed. -/
theorem in816Step_cases (C : Cfg) (room st : Nat) (first mid : List Nat) (hu : Units 8 mid) (hne : mid ≠ []) (hst : st ≤ 1) :
    (Spec.Trunc8 mid ∧ in816Step C room st first mid = .ok (.brk mid mid st)) ∨
    (∃ c a t, mid = a ++ t ∧ Spec.Seq8 c a ∧ c < 0x10000 ∧ (if a.length ≤ 3 then c else c / 64 * 64) ≤ lim16 C ∧
      in816Step C room st first mid = .ok (
        if st = 0 ∧ C.consume ∧ c = 0xfeff then .hdr t 1 else .emit [c % 2 ^ C.w] t mid 1)) ∨
    (∃ a t xs st', mid = a ++ t ∧ a ≠ [] ∧ 1 < st' ∧ E816in C st a xs st' ∧ xs.length = 1 ∧
      in816Step C room st first mid = .ok (.emit xs t mid st')) ∨
    (Bad816 C st mid ∧ ∃ m, m <:+ mid ∧ in816Step C room st first mid = .ok (.err m st)) := by
  match mid, hne with
  | b :: t, _ =>
  have hb : b < 256 := hu b (by simp)
  have hlim : lim16 C < 0x110000 := by unfold lim16; split <;> omega
  unfold in816Step
  rw [rdHead, R.ok_bind, if_neg (by omega)]
  rcases inLead_ok hb with ⟨h1, h2, h3⟩ | ⟨n, hn, h1, h2, h3⟩
  · refine Or.inr (Or.inr (Or.inr ⟨⟨by simp, ?_⟩, t, List.suffix_cons b t, by rw [h1]; rfl⟩))
    rintro ⟨u, a, xs, st', t', h4, h5⟩
    rcases h4 with ⟨_, _, c, ⟨b0, bs, rfl, h6, h7, _⟩, _⟩ | ⟨_, c0, ⟨b0, bs, rfl, _, h6, h7, _⟩, _⟩ | ⟨h6, _⟩
    · simp only [List.cons_append, List.cons.injEq] at h5
      obtain ⟨rfl, _⟩ := h5
      have := lead8_le5 h6 h7
      generalize bs.length = n at *
      interval_cases n <;> simp only [Spec.lead8] at * <;> omega
    · simp only [List.cons_append, List.cons.injEq] at h5
      obtain ⟨rfl, _⟩ := h5
      have := lead8_le5 h6 h7
      generalize bs.length + 1 = n at *
      interval_cases n <;> simp only [Spec.lead8] at * <;> omega
    · omega
  rw [h1]
  dsimp only
  -- from here on: what a conversion of a continuation of the text would have to be
  have hshape : ∀ u a xs st' t', E816in C st a xs st' → b :: t ++ u = a ++ t' →
      ∃ bs, a = b :: bs ∧ t ++ u = bs ++ t' ∧ (∀ x ∈ bs, Spec.Trail x) ∧
      ((bs.length = n ∧ (if n < 3 then Spec.contVal (b - (Spec.lead8 n).1) bs
          else Spec.contVal (b - (Spec.lead8 n).1) bs / 64 * 64) ≤ lim16 C ∧
          Spec.contVal (b - (Spec.lead8 n).1) bs < 0x10000) ∨
       (bs.length + 1 = n ∧ 3 ≤ n ∧ Spec.contVal (b - (Spec.lead8 n).1) bs * 64 ≤ lim16 C ∧
          0x10000 ≤ Spec.contVal (b - (Spec.lead8 n).1) bs * 64)) := by
    intro u a xs st' t' h4 h5
    exact E816in_shape hst h4 h2 h3 h5
  -- the bytes read in the first loop
  have hk : ∃ k, k = n - (if n < 3 then 0 else 1) := ⟨_, rfl⟩
  obtain ⟨k, hk⟩ := hk
  rw [← hk]
  have hkn : k ≤ n ∧ n ≤ k + 1 ∧ (n < 3 → k = n) ∧ (3 ≤ n → n = k + 1) := by split at hk <;> omega
  by_cases htr : n ≠ 0 ∧ (b :: t).length < n + 1 - (if n < 3 then 0 else 1)
  · left
    rw [if_pos htr]
    refine ⟨⟨b, t, n, rfl, h2, h3, ?_⟩, rfl⟩
    simp only [List.length_cons] at htr
    split at htr <;> omega
  rw [if_neg htr]
  have hkt : k ≤ t.length := by
    simp only [List.length_cons] at htr
    by_cases h0 : n = 0
    · omega
    · have : ¬ (t.length + 1 < n + 1 - (if n < 3 then 0 else 1)) := fun h => htr ⟨h0, h⟩
      split at this <;> split at hk <;> omega
  simp only [List.drop_succ_cons, List.drop_zero]
  have hv : k = 0 ∨ b - (Spec.lead8 n).1 < 2 ^ (32 - 6 * k) := by
    by_cases h0 : n < 3
    · have := hkn.2.2.1 h0
      subst this
      interval_cases k <;> simp only [Spec.lead8] at * <;> omega
    · have : 3 ≤ n := by omega
      have := hkn.2.2.2 this
      subst this
      have hk' : k ≤ 4 := by omega
      have hk2 : 2 ≤ k := by omega
      clear hk htr hkn hshape
      interval_cases k <;> simp only [Spec.lead8] at * <;> omega
  have hcont := inCont_ok k t (b - (Spec.lead8 n).1) hkt hv (by omega)
  have htake : (t.take k).length = k := by rw [List.length_take]; omega
  by_cases hall : ∀ x ∈ t.take k, Spec.Trail x
  swap
  · right; right; right
    obtain ⟨m, v', h4, h5⟩ := hcont.2 hall
    refine ⟨⟨by simp, ?_⟩, m, h5.trans (List.suffix_cons b t), by rw [h4]; rfl⟩
    rintro ⟨u, a, xs, st', t', h6, h7⟩
    obtain ⟨bs, _, h8, h9, h10⟩ := hshape u a xs st' t' h6 h7
    refine hall (fun x hx => h9 x ?_)
    have hkb : k ≤ bs.length := by omega
    have : t.take k = bs.take k := by
      have h11 := congrArg (List.take k) h8
      rw [List.take_append_of_le_length hkt, List.take_append_of_le_length hkb] at h11
      exact h11
    rw [this] at hx
    exact List.mem_of_mem_take hx
  rw [hcont.1 hall, R.ok_bind]
  dsimp only
  simp only [Bool.not_true, Bool.false_eq_true, if_false]
  have hvlt := contVal_lt (t.take k) (b - (Spec.lead8 n).1) hall
  rw [htake] at hvlt
  generalize hV : Spec.contVal (b - (Spec.lead8 n).1) (t.take k) = V at *
  have htk : ∀ bs u t', t ++ u = bs ++ t' → k ≤ bs.length → bs.take k = t.take k := by
    intro bs u t' h4 h5
    have h11 := congrArg (List.take k) h4
    rw [List.take_append_of_le_length hkt, List.take_append_of_le_length h5] at h11
    exact h11.symm
  by_cases h3n : n < 3
  · -- one, two or three bytes
    have hkn' : k = n := hkn.2.2.1 h3n
    simp only [h3n, if_true]
    rw [if_neg (Nat.lt_irrefl 0)]
    have hV16 : V < 0x10000 := by
      rw [hkn'] at hvlt
      clear hshape hcont htk hall htr hv
      interval_cases n <;> simp only [Spec.lead8] at * <;> omega
    have hseq : Spec.Seq8 V (b :: t.take k) :=
      ⟨b, t.take k, rfl, by rw [htake, hkn']; exact h2, by rw [htake, hkn']; exact h3, hall, by
        rw [htake, hkn', ← hV, hkn']⟩
    by_cases hl : (if C.max < 0x10ffff then C.max else 0x10ffff) < V
    · right; right; right
      rw [if_pos hl]
      refine ⟨⟨by simp, ?_⟩, t.drop k, (List.drop_suffix k t).trans (List.suffix_cons b t), rfl⟩
      rintro ⟨u, a, xs, st', t', h6, h7⟩
      obtain ⟨bs, _, h8, h9, h10⟩ := hshape u a xs st' t' h6 h7
      rcases h10 with ⟨h10, h11, _⟩ | h10
      · rw [if_pos h3n] at h11
        have : bs = t.take k := by
          rw [← htk bs u t' h8 (by omega), List.take_of_length_le (by omega)]
        rw [this, hV] at h11
        unfold lim16 at h11
        omega
      · omega
    · right; left
      rw [if_neg hl, if_neg (by omega)]
      refine ⟨V, b :: t.take k, t.drop k, by rw [List.cons_append, List.take_append_drop], hseq, hV16, ?_, ?_⟩
      · rw [if_pos (by simp only [List.length_cons]; omega)]; unfold lim16; omega
      · unfold in816Last
        rw [if_neg (by simp), if_neg (by simp), R.ok_bind]
        dsimp only
        simp only [Bool.not_true, Bool.false_eq_true, if_false]
        split <;> rfl
  · -- four to six bytes
    have hkn' : n = k + 1 := hkn.2.2.2 (by omega)
    simp only [h3n, if_false]
    rw [if_pos Nat.zero_lt_one]
    have hV26 : V < 2 ^ 26 := by
      clear hshape hcont htk hall htr hv
      have hk' : k ≤ 4 := by omega
      have hk2 : 2 ≤ k := by omega
      subst hkn'
      interval_cases k <;> simp only [Spec.lead8] at * <;> omega
    have hsh : u32 (V <<< 6) = V * 64 := by
      unfold u32; rw [Nat.shiftLeft_eq]; omega
    rw [hsh]
    have hhalf : Spec.Half8 (V * 64) (b :: t.take k) :=
      ⟨b, t.take k, rfl, by omega, by rw [htake, ← hkn']; exact h2, by rw [htake, ← hkn']; exact h3, hall, by
        rw [htake, ← hkn', hV]⟩
    have hmid : b :: t = (b :: t.take k) ++ t.drop k := by rw [List.cons_append, List.take_append_drop]
    by_cases hl : (if C.max < 0x10ffff then C.max else 0x10ffff) < V * 64
    · right; right; right
      rw [if_pos hl]
      refine ⟨⟨by simp, ?_⟩, t.drop k, (List.drop_suffix k t).trans (List.suffix_cons b t), rfl⟩
      rintro ⟨u, a, xs, st', t', h6, h7⟩
      obtain ⟨bs, _, h8, h9, h10⟩ := hshape u a xs st' t' h6 h7
      have hbk := htk bs u t' h8 (by omega)
      have hbs : bs = t.take k ++ bs.drop k := by rw [← hbk, List.take_append_drop]
      rcases h10 with ⟨h10, h11, h12⟩ | ⟨h10, _, h11, h12⟩
      · rw [if_neg h3n] at h11
        match hd : bs.drop k with
        | [] => have := congrArg List.length hd; rw [List.length_drop] at this; simp at this; omega
        | [x] =>
          rw [hd] at hbs
          have hx := h9 x (by rw [hbs]; simp)
          unfold Spec.Trail at hx
          rw [hbs, contVal_append, hV] at h11
          unfold lim16 at h11
          omega
        | _ :: _ :: _ => have := congrArg List.length hd; rw [List.length_drop] at this; simp at this; omega
      · have : bs = t.take k := by
          rw [← hbk, List.take_of_length_le (by omega)]
        rw [this, hV] at h11
        unfold lim16 at h11
        omega
    rw [if_neg hl]
    have hl' : V * 64 ≤ lim16 C := by unfold lim16; omega
    by_cases hbig : 0xffff < V * 64
    · right; right; left
      rw [if_pos hbig, hi816 (by omega) (by omega), lo816 (by omega)]
      refine ⟨b :: t.take k, t.drop k, _, _, hmid, by simp, ?_,
        Or.inr (Or.inl ⟨hst, V * 64, hhalf, by omega, hl', rfl, rfl⟩), rfl, rfl⟩
      omega
    rw [if_neg hbig]
    unfold in816Last
    match hd : t.drop k with
    | [] =>
      left
      rw [if_pos ⟨by omega, rfl⟩]
      refine ⟨⟨b, t, n, rfl, h2, h3, ?_⟩, rfl⟩
      have := congrArg List.length hd; rw [List.length_drop] at this; simp at this; omega
    | x :: r =>
      have htx : t = t.take k ++ x :: r := by rw [← hd, List.take_append_drop]
      rw [if_neg (by simp), if_pos (by omega), rdHead, R.ok_bind]
      simp only [List.drop_succ_cons, List.drop_zero]
      by_cases hx : Spec.Trail x
      · right; left
        have hseq := half8_seq hhalf hx
        refine ⟨V * 64 + (x - 0x80), (b :: t.take k) ++ [x], r, ?_, hseq, ?_, ?_, ?_⟩
        · rw [List.append_assoc, List.singleton_append, List.cons_append, ← htx]
        · unfold Spec.Trail at hx; omega
        · rw [if_neg (by rw [List.length_append, List.length_cons, htake]; simp; omega)]
          unfold Spec.Trail at hx; omega
        · rw [or_sixbits (by omega) hx]
          have hdec : decide (¬ (x < 0x80 ∨ 0xc0 ≤ x)) = true := by
            unfold Spec.Trail at hx; simp; omega
          rw [hdec]
          generalize V * 64 + (x - 0x80) = c
          rw [show (pure (true, r, c) : R (Bool × List Nat × Nat)) = .ok (true, r, c) from rfl, R.ok_bind]
          dsimp only
          simp only [Bool.not_true, Bool.false_eq_true, if_false]
          by_cases hcond : st = 0 ∧ C.consume ∧ c = 0xfeff
          · rw [if_pos hcond, if_pos hcond]; rfl
          · rw [if_neg hcond, if_neg hcond]; rfl
      · right; right; right
        refine ⟨⟨by simp, ?_⟩, r, ⟨b :: t.take k ++ [x], by
          rw [List.append_assoc, List.singleton_append, List.cons_append, ← htx]⟩, ?_⟩
        · rintro ⟨u, a, xs, st', t', h6, h7⟩
          obtain ⟨bs, _, h8, h9, h10⟩ := hshape u a xs st' t' h6 h7
          rcases h10 with ⟨h10, h11, h12⟩ | ⟨h10, _, h11, h12⟩
          · apply hx
            apply h9 x
            have h13 : (t ++ u)[k]? = some x := by
              rw [htx, List.append_assoc, List.getElem?_append_right (by omega), htake]; simp
            rw [h8, List.getElem?_append_left (by omega)] at h13
            exact List.mem_of_getElem? h13
          · have hbk := htk bs u t' h8 (by omega)
            have : bs = t.take k := by
              rw [← hbk, List.take_of_length_le (by omega)]
            rw [this, hV] at h12
            omega
        · have hdec : decide (¬ (x < 0x80 ∨ 0xc0 ≤ x)) = false := by
            unfold Spec.Trail at hx; simp; omega
          rw [hdec]
          rfl

theorem in816_stepOK (C : Cfg) :
    StepOK condNE (in816Step C) (I816 C) (Units 8) (E816in C) (Bad816 C) (fun st s _ => Stuck816 st s) true where
  suffix := fun a b h => (units_append.1 h).2
  inv := by
    rintro st a xs st' h (⟨_, h0, _⟩ | ⟨_, c0, h1, h2, h3, _, h0⟩ | ⟨_, _, _, _, _, h0⟩)
    · exact ⟨Or.inl (by omega), Or.inl (by omega)⟩
    · have := half8_mod h1
      exact ⟨Or.inr (by omega), Or.inl (by omega)⟩
    · exact ⟨Or.inl (by omega), Or.inl (by omega)⟩
  step := by
    intro room st first mid hI hu hc
    rw [condNE_true] at hc
    by_cases hst : st ≤ 1
    · rcases in816Step_cases C room st first mid hu hc.1 hst with ⟨h1, h2⟩ | ⟨c, a, t, h1, h2, h3, h4, h5⟩ |
        ⟨a, t, xs, st', h1, h2, _, h3, h4, h5⟩ | ⟨h1, m, h2, h3⟩
      · exact ⟨_, h2, rfl, ⟨hst, h1⟩, hI, fun _ _ _ h => h, Or.inr ⟨rfl, rfl⟩⟩
      · have hcond : ¬ (st = 0 ∧ C.consume ∧ c = 0xfeff) := by
          rintro ⟨h6, h7, _⟩
          rcases hI.2 with h | h
          · exact h h6
          · rw [h] at h7; cases h7
        rw [if_neg hcond] at h5
        exact ⟨_, h5, a, h1, seq8_ne h2, Or.inl ⟨hst, rfl, c, h2, h3, h4, rfl⟩, by simp; omega, Or.inr ⟨rfl, rfl⟩⟩
      · exact ⟨_, h5, a, h1, h2, h3, by omega, Or.inr ⟨rfl, rfl⟩⟩
      · exact ⟨_, h3, h1, h2⟩
    · match mid, hc.1 with
      | b :: t, _ =>
      unfold in816Step
      rw [rdHead, R.ok_bind, if_pos (by omega)]
      by_cases hb : Spec.Trail b
      · have hb' := hb
        unfold Spec.Trail at hb'
        rw [if_neg (by omega), or_sixbits (by have := hI.1; omega) hb]
        exact ⟨_, rfl, [b], rfl, by simp, Or.inr (Or.inr ⟨by omega, b, rfl, hb, rfl, rfl⟩), by simp; omega, Or.inl rfl⟩
      · have hb' := hb
        unfold Spec.Trail at hb'
        rw [if_pos (by omega)]
        refine ⟨_, rfl, ⟨by simp, ?_⟩, List.suffix_refl _⟩
        rintro ⟨u, a, xs, st', t', h4, h5⟩
        rcases h4 with ⟨h4, _⟩ | ⟨h4, _⟩ | ⟨_, b', rfl, h4, _⟩
        · omega
        · omega
        · simp only [List.cons_append, List.cons.injEq] at h5
          exact hb (h5.1 ▸ h4)

end STL.Utf
