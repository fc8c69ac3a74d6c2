import Verif.Utf.Utf8Props

/-!
# `codecvt_utf16` (stl/inc/codecvt:222-446)

The conversion state is 0 (nothing seen yet), `_Little_first` = 1 or `_Big_first` = 2 (codecvt:31).
-/

namespace STL.Utf

namespace Spec

/-- The two bytes of a code unit, in either byte order. -/
def bytes16 (little : Bool) (u : Nat) : List Nat := if little then [u % 256, u / 256] else [u / 256, u % 256]

/-- A code that UTF-16 can represent, or an isolated second surrogate (which the facet lets pass). -/
def Code16 (c : Nat) : Prop := c < 0x110000 ∧ ¬ (0xD800 ≤ c ∧ c < 0xDC00)

/-- The bytes of a code. -/
def encBytes16 (little : Bool) (c : Nat) : List Nat := (enc16 c).flatMap (bytes16 little)

/-- `s` ends within a code: a single byte, or a first surrogate with less than two bytes after it. -/
def Trunc16 (little : Bool) (s : List Nat) : Prop :=
  s.length = 1 ∨ ∃ u t, s = bytes16 little u ++ t ∧ 0xD800 ≤ u ∧ u < 0xDC00 ∧ t.length < 2

end Spec

/-- `_Ptr[i]`. -/
def rdAt (s : List Nat) (i : Nat) : R Nat := rdHead (s.drop i)

/-- The state that stands for the byte order of the facet (codecvt:259). -/
def defEnd (C : Cfg) : Nat := if C.little then 1 else 2

/-- `_Ptr[1] << 8 | _Ptr[0]` or `_Ptr[0] << 8 | _Ptr[1]` as `unsigned short` (codecvt:253, 255, 262, 264, 295, 297). -/
def word16 (little : Bool) (b0 b1 : Nat) : Nat :=
  (if little then b1 <<< 8 ||| b0 else b0 <<< 8 ||| b1) % 65536

/-- codecvt:309-313. -/
def in16Put (C : Cfg) (st ch : Nat) (mid first : List Nat) : Step :=
  if C.max < ch then .err mid st else .emit [ch % 2 ^ C.w] mid first st

/-- codecvt:288-313. -/
def in16Rest (C : Cfg) (st ch0 : Nat) (first mid : List Nat) : R Step :=
  if ch0 < 0xd800 ∨ 0xdc00 ≤ ch0 then .ok (in16Put C st ch0 (mid.drop 2) first)
  else if mid.length < 4 then .ok (.brk mid first st)
  else do
    let b2 ← rdAt mid 2
    let b3 ← rdAt mid 3
    let ch1 := word16 (decide (st = 1)) b2 b3
    if ch1 < 0xdc00 ∨ 0xe000 ≤ ch1 then return .err mid st
    else return in16Put C st ((ch0 - 0xd800 + 0x0040) <<< 10 ||| (ch1 - 0xdc00)) (mid.drop 4) first

/-- The body of the loop of `codecvt_utf16::do_in` (codecvt:246-314). -/
def in16Step (C : Cfg) (_room st : Nat) (first mid : List Nat) : R Step := do
  let b0 ← rdAt mid 0
  let b1 ← rdAt mid 1
  if st = 1 then in16Rest C st (word16 true b0 b1) first mid
  else if st = 2 then in16Rest C st (word16 false b0 b1) first mid
  else
    let ch0 := word16 C.little b0 b1
    if C.consume ∧ ch0 = 0xfffe then return .hdr (mid.drop 2) (3 - defEnd C)
    else if C.consume ∧ ch0 = 0xfeff then return .hdr (mid.drop 2) (defEnd C)
    else in16Rest C (defEnd C) ch0 first mid

/-- `_Bytes_per_word <= _Last1 - _Mid1 && _Mid2 != _Last2` (codecvt:246). -/
def cond16in (mid : List Nat) (room : Nat) : Bool := decide (2 ≤ mid.length ∧ room ≠ 0)

/-- `codecvt_utf16::do_in` (codecvt:239-318). -/
def in16 (C : Cfg) (st : Nat) (s : List Nat) (room : Nat) : R CvtRes :=
  cvtLoop cond16in (in16Step C) room (s.length + 1) s s [] st

/-- The two bytes written for a word (codecvt:370-371, 379-380, 385-386, 394-395). -/
def put16 (st u : Nat) : List Nat := if st = 1 then [u % 256, u >>> 8 % 256] else [u >>> 8 % 256, u % 256]

/-- The body of the loop of `codecvt_utf16::do_out` (codecvt:346-397). -/
def out16Step (C : Cfg) (room st : Nat) (first mid : List Nat) : R Step := do
  let ch ← rdHead mid
  if (if C.max < 0x10ffff then C.max else 0x10ffff) < ch then return .err (mid.drop 1) st
  else if ch ≤ 0xffff then
    if 0xd800 ≤ ch ∧ ch < 0xdc00 then return .err (mid.drop 1) st
    else return .emit (put16 st ch) (mid.drop 1) first st
  else if room < 4 then return .part mid st
  else
    let w0 := (0xd800 ||| (ch >>> 10 % 65536 - 0x0040)) % 65536
    let w1 := (0xdc00 ||| (ch % 65536 &&& 0x03ff)) % 65536
    return .emit (put16 st w0 ++ put16 st w1) (mid.drop 1) first st

/-- `_Mid1 != _Last1 && _Bytes_per_word <= _Last2 - _Mid2` (codecvt:346). -/
def cond16out (mid : List Nat) (room : Nat) : Bool := decide (mid.length ≠ 0 ∧ 2 ≤ room)

/-- The header (codecvt:335-341). -/
def bom16 (st : Nat) : List Nat := if st = 1 then [0xff, 0xfe] else [0xfe, 0xff]

/-- `codecvt_utf16::do_out` (codecvt:320-400). -/
def out16 (C : Cfg) (st : Nat) (s : List Nat) (room : Nat) : R CvtRes :=
  if st = 0 then
    if C.gen then
      if room < 6 then .ok ⟨.part, s, [], defEnd C⟩
      else cvtLoop cond16out (out16Step C) room (s.length + 1) s s (bom16 (defEnd C)) (defEnd C)
    else cvtLoop cond16out (out16Step C) room (s.length + 1) s s [] (defEnd C)
  else cvtLoop cond16out (out16Step C) room (s.length + 1) s s [] st

/-! ## Proofs -/

/-- The byte order in use in a state. -/
def order (C : Cfg) (st : Nat) : Bool := if st = 1 then true else if st = 2 then false else C.little

theorem order_def (C : Cfg) : order C (defEnd C) = C.little := by
  unfold order defEnd; cases C.little <;> simp

theorem defEnd_ne (C : Cfg) : defEnd C ≠ 0 ∧ defEnd C ≤ 2 := by
  unfold defEnd; cases C.little <;> simp

/-- The state after the first code. -/
def norm16 (C : Cfg) (st : Nat) : Nat := if st = 0 then defEnd C else st

theorem word16_le {b0 b1 : Nat} (h0 : b0 < 256) (h1 : b1 < 256) : word16 true b0 b1 = b1 * 256 + b0 := by
  unfold word16
  rw [if_pos rfl, Nat.or_comm, or_shl8 h0]
  omega
where
  or_shl8 {a b : Nat} (h : a < 256) : a ||| b <<< 8 = b * 256 + a := by
    rw [Nat.or_comm, Nat.shiftLeft_eq, Nat.mul_comm]
    rw [show (2 : Nat) ^ 8 = 256 from rfl]
    have := Nat.two_pow_add_eq_or_of_lt (i := 8) (b := a) (by simpa using h) b
    rw [show (2 : Nat) ^ 8 = 256 from rfl] at this
    omega

theorem word16_be {b0 b1 : Nat} (h0 : b0 < 256) (h1 : b1 < 256) : word16 false b0 b1 = b0 * 256 + b1 := by
  have := word16_le h1 h0
  unfold word16 at *
  simpa using this

theorem bytes16_word {l : Bool} {b0 b1 : Nat} (h0 : b0 < 256) (h1 : b1 < 256) :
    Spec.bytes16 l (word16 l b0 b1) = [b0, b1] ∧ word16 l b0 b1 < 65536 := by
  cases l
  · rw [word16_be h0 h1]; unfold Spec.bytes16; simp; omega
  · rw [word16_le h0 h1]; unfold Spec.bytes16; simp; omega

theorem bytes16_inj {l : Bool} {u v : Nat} {s t : List Nat} (h : Spec.bytes16 l u ++ s = Spec.bytes16 l v ++ t) :
    u = v ∧ s = t := by
  unfold Spec.bytes16 at h
  cases l <;> simp at h <;> refine ⟨by omega, h.2.2⟩

theorem bytes16_length (l : Bool) (u : Nat) : (Spec.bytes16 l u).length = 2 := by
  unfold Spec.bytes16; split <;> rfl

/-- One code converted by `codecvt_utf16::do_in`. -/
def E16in (C : Cfg) (st : Nat) (a xs : List Nat) (st' : Nat) : Prop :=
  ∃ c, Spec.Code16 c ∧ a = Spec.encBytes16 (order C st) c ∧ c ≤ C.max ∧ xs = [c % 2 ^ C.w] ∧ st' = norm16 C st

/-- What follows is neither a code up to `max` nor incomplete. -/
def Bad16 (max : Nat) (l : Bool) (s : List Nat) : Prop :=
  s ≠ [] ∧ ¬ Spec.Trunc16 l s ∧ ¬ ∃ c t, Spec.Code16 c ∧ c ≤ max ∧ s = Spec.encBytes16 l c ++ t

theorem enc16_lt {c : Nat} (h : c < 0x10000) (l : Bool) : Spec.encBytes16 l c = Spec.bytes16 l c := by
  unfold Spec.encBytes16 Spec.enc16
  rw [if_pos h]; simp

theorem enc16_ge {c : Nat} (h : 0x10000 ≤ c) (l : Bool) : Spec.encBytes16 l c =
    Spec.bytes16 l (0xD800 + (c - 0x10000) / 1024) ++ Spec.bytes16 l (0xDC00 + (c - 0x10000) % 1024) := by
  unfold Spec.encBytes16 Spec.enc16
  rw [if_neg (by omega)]; simp

theorem encBytes16_unique {l : Bool} {c c' : Nat} {t t' : List Nat} (h : Spec.Code16 c) (h' : Spec.Code16 c')
    (he : Spec.encBytes16 l c ++ t = Spec.encBytes16 l c' ++ t') : c = c' ∧ t = t' := by
  unfold Spec.Code16 at h h'
  by_cases h1 : c < 0x10000 <;> by_cases h2 : c' < 0x10000
  · rw [enc16_lt h1, enc16_lt h2] at he; exact bytes16_inj he
  · rw [enc16_lt h1, enc16_ge (by omega), List.append_assoc] at he
    have := (bytes16_inj he).1; omega
  · rw [enc16_lt h2, enc16_ge (by omega), List.append_assoc] at he
    have := (bytes16_inj he).1; omega
  · rw [enc16_ge (by omega), enc16_ge (by omega), List.append_assoc, List.append_assoc] at he
    obtain ⟨h3, he⟩ := bytes16_inj he
    obtain ⟨h4, he⟩ := bytes16_inj he
    exact ⟨by omega, he⟩

theorem encBytes16_not_trunc {l : Bool} {c : Nat} {t : List Nat} (h : Spec.Code16 c) :
    ¬ Spec.Trunc16 l (Spec.encBytes16 l c ++ t) := by
  unfold Spec.Code16 at h
  by_cases h1 : c < 0x10000
  · rw [enc16_lt h1]
    rintro (h2 | ⟨u, t', h2, h3, h4, h5⟩)
    · rw [List.length_append, bytes16_length] at h2; omega
    · have := (bytes16_inj h2).1; omega
  · rw [enc16_ge (by omega), List.append_assoc]
    rintro (h2 | ⟨u, t', h2, h3, h4, h5⟩)
    · rw [List.length_append, bytes16_length] at h2; omega
    · obtain ⟨_, rfl⟩ := bytes16_inj h2
      rw [List.length_append, bytes16_length] at h5; omega

theorem pair_or {a b : Nat} (ha : 0xd800 ≤ a) (ha' : a < 0xdc00) (hb : 0xdc00 ≤ b) (hb' : b < 0xe000) :
    (a - 0xd800 + 0x0040) <<< 10 ||| (b - 0xdc00) = 0x10000 + (a - 0xd800) * 1024 + (b - 0xdc00) := by
  rw [Nat.shiftLeft_eq, Nat.mul_comm]
  have := Nat.two_pow_add_eq_or_of_lt (i := 10) (b := b - 0xdc00) (by omega) (a - 0xd800 + 0x0040)
  rw [← this]; omega

/-- codecvt:288-313, by cases on the text. -/
theorem in16Rest_cases (C : Cfg) (l : Bool) (st b0 b1 : Nat) (t first : List Nat) (hl : l = decide (st = 1))
    (hu : Units 8 (b0 :: b1 :: t)) :
    let mid := b0 :: b1 :: t
    (Spec.Trunc16 l mid ∧ in16Rest C st (word16 l b0 b1) first mid = .ok (.brk mid first st)) ∨
    (∃ c t', Spec.Code16 c ∧ mid = Spec.encBytes16 l c ++ t' ∧
      in16Rest C st (word16 l b0 b1) first mid = .ok (in16Put C st c t' first)) ∨
    (¬ Spec.Trunc16 l mid ∧ (¬ ∃ c t, Spec.Code16 c ∧ mid = Spec.encBytes16 l c ++ t) ∧
      in16Rest C st (word16 l b0 b1) first mid = .ok (.err mid st)) := by
  intro mid
  have hmid0 : mid = b0 :: b1 :: t := rfl
  clear_value mid
  have h0 : b0 < 256 := hu b0 (by simp)
  have h1 : b1 < 256 := hu b1 (by simp)
  obtain ⟨hw, hw'⟩ := bytes16_word (l := l) h0 h1
  have hmid : mid = Spec.bytes16 l (word16 l b0 b1) ++ t := by rw [hw, hmid0]; rfl
  generalize hW : word16 l b0 b1 = W at *
  unfold in16Rest
  by_cases hs : W < 0xd800 ∨ 0xdc00 ≤ W
  · right; left
    refine ⟨W, t, ⟨by omega, by omega⟩, by rw [enc16_lt hw', hmid], ?_⟩
    rw [if_pos hs, hmid0]; rfl
  rw [if_neg hs]
  by_cases hlen : mid.length < 4
  · left
    rw [if_pos hlen]
    refine ⟨Or.inr ⟨W, t, hmid, by omega, by omega, ?_⟩, rfl⟩
    rw [hmid, List.length_append, bytes16_length] at hlen; omega
  rw [if_neg hlen]
  match t, hu, hmid0, hmid with
  | [], _, hmid0, _ => exact absurd (by simp [hmid0]) hlen
  | [_], _, hmid0, _ => exact absurd (by simp [hmid0]) hlen
  | b2 :: b3 :: t, hu, hmid0, _ =>
  right
  have h2 : b2 < 256 := hu b2 (by simp)
  have h3 : b3 < 256 := hu b3 (by simp)
  obtain ⟨hv, hv'⟩ := bytes16_word (l := l) h2 h3
  have hr2 : rdAt mid 2 = .ok b2 := by rw [hmid0]; rfl
  have hr3 : rdAt mid 3 = .ok b3 := by rw [hmid0]; rfl
  rw [hr2, R.ok_bind, hr3, R.ok_bind]
  dsimp only
  rw [← hl]
  have hmid : mid = Spec.bytes16 l W ++ (Spec.bytes16 l (word16 l b2 b3) ++ t) := by rw [hv, hw, hmid0]; rfl
  generalize word16 l b2 b3 = X at *
  by_cases hx : X < 0xdc00 ∨ 0xe000 ≤ X
  · right
    rw [if_pos hx]
    refine ⟨?_, ?_, rfl⟩
    · rintro (h | ⟨u, t', h, _, _, h5⟩)
      · simp [hmid0] at h
      · rw [hmid] at h
        obtain ⟨_, rfl⟩ := bytes16_inj h
        rw [List.length_append, bytes16_length] at h5; omega
    · rintro ⟨c, t', ⟨h4, h5⟩, h6⟩
      by_cases h7 : c < 0x10000
      · rw [enc16_lt h7, hmid] at h6
        have := (bytes16_inj h6).1; omega
      · rw [enc16_ge (by omega), hmid, List.append_assoc] at h6
        have := (bytes16_inj (bytes16_inj h6).2).1; omega
  · left
    rw [if_neg hx, pair_or (by omega) (by omega) (by omega) (by omega)]
    have hd : mid.drop 4 = t := by rw [hmid0]; rfl
    rw [hd]
    refine ⟨0x10000 + (W - 0xd800) * 1024 + (X - 0xdc00), t, ⟨?_, ?_⟩, ?_, ?_⟩
    · omega
    · omega
    rotate_left
    · generalize 0x10000 + (W - 0xd800) * 1024 + (X - 0xdc00) = c
      rfl
    · rw [hmid, enc16_ge (by omega), List.append_assoc]
      rw [show 0xD800 + (0x10000 + (W - 0xd800) * 1024 + (X - 0xdc00) - 0x10000) / 1024 = W by omega,
        show 0xDC00 + (0x10000 + (W - 0xd800) * 1024 + (X - 0xdc00) - 0x10000) % 1024 = X by omega]

theorem cond16in_true {mid : List Nat} {room : Nat} : cond16in mid room = true ↔ 2 ≤ mid.length ∧ room ≠ 0 := by
  unfold cond16in; simp only [decide_eq_true_eq]

theorem cond16out_true {mid : List Nat} {room : Nat} : cond16out mid room = true ↔ mid ≠ [] ∧ 2 ≤ room := by
  unfold cond16out; simp only [decide_eq_true_eq]
  rw [Ne, List.length_eq_zero_iff]

/-- The start of the body, when no header is looked for. -/
theorem in16Step_eq (C : Cfg) (room st b0 b1 : Nat) (first t : List Nat)
    (hst : st ≤ 2 ∧ (st ≠ 0 ∨ C.consume = false)) :
    in16Step C room st first (b0 :: b1 :: t) =
      in16Rest C (norm16 C st) (word16 (order C st) b0 b1) first (b0 :: b1 :: t) := by
  unfold in16Step
  have hr0 : rdAt (b0 :: b1 :: t) 0 = .ok b0 := rfl
  have hr1 : rdAt (b0 :: b1 :: t) 1 = .ok b1 := rfl
  rw [hr0, R.ok_bind, hr1, R.ok_bind]
  have h3 : st = 0 ∨ st = 1 ∨ st = 2 := by omega
  rcases h3 with rfl | rfl | rfl
  · have hc : C.consume = false := by
      rcases hst.2 with h | h
      · exact absurd rfl h
      · exact h
    simp [hc, norm16, order]
  · simp [norm16, order]
  · simp [norm16, order]

theorem order_norm (C : Cfg) (st : Nat) : order C (norm16 C st) = order C st := by
  unfold norm16
  split
  · subst st; rw [order_def]; rfl
  · rfl

theorem order_decide (C : Cfg) {st : Nat} (h : st ≤ 2) : order C st = decide (norm16 C st = 1) := by
  have h3 : st = 0 ∨ st = 1 ∨ st = 2 := by omega
  rcases h3 with rfl | rfl | rfl
  · unfold norm16 order defEnd; cases C.little <;> simp
  · rfl
  · rfl

theorem norm16_idem (C : Cfg) (st : Nat) : norm16 C (norm16 C st) = norm16 C st := by
  unfold norm16; split
  · rw [if_neg (defEnd_ne C).1]
  · rfl

theorem in16_stepOK (C : Cfg) :
    StepOK cond16in (in16Step C) (fun st => st ≤ 2 ∧ (st ≠ 0 ∨ C.consume = false)) (Units 8) (E16in C)
      (fun st s => Bad16 C.max (order C st) s) (fun st s _ => Spec.Trunc16 (order C st) s) false where
  suffix := fun a b h => (units_append.1 h).2
  inv := by
    rintro st a xs st' h ⟨c, _, _, _, _, rfl⟩
    have := defEnd_ne C
    unfold norm16; split
    · exact ⟨this.2, Or.inl this.1⟩
    · exact ⟨h.1, Or.inl (by assumption)⟩
  step := by
    intro room st first mid hI hu hc
    rw [cond16in_true] at hc
    match mid, hc, hu with
    | [], hc, _ => simp at hc
    | [_], hc, _ => simp at hc
    | b0 :: b1 :: t, hc, hu =>
    rw [in16Step_eq C room st b0 b1 first t hI]
    have hE : ∀ a xs s, E16in C (norm16 C st) a xs s → E16in C st a xs s := by
      rintro a xs s ⟨c, h1, h2, h3, h4, h5⟩
      rw [order_norm] at h2
      rw [norm16_idem] at h5
      exact ⟨c, h1, h2, h3, h4, h5⟩
    have hIn : norm16 C st ≤ 2 ∧ (norm16 C st ≠ 0 ∨ C.consume = false) := by
      have := defEnd_ne C
      unfold norm16; split
      · exact ⟨this.2, Or.inl this.1⟩
      · exact ⟨hI.1, Or.inl (by assumption)⟩
    rcases in16Rest_cases C (order C st) (norm16 C st) b0 b1 t first (order_decide C hI.1) hu with
      ⟨h1, h2⟩ | ⟨c, t', h1, h2, h3⟩ | ⟨h1, h2, h3⟩
    · exact ⟨_, h2, rfl, h1, hIn, hE, Or.inl rfl⟩
    · unfold in16Put at h3
      by_cases hm : C.max < c
      · rw [if_pos hm] at h3
        refine ⟨_, h3, ⟨by simp, ?_, ?_⟩, ⟨_, h2.symm⟩⟩
        · rw [h2]; exact encBytes16_not_trunc h1
        · rintro ⟨c', t'', h4, h5, h6⟩
          obtain ⟨rfl, _⟩ := encBytes16_unique h1 h4 (h2.symm.trans h6)
          omega
      · rw [if_neg hm] at h3
        refine ⟨_, h3, _, h2, ?_, ⟨c, h1, rfl, by omega, rfl, rfl⟩, by simp; omega, Or.inl rfl⟩
        intro h
        have := congrArg List.length h
        by_cases h7 : c < 0x10000
        · rw [enc16_lt h7, bytes16_length] at this; simp at this
        · rw [enc16_ge (by omega), List.length_append, bytes16_length] at this; simp at this
    · exact ⟨_, h3, ⟨by simp, h1, fun ⟨c, t, h4, _, h6⟩ => h2 ⟨c, t, h4, h6⟩⟩, List.suffix_refl _⟩

/-- One code converted by `codecvt_utf16::do_out`. -/
def E16out (C : Cfg) (st : Nat) (a xs : List Nat) (st' : Nat) : Prop :=
  ∃ c, a = [c] ∧ Spec.Code16 c ∧ c ≤ C.max ∧ xs = Spec.encBytes16 (order C st) c ∧ st' = st

theorem put16_eq (C : Cfg) {st u : Nat} (h : st = 1 ∨ st = 2) (hu : u < 65536) :
    put16 st u = Spec.bytes16 (order C st) u := by
  have : u >>> 8 % 256 = u / 256 := by
    rw [Nat.shiftRight_eq_div_pow]; omega
  unfold put16 Spec.bytes16 order
  rcases h with rfl | rfl <;> simp <;> omega

theorem hi16 {ch : Nat} (h : 0x10000 ≤ ch) (h' : ch < 0x110000) :
    (0xd800 ||| (ch >>> 10 % 65536 - 0x0040)) % 65536 = 0xD800 + (ch - 0x10000) / 1024 := by
  have h1 : ch >>> 10 % 65536 = ch / 1024 := by rw [Nat.shiftRight_eq_div_pow]; omega
  have := Nat.two_pow_add_eq_or_of_lt (i := 10) (b := ch >>> 10 % 65536 - 0x0040) (by omega) 54
  rw [show 0xd800 = 2 ^ 10 * 54 by norm_num, ← this]; omega

theorem lo16 (ch : Nat) : (0xdc00 ||| (ch % 65536 &&& 0x03ff)) % 65536 = 0xDC00 + (ch - 0x10000) % 1024 ∨ ch < 0x10000 := by
  by_cases h : ch < 0x10000
  · exact Or.inr h
  left
  have h1 : (ch % 65536 &&& 0x03ff) = ch % 65536 % 1024 := Nat.and_two_pow_sub_one_eq_mod _ 10
  have := Nat.two_pow_add_eq_or_of_lt (i := 10) (b := ch % 65536 % 1024) (by omega) 55
  rw [h1, show 0xdc00 = 2 ^ 10 * 55 by norm_num, ← this]; omega

theorem out16_stepOK (C : Cfg) :
    StepOK cond16out (out16Step C) (fun st => st = 1 ∨ st = 2) (Units 32) (E16out C)
      (fun _ s => ∃ c t, s = c :: t ∧ ¬ (Spec.Code16 c ∧ c ≤ C.max))
      (fun _ s room => ∃ c t, s = c :: t ∧ 0x10000 ≤ c ∧ room < 4) true where
  suffix := fun a b h => (units_append.1 h).2
  inv := by rintro st a xs st' h ⟨c, _, _, _, _, rfl⟩; exact h
  step := by
    intro room st first mid hI hu hc
    rw [cond16out_true] at hc
    match mid, hc with
    | [], hc => exact absurd rfl hc.1
    | ch :: t, hc =>
    unfold out16Step
    rw [rdHead, R.ok_bind]
    by_cases hm : (if C.max < 0x10ffff then C.max else 0x10ffff) < ch
    · rw [if_pos hm]
      refine ⟨_, rfl, ⟨ch, t, rfl, ?_⟩, List.suffix_cons ch t⟩
      rintro ⟨⟨h1, _⟩, h2⟩
      split at hm <;> omega
    rw [if_neg hm]
    have hm' : ch ≤ C.max ∧ ch < 0x110000 := by split at hm <;> omega
    by_cases h1 : ch ≤ 0xffff
    · rw [if_pos h1]
      by_cases h2 : 0xd800 ≤ ch ∧ ch < 0xdc00
      · rw [if_pos h2]
        exact ⟨_, rfl, ⟨ch, t, rfl, fun h => h.1.2 h2⟩, List.suffix_cons ch t⟩
      · rw [if_neg h2]
        refine ⟨_, rfl, [ch], rfl, by simp, ⟨ch, rfl, ⟨hm'.2, h2⟩, hm'.1, ?_, rfl⟩, ?_, Or.inl rfl⟩
        · rw [put16_eq C hI (by omega), enc16_lt (by omega)]
        · rw [put16_eq C hI (by omega), bytes16_length]; exact hc.2
    · rw [if_neg h1]
      by_cases h2 : room < 4
      · rw [if_pos h2]
        exact ⟨_, rfl, rfl, ⟨ch, t, rfl, by omega, h2⟩, hI, fun _ _ _ h => h, rfl⟩
      · rw [if_neg h2, hi16 (by omega) hm'.2, (lo16 ch).resolve_right (by omega)]
        refine ⟨_, rfl, [ch], rfl, by simp, ⟨ch, rfl, ⟨hm'.2, by omega⟩, hm'.1, ?_, rfl⟩, ?_, Or.inl rfl⟩
        · rw [put16_eq C hI (by omega), put16_eq C hI (by omega), enc16_ge (by omega)]
        · rw [put16_eq C hI (by omega), put16_eq C hI (by omega), List.length_append, bytes16_length, bytes16_length]
          omega

end STL.Utf
