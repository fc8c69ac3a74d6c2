import Verif.Utf.FormatProofs

/-! # Conversions between UTF-32 and UTF-16 of `<filesystem>` -/

namespace STL.Utf

/-- `_Throw_system_error(errc::invalid_argument)`. -/
abbrev throwInvalid {α : Type} : R α := .error (.exc .invalidArgument)

/-- `static_cast<wchar_t>(x)` for `wchar_t` of 16 bits. -/
abbrev u16 (x : Nat) : Nat := x % 2 ^ 16

/-- The loop of `_Convert_utf32_to_wide` (filesystem:84-107); `out` is `_Output`. -/
def utf32ToWideGo : List Nat → List Nat → R (List Nat)
  | [], out => .ok out
  | c :: s, out =>
    if c ≤ 0xD7FF then utf32ToWideGo s (out ++ [u16 c])
    else if c ≤ 0xDFFF then throwInvalid
    else if c ≤ 0xFFFF then utf32ToWideGo s (out ++ [u16 c])
    else if c ≤ 0x10FFFF then
      utf32ToWideGo s (out ++ [u16 (u32 (0xD7C0 + (c >>> 10)))] ++ [u16 (u32 (0xDC00 + (c &&& 0x3FF)))])
    else throwInvalid

/-- `_Convert_utf32_to_wide` (filesystem:84-107). -/
def utf32ToWide (s : List Nat) : R (List Nat) := utf32ToWideGo s []

/-- The loop of `_Convert_wide_to_utf32` (filesystem:120-141), with `_First` as an offset. -/
def wideToUtf32Go (s : List Nat) : Nat → Nat → List Nat → R (List Nat)
  | 0, _, _ => .error .fuel
  | f + 1, first, out =>
    if first = s.length then .ok out
    else do
      let c ← rdu s first
      if c ≤ 0xD7FF then wideToUtf32Go s f (first + 1) (out ++ [c])
      else if c ≤ 0xDBFF then do
        let leading := c
        let first := first + 1
        if first = s.length then throwInvalid
        else do
          let trailing ← rdu s first
          if 0xDC00 ≤ trailing ∧ trailing ≤ 0xDFFF then
            wideToUtf32Go s f (first + 1) (out ++ [u32 (u32 (0xFCA02400 + u32 (leading <<< 10)) + trailing)])
          else throwInvalid
      else if c ≤ 0xDFFF then throwInvalid
      else wideToUtf32Go s f (first + 1) (out ++ [c])

/-- `_Convert_wide_to_utf32` (filesystem:109-144). -/
def wideToUtf32 (s : List Nat) : R (List Nat) := wideToUtf32Go s (s.length + 1) 0 []

theorem and1023 (v : Nat) : v &&& 0x3FF = v % 1024 := Nat.and_two_pow_sub_one_eq_mod v 10

theorem utf32ToWideGo_ok (s : List Nat) : ∀ out,
    utf32ToWideGo s out = if ∀ c ∈ s, Spec.Scalar c then .ok (out ++ s.flatMap Spec.enc16) else throwInvalid := by
  induction s with
  | nil => intro out; simp [utf32ToWideGo]
  | cons c s ih =>
    intro out
    have hscal : (∀ x ∈ c :: s, Spec.Scalar x) ↔ Spec.Scalar c ∧ ∀ x ∈ s, Spec.Scalar x := List.forall_mem_cons
    by_cases hc : Spec.Scalar c
    swap
    · rw [if_neg (fun h => hc (hscal.1 h).1), utf32ToWideGo]
      unfold Spec.Scalar at hc
      rw [if_neg (by omega)]
      split
      · rfl
      rw [if_neg (by omega), if_neg (by omega)]
    · have key : utf32ToWideGo (c :: s) out = utf32ToWideGo s (out ++ Spec.enc16 c) := by
        unfold Spec.Scalar at hc
        rw [utf32ToWideGo]
        unfold Spec.enc16
        split
        · rw [if_pos (by omega)]; unfold u16; rw [Nat.mod_eq_of_lt (by omega)]
        rw [if_neg (by omega)]
        split
        · rw [if_pos (by omega)]; unfold u16; rw [Nat.mod_eq_of_lt (by omega)]
        · rw [if_pos (by omega), if_neg (by omega), List.append_assoc, and1023, Nat.shiftRight_eq_div_pow]
          have h1 : u16 (u32 (0xD7C0 + c / 2 ^ 10)) = 0xD800 + (c - 0x10000) / 1024 := by unfold u16 u32; omega
          have h2 : u16 (u32 (0xDC00 + c % 1024)) = 0xDC00 + (c - 0x10000) % 1024 := by unfold u16 u32; omega
          rw [h1, h2]; rfl
      rw [key, ih]
      by_cases hs : ∀ x ∈ s, Spec.Scalar x
      · rw [if_pos hs, if_pos (hscal.2 ⟨hc, hs⟩)]; simp
      · rw [if_neg hs, if_neg (fun h => hs (hscal.1 h).2)]

/-- **C20** `_Convert_utf32_to_wide` returns the UTF-16 form of every sequence of scalar values, and throws
`invalid_argument` for every other sequence. -/
theorem C20_utf32_to_wide (s : List Nat) :
    ((∀ c ∈ s, Spec.Scalar c) → utf32ToWide s = .ok (s.flatMap Spec.enc16)) ∧
    ((∃ c ∈ s, ¬ Spec.Scalar c) → utf32ToWide s = .error (.exc .invalidArgument)) := by
  constructor
  · intro h; rw [utf32ToWide, utf32ToWideGo_ok, if_pos h]; rfl
  · rintro ⟨c, hc, h⟩
    rw [utf32ToWide, utf32ToWideGo_ok, if_neg (fun h' => h (h' c hc))]

theorem wideToUtf32Go_good (s p : List Nat) : ∀ cs f out, (∀ c ∈ cs, Spec.Scalar c) → s = p ++ cs.flatMap Spec.enc16 →
    cs.length < f → wideToUtf32Go s f p.length out = .ok (out ++ cs) := by
  intro cs
  induction cs generalizing p with
  | nil =>
    intro f out _ hs hf
    match f, hf with
    | f + 1, _ =>
    rw [wideToUtf32Go, if_pos (by rw [hs]; simp)]
    simp
  | cons c cs ih =>
    intro f out hcs hs hf
    match f, hf with
    | f + 1, hf =>
    have hc := hcs c (by simp)
    rw [List.flatMap_cons] at hs
    have hs' : s = (p ++ Spec.enc16 c) ++ cs.flatMap Spec.enc16 := by rw [hs]; simp
    have IH := ih (p ++ Spec.enc16 c) f (out ++ [c]) (fun x hx => hcs x (by simp [hx])) hs' (by simp at hf; omega)
    have hlen := enc16_length c
    have hlens : s.length = p.length + (Spec.enc16 c).length + (cs.flatMap Spec.enc16).length := by
      rw [hs]; simp; omega
    have hfin : out ++ [c] ++ cs = out ++ c :: cs := by simp
    rw [hfin] at IH
    rw [← IH, wideToUtf32Go, if_neg (by omega)]
    have hrd : rdu s p.length = .ok ((Spec.enc16 c)[0]) := by
      rw [rdu_ok (by omega)]
      congr 1
      simp only [hs]
      rw [List.getElem_append_right (by omega), List.getElem_append_left (by omega)]
      simp
    rw [hrd, R.ok_bind]
    unfold Spec.Scalar at hc
    by_cases h16 : c < 0x10000
    · have he : Spec.enc16 c = [c] := by unfold Spec.enc16; rw [if_pos h16]
      have h0 : (Spec.enc16 c)[0] = c := by simp [he]
      rw [h0]
      have hlen1 : (p ++ Spec.enc16 c).length = p.length + 1 := by simp [he]
      rw [hlen1]
      split
      · rfl
      · rw [if_neg (by omega), if_neg (by omega)]
    · have he : Spec.enc16 c = [0xD800 + (c - 0x10000) / 1024, 0xDC00 + (c - 0x10000) % 1024] := by
        unfold Spec.enc16; rw [if_neg h16]
      have h0 : (Spec.enc16 c)[0] = 0xD800 + (c - 0x10000) / 1024 := by simp [he]
      rw [h0]
      have hlen2 : (Spec.enc16 c).length = 2 := by rw [he]; rfl
      have hlen1 : (p ++ Spec.enc16 c).length = p.length + 1 + 1 := by rw [List.length_append, hlen2]
      have hrd2 : rdu s (p.length + 1) = .ok (0xDC00 + (c - 0x10000) % 1024) := by
        rw [rdu_ok (by omega)]
        refine congrArg Except.ok ?_
        simp only [hs]
        rw [List.getElem_append_right (by omega), List.getElem_append_left (by omega)]
        simp [he]
      rw [hlen1, if_neg (by omega), if_pos (by omega)]
      dsimp only
      rw [if_neg (by omega), hrd2, R.ok_bind, if_pos (by omega)]
      have hv : u32 (u32 (0xFCA02400 + u32 ((0xD800 + (c - 0x10000) / 1024) <<< 10)) +
          (0xDC00 + (c - 0x10000) % 1024)) = c := by
        rw [Nat.shiftLeft_eq]; unfold u32; omega
      rw [hv]

/-- The only outcomes are success on a well-formed text and `invalid_argument`. -/
theorem wideToUtf32Go_sound (s : List Nat) (hu : Units 16 s) : ∀ f p t out, s = p ++ t → t.length < f →
    (∃ cs : List Nat, (∀ c ∈ cs, Spec.Scalar c) ∧ t = cs.flatMap Spec.enc16) ∨ wideToUtf32Go s f p.length out = throwInvalid := by
  intro f
  induction f with
  | zero => intro p t out _ h; omega
  | succ f ih =>
    intro p t out hs hf
    match t with
    | [] => exact Or.inl ⟨[], by simp, rfl⟩
    | v :: t =>
    have hv : v < 0x10000 := hu v (by rw [hs]; simp)
    have hlens : s.length = p.length + t.length + 1 := by rw [hs, List.length_append, List.length_cons]; omega
    simp only [List.length_cons] at hf
    have hrd : rdu s p.length = .ok v := by rw [rdu_ok (by omega)]; simp [hs]
    rw [wideToUtf32Go, if_neg (by omega), hrd, R.ok_bind]
    have one : Spec.Scalar v → ∀ out', ((∃ cs : List Nat, (∀ c ∈ cs, Spec.Scalar c) ∧ v :: t = cs.flatMap Spec.enc16) ∨
        wideToUtf32Go s f (p.length + 1) out' = throwInvalid) := by
      intro hsc out'
      have h1 := ih (p ++ [v]) t out' (by rw [hs]; simp) (by omega)
      rw [List.length_append] at h1
      refine h1.imp ?_ id
      rintro ⟨cs, h1, h2⟩
      refine ⟨v :: cs, by simpa using ⟨hsc, h1⟩, ?_⟩
      rw [List.flatMap_cons, h2]; unfold Spec.enc16; rw [if_pos hv]; rfl
    split
    · exact one (by unfold Spec.Scalar; omega) _
    split
    · dsimp only
      split
      · exact Or.inr rfl
      · next hne =>
        match t with
        | [] => simp at hlens; omega
        | w :: t =>
        simp only [List.length_cons] at hlens hf
        have hrd2 : rdu s (p.length + 1) = .ok w := by rw [rdu_ok (by omega)]; simp [hs]
        rw [hrd2, R.ok_bind]
        split
        · next hw =>
          have h1 := ih (p ++ [v, w]) t (out ++ [u32 (u32 (0xFCA02400 + u32 (v <<< 10)) + w)]) (by rw [hs]; simp)
            (by omega)
          rw [List.length_append] at h1
          refine h1.imp ?_ id
          rintro ⟨cs, h1, h2⟩
          refine ⟨(0x10000 + (v - 0xD800) * 1024 + (w - 0xDC00)) :: cs, ?_, ?_⟩
          · intro c hc
            rcases List.mem_cons.1 hc with hc | hc
            · unfold Spec.Scalar; omega
            · exact h1 c hc
          · have he : Spec.enc16 (0x10000 + (v - 0xD800) * 1024 + (w - 0xDC00)) = [v, w] := by
              unfold Spec.enc16
              rw [if_neg (by omega)]
              simp only [List.cons.injEq, and_true]
              omega
            rw [List.flatMap_cons, h2, he]; rfl
        · exact Or.inr rfl
    split
    · exact Or.inr rfl
    · exact one (by unfold Spec.Scalar; omega) _

theorem flatMap_enc16_length (cs : List Nat) : cs.length ≤ (cs.flatMap Spec.enc16).length := by
  induction cs with
  | nil => simp
  | cons c cs ih => have := enc16_length c; rw [List.flatMap_cons]; simp only [List.length_cons, List.length_append]; omega

/-- **C20** `_Convert_wide_to_utf32` returns the scalar values of every well-formed UTF-16 text and throws
`invalid_argument` for every ill-formed one; it never reads outside the text. -/
theorem C20_wide_to_utf32 (s : List Nat) (hu : Units 16 s) :
    (∀ cs : List Nat, (∀ c ∈ cs, Spec.Scalar c) → s = cs.flatMap Spec.enc16 → wideToUtf32 s = .ok cs) ∧
    ((¬ ∃ cs : List Nat, (∀ c ∈ cs, Spec.Scalar c) ∧ s = cs.flatMap Spec.enc16) →
      wideToUtf32 s = .error (.exc .invalidArgument)) := by
  constructor
  · intro cs hcs hs
    have := wideToUtf32Go_good s [] cs (s.length + 1) [] hcs (by simpa using hs)
      (by have := flatMap_enc16_length cs; rw [hs]; omega)
    simpa [wideToUtf32] using this
  · intro h
    exact (wideToUtf32Go_sound s hu (s.length + 1) [] s [] rfl (by omega)).resolve_left h

/-- **C20** UTF-32 to wide and back. -/
theorem C20_utf32_roundtrip (cs : List Nat) (h : ∀ c ∈ cs, Spec.Scalar c) :
    (utf32ToWide cs >>= wideToUtf32) = .ok cs := by
  rw [(C20_utf32_to_wide cs).1 h, R.ok_bind]
  refine (C20_wide_to_utf32 _ ?_).1 cs h rfl
  intro b hb
  obtain ⟨c, hc, hb⟩ := List.mem_flatMap.1 hb
  have := h c hc
  unfold Spec.Scalar at this
  unfold Spec.enc16 at hb
  split at hb <;> simp at hb <;> omega

example : utf32ToWide [0x41, 0x1F600] = .ok [0x41, 0xD83D, 0xDE00] := by decide
example : wideToUtf32 [0x41, 0xD83D, 0xDE00] = .ok [0x41, 0x1F600] := by decide
example : wideToUtf32 [0x41, 0xD83D] = .error (.exc .invalidArgument) := by decide

/-- **C20** The UTF-8 decoder of `<format>`, run over any text of bytes, delivers exactly the scalar values of the
well-formed sequences and U+FFFD for each maximal subpart of an ill-formed one, without reading outside the text. -/
theorem C20_format_utf8 (s : List Nat) : ∃ v, codepoints decode8 (s.length + 1) s = .ok v ∧ Spec.Decodes Spec.enc8 s v :=
  codepoints_ok Spec.enc8 decode8 (fun _ => True) (fun _ _ _ => trivial) enc8_length (fun _ t hc => decode8_good hc t)
    (fun _ _ hs h => decode8_bad hs h) _ s trivial (by omega)

/-- **C20** The UTF-16 decoder of `<format>`. -/
theorem C20_format_utf16 (s : List Nat) (hu : Units 16 s) :
    ∃ v, codepoints decode16 (s.length + 1) s = .ok v ∧ Spec.Decodes Spec.enc16 s v :=
  codepoints_ok Spec.enc16 decode16 (Units 16) (fun _ _ h b hb => h b (List.mem_of_mem_drop hb)) enc16_length
    (fun _ t hc => decode16_good hc t) (fun _ hu hs h => decode16_bad hu hs h) _ s hu (by omega)

/-- **C20** Decoding the encoding of any sequence of scalar values returns it (UTF-8). -/
theorem C20_format_utf8_roundtrip (cs : List Nat) (h : ∀ c ∈ cs, Spec.Scalar c) :
    codepoints decode8 ((cs.flatMap Spec.enc8).length + 1) (cs.flatMap Spec.enc8) = .ok cs := by
  obtain ⟨v, h1, h2⟩ := C20_format_utf8 (cs.flatMap Spec.enc8)
  rw [h1, decodes_unique_good enc8_length (fun _ t hc => decode8_good hc t) cs v h h2]

/-- **C20** Decoding the encoding of any sequence of scalar values returns it (UTF-16). -/
theorem C20_format_utf16_roundtrip (cs : List Nat) (h : ∀ c ∈ cs, Spec.Scalar c) :
    codepoints decode16 ((cs.flatMap Spec.enc16).length + 1) (cs.flatMap Spec.enc16) = .ok cs := by
  obtain ⟨v, h1, h2⟩ := C20_format_utf16 (cs.flatMap Spec.enc16) (by
    intro b hb
    obtain ⟨c, hc, hb⟩ := List.mem_flatMap.1 hb
    have := h c hc
    unfold Spec.Scalar at this
    unfold Spec.enc16 at hb
    split at hb <;> simp at hb <;> omega)
  rw [h1, decodes_unique_good enc16_length (fun _ t hc => decode16_good hc t) cs v h h2]

/-- **C20** `_Decode_utf` reports whether the value it delivers was in the text. -/
theorem C20_format_usv (s : List Nat) (hs : s ≠ []) : ∃ d, decode8 s = .ok d ∧ 0 < d.next ∧ d.next ≤ s.length ∧
    (d.usv = true ↔ Spec.StartsWell Spec.enc8 s) := by
  by_cases hw : Spec.StartsWell Spec.enc8 s
  · obtain ⟨c, hc, t, rfl⟩ := id hw
    exact ⟨_, decode8_good hc t, enc8_length c, by simp, by simp [hw]⟩
  · obtain ⟨n, h1, m, h2, h3, h4⟩ := decode8_bad hs hw
    have := h2.1
    have := List.length_pos_iff.2 hs
    exact ⟨_, h1, by dsimp only; omega, by dsimp only; omega, by simp [hw]⟩

/-- **C20** `_Decode_utf` for `char32_t`. -/
theorem C20_format_utf32 (v : Nat) (t : List Nat) :
    ∃ d, decode32 (v :: t) = .ok d ∧ d.next = 1 ∧ d.val = v ∧ (d.usv = true ↔ Spec.Scalar v) := by
  refine ⟨_, rfl, rfl, rfl, ?_⟩
  unfold Spec.Scalar
  simp only [Bool.or_eq_true, Bool.and_eq_true, decide_eq_true_eq]
  omega

/-- An ill-formed text: truncated E2 82, a lone continuation byte, an overlong form. -/
example : codepoints decode8 8 [0xE2, 0x82, 0x41, 0x80, 0xE0, 0x80, 0xF0] =
    .ok [0xFFFD, 0x41, 0xFFFD, 0xFFFD, 0xFFFD, 0xFFFD] := by decide

end STL.Utf
