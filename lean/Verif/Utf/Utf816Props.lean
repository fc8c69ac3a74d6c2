import Verif.Utf.Utf816

/-! # User-level theorems on `codecvt_utf8_utf16` -/

namespace STL.Utf

namespace Spec

/-- A first surrogate. -/
def High (c : Nat) : Prop := 0xD800 ≤ c ∧ c < 0xDC00

/-- A second surrogate. -/
def Low (c : Nat) : Prop := 0xDC00 ≤ c ∧ c < 0xE000

instance (c : Nat) : Decidable (High c) := by unfold High; infer_instance
instance (c : Nat) : Decidable (Low c) := by unfold Low; infer_instance

/-- The first of the four bytes of a code whose first surrogate is `c`. -/
def firstByte (c : Nat) : Nat := 0xF0 + (c - 0xD800 + 0x40) / 256

end Spec

/-! ## `do_out` -/

/-- The header, if there is one to be written. -/
def hdr816 (C : Cfg) (st : Nat) : List Nat := if C.gen ∧ st = 0 then bom8 else []

/-- What is written for the unit `c`. -/
def body816 (st c : Nat) : List Nat :=
  if 1 < st then (Spec.enc8 (st * 1024 + (c - 0xDC00))).tail
  else if Spec.High c then [Spec.firstByte c] else Spec.enc8 c

/-- One unit converted by `codecvt_utf8_utf16::do_out`. -/
def E816out (C : Cfg) (st : Nat) (a xs : List Nat) (st' : Nat) : Prop :=
  ∃ c, a = [c] ∧ c < 65536 ∧ xs = hdr816 C st ++ body816 st c ∧ (1 < st → Spec.Low c) ∧
    st' = if st ≤ 1 ∧ Spec.High c then c - 0xD800 + 0x40 else 1

theorem trailN_eq (ch : Nat) : ∀ n, trailN ch n n = trail ch n
  | 0 => rfl
  | n + 1 => by rw [trailN, trail]; simp only [Nat.add_sub_cancel]; rw [trailN_eq ch n]

theorem out816Lead_eq {ch : Nat} (h : ch < 0x200000) : out816Lead ch = outLead ch := by
  unfold out816Lead outLead
  rw [if_pos h]

theorem outLead_big {ch : Nat} (h : 0x10000 ≤ ch) (h' : ch < 0x200000) :
    outLead ch = (0xF0 + ch / 262144, 3) := by
  unfold outLead
  rw [if_neg (by omega), if_neg (by omega), if_neg (by omega), if_pos h']
  have h1 : ch >>> 18 = ch / 262144 := by rw [Nat.shiftRight_eq_div_pow]
  rw [h1, or_f0 (by omega), Nat.mod_eq_of_lt (by omega)]

theorem outLead_small {ch : Nat} (h : ch < 0x10000) : (outLead ch).2 < 3 := by
  unfold outLead
  by_cases h1 : ch < 0x80
  · rw [if_pos h1]; simp
  rw [if_neg h1]
  by_cases h2 : ch < 0x800
  · rw [if_pos h2]; simp
  rw [if_neg h2, if_pos h]; simp

/-- The states of `do_out` that occur. -/
def I816out (st : Nat) : Prop := st ≤ 1 ∨ (0x40 ≤ st ∧ st < 0x440)

/-- The body of the loop, once the code and its first byte are known. -/
theorem out816Step_some (C : Cfg) (room st c ch b n nput s' : Nat) (save : Bool) (bytes first t : List Nat)
    (hcode : out816Code st (c % 65536) = some (ch, save)) (hlead : out816Lead ch = (b, n))
    (hnput : (if n < 3 then n + 1 else if save then 1 else 3) = nput)
    (hbytes : (if save ∨ n < 3 then b :: trailN ch (nput - 1) n else trailN ch nput n) = bytes)
    (hlen : bytes.length = nput) (hs' : (if save then ch >>> 10 % 65536 else 1) = s') :
    out816Step C room st first (c :: t) = .ok (
      if room < (hdr816 C st ++ bytes).length then .brk (c :: t) first st
      else .emit (hdr816 C st ++ bytes) t first s') := by
  unfold out816Step
  rw [rdHead, R.ok_bind, hcode]
  dsimp only
  rw [hlead]
  dsimp only
  rw [hnput, hbytes, hs']
  have hh : (hdr816 C st).length = if C.gen ∧ st = 0 then 3 else 0 := by
    unfold hdr816; split <;> rfl
  have hr : (room < nput ∨ (C.gen ∧ st = 0 ∧ room < 3 + nput)) ↔ room < (hdr816 C st).length + nput := by
    rw [hh]
    by_cases h : C.gen ∧ st = 0
    · rw [if_pos h]
      constructor
      · rintro (h1 | h1) <;> omega
      · intro h1; exact Or.inr ⟨h.1, h.2, h1⟩
    · rw [if_neg h]
      constructor
      · rintro (h1 | h1)
        · omega
        · exact absurd ⟨h1.1, h1.2.1⟩ h
      · intro h1; exact Or.inl (by omega)
  rw [List.length_append, hlen]
  by_cases h1 : room < nput
  · rw [if_pos h1, if_pos (hr.1 (Or.inl h1))]; rfl
  · rw [if_neg h1]
    by_cases h2 : C.gen ∧ st = 0 ∧ room < 3 + nput
    · rw [if_pos h2, if_pos (hr.1 (Or.inr h2))]; rfl
    · have h3 : ¬ room < (hdr816 C st).length + nput := by
        rw [← hr]; rintro (h | h)
        · exact h1 h
        · exact h2 h
      rw [if_neg h2, if_neg h3]; rfl

/-- The body of the loop: what is written for one unit. -/
theorem out816Step_ok (C : Cfg) (room st c : Nat) (first t : List Nat) (hI : I816out st) (hc : c < 65536) :
    out816Step C room st first (c :: t) = .ok (
      if 1 < st ∧ ¬ Spec.Low c then .err (c :: t) st
      else if room < (hdr816 C st ++ body816 st c).length then .brk (c :: t) first st
      else .emit (hdr816 C st ++ body816 st c) t first (if st ≤ 1 ∧ Spec.High c then c - 0xD800 + 0x40 else 1)) := by
  unfold body816
  by_cases hst : 1 < st
  · rw [if_pos hst]
    have hI' : 0x40 ≤ st ∧ st < 0x440 := hI.resolve_left (by omega)
    by_cases hl : Spec.Low c
    · have hl' := hl
      unfold Spec.Low at hl'
      rw [if_neg (show ¬ (1 < st ∧ ¬ Spec.Low c) from fun h => h.2 hl),
        if_neg (show ¬ (st ≤ 1 ∧ Spec.High c) from fun h => by omega)]
      have hch : st <<< 10 ||| (c - 0xdc00) = st * 1024 + (c - 0xDC00) := by
        have := Nat.two_pow_add_eq_or_of_lt (i := 10) (b := c - 0xdc00) (by omega) st
        rw [Nat.shiftLeft_eq, Nat.mul_comm, ← this, Nat.mul_comm]
      have hcode : out816Code st (c % 65536) = some (st * 1024 + (c - 0xDC00), false) := by
        unfold out816Code
        rw [if_pos hst, Nat.mod_eq_of_lt hc, if_neg (by omega), hch]
      have hX : 0x10000 ≤ st * 1024 + (c - 0xDC00) ∧ st * 1024 + (c - 0xDC00) < 0x110000 := by omega
      generalize st * 1024 + (c - 0xDC00) = X at *
      have hb := out_bytes (ch := X) (by omega)
      have hlead := out816Lead_eq (ch := X) (by omega)
      rw [outLead_big (by omega) (by omega)] at hb hlead
      have htail : trailN X 3 3 = (Spec.enc8 X).tail := by
        rw [trailN_eq, ← hb, List.tail_cons]
      exact out816Step_some C room st c X _ 3 3 1 false _ first t hcode hlead rfl (by
        rw [if_neg (by simp)]; exact htail) (by
        rw [← htail]; simp only [trailN, List.length_cons, List.length_nil]) rfl
    · have hl' := hl
      unfold Spec.Low at hl'
      rw [if_pos (show 1 < st ∧ ¬ Spec.Low c from ⟨hst, hl⟩)]
      have hcode : out816Code st (c % 65536) = none := by
        unfold out816Code
        rw [if_pos hst, Nat.mod_eq_of_lt hc, if_pos (by omega)]
      unfold out816Step
      rw [rdHead, R.ok_bind, hcode]
      rfl
  · rw [if_neg hst, if_neg (show ¬ (1 < st ∧ ¬ Spec.Low c) from fun h => hst h.1)]
    by_cases hh : Spec.High c
    · have hh' := hh
      unfold Spec.High at hh'
      rw [if_pos hh, if_pos (show st ≤ 1 ∧ Spec.High c from ⟨by omega, hh⟩)]
      have hcode : out816Code st (c % 65536) = some ((c - 0xD800 + 0x40) * 1024, true) := by
        unfold out816Code
        rw [if_neg hst, Nat.mod_eq_of_lt hc, if_pos hh', Nat.shiftLeft_eq]
      have h1 : 0xF0 + (c - 0xD800 + 0x40) * 1024 / 262144 = Spec.firstByte c := by
        unfold Spec.firstByte; omega
      have hX : 0x40 ≤ c - 0xD800 + 0x40 ∧ c - 0xD800 + 0x40 < 0x440 := by omega
      generalize c - 0xD800 + 0x40 = Y at *
      have hlead := out816Lead_eq (ch := Y * 1024) (by omega)
      rw [outLead_big (by omega) (by omega), h1] at hlead
      have h2 : (Y * 1024) >>> 10 % 65536 = Y := by
        rw [Nat.shiftRight_eq_div_pow]; omega
      exact out816Step_some C room st c (Y * 1024) _ 3 1 Y true [Spec.firstByte c] first t hcode hlead rfl rfl rfl (by
        rw [if_pos rfl]; exact h2)
    · have hh' := hh
      unfold Spec.High at hh'
      rw [if_neg hh, if_neg (show ¬ (st ≤ 1 ∧ Spec.High c) from fun h => hh h.2)]
      have hcode : out816Code st (c % 65536) = some (c, false) := by
        unfold out816Code
        rw [if_neg hst, Nat.mod_eq_of_lt hc, if_neg hh']
      have hb := out_bytes (ch := c) (by omega)
      have hlen := out_length (ch := c) (by omega)
      have h3 := outLead_small hc
      have hlead := out816Lead_eq (ch := c) (by omega)
      generalize outLead c = p at *
      obtain ⟨b, n⟩ := p
      dsimp only at hb hlen h3
      exact out816Step_some C room st c c b n (n + 1) 1 false _ first t hcode hlead (by rw [if_pos h3]) (by
        rw [if_pos (Or.inr h3), Nat.add_sub_cancel, trailN_eq]; exact hb) (by omega) rfl

theorem out816_stepOK (C : Cfg) :
    StepOK condNE (out816Step C) I816out (Units 16) (E816out C)
      (fun st s => ∃ c t, s = c :: t ∧ 1 < st ∧ ¬ Spec.Low c)
      (fun st s room => ∃ c t, s = c :: t ∧ room < (hdr816 C st ++ body816 st c).length) false where
  suffix := fun a b h => (units_append.1 h).2
  inv := by
    rintro st a xs st' h ⟨c, _, _, _, _, h0⟩
    unfold I816out
    split at h0
    · rename_i h1; have := h1.2; unfold Spec.High at this; omega
    · omega
  step := by
    intro room st first mid hI hu hc
    rw [condNE_true] at hc
    match mid, hc.1, hu with
    | c :: t, _, hu =>
    have hc16 : c < 65536 := hu c (by simp)
    rw [out816Step_ok C room st c first t hI hc16]
    by_cases h1 : 1 < st ∧ ¬ Spec.Low c
    · rw [if_pos h1]; exact ⟨_, rfl, ⟨c, t, rfl, h1⟩, List.suffix_refl _⟩
    · rw [if_neg h1]
      by_cases h2 : room < (hdr816 C st ++ body816 st c).length
      · rw [if_pos h2]; exact ⟨_, rfl, rfl, ⟨c, t, rfl, h2⟩, hI, fun _ _ _ h => h, Or.inl rfl⟩
      · rw [if_neg h2]
        exact ⟨_, rfl, [c], rfl, by simp, ⟨c, rfl, hc16, rfl, fun h => by by_contra h'; exact h1 ⟨h, h'⟩, rfl⟩, by omega,
          Or.inl rfl⟩

/-- The units `a` are the UTF-16 of some codes, possibly followed by a first surrogate, and `ys` is the UTF-8 of the codes,
followed by the first byte in that case. -/
def FormOut (a ys : List Nat) (st' : Nat) : Prop :=
  ∃ ds p q : List Nat, (∀ d ∈ ds, Spec.Code16 d) ∧ a = ds.flatMap Spec.enc16 ++ p ∧ ys = ds.flatMap Spec.enc8 ++ q ∧
    ((p = [] ∧ q = [] ∧ st' ≤ 1) ∨ ∃ c, Spec.High c ∧ p = [c] ∧ q = [Spec.firstByte c] ∧ st' = c - 0xD800 + 0x40)

theorem FormOut.cons {d : Nat} {a ys : List Nat} {st' : Nat} (hd : Spec.Code16 d) (h : FormOut a ys st') :
    FormOut (Spec.enc16 d ++ a) (Spec.enc8 d ++ ys) st' := by
  obtain ⟨ds, p, q, h1, rfl, rfl, h2⟩ := h
  exact ⟨d :: ds, p, q, List.forall_mem_cons.2 ⟨hd, h1⟩, by simp, by simp, h2⟩

theorem pair_enc16 {X s c c1 : Nat} (hh : Spec.High c) (hl : Spec.Low c1) (hs : s = c - 0xD800 + 0x40)
    (hX : X = s * 1024 + (c1 - 0xDC00)) : Spec.enc16 X = [c, c1] ∧ Spec.Code16 X := by
  unfold Spec.High at hh
  unfold Spec.Low at hl
  have h1 : 0x10000 ≤ X := by omega
  have h2 : 0xD800 + (X - 0x10000) / 1024 = c := by omega
  have h3 : 0xDC00 + (X - 0x10000) % 1024 = c1 := by omega
  constructor
  · unfold Spec.enc16
    rw [if_neg (by omega), h2, h3]
  · unfold Spec.Code16; omega

theorem pair_enc8 {X s c c1 : Nat} (hh : Spec.High c) (hl : Spec.Low c1) (hs : s = c - 0xD800 + 0x40)
    (hX : X = s * 1024 + (c1 - 0xDC00)) : Spec.enc8 X = Spec.firstByte c :: (Spec.enc8 X).tail := by
  unfold Spec.High at hh
  unfold Spec.Low at hl
  have h1 : 0x10000 ≤ X := by omega
  have h3 : X < 0x200000 := by omega
  have h2 : 0xF0 + X / 262144 = Spec.firstByte c := by unfold Spec.firstByte; omega
  rw [← h2]
  unfold Spec.enc8
  rw [if_neg (by omega), if_neg (by omega), if_neg (by omega), if_pos h3, List.tail_cons]

theorem star816out {C : Cfg} {st st' : Nat} {a ys : List Nat} (h : Star (E816out C) st a ys st') (hI : I816out st) :
    (st ≤ 1 → ∃ ys', ys = (if a = [] then [] else hdr816 C st) ++ ys' ∧ FormOut a ys' st') ∧
    (1 < st → (a = [] ∧ ys = [] ∧ st' = st) ∨ ∃ c a' ys', Spec.Low c ∧ a = c :: a' ∧
      ys = (Spec.enc8 (st * 1024 + (c - 0xDC00))).tail ++ ys' ∧ FormOut a' ys' st') := by
  induction h with
  | nil st =>
    exact ⟨fun h => ⟨[], by simp, [], [], [], by simp, rfl, rfl, Or.inl ⟨rfl, rfl, h⟩⟩, fun _ => Or.inl ⟨rfl, rfl, rfl⟩⟩
  | @cons st a xs st1 as ys st2 he _ ih =>
    have hI1 := (out816_stepOK C).inv _ _ _ _ hI he
    have ih := ih hI1
    obtain ⟨c, rfl, hc, rfl, hlow, hst1⟩ := he
    have hno : ∀ s, 1 ≤ s → hdr816 C s = [] := by
      intro s hs; unfold hdr816; rw [if_neg (by omega)]
    have plain : st1 = 1 → FormOut as ys st2 := by
      intro h1
      obtain ⟨ys', h2, h3⟩ := ih.1 (by omega)
      rw [hno st1 (by omega)] at h2
      have : ys = ys' := by rw [h2]; split <;> rfl
      rw [this]; exact h3
    constructor
    · intro hle
      rw [if_neg (by simp), List.append_assoc]
      refine ⟨_, rfl, ?_⟩
      unfold body816
      rw [if_neg (by omega)]
      by_cases hh : Spec.High c
      · rw [if_pos ⟨hle, hh⟩] at hst1
        have hh' := hh
        unfold Spec.High at hh'
        rw [if_pos hh]
        rcases ih.2 (by omega) with ⟨ha, hy, h3⟩ | ⟨c1, a', ys', h1, ha, hy, h2⟩
        · rw [ha, hy]
          exact ⟨[], [c], [Spec.firstByte c], by simp, by simp, by simp, Or.inr ⟨c, hh, rfl, rfl, h3.trans hst1⟩⟩
        · obtain ⟨X, hX⟩ : ∃ X, X = st1 * 1024 + (c1 - 0xDC00) := ⟨_, rfl⟩
          rw [← hX] at hy
          have he16 := pair_enc16 hh h1 hst1 hX
          have he8 := pair_enc8 hh h1 hst1 hX
          clear hX hst1
          have h3 := h2.cons he16.2
          rw [he16.1, he8] at h3
          rw [ha, hy]
          exact h3
      · rw [if_neg (fun h => hh h.2)] at hst1
        rw [if_neg hh]
        have hd : Spec.Code16 c := ⟨by omega, by unfold Spec.High at hh; exact hh⟩
        have h3 := (plain hst1).cons hd
        have he16 : Spec.enc16 c = [c] := by unfold Spec.enc16; rw [if_pos (by omega)]
        rw [he16] at h3
        simpa only [List.cons_append, List.nil_append] using h3
    · intro hlt
      rw [if_neg (by omega)] at hst1
      right
      refine ⟨c, as, ys, hlow hlt, rfl, ?_, plain hst1⟩
      rw [hno st (by omega)]
      unfold body816
      rw [if_pos hlt, List.nil_append]

/-- **C20** One call of `codecvt_utf8_utf16::do_out`, at the start of the text or between codes, on any units and any room:
it converts codes one by one, after the header if there is one to be written; a first surrogate at the end of the input
gives the first byte of its code, and the state keeps the rest; it stops because the input is used up or the bytes for the
next unit do not fit into the room left, and with `error` exactly if a unit after a first surrogate is no second one. -/
theorem C20_utf8_utf16_out (C : Cfg) (st : Nat) (s : List Nat) (room : Nat) (hu : Units 16 s) (hst : st ≤ 1) :
    ∃ (r : CvtRes) (ds p q rest : List Nat), out816 C st s room = .ok r ∧ s = ds.flatMap Spec.enc16 ++ p ++ rest ∧
      (∀ d ∈ ds, Spec.Code16 d) ∧ r.out.length ≤ room ∧
      r.out = (if ds = [] ∧ p = [] then [] else if C.gen ∧ st = 0 then bom8 else []) ++ ds.flatMap Spec.enc8 ++ q ∧
      ((p = [] ∧ q = []) ∨ ∃ c, Spec.High c ∧ p = [c] ∧ q = [Spec.firstByte c]) ∧
      ((r.res ≠ .error ∧ r.mid1 = rest ∧ (r.res = .part ↔ ds = [] ∧ p = []) ∧ (rest = [] ∨ room < r.out.length + 6)) ∨
        (r.res = .error ∧ p ≠ [] ∧ ∃ c t, rest = c :: t ∧ ¬ Spec.Low c)) := by
  obtain ⟨r, h1, a, rest, st1, h2, h3, h4, h5, h6, h7, h8, h9⟩ :=
    call_ok (out816_stepOK C) room st s (Or.inl hst) hu
  obtain ⟨ys, h10, ds, p, q, h11, h12, h13, h14⟩ := (star816out h3 (Or.inl hst)).1 hst
  have hanil : a = [] ↔ ds = [] ∧ p = [] := by
    rw [h12, List.append_eq_nil_iff]
    constructor
    · rintro ⟨h, hp⟩
      refine ⟨?_, hp⟩
      match ds, h with
      | [], _ => rfl
      | d :: ds, h =>
        have := (List.append_eq_nil_iff.1 h).1
        unfold Spec.enc16 at this
        split at this <;> simp at this
    · rintro ⟨rfl, hp⟩; exact ⟨rfl, hp⟩
  refine ⟨r, ds, p, q, rest, h1, by rw [h2, h12], h11, h4, ?_, ?_, ?_⟩
  · rw [h10, h13]
    by_cases ha : a = []
    · rw [if_pos ha, if_pos (hanil.1 ha), List.append_assoc]
    · rw [if_neg ha, if_neg (fun h => ha (hanil.2 h)), List.append_assoc]
      rfl
  · rcases h14 with ⟨hp, hq, _⟩ | ⟨c, hc, hp, hq, _⟩
    · exact Or.inl ⟨hp, hq⟩
    · exact Or.inr ⟨c, hc, hp, hq⟩
  · by_cases he : r.res = .error
    · right
      obtain ⟨⟨c, t, h15, h16, h17⟩, _⟩ := h5 he
      refine ⟨he, ?_, c, t, h15, h17⟩
      rcases h14 with ⟨_, _, h18⟩ | ⟨c, _, rfl, _⟩
      · omega
      · simp
    · left
      obtain ⟨h15, _, _, h16⟩ := h6 he
      refine ⟨he, h15, ⟨fun h => hanil.1 ((h9 h).resolve_right (fun h => by cases h.1)), fun h =>
        (h8 (hanil.2 h)).resolve_left he⟩, ?_⟩
      rcases h16 with h | ⟨c, t, h17, h18⟩
      · have : ¬ (rest ≠ [] ∧ room - r.out.length ≠ 0) := by rw [← condNE_true, h]; simp
        by_cases hr : rest = []
        · exact Or.inl hr
        · have : room - r.out.length = 0 := by
            by_contra h'; exact this ⟨hr, h'⟩
          exact Or.inr (by omega)
      · right
        have hc : c < 65536 := by
          apply hu c; rw [h2, h17]; simp
        have h6 : (hdr816 C st1 ++ body816 st1 c).length ≤ 6 := by
          rw [List.length_append]
          have h3' : (hdr816 C st1).length ≤ 3 ∧ (1 ≤ st1 → (hdr816 C st1).length = 0) := by
            unfold hdr816; split
            · exact ⟨by decide, fun h => by omega⟩
            · exact ⟨by simp, fun _ => rfl⟩
          unfold body816
          split
          · have := enc8_length_le (st1 * 1024 + (c - 0xDC00))
            rw [List.length_tail]
            have := h3'.2 (by omega)
            omega
          · split
            · simp; omega
            · have : (Spec.enc8 c).length ≤ 3 := by
                have := out_length (ch := c) (by omega)
                have := outLead_small hc
                omega
              omega
        omega

/-! ## `do_in` -/

/-- The bytes `a` are sequences of some codes, possibly followed by all but the last byte of another, and `ys` is the UTF-16
of the codes, followed by the first surrogate of that one. -/
def FormIn (C : Cfg) (a ys : List Nat) (st' : Nat) : Prop :=
  ∃ (segs : List (Nat × List Nat)) (h ho : List Nat), (∀ p ∈ segs, Spec.Seq8 p.1 p.2 ∧ p.1 < 0x110000) ∧
    a = (segs.map Prod.snd).flatten ++ h ∧ ys = ((segs.map Prod.fst).flatMap Spec.enc16).map (· % 2 ^ C.w) ++ ho ∧
    ((h = [] ∧ ho = [] ∧ st' ≤ 1) ∨ ∃ c0, Spec.Half8 c0 h ∧ 0x10000 ≤ c0 ∧ c0 < 0x110000 ∧
      ho = [(0xD800 + (c0 - 0x10000) / 1024) % 2 ^ C.w] ∧ st' = 0xDC00 + (c0 - 0x10000) % 1024)

theorem FormIn.cons {C : Cfg} {c : Nat} {b a ys : List Nat} {st' : Nat} (hc : Spec.Seq8 c b) (hc' : c < 0x110000)
    (h : FormIn C a ys st') : FormIn C (b ++ a) ((Spec.enc16 c).map (· % 2 ^ C.w) ++ ys) st' := by
  obtain ⟨segs, h, ho, h1, rfl, rfl, h2⟩ := h
  exact ⟨(c, b) :: segs, h, ho, List.forall_mem_cons.2 ⟨⟨hc, hc'⟩, h1⟩, by simp, by simp, h2⟩

theorem star816in {C : Cfg} {st st' : Nat} {a ys : List Nat} (h : Star (E816in C) st a ys st') :
    (st ≤ 1 → FormIn C a ys st') ∧
    (1 < st → (a = [] ∧ ys = [] ∧ st' = st) ∨ ∃ b a' ys', Spec.Trail b ∧ a = b :: a' ∧
      ys = (st + (b - 0x80)) % 2 ^ C.w :: ys' ∧ FormIn C a' ys' st') := by
  have hlim : lim16 C < 0x110000 := by unfold lim16; split <;> omega
  induction h with
  | nil st =>
    exact ⟨fun h => ⟨[], [], [], by simp, rfl, rfl, Or.inl ⟨rfl, rfl, h⟩⟩, fun _ => Or.inl ⟨rfl, rfl, rfl⟩⟩
  | @cons st a xs st1 as ys st2 he _ ih =>
    rcases he with ⟨h1, h2, c, h3, h4, _, rfl⟩ | ⟨h1, c0, h3, h4, h5, rfl, h6⟩ | ⟨h1, b, rfl, h2, rfl, h3⟩
    · refine ⟨fun _ => ?_, fun h => by omega⟩
      have h5 := (ih.1 (by omega)).cons h3 (by omega)
      have he16 : Spec.enc16 c = [c] := by unfold Spec.enc16; rw [if_pos h4]
      rw [he16] at h5
      exact h5
    · refine ⟨fun _ => ?_, fun h => by omega⟩
      have hmod := half8_mod h3
      rcases ih.2 (by omega) with ⟨rfl, rfl, h7⟩ | ⟨b, a', ys', h7, rfl, rfl, h8⟩
      · refine ⟨[], a, [_], by simp, by simp, by simp, Or.inr ⟨c0, h3, h4, by omega, rfl, by omega⟩⟩
      · have h9 := half8_seq h3 h7
        unfold Spec.Trail at h7
        have h10 := h8.cons h9 (by omega)
        have he16 : Spec.enc16 (c0 + (b - 0x80)) = [0xD800 + (c0 - 0x10000) / 1024, st1 + (b - 0x80)] := by
          unfold Spec.enc16
          rw [if_neg (by omega)]
          simp only [List.cons.injEq, and_true]
          constructor <;> omega
        rw [he16] at h10
        simpa using h10
    · refine ⟨fun h => by omega, fun _ => Or.inr ⟨b, as, ys, h2, rfl, rfl, ih.1 (by omega)⟩⟩

/-- **C20** One call of `codecvt_utf8_utf16::do_in`, between codes and with no header to look for, on any bytes and any room:
it never reads outside the input nor writes outside the output; it converts sequences one by one; when it stops within a
sequence of four bytes or more, the first surrogate is written and all but the last byte are consumed; it stops without
error because the input is used up, the output is full, or what follows is incomplete; and with `error` only if no way to go
on with the input would make it convertible. -/
theorem C20_utf8_utf16_in (C : Cfg) (st : Nat) (s : List Nat) (room : Nat) (hu : Units 8 s) (hle : st ≤ 1)
    (hst : st ≠ 0 ∨ C.consume = false) :
    ∃ (r : CvtRes) (segs : List (Nat × List Nat)) (h ho rest : List Nat), in816 C st s room = .ok r ∧
      s = (segs.map Prod.snd).flatten ++ h ++ rest ∧ (∀ p ∈ segs, Spec.Seq8 p.1 p.2 ∧ p.1 < 0x110000) ∧
      r.out = ((segs.map Prod.fst).flatMap Spec.enc16).map (· % 2 ^ C.w) ++ ho ∧ r.out.length ≤ room ∧
      ((h = [] ∧ ho = []) ∨ ∃ c0, Spec.Half8 c0 h ∧ 0x10000 ≤ c0 ∧ c0 < 0x110000 ∧
        ho = [(0xD800 + (c0 - 0x10000) / 1024) % 2 ^ C.w]) ∧
      ((r.res ≠ .error ∧ r.mid1 = rest ∧ (segs = [] ∧ h = [] → r.res = .part) ∧
          (rest = [] ∨ r.out.length = room ∨ (h = [] ∧ Spec.Trunc8 rest))) ∨
        (r.res = .error ∧ r.mid1 <:+ rest ∧ rest ≠ [] ∧ r.out.length < room ∧
          (h ≠ [] → ∀ b ∈ rest.head?, ¬ Spec.Trail b) ∧
          (h = [] → ∀ c b u t, Spec.Scalar c → c ≤ C.max → Spec.enc8 c = b → rest ++ u ≠ b ++ t))) := by
  obtain ⟨r, h1, a, rest, st1, h2, h3, h4, h5, h6, h7, h8, h9⟩ :=
    call_ok (in816_stepOK C) room st s ⟨Or.inl hle, hst⟩ hu
  obtain ⟨segs, h, ho, h11, h12, h13, h14⟩ := (star816in h3).1 hle
  refine ⟨r, segs, h, ho, rest, h1, by rw [h2, h12], h11, h13, h4, ?_, ?_⟩
  · rcases h14 with ⟨hp, hq, _⟩ | ⟨c0, hc, hp, hq, h15, _⟩
    · exact Or.inl ⟨hp, hq⟩
    · exact Or.inr ⟨c0, hc, hp, hq, h15⟩
  · by_cases he : r.res = .error
    · right
      obtain ⟨⟨h15, h16⟩, h17, h18⟩ := h5 he
      rw [condNE_true] at h18
      refine ⟨he, h17, h15, by omega, ?_, ?_⟩
      · intro hne b hb htr
        rcases h14 with ⟨hp, _⟩ | ⟨c0, hc, hp, hq, _, h19⟩
        · exact hne hp
        · match rest, hb with
          | x :: t, hb =>
          simp only [List.head?_cons, Option.mem_def, Option.some.injEq] at hb
          subst hb
          exact h16 ⟨[], [x], _, 1, t, Or.inr (Or.inr ⟨by omega, x, rfl, htr, rfl, rfl⟩), by simp⟩
      · intro hh c b u t hsc hmax hb heq
        rcases h14 with ⟨_, _, hst1⟩ | ⟨c0, ⟨b0, bs, h19, _⟩, _⟩
        swap
        · rw [hh] at h19; cases h19
        have hsc' : c < 0x110000 := by unfold Spec.Scalar at hsc; omega
        have hlim : c ≤ lim16 C := by unfold lim16; split <;> omega
        have hseq := enc8_seq (c := c) (by omega)
        by_cases hc : c < 0x10000
        · refine h16 ⟨u, b, _, 1, t, Or.inl ⟨hst1, rfl, c, hb ▸ hseq, hc, ?_, rfl⟩, heq⟩
          split <;> omega
        · have hhalf : Spec.Half8 (c / 64 * 64)
              [0xF0 + c / 262144, 0x80 + c / 4096 % 64, 0x80 + c / 64 % 64] := by
            refine ⟨_, _, rfl, by simp, ?_, ?_, ?_, ?_⟩
            · simp [Spec.lead8]
            · simp only [List.length_cons, List.length_nil, Spec.lead8]; omega
            · intro x hx
              simp only [List.mem_cons, List.not_mem_nil, or_false] at hx
              unfold Spec.Trail
              rcases hx with rfl | rfl <;> omega
            · simp only [Spec.contVal, List.foldl_cons, List.foldl_nil, List.length_cons, List.length_nil, Spec.lead8]
              omega
          have he8 : b = [0xF0 + c / 262144, 0x80 + c / 4096 % 64, 0x80 + c / 64 % 64] ++ [0x80 + c % 64] := by
            rw [← hb]
            unfold Spec.enc8
            rw [if_neg (by omega), if_neg (by omega), if_neg (by omega), if_pos (by omega)]
            rfl
          refine h16 ⟨u, _, _, _, [0x80 + c % 64] ++ t, Or.inr (Or.inl ⟨hst1, _, hhalf, by omega, by omega, rfl, rfl⟩), ?_⟩
          rw [heq, he8, List.append_assoc]
    · left
      obtain ⟨h15, _, _, h16⟩ := h6 he
      refine ⟨he, h15, ?_, ?_⟩
      · rintro ⟨rfl, rfl⟩
        exact (h8 h12).resolve_left he
      · rcases h16 with hc | hs
        · have : ¬ (rest ≠ [] ∧ room - r.out.length ≠ 0) := by rw [← condNE_true, hc]; simp
          by_cases hr : rest = []
          · exact Or.inl hr
          · have : room - r.out.length = 0 := by
              by_contra h'; exact this ⟨hr, h'⟩
            exact Or.inr (Or.inl (by omega))
        · right; right
          refine ⟨?_, hs.2⟩
          rcases h14 with ⟨hp, _⟩ | ⟨c0, _, _, _, _, h19⟩
          · exact hp
          · have := hs.1; omega

/-! ## Round trip -/

theorem half8_not_prefix {c0 c : Nat} {h t t' b : List Nat} (hh : Spec.Half8 c0 h) (hs : Spec.Seq8 c b) :
    h = b ++ t → False := by
  intro he
  obtain ⟨b0, bs, rfl, h1, h2, h3, _⟩ := hh
  obtain ⟨b0', bs', rfl, h4, h5, _⟩ := hs
  simp only [List.cons_append, List.cons.injEq] at he
  obtain ⟨rfl, rfl⟩ := he
  have := lead8_unique h2 h3 h4 h5
  rw [List.length_append] at this
  omega

theorem decode816_unique (C : Cfg) : ∀ (segs : List (Nat × List Nat)) (ds h q : List Nat),
    (∀ p ∈ segs, Spec.Seq8 p.1 p.2) → (∀ d ∈ ds, Spec.Code16 d) →
    (h = [] ∨ ∃ c0, Spec.Half8 c0 h) → (q = [] ∨ ∃ c, Spec.High c ∧ q = [Spec.firstByte c]) →
    (segs.map Prod.snd).flatten ++ h = ds.flatMap Spec.enc8 ++ q → segs.map Prod.fst = ds ∧ h = q
  | [], [], h, q, _, _, _, _, he => ⟨rfl, by simpa using he⟩
  | [], d :: ds, h, q, _, hd, hh, _, he => by
    exfalso
    have h1 := hd d (by simp)
    unfold Spec.Code16 at h1
    have hseq := enc8_seq (c := d) (by omega)
    rw [List.map_nil, List.flatten_nil, List.nil_append, List.flatMap_cons, List.append_assoc] at he
    rcases hh with rfl | ⟨c0, hh⟩
    · exact seq8_ne hseq (List.append_eq_nil_iff.1 he.symm).1
    · exact half8_not_prefix (t' := []) hh hseq he
  | p :: segs, [], h, q, hs, _, _, hq, he => by
    exfalso
    obtain ⟨b0, bs, hb, h1, h2, _⟩ := hs p (by simp)
    rw [List.flatMap_nil, List.nil_append, List.map_cons, List.flatten_cons, hb] at he
    rcases hq with rfl | ⟨c, hc, rfl⟩
    · simp at he
    · simp only [List.cons_append, List.cons.injEq] at he
      obtain ⟨h3, h4⟩ := he
      have hbs : bs = [] := (List.append_eq_nil_iff.1 (List.append_eq_nil_iff.1 h4).1).1
      rw [hbs] at h1 h2
      simp only [List.length_nil, Spec.lead8] at h1 h2
      unfold Spec.firstByte at h3
      omega
  | p :: segs, d :: ds, h, q, hs, hd, hh, hq, he => by
    have h1 := hd d (by simp)
    unfold Spec.Code16 at h1
    rw [List.flatMap_cons, List.map_cons, List.flatten_cons, List.append_assoc, List.append_assoc] at he
    obtain ⟨_, h2, h3⟩ := seq8_unique (hs p (by simp)) (enc8_seq (c := d) (by omega)) he
    obtain ⟨h4, h5⟩ := decode816_unique C segs ds h q (fun p hp => hs p (by simp [hp])) (fun d hd' => hd d (by simp [hd']))
      hh hq h3
    exact ⟨by rw [List.map_cons, h2, h4], h5⟩

theorem firstByte_not_half {c : Nat} : ¬ ∃ c0, Spec.Half8 c0 [Spec.firstByte c] := by
  rintro ⟨c0, b0, bs, h1, h2, _⟩
  have := congrArg List.length h1
  simp at this
  rw [this] at h2
  simp at h2

/-- **C20** Round trip of `codecvt_utf8_utf16` without headers: however the UTF-16 units are split into calls of `do_out`
(surrogate pairs may be torn apart), and however the bytes are split into calls of `do_in`, whatever room each call has, the
units read are the units written. -/
theorem C20_utf8_utf16_roundtrip (C : Cfg) (hw : 16 ≤ C.w) (hg : C.gen = false) (hc : C.consume = false)
    (us bs v : List Nat) (st1 st2 : Nat) (hus : Units 16 us) (hout : Run (out816 C) 0 us bs st1)
    (hin : Run (in816 C) 0 bs v st2) : v = us := by
  obtain ⟨st3, h1⟩ := run_star (V := Units 16) (fun _ _ h => units_append.1 h)
    (fun st s room hI hu => call_ok (out816_stepOK C) room st s hI hu) 0 us bs st1 hout (Or.inl (by omega)) hus
  obtain ⟨ys, h3, ds, p, q, h4, h5, h6, h7⟩ := (star816out h1 (Or.inl (by omega))).1 (by omega)
  have hno : hdr816 C 0 = [] := by unfold hdr816; rw [hg]; simp
  have hys : bs = ys := by rw [h3, hno]; split <;> rfl
  have hbs : Units 8 bs := by
    rw [hys, h6, units_append]
    refine ⟨units_enc8 fun d hd => ?_, ?_⟩
    · have := (h4 d hd).1; omega
    · rcases h7 with ⟨_, hq, _⟩ | ⟨c, hc, _, hq, _⟩
      · rw [hq]; intro b hb; cases hb
      · rw [hq]; intro b hb
        rw [List.mem_singleton.1 hb]
        unfold Spec.High at hc
        unfold Spec.firstByte
        omega
  obtain ⟨st4, h2⟩ := run_star (V := Units 8) (fun _ _ h => units_append.1 h)
    (fun st s room hI hu => call_ok (in816_stepOK C) room st s hI hu) 0 bs v st2 hin
    ⟨Or.inl (by omega), Or.inr hc⟩ hbs
  obtain ⟨segs, h, ho, h8, h9, h10, h11⟩ := (star816in h2).1 (by omega)
  have hq : q = [] ∨ ∃ c, Spec.High c ∧ q = [Spec.firstByte c] := by
    rcases h7 with ⟨_, hq, _⟩ | ⟨c, hc, _, hq, _⟩
    · exact Or.inl hq
    · exact Or.inr ⟨c, hc, hq⟩
  have hh : h = [] ∨ ∃ c0, Spec.Half8 c0 h := by
    rcases h11 with ⟨hq, _⟩ | ⟨c, hc, _⟩
    · exact Or.inl hq
    · exact Or.inr ⟨c, hc⟩
  obtain ⟨h12, h13⟩ := decode816_unique C segs ds h q (fun p hp => (h8 p hp).1) h4 hh hq (by rw [← h9, hys, h6])
  rcases h7 with ⟨hp, hq, _⟩ | ⟨c, hc, _, hq, _⟩
  · rcases h11 with ⟨_, h14, _⟩ | ⟨c0, h14, _⟩
    · rw [h10, h12, h14, List.append_nil, h5, hp, List.append_nil]
      rw [hp, List.append_nil] at h5
      conv => rhs; rw [← List.map_id (ds.flatMap Spec.enc16)]
      refine List.map_congr_left fun u hu => Nat.mod_eq_of_lt ?_
      have := hus u (by rw [h5]; exact hu)
      exact lt_of_lt_of_le this (Nat.pow_le_pow_right (by omega) hw)
    · rw [h13, hq] at h14
      obtain ⟨_, _, h15, _⟩ := h14
      cases h15
  · rcases h11 with ⟨h14, _⟩ | ⟨c0, h14, _⟩
    · rw [h14, hq] at h13; cases h13
    · rw [h13, hq] at h14
      exact absurd ⟨c0, h14⟩ firstByte_not_half

/-- `codecvt_utf8_utf16<char16_t>`. -/
def utf816 : Cfg := ⟨16, 0x10ffff, false, false, false⟩

/-- `codecvt_utf8_utf16<char16_t, 0x10ffff, consume_header>`. -/
def utf816hdr : Cfg := ⟨16, 0x10ffff, true, true, false⟩

/-- A run which meets the hypotheses of the round trip: a surrogate pair torn apart on both sides. -/
example : Run (out816 utf816) 0 [0x41, 0xD83D, 0xDE00] [0x41, 0xF0, 0x9F, 0x98, 0x80] 1 ∧
    Run (in816 utf816) 0 [0x41, 0xF0, 0x9F, 0x98, 0x80] [0x41, 0xD83D, 0xDE00] 1 := by
  constructor
  · exact .call (k := 2) (room := 2) (r := ⟨.ok, [], [0x41, 0xF0], 0x7D⟩) (by decide) (by decide)
      (.call (k := 1) (room := 3) (r := ⟨.ok, [], [0x9F, 0x98, 0x80], 1⟩) (by decide) (by decide) (.done 1))
  · exact .call (k := 3) (room := 9) (r := ⟨.part, [0xF0, 0x9F], [0x41], 1⟩) (by decide) (by decide)
      (.call (k := 4) (room := 1) (r := ⟨.ok, [0x80], [0xD83D], 0xDE00⟩) (by decide) (by decide)
        (.call (k := 1) (room := 1) (r := ⟨.ok, [], [0xDE00], 1⟩) (by decide) (by decide) (.done 1)))

/-- **C20** `codecvt_utf8_utf16::do_in` with `consume_header`, at the start of the text: the header is dropped, and the rest
converted; if that gives `partial`, the state and the input (but not the output) are rolled back. -/
theorem C20_utf8_utf16_in_header (C : Cfg) (hcon : C.consume = true) (hmax : 0xfeff ≤ C.max) (t : List Nat) (room : Nat)
    (hu : Units 8 t) (hr : room ≠ 0) :
    ∃ r, in816 C 1 t room = .ok r ∧ in816 C 0 (bom8 ++ t) room = .ok (rollback (bom8 ++ t) r) := by
  obtain ⟨r, h1, _⟩ := call_ok (in816_stepOK C) room 1 t ⟨Or.inl (by omega), Or.inl (by omega)⟩ hu
  refine ⟨r, h1, ?_⟩
  have hub : Units 8 (bom8 ++ t) := units_append.2 ⟨seq8_units bom8_seq, hu⟩
  have hne : bom8 ++ t ≠ [] := by simp [bom8]
  have hbad : E816in C 0 bom8 [0xfeff % 2 ^ C.w] 1 := by
    refine Or.inl ⟨by omega, rfl, 0xfeff, bom8_seq, by omega, ?_, rfl⟩
    rw [if_pos (by decide)]
    unfold lim16; split <;> omega
  unfold in816
  rw [cvtLoop, if_pos (by rw [condNE_true]; exact ⟨hne, by simpa using hr⟩)]
  simp only [List.length_nil, Nat.sub_zero]
  rcases in816Step_cases C room 0 (bom8 ++ t) (bom8 ++ t) hub hne (by omega) with ⟨h2, _⟩ | ⟨c, a, t', h2, h3, h4, h5, h6⟩ |
      ⟨a, t', xs, st', h2, _, h3, h4, _⟩ | ⟨h2, _⟩
  · exact absurd h2 (seq8_not_trunc bom8_seq)
  · obtain ⟨_, h7, h8⟩ := seq8_unique bom8_seq h3 h2
    rw [h6, if_pos ⟨rfl, hcon, h7.symm⟩]
    dsimp only
    rw [← h8, cvtLoop_fuel _ _ _ _ _ _ h1 _ (by rw [List.length_append]; simp [bom8]; omega)]
    rfl
  · exfalso
    rcases h4 with ⟨_, h5, _⟩ | ⟨_, c0, h5, _⟩ | ⟨h5, _⟩
    · omega
    · obtain ⟨b0, bs, rfl, h6, h7, h8, _⟩ := h5
      have h9 : b0 = 0xef := by
        have := congrArg List.head? h2
        simp [bom8] at this
        exact this.symm
      rw [h9] at h7 h8
      have := lead8_unique (n := 2) (b := 0xef) (by simp [Spec.lead8]) (by simp [Spec.lead8]) h7 h8
      omega
    · omega
  · exact absurd ⟨[], bom8, _, 1, t, hbad, by simp⟩ h2.2

/-- **C20** Finding: with `consume_header`, if the first call of `do_in` gets the header, at least one whole code and an
incomplete one, it delivers the code *and* rolls the input back to the header, so that the code is delivered again by the
next call: the text "A€" with header is read as "AA€". -/
theorem C20_utf8_utf16_header_repeats :
    in816 utf816hdr 0 (bom8 ++ [0x41, 0xE2, 0x82]) 9 = .ok ⟨.part, bom8 ++ [0x41, 0xE2, 0x82], [0x41], 0⟩ ∧
    Run (in816 utf816hdr) 0 (bom8 ++ [0x41, 0xE2, 0x82, 0xAC]) [0x41, 0x41, 0x20AC] 1 := by
  refine ⟨by decide, ?_⟩
  exact .call (k := 6) (room := 9) (r := ⟨.part, bom8 ++ [0x41, 0xE2, 0x82], [0x41], 0⟩) (by decide) (by decide)
    (.call (k := 7) (room := 9) (r := ⟨.ok, [], [0x41, 0x20AC], 1⟩) (by decide) (by decide) (.done 1))

end STL.Utf
