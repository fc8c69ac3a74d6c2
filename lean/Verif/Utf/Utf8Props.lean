import Verif.Utf.Utf8

/-! # User-level theorems on `codecvt_utf8` -/

namespace STL.Utf

theorem or_c0 {x : Nat} (h : x < 2 ^ 5) : 0xc0 ||| x = 0xc0 + x := by
  rw [show (0xc0 : Nat) = 6 <<< 5 from rfl, ← Nat.shiftLeft_add_eq_or_of_lt h]
theorem or_e0 {x : Nat} (h : x < 2 ^ 4) : 0xe0 ||| x = 0xe0 + x := by
  rw [show (0xe0 : Nat) = 14 <<< 4 from rfl, ← Nat.shiftLeft_add_eq_or_of_lt h]
theorem or_f0 {x : Nat} (h : x < 2 ^ 3) : 0xf0 ||| x = 0xf0 + x := by
  rw [show (0xf0 : Nat) = 30 <<< 3 from rfl, ← Nat.shiftLeft_add_eq_or_of_lt h]
theorem or_f8 {x : Nat} (h : x < 2 ^ 2) : 0xf8 ||| x = 0xf8 + x := by
  rw [show (0xf8 : Nat) = 62 <<< 2 from rfl, ← Nat.shiftLeft_add_eq_or_of_lt h]
theorem or_fc {x : Nat} (h : x < 2 ^ 2) : 0xfc ||| x = 0xfc + x := by
  rw [show (0xfc : Nat) = 63 <<< 2 from rfl, ← Nat.shiftLeft_add_eq_or_of_lt h]

theorem trail_byte (x : Nat) : ((x &&& 0x3f) ||| 0x80) % 256 = 0x80 + x % 64 := by
  have h1 : x &&& 0x3f = x % 64 := Nat.and_two_pow_sub_one_eq_mod x 6
  rw [h1, Nat.or_comm, show (0x80 : Nat) = 2 <<< 6 from rfl,
    ← Nat.shiftLeft_add_eq_or_of_lt (show x % 64 < 2 ^ 6 by omega)]
  omega

/-- The bytes written by `do_out` are the UTF-8 form. -/
theorem out_bytes {ch : Nat} (h : ch < 2 ^ 32) : (outLead ch).1 :: trail ch (outLead ch).2 = Spec.enc8 ch := by
  unfold outLead Spec.enc8
  by_cases h0 : ch < 0x80
  · rw [if_pos h0, if_pos h0]; simp only [trail, List.cons.injEq, and_true]; omega
  rw [if_neg h0, if_neg h0]
  by_cases h1 : ch < 0x800
  · rw [if_pos h1, if_pos h1]
    simp only [trail, trail_byte, Nat.shiftRight_eq_div_pow, Nat.reduceMul, Nat.reducePow]
    rw [or_c0 (by omega)]
    simp only [List.cons.injEq, and_true, true_and, Nat.div_one]; omega
  rw [if_neg h1, if_neg h1]
  by_cases h2 : ch < 0x10000
  · rw [if_pos h2, if_pos h2]
    simp only [trail, trail_byte, Nat.shiftRight_eq_div_pow, Nat.reduceMul, Nat.reducePow]
    rw [or_e0 (by omega)]
    simp only [List.cons.injEq, and_true, true_and, Nat.div_one]; omega
  rw [if_neg h2, if_neg h2]
  by_cases h3 : ch < 0x200000
  · rw [if_pos h3, if_pos h3]
    simp only [trail, trail_byte, Nat.shiftRight_eq_div_pow, Nat.reduceMul, Nat.reducePow]
    rw [or_f0 (by omega)]
    simp only [List.cons.injEq, and_true, true_and, Nat.div_one]; omega
  rw [if_neg h3, if_neg h3]
  by_cases h4 : ch < 0x4000000
  · rw [if_pos h4, if_pos h4]
    simp only [trail, trail_byte, Nat.shiftRight_eq_div_pow, Nat.reduceMul, Nat.reducePow]
    rw [or_f8 (by omega)]
    simp only [List.cons.injEq, and_true, true_and, Nat.div_one]; omega
  rw [if_neg h4, if_neg h4]
  simp only [trail, trail_byte, Nat.shiftRight_eq_div_pow, Nat.reduceMul, Nat.reducePow]
  have h3 : ch / 1073741824 &&& 3 = ch / 1073741824 % 4 := Nat.and_two_pow_sub_one_eq_mod _ 2
  rw [h3, or_fc (by omega)]
  simp only [List.cons.injEq, and_true, true_and, Nat.div_one]; omega

theorem out_length {ch : Nat} (h : ch < 2 ^ 32) : 1 + (outLead ch).2 = (Spec.enc8 ch).length := by
  rw [← out_bytes h, List.length_cons]
  have : ∀ n, (trail ch n).length = n := by intro n; induction n with
    | zero => rfl
    | succ n ih => rw [trail, List.length_cons, ih]
  rw [this]; omega

theorem enc8_seq {c : Nat} (h : c < 2 ^ 32) : Spec.Seq8 c (Spec.enc8 c) := by
  unfold Spec.enc8
  repeat' split
  all_goals refine ⟨_, _, rfl, ?_, ?_, ?_, ?_⟩
  all_goals simp only [List.length_cons, List.length_nil, Spec.lead8, Spec.contVal, List.foldl_cons, List.foldl_nil,
    List.mem_cons, List.not_mem_nil, or_false, Spec.Trail, forall_eq_or_imp, forall_eq]
  all_goals first | omega | skip
  all_goals intro x hx; exact hx.elim

/-- One code converted by `codecvt_utf8::do_out` (after the header). -/
def E8out (C : Cfg) (st : Nat) (a xs : List Nat) (st' : Nat) : Prop :=
  ∃ c, a = [c] ∧ c < 2 ^ 32 ∧ c ≤ C.max ∧ xs = Spec.enc8 c ∧ st' = if st = 0 then 1 else st

theorem enc8_length_le (c : Nat) : (Spec.enc8 c).length ≤ 6 := by
  unfold Spec.enc8; repeat' split
  all_goals simp

theorem out8_stepOK (C : Cfg) :
    StepOK condNE (out8Step C) (fun st => st ≠ 0 ∨ C.gen = false) (Units 32) (E8out C)
      (fun _ s => ∃ c t, s = c :: t ∧ C.max < c)
      (fun _ s room => ∃ c t, s = c :: t ∧ c ≤ C.max ∧ room < (Spec.enc8 c).length) false where
  suffix := fun a b h => (units_append.1 h).2
  inv := by
    rintro st a xs st' h ⟨c, _, _, _, _, rfl⟩
    left; split <;> omega
  step := by
    intro room st first mid hI hu hc
    rw [condNE_true] at hc
    match mid, hc with
    | c :: t, hc =>
    have hc32 : c < 2 ^ 32 := hu c (by simp)
    unfold out8Step
    rw [rdHead, R.ok_bind]
    by_cases hmax : C.max < c
    · rw [if_pos hmax]
      exact ⟨_, rfl, ⟨c, t, rfl, hmax⟩, List.suffix_refl _⟩
    · rw [if_neg hmax]
      have hcond : ¬ (st = 0 ∧ C.gen) := by
        rintro ⟨h4, h5⟩
        rcases hI with h | h
        · exact h h4
        · rw [h] at h5; cases h5
      have hlen := out_length hc32
      have hby := out_bytes hc32
      generalize outLead c = p at hlen hby ⊢
      obtain ⟨b, n⟩ := p
      dsimp only at hlen hby ⊢
      rw [if_neg hcond]
      by_cases hr : room < 1 + n
      · rw [if_pos hr]
        refine ⟨_, rfl, rfl, ⟨c, t, rfl, by omega, by omega⟩, ?_, ?_, Or.inl rfl⟩
        · left; split <;> omega
        · rintro a xs s ⟨c', h1, h2, h3, h4, h5⟩
          exact ⟨c', h1, h2, h3, h4, by rw [h5]; split <;> simp_all⟩
      · rw [if_neg hr]
        refine ⟨_, rfl, [c], rfl, by simp, ⟨c, rfl, hc32, by omega, by rw [hby], rfl⟩, ?_, Or.inl rfl⟩
        rw [hby]; omega

theorem star8in {C : Cfg} {st st' : Nat} {a ys : List Nat} (h : Star (E8in C) st a ys st') :
    ∃ segs : List (Nat × List Nat), a = (segs.map Prod.snd).flatten ∧ (∀ p ∈ segs, Spec.Seq8 p.1 p.2 ∧ p.1 ≤ C.max) ∧
      ys = segs.map (fun p => p.1 % 2 ^ C.w) := by
  induction h with
  | nil => exact ⟨[], rfl, by simp, rfl⟩
  | @cons st a xs st1 as ys st2 he _ ih =>
    obtain ⟨c, h1, h2, rfl, _⟩ := he
    obtain ⟨segs, rfl, h4, rfl⟩ := ih
    exact ⟨(c, a) :: segs, rfl, List.forall_mem_cons.2 ⟨⟨h1, h2⟩, h4⟩, rfl⟩

theorem star8out {C : Cfg} {st st' : Nat} {a ys : List Nat} (h : Star (E8out C) st a ys st') :
    (∀ c ∈ a, c ≤ C.max ∧ c < 2 ^ 32) ∧ ys = a.flatMap Spec.enc8 := by
  induction h with
  | nil => simp
  | @cons st a xs st1 as ys st2 he _ ih =>
    obtain ⟨c, rfl, h0, h1, rfl, _⟩ := he
    exact ⟨by simpa using ⟨⟨h1, h0⟩, ih.1⟩, by rw [ih.2]; rfl⟩

/-- **C20** One call of `codecvt_utf8::do_in`, with no header to look for, on any bytes and any room: it never reads
outside the input nor writes outside the output; it converts sequences one by one; it stops with `ok` (or `partial` if
nothing was converted) because the input is used up, the output is full or the sequence that follows is incomplete; and
with `error` exactly if what follows is neither a sequence of a code up to `_Mymax` nor an incomplete one. -/
theorem C20_utf8_in (C : Cfg) (st : Nat) (s : List Nat) (room : Nat) (hu : Units 8 s)
    (hst : st ≠ 0 ∨ C.consume = false) :
    ∃ (r : CvtRes) (segs : List (Nat × List Nat)) (rest : List Nat), in8 C st s room = .ok r ∧
      s = (segs.map Prod.snd).flatten ++ rest ∧ (∀ p ∈ segs, Spec.Seq8 p.1 p.2 ∧ p.1 ≤ C.max) ∧
      r.out = segs.map (fun p => p.1 % 2 ^ C.w) ∧ segs.length ≤ room ∧
      ((r.res = (if segs = [] then .part else .ok) ∧ r.mid1 = rest ∧
          (rest = [] ∨ segs.length = room ∨ Spec.Trunc8 rest)) ∨
        (r.res = .error ∧ r.mid1 <:+ rest ∧ segs.length < room ∧ rest ≠ [] ∧ ¬ Spec.Trunc8 rest ∧
          ¬ ∃ c b t, Spec.Seq8 c b ∧ c ≤ C.max ∧ rest = b ++ t)) := by
  obtain ⟨r, h1, a, rest, st1, h2, h3, h4, h5, h6, h7, h8, h9⟩ := call_ok (in8_stepOK C) room st s hst hu
  obtain ⟨segs, rfl, h10, h11⟩ := star8in h3
  have hl : r.out.length = segs.length := by rw [h11, List.length_map]
  have hsegs : segs = [] ↔ (segs.map Prod.snd).flatten = [] := by
    constructor
    · rintro rfl; rfl
    · intro h
      match segs, h with
      | [], _ => rfl
      | p :: segs, h =>
        exact absurd (List.append_eq_nil_iff.1 h).1 (seq8_ne (h10 p (by simp)).1)
  refine ⟨r, segs, rest, h1, h2, h10, h11, by omega, ?_⟩
  by_cases he : r.res = .error
  · right
    obtain ⟨h12, h13, h14⟩ := h5 he
    rw [condNE_true] at h14
    exact ⟨he, h13, by omega, h12.1, h12.2.1, h12.2.2⟩
  · left
    obtain ⟨h12, _, _, h13⟩ := h6 he
    refine ⟨?_, h12, ?_⟩
    · split
      · next h => exact (h8 (hsegs.1 h)).resolve_left he
      · next h =>
        refine (h7.resolve_left he).resolve_left (fun hp => ?_)
        rcases h9 hp with h | ⟨h, _⟩
        · exact absurd (hsegs.2 h) (by assumption)
        · cases h
    · rcases h13 with h | h
      · have : ¬ (rest ≠ [] ∧ room - r.out.length ≠ 0) := by rw [← condNE_true, h]; simp
        by_cases hr : rest = []
        · exact Or.inl hr
        · have : room - r.out.length = 0 := by
            by_contra h'; exact this ⟨hr, h'⟩
          exact Or.inr (Or.inl (by omega))
      · exact Or.inr (Or.inr h)

/-- **C20** One call of `codecvt_utf8::do_out`, with no header to write: the codes converted are written in UTF-8; it
stops because the input is used up or the next code does not fit into the room left, and with `error` exactly if the next
code exceeds `_Mymax`. -/
theorem C20_utf8_out (C : Cfg) (st : Nat) (s : List Nat) (room : Nat) (hu : Units 32 s)
    (hst : st ≠ 0 ∨ C.gen = false) :
    ∃ (r : CvtRes) (a rest : List Nat), out8 C st s room = .ok r ∧ s = a ++ rest ∧ (∀ c ∈ a, c ≤ C.max) ∧
      r.out = a.flatMap Spec.enc8 ∧ r.out.length ≤ room ∧
      ((r.res = (if a = [] then .part else .ok) ∧ r.mid1 = rest ∧
          (∀ c ∈ rest.head?, room < r.out.length + (Spec.enc8 c).length)) ∨
        (r.res = .error ∧ ∃ c t, rest = c :: t ∧ C.max < c)) := by
  obtain ⟨r, h1, a, rest, st1, h2, h3, h4, h5, h6, h7, h8, h9⟩ := call_ok (out8_stepOK C) room st s hst hu
  obtain ⟨h10, h11⟩ := star8out h3
  refine ⟨r, a, rest, h1, h2, fun c hc => (h10 c hc).1, h11, h4, ?_⟩
  by_cases he : r.res = .error
  · exact Or.inr ⟨he, (h5 he).1⟩
  · left
    obtain ⟨h12, _, _, h13⟩ := h6 he
    refine ⟨?_, h12, ?_⟩
    · split
      · next h => exact (h8 h).resolve_left he
      · next h =>
        refine (h7.resolve_left he).resolve_left (fun hp => ?_)
        rcases h9 hp with h | ⟨h, _⟩
        · contradiction
        · cases h
    · intro c hc
      rcases h13 with h | ⟨c', t, rfl, _, h⟩
      · have h' : ¬ (rest ≠ [] ∧ room - r.out.length ≠ 0) := by rw [← condNE_true, h]; simp
        have hne : rest ≠ [] := by rintro rfl; cases hc
        have h0 : room - r.out.length = 0 := by by_contra h''; exact h' ⟨hne, h''⟩
        have := enc8_length c
        omega
      · cases hc; omega

/-- The bytes of codes determine the codes. -/
theorem decode_unique : ∀ (segs : List (Nat × List Nat)) (cs : List Nat), (∀ p ∈ segs, Spec.Seq8 p.1 p.2) →
    (∀ c ∈ cs, c < 2 ^ 32) → (segs.map Prod.snd).flatten = cs.flatMap Spec.enc8 → segs.map Prod.fst = cs := by
  intro segs
  induction segs with
  | nil =>
    intro cs _ _ h
    match cs, h with
    | [], _ => rfl
    | c :: cs, h =>
      have := enc8_length c
      have h := congrArg List.length h
      rw [List.flatMap_cons, List.length_append] at h
      simp at h
      omega
  | cons p segs ih =>
    intro cs hseg hcs h
    match cs, h with
    | [], h =>
      exact absurd (List.append_eq_nil_iff.1 h).1 (seq8_ne (hseg p (by simp)))
    | c :: cs, h =>
      rw [List.flatMap_cons, List.map_cons, List.flatten_cons] at h
      obtain ⟨_, h1, h2⟩ := seq8_unique (hseg p (by simp)) (enc8_seq (hcs c (by simp))) h
      rw [List.map_cons, h1, ih cs (fun q hq => hseg q (by simp [hq])) (fun x hx => hcs x (by simp [hx])) h2]

theorem map_mod_eq {w : Nat} {segs : List (Nat × List Nat)} {cs : List Nat} (h : segs.map Prod.fst = cs)
    (hcs : Units w cs) : segs.map (fun p => p.1 % 2 ^ w) = cs := by
  rw [← h]
  apply List.map_congr_left
  intro p hp
  exact Nat.mod_eq_of_lt (hcs _ (by rw [← h]; exact List.mem_map_of_mem hp))

theorem in8_run_star (C : Cfg) {st st' : Nat} {s v : List Nat} (h : Run (in8 C) st s v st')
    (hst : st ≠ 0 ∨ C.consume = false) (hu : Units 8 s) : ∃ st2, Star (E8in C) st s v st2 :=
  run_star (V := Units 8) (fun _ _ h => units_append.1 h) (fun st s room hI hu => call_ok (in8_stepOK C) room st s hI hu)
    st s v st' h hst hu

theorem out8_run_star (C : Cfg) {st st' : Nat} {s v : List Nat} (h : Run (out8 C) st s v st')
    (hst : st ≠ 0 ∨ C.gen = false) (hu : Units 32 s) : ∃ st2, Star (E8out C) st s v st2 :=
  run_star (V := Units 32) (fun _ _ h => units_append.1 h)
    (fun st s room hI hu => call_ok (out8_stepOK C) room st s hI hu) st s v st' h hst hu

theorem units_enc8 {cs : List Nat} (h : Units 32 cs) : Units 8 (cs.flatMap Spec.enc8) := by
  intro b hb
  obtain ⟨c, hc, hb⟩ := List.mem_flatMap.1 hb
  exact seq8_units (enc8_seq (h c hc)) b hb

theorem units_mono {w w' : Nat} (h : w ≤ w') {s : List Nat} (hs : Units w s) : Units w' s :=
  fun b hb => lt_of_lt_of_le (hs b hb) (Nat.pow_le_pow_right (by omega) h)

/-- Reading back in pieces what the codes `cs` are in UTF-8. -/
theorem in8_run_of_enc (C : Cfg) (hw : C.w ≤ 32) {st st' : Nat} {cs v : List Nat} (hst : st ≠ 0 ∨ C.consume = false)
    (hcs : Units C.w cs) (h : Run (in8 C) st (cs.flatMap Spec.enc8) v st') : v = cs := by
  obtain ⟨st2, h1⟩ := in8_run_star C h hst (units_enc8 (units_mono hw hcs))
  obtain ⟨segs, h2, h3, h4⟩ := star8in h1
  have h5 := decode_unique segs cs (fun p hp => (h3 p hp).1) (units_mono hw hcs) h2.symm
  rw [h4, map_mod_eq h5 hcs]

/-- **C20** Round trip of `codecvt_utf8` without headers: however the codes are split into calls of `do_out`, and however
the bytes are split into calls of `do_in`, whatever room each call has, the codes read are the codes written. -/
theorem C20_utf8_roundtrip (C : Cfg) (hw : C.w ≤ 32) (hg : C.gen = false) (hc : C.consume = false)
    (cs bs v : List Nat) (st1 st2 : Nat) (hcs : Units C.w cs) (hout : Run (out8 C) 0 cs bs st1)
    (hin : Run (in8 C) 0 bs v st2) : v = cs := by
  obtain ⟨st3, h1⟩ := out8_run_star C hout (Or.inr hg) (units_mono hw hcs)
  obtain ⟨_, rfl⟩ := star8out h1
  exact in8_run_of_enc C hw (Or.inr hc) hcs hin

/-! ## Headers -/

/-- The facet without `consume_header`. -/
abbrev Cfg.plain (C : Cfg) : Cfg := { C with consume := false }

theorem in8Step_plain (C : Cfg) (room st : Nat) (first mid : List Nat) (hst : st ≠ 0) :
    in8Step C room st first mid = in8Step C.plain room st first mid := by
  unfold in8Step
  simp [hst]

/-- Two loops with the same bodies in the states that occur do the same. -/
theorem cvtLoop_congr {cond : List Nat → Nat → Bool} {step step' : Nat → Nat → List Nat → List Nat → R Step}
    (I : Nat → Prop) (total : Nat) (h : ∀ room st first mid, I st → step room st first mid = step' room st first mid)
    (hi : ∀ room st first mid xs m f st', I st → step room st first mid = .ok (.emit xs m f st') → I st')
    (hh : ∀ room st first mid m st', I st → step room st first mid = .ok (.hdr m st') → I st') :
    ∀ f first mid out st, I st → cvtLoop cond step total f first mid out st = cvtLoop cond step' total f first mid out st := by
  intro f
  induction f with
  | zero => intros; rfl
  | succ f ih =>
    intro first mid out st hI
    rw [cvtLoop, cvtLoop, ← h _ _ _ _ hI]
    split
    · cases hs : step (total - out.length) st first mid with
      | error e => rfl
      | ok x =>
        cases x with
        | emit xs m f' st' => dsimp only; rw [ih _ _ _ _ (hi _ _ _ _ _ _ _ _ hI hs)]
        | hdr m st' => dsimp only; rw [ih _ _ _ _ (hh _ _ _ _ _ _ hI hs)]
        | _ => rfl
    · rfl

theorem in8Step_st {C : Cfg} {room st : Nat} {first mid xs m f : List Nat} {st' : Nat}
    (h : in8Step C room st first mid = .ok (.emit xs m f st')) : st' ≠ 0 := by
  unfold in8Step at h
  match mid, h with
  | [], h => simp [rdHead, bind, Except.bind] at h
  | b :: t, h =>
    rw [rdHead, R.ok_bind] at h
    cases hl : inLead b with
    | none => rw [hl] at h; cases h
    | some p =>
      obtain ⟨ch, n⟩ := p
      rw [hl] at h
      dsimp only at h
      split at h
      · cases h
      · cases hcn : inCont n (List.drop 1 (b :: t)) ch with
        | error e => rw [hcn] at h; simp [bind, Except.bind] at h
        | ok q =>
          obtain ⟨g, m', c'⟩ := q
          rw [hcn, R.ok_bind] at h
          dsimp only at h
          split at h
          · cases h
          split at h
          · cases h
          split at h
          · cases h
          · have h' : Step.emit [c' % 2 ^ C.w] m' first (if st = 0 then 1 else st) = .emit xs m f st' :=
              Except.ok.inj h
            cases h'
            split <;> omega

theorem in8Step_hdr {C : Cfg} {room st : Nat} {first mid m : List Nat} {st' : Nat}
    (h : in8Step C room st first mid = .ok (.hdr m st')) : st' = 1 ∧ st = 0 := by
  unfold in8Step at h
  match mid, h with
  | [], h => simp [rdHead, bind, Except.bind] at h
  | b :: t, h =>
    rw [rdHead, R.ok_bind] at h
    cases hl : inLead b with
    | none => rw [hl] at h; cases h
    | some p =>
      obtain ⟨ch, n⟩ := p
      rw [hl] at h
      dsimp only at h
      split at h
      · cases h
      · cases hcn : inCont n (List.drop 1 (b :: t)) ch with
        | error e => rw [hcn] at h; simp [bind, Except.bind] at h
        | ok q =>
          obtain ⟨g, m', c'⟩ := q
          rw [hcn, R.ok_bind] at h
          dsimp only at h
          split at h
          · cases h
          split at h
          · rename_i h1
            have h' : Step.hdr m' 1 = .hdr m st' := Except.ok.inj h
            cases h'
            exact ⟨rfl, h1.1⟩
          split at h <;> cases h

theorem in8_loop_plain (C : Cfg) (room : Nat) (f : Nat) (first mid out : List Nat) (st : Nat) (hst : st ≠ 0) :
    cvtLoop condNE (in8Step C) room f first mid out st = cvtLoop condNE (in8Step C.plain) room f first mid out st :=
  cvtLoop_congr (fun st => st ≠ 0) room (fun _ _ _ _ h => in8Step_plain C _ _ _ _ h)
    (fun _ _ _ _ _ _ _ _ _ h => in8Step_st h) (fun _ _ _ _ _ _ h h' => absurd (in8Step_hdr h').2 h) _ _ _ _ _ hst

theorem in8_plain (C : Cfg) (st : Nat) (s : List Nat) (room : Nat) (hst : st ≠ 0) :
    in8 C st s room = in8 C.plain st s room := in8_loop_plain C room _ _ _ _ _ hst

/-- "Drop header and retry", "roll back header determination". -/
def rollback (s : List Nat) (r : CvtRes) : CvtRes := if r.res = .part then { r with st := 0, mid1 := s } else r

theorem cvtLoop_fuel {cond : List Nat → Nat → Bool} {step : Nat → Nat → List Nat → List Nat → R Step} {total : Nat} :
    ∀ f first mid out st r, cvtLoop cond step total f first mid out st = .ok r →
      ∀ g, f ≤ g → cvtLoop cond step total g first mid out st = .ok r := by
  intro f
  induction f with
  | zero => intro _ _ _ _ _ h; cases h
  | succ f ih =>
    intro first mid out st r h g hg
    match g, hg with
    | g + 1, hg =>
    have hg : f ≤ g := by omega
    rw [cvtLoop] at h ⊢
    split at h
    · rename_i hc
      rw [if_pos hc]
      cases hs : step (total - out.length) st first mid with
      | error e => rw [hs] at h; cases h
      | ok x =>
        rw [hs] at h
        cases x with
        | emit xs m f' st' =>
          dsimp only at h ⊢
          split at h
          · cases h
          · rename_i hle
            rw [if_neg hle]
            exact ih _ _ _ _ _ h g hg
        | hdr m st' =>
          dsimp only at h ⊢
          cases hr : cvtLoop cond step total f m m [] st' with
          | error e => rw [hr] at h; cases h
          | ok r' => rw [hr] at h; rw [ih _ _ _ _ _ hr g hg]; exact h
        | _ => exact h
    · rename_i hc
      rw [if_neg hc]
      exact h

/-- **C20** A facet with `consume_header` at the start of the text: if the text starts with U+FEFF, that is dropped and
the rest converted as by the facet without `consume_header` (if this is not possible yet, nothing is consumed);
otherwise the whole text is converted as by that facet. -/
theorem C20_utf8_in_header (C : Cfg) (hcon : C.consume = true) (s : List Nat) (room : Nat) (hu : Units 8 s) :
    (∀ b t, s = b ++ t → Spec.Seq8 0xfeff b → room ≠ 0 →
      ∃ r, in8 C.plain 1 t room = .ok r ∧ in8 C 0 s room = .ok (rollback s r)) ∧
    ((¬ ∃ b t, s = b ++ t ∧ Spec.Seq8 0xfeff b) → in8 C 0 s room = in8 C.plain 0 s room) := by
  constructor
  · intro b t hs hb hroom
    have hut : Units 8 t := by rw [hs] at hu; exact (units_append.1 hu).2
    obtain ⟨r, h1, _⟩ := call_ok (in8_stepOK C) room 1 t (Or.inl (by omega)) hut
    have hne : s ≠ [] := by rw [hs]; simp [seq8_ne hb]
    have hlen := List.length_pos_iff.2 (seq8_ne hb)
    refine ⟨r, by rw [← in8_plain C 1 t room (by omega)]; exact h1, ?_⟩
    unfold in8
    rw [cvtLoop, if_pos (by rw [condNE_true]; exact ⟨hne, by simpa using hroom⟩)]
    rcases in8Step_cases C (room - ([] : List Nat).length) 0 s s hu hne with ⟨h2, _⟩ | ⟨c, b', t', h2, h3, h4⟩ |
      ⟨_, h2, _⟩
    · rw [hs] at h2; exact absurd h2 (seq8_not_trunc hb)
    · obtain ⟨rfl, rfl, rfl⟩ := seq8_unique hb h3 (hs.symm.trans h2)
      rw [if_pos ⟨rfl, hcon, rfl⟩] at h4
      rw [h4]
      dsimp only
      rw [cvtLoop_fuel _ _ _ _ _ _ h1 s.length (by rw [hs, List.length_append]; omega)]
      rfl
    · exact absurd ⟨_, b, t, hb, hs⟩ h2
  · intro hno
    by_cases hc : condNE s room = true
    swap
    · unfold in8
      rw [cvtLoop, cvtLoop]
      simp only [List.length_nil, Nat.sub_zero]
      rw [if_neg hc, if_neg hc]
    have hc' := condNE_true.1 hc
    have hstep : in8Step C room 0 s s = in8Step C.plain room 0 s s := by
      rcases in8Step_cases C room 0 s s hu hc'.1 with ⟨h2, h3⟩ | ⟨c, b', t', h2, h3, h4⟩ | ⟨h1, h2, m, h3, h4⟩
      · rcases in8Step_cases C.plain room 0 s s hu hc'.1 with ⟨h4, h5⟩ | ⟨c, b', t', h4, h5, h6⟩ | ⟨h4, _⟩
        · rw [h3, h5]
        · rw [h4] at h2; exact absurd h2 (seq8_not_trunc h5)
        · exact absurd h2 h4
      · rcases in8Step_cases C.plain room 0 s s hu hc'.1 with ⟨h5, _⟩ | ⟨c', b'', t'', h5, h6, h7⟩ | ⟨_, h5, _⟩
        · rw [h2] at h5; exact absurd h5 (seq8_not_trunc h3)
        · obtain ⟨rfl, rfl, rfl⟩ := seq8_unique h3 h6 (h2.symm.trans h5)
          have hn : ¬ (0 = 0 ∧ C.consume ∧ c = 0xfeff) := fun h8 => hno ⟨b', t', h2, h8.2.2 ▸ h3⟩
          have hn' : ¬ (0 = 0 ∧ C.plain.consume ∧ c = 0xfeff) := by simp
          rw [h4, h7, if_neg hn, if_neg hn']
        · exact absurd ⟨c, b', t', h3, h2⟩ h5
      · rw [h4 C, h4 C.plain]
    unfold in8
    rw [cvtLoop, cvtLoop]
    simp only [List.length_nil, Nat.sub_zero]
    rw [if_pos hc, if_pos hc, ← hstep]
    cases hs : in8Step C room 0 s s with
    | error e => rfl
    | ok x =>
      cases x with
      | emit xs m f' st' =>
        dsimp only
        have hst' := in8Step_st hs
        rw [in8_loop_plain C _ _ _ _ _ _ hst']
      | hdr m st' =>
        exfalso
        rcases in8Step_cases C room 0 s s hu hc'.1 with ⟨_, h3⟩ | ⟨c, b', t', h2, h3, h4⟩ | ⟨_, _, m, _, h4⟩
        · rw [h3] at hs; cases hs
        · rw [h4] at hs
          split at hs
          · rename_i h5
            exact hno ⟨b', t', h2, h5.2.2 ▸ h3⟩
          · split at hs <;> cases hs
        · rw [h4 C] at hs; cases hs
      | _ => rfl

/-- A call that cannot convert anything changes nothing. -/
theorem in8_idle (C : Cfg) (st : Nat) (s : List Nat) (room : Nat) (hu : Units 8 s)
    (h : s = [] ∨ room = 0 ∨ Spec.Trunc8 s) : in8 C st s room = .ok ⟨.part, s, [], st⟩ := by
  have hfin : fin s s [] st = ⟨.part, s, [], st⟩ := by unfold fin; rw [if_pos rfl]
  unfold in8
  rw [cvtLoop]
  simp only [List.length_nil, Nat.sub_zero]
  by_cases hc : condNE s room = true
  · rw [if_pos hc]
    have hc := condNE_true.1 hc
    have htr : Spec.Trunc8 s := (h.resolve_left hc.1).resolve_left hc.2
    rcases in8Step_cases C room st s s hu hc.1 with ⟨_, h3⟩ | ⟨c, b', t', h2, h3, _⟩ | ⟨h1, _⟩
    · rw [h3]; dsimp only; rw [hfin]
    · rw [h2] at htr; exact absurd htr (seq8_not_trunc h3)
    · exact absurd htr h1
  · rw [if_neg hc, hfin]

/-- Without a header at the start, the initial state is as good as any other. -/
theorem in8_zero (C : Cfg) (s : List Nat) (room : Nat) (hu : Units 8 s)
    (hno : ¬ ∃ b t, s = b ++ t ∧ Spec.Seq8 0xfeff b) :
    in8 C 0 s room = in8 C 1 s room ∨ in8 C 0 s room = .ok ⟨.part, s, [], 0⟩ ∨
      ∃ m, in8 C 0 s room = .ok ⟨.error, m, [], 0⟩ := by
  by_cases hc : condNE s room = true
  swap
  · right; left
    refine in8_idle C 0 s room hu ?_
    rw [condNE_true] at hc
    by_cases h0 : s = []
    · exact Or.inl h0
    · exact Or.inr (Or.inl (by by_contra h; exact hc ⟨h0, h⟩))
  have hc' := condNE_true.1 hc
  rcases in8Step_cases C room 0 s s hu hc'.1 with ⟨h1, _⟩ | ⟨c, b, t, h1, h2, h3⟩ | ⟨h1, h2, m, _, h4⟩
  · exact Or.inr (Or.inl (in8_idle C 0 s room hu (Or.inr (Or.inr h1))))
  · left
    rcases in8Step_cases C room 1 s s hu hc'.1 with ⟨h4, _⟩ | ⟨c', b', t', h4, h5, h6⟩ | ⟨_, h4, _⟩
    · rw [h1] at h4; exact absurd h4 (seq8_not_trunc h2)
    · obtain ⟨rfl, rfl, rfl⟩ := seq8_unique h2 h5 (h1.symm.trans h4)
      have hn : ¬ (0 = 0 ∧ C.consume ∧ c = 0xfeff) := fun h8 => hno ⟨b, t, h1, h8.2.2 ▸ h2⟩
      have hn' : ¬ (1 = 0 ∧ C.consume ∧ c = 0xfeff) := by omega
      rw [if_neg hn] at h3
      rw [if_neg hn'] at h6
      unfold in8
      rw [cvtLoop, cvtLoop]
      simp only [List.length_nil, Nat.sub_zero]
      rw [if_pos hc, if_pos hc, h3, h6]
      rfl
    · exact absurd ⟨c, b, t, h2, h1⟩ h4
  · right; right
    refine ⟨m, ?_⟩
    unfold in8
    rw [cvtLoop]
    simp only [List.length_nil, Nat.sub_zero]
    rw [if_pos hc, h4 C]

/-- A text that does not start with U+FEFF can be read as if the start of the text were past. -/
theorem in8_run_zero (C : Cfg) {st st' : Nat} {s v : List Nat} (h : Run (in8 C) st s v st') :
    st = 0 → Units 8 s → (¬ ∃ b t, s = b ++ t ∧ Spec.Seq8 0xfeff b) → ∃ st'', Run (in8 C) 1 s v st'' := by
  induction h with
  | done st => intro _ _ _; exact ⟨1, .done 1⟩
  | @call st s k room r v st' hcall hne hrun ih =>
    intro h0 hu hno
    subst h0
    have hsk : s = s.take k ++ s.drop k := (List.take_append_drop k s).symm
    have hu' : Units 8 (s.take k) := by rw [hsk] at hu; exact (units_append.1 hu).1
    have hno' : ¬ ∃ b t, s.take k = b ++ t ∧ Spec.Seq8 0xfeff b := by
      rintro ⟨b, t, h1, h2⟩
      exact hno ⟨b, t ++ s.drop k, by rw [← List.append_assoc, ← h1, ← hsk], h2⟩
    rcases in8_zero C (s.take k) room hu' hno' with h | h | ⟨m, h⟩
    · rw [h] at hcall
      exact ⟨st', .call hcall hne hrun⟩
    · rw [hcall] at h
      cases h
      dsimp only at ih ⊢
      rw [← hsk] at ih
      exact ih rfl hu hno
    · rw [hcall] at h
      cases h
      exact absurd rfl hne

/-- A text that starts with U+FEFF is read as if that were past, with `consume_header`. -/
theorem in8_run_header (C : Cfg) (hcon : C.consume = true) {b B : List Nat} (hb : Spec.Seq8 0xfeff b) {st st' : Nat}
    {s v : List Nat} (h : Run (in8 C) st s v st') :
    st = 0 → Units 8 s → s = b ++ B → ∃ st2, Star (E8in C) 1 B v st2 := by
  induction h with
  | done st => intro _ _ h; exact absurd (List.append_eq_nil_iff.1 h.symm).1 (seq8_ne hb)
  | @call st s k room r v st' hcall hne hrun ih =>
    intro h0 hu hs
    subst h0
    have hsk : s = s.take k ++ s.drop k := (List.take_append_drop k s).symm
    have hu' := hu
    rw [hsk] at hu'
    have hu' := units_append.1 hu'
    have hidle : in8 C 0 (s.take k) room = .ok ⟨.part, s.take k, [], 0⟩ → ∃ st2, Star (E8in C) 1 B (r.out ++ v) st2 := by
      intro h
      rw [hcall] at h
      cases h
      dsimp only at ih ⊢
      rw [← hsk] at ih
      exact ih rfl hu hs
    by_cases hk : k < b.length
    · refine hidle (in8_idle C 0 _ room hu'.1 ?_)
      by_cases hk0 : k = 0
      · left; rw [hk0]; rfl
      · right; right
        obtain ⟨b0, bs, rfl, h1, h2, _⟩ := hb
        obtain ⟨k, rfl⟩ : ∃ j, k = j + 1 := ⟨k - 1, by omega⟩
        refine ⟨b0, (bs ++ B).take k, bs.length, by rw [hs]; rfl, h1, h2, ?_⟩
        rw [List.length_take, List.length_append]
        simp only [List.length_cons] at hk
        omega
    by_cases hr : room = 0
    · exact hidle (in8_idle C 0 _ room hu'.1 (Or.inr (Or.inl hr)))
    have htk : s.take k = b ++ B.take (k - b.length) := by
      rw [hs, List.take_append, List.take_of_length_le (by omega)]
    have hdk : s.drop k = B.drop (k - b.length) := by
      rw [hs, List.drop_append, List.drop_eq_nil_of_le (by omega), List.nil_append]
    obtain ⟨r', h1, h2⟩ := (C20_utf8_in_header C hcon (s.take k) room hu'.1).1 b _ htk hb hr
    rw [hcall] at h2
    have h2 := Except.ok.inj h2
    unfold rollback at h2
    rw [← in8_plain C _ _ _ (by omega)] at h1
    have hB : Units 8 B := by rw [hs] at hu; exact (units_append.1 hu).2
    have hBk := hB
    rw [← List.take_append_drop (k - b.length) B] at hBk
    have hBk := units_append.1 hBk
    obtain ⟨r'', h3, a, rest, st1, h4, h5, h6, h7, h8, h9, h10, h11⟩ :=
      call_ok (in8_stepOK C) room 1 (B.take (k - b.length)) (Or.inl (by omega)) hBk.1
    rw [in8] at h1
    rw [h1] at h3
    cases h3
    by_cases hp : r'.res = .part
    · rw [if_pos hp] at h2
      have ha : a = [] := (h11 hp).resolve_right (fun h => by cases h.1)
      subst ha
      have hout : r'.out = [] := by
        obtain ⟨segs, h12, h13, h14⟩ := star8in h5
        match segs, h12, h13, h14 with
        | [], _, _, h14 => exact h14
        | p :: segs, h12, h13, _ =>
          exact absurd (List.append_eq_nil_iff.1 h12.symm).1 (seq8_ne (h13 p (by simp)).1)
      have hst : r.st = 0 := by rw [h2]
      have hm : r.mid1 = s.take k := by rw [h2]
      have ho : r.out = [] := by rw [h2]; exact hout
      rw [ho, List.nil_append]
      rw [hm, ← hsk] at ih
      exact ih hst hu hs
    · rw [if_neg hp] at h2
      subst h2
      obtain ⟨h12, h13, h14, _⟩ := h8 hne
      have hst : r.st ≠ 0 := h13.resolve_right (by rw [hcon]; simp)
      have hBe : B = a ++ (rest ++ B.drop (k - b.length)) := by
        rw [← List.append_assoc, ← h4, List.take_append_drop]
      rw [h12, hdk] at hrun
      have hrest : Units 8 (rest ++ B.drop (k - b.length)) := by
        rw [hBe] at hB; exact (units_append.1 hB).2
      obtain ⟨st3, h15⟩ := in8_run_star C hrun (Or.inl hst) hrest
      obtain ⟨st4, h16⟩ := star_le _ _ _ _ _ h14 h15
      exact ⟨st4, by rw [hBe]; exact h5.append h16⟩

theorem bom8_seq : Spec.Seq8 0xfeff bom8 :=
  ⟨0xef, [0xbb, 0xbf], rfl, by simp [Spec.lead8], by simp [Spec.lead8], by simp [Spec.Trail], by
    simp [Spec.lead8, Spec.contVal]⟩

/-- A facet with `generate_header`, at the start: the header and then the conversion as without. -/
theorem C20_utf8_out_header (C : Cfg) (hgen : C.gen = true) (c : Nat) (t : List Nat) (room : Nat) (hr : 9 ≤ room)
    (hu : Units 32 (c :: t)) (hc : c ≤ C.max) :
    ∃ r, out8 C 1 (c :: t) (room - 3) = .ok r ∧ out8 C 0 (c :: t) room = .ok { r with out := bom8 ++ r.out } := by
  have hc32 : c < 2 ^ 32 := hu c (by simp)
  obtain ⟨r, h1, _⟩ := call_ok (out8_stepOK C) (room - 3) 1 (c :: t) (Or.inl (by omega)) hu
  refine ⟨r, h1, ?_⟩
  have hlen := out_length hc32
  have hby := out_bytes hc32
  have hle := enc8_length_le c
  have hstep0 : out8Step C room 0 (c :: t) (c :: t) = .ok (.emit (bom8 ++ Spec.enc8 c) t (c :: t) 1) := by
    unfold out8Step
    rw [rdHead, R.ok_bind, if_neg (by omega)]
    generalize outLead c = p at hlen hby ⊢
    obtain ⟨b, n⟩ := p
    dsimp only at hlen hby ⊢
    rw [if_pos ⟨rfl, hgen⟩, if_neg (by omega), hby]
    rfl
  have hstep1 : out8Step C (room - 3) 1 (c :: t) (c :: t) = .ok (.emit (Spec.enc8 c) t (c :: t) 1) := by
    unfold out8Step
    rw [rdHead, R.ok_bind, if_neg (by omega)]
    generalize outLead c = p at hlen hby ⊢
    obtain ⟨b, n⟩ := p
    dsimp only at hlen hby ⊢
    rw [if_neg (by omega), if_neg (by omega), if_neg (by omega), hby]
    rfl
  unfold out8
  rw [cvtLoop] at h1 ⊢
  simp only [List.length_nil, Nat.sub_zero] at h1 ⊢
  rw [if_pos (condNE_true.2 ⟨by simp, by omega⟩), hstep1] at h1
  rw [if_pos (condNE_true.2 ⟨by simp, by omega⟩), hstep0]
  dsimp only at h1 ⊢
  have hb3 : bom8.length = 3 := rfl
  rw [if_neg (by omega)] at h1
  rw [if_neg (by rw [List.length_append]; omega)]
  rw [List.nil_append] at h1 ⊢
  -- the rest of the run is the same with the header in front
  have key : ∀ f first mid out st r, out.length ≤ room - 3 → st ≠ 0 →
      cvtLoop condNE (out8Step C) (room - 3) f first mid out st = .ok r →
      cvtLoop condNE (out8Step C) room f first mid (bom8 ++ out) st = .ok { r with out := bom8 ++ r.out } := by
    intro f
    induction f with
    | zero => intro _ _ _ _ _ _ _ h; cases h
    | succ f ih =>
      intro first mid out st r ho hst h
      have hroom : room - (bom8 ++ out).length = room - 3 - out.length := by rw [List.length_append]; omega
      rw [cvtLoop] at h ⊢
      rw [hroom]
      split at h
      · rename_i hcd
        rw [if_pos hcd]
        match mid, hcd, h with
        | [], hcd, h => exact absurd rfl (condNE_true.1 hcd).1
        | d :: u, hcd, h =>
        have hst' : (if st = 0 then 1 else st) ≠ 0 := by split <;> omega
        cases hs : out8Step C (room - 3 - out.length) st first (d :: u) with
        | error e => rw [hs] at h; cases h
        | ok x =>
          rw [hs] at h
          unfold out8Step at hs
          rw [rdHead, R.ok_bind] at hs
          split at hs
          · have hs := Except.ok.inj hs
            subst hs
            dsimp only at h ⊢
            cases h; rfl
          · generalize outLead d = p at hs
            obtain ⟨b, n⟩ := p
            dsimp only at hs
            rw [if_neg (fun hh => hst hh.1)] at hs
            split at hs
            · have hs := Except.ok.inj hs
              subst hs
              dsimp only at h ⊢
              cases h; rfl
            · have hs := Except.ok.inj hs
              subst hs
              dsimp only at h ⊢
              split at h
              · cases h
              · rename_i hov
                rw [if_neg (by rw [List.length_append]; omega), List.append_assoc]
                refine ih _ _ _ _ _ ?_ (by first | exact hst | exact hst') h
                rw [List.length_append]; omega
      · rename_i hcd
        rw [if_neg hcd]
        cases h; rfl
  exact key _ _ _ _ _ _ (by omega) (by omega) h1

/-- **C20** Round trip of `codecvt_utf8` with headers: the first call of `do_out` has room for the header and one code;
from then on, any splitting of codes and bytes and any room. -/
theorem C20_utf8_roundtrip_header (C : Cfg) (hw : C.w ≤ 32) (hg : C.gen = true) (hc : C.consume = true)
    (cs bs v : List Nat) (k room st1 st2 : Nat) (r : CvtRes) (hcs : Units C.w cs) (hmax : ∀ c ∈ cs, c ≤ C.max)
    (hk : 0 < k) (hne : cs ≠ []) (hroom : 9 ≤ room)
    (hfirst : out8 C 0 (cs.take k) room = .ok r) (hout : Run (out8 C) r.st (r.mid1 ++ cs.drop k) bs st1)
    (hin : Run (in8 C) 0 (r.out ++ bs) v st2) : v = cs := by
  have hu := units_mono hw hcs
  match cs, hne, k, hk with
  | c :: cs, _, k + 1, _ =>
  rw [List.take_succ_cons] at hfirst
  have huk : Units 32 (c :: cs.take k) := by
    have := hu
    rw [← List.take_append_drop (k + 1) (c :: cs)] at this
    exact (units_append.1 this).1
  obtain ⟨r', h1, h2⟩ := C20_utf8_out_header C hg c (cs.take k) room hroom huk (hmax c (by simp))
  rw [hfirst] at h2
  have h2 := Except.ok.inj h2
  obtain ⟨r'', h3, a, rest, s1, h4, h5, h6, h7, h8, h9, _, _⟩ :=
    call_ok (out8_stepOK C) (room - 3) 1 (c :: cs.take k) (Or.inl (by omega)) huk
  rw [out8] at h1
  rw [h1] at h3
  cases h3
  have hall : a ++ (rest ++ (c :: cs).drop (k + 1)) = c :: cs := by
    rw [← List.append_assoc, ← h4, ← List.take_succ_cons, List.take_append_drop]
  have hne : r'.res ≠ .error := by
    intro he
    obtain ⟨⟨c', t', h10, h11⟩, _⟩ := h7 he
    have : c' ∈ c :: cs := by rw [← hall, h10]; simp
    have := hmax c' this
    omega
  obtain ⟨h10, h11, h12, _⟩ := h8 hne
  have hst : r.st ≠ 0 := by rw [h2]; exact h11.resolve_right (by rw [hg]; simp)
  have hm : r.mid1 = rest := by rw [h2]; exact h10
  rw [hm] at hout
  have hur : Units 32 (rest ++ (c :: cs).drop (k + 1)) := by
    rw [← hall] at hu; exact (units_append.1 hu).2
  obtain ⟨s3, h13⟩ := out8_run_star C hout (Or.inl hst) hur
  obtain ⟨_, h14⟩ := star8out h5
  obtain ⟨_, h15⟩ := star8out h13
  have hbytes : r.out ++ bs = bom8 ++ (c :: cs).flatMap Spec.enc8 := by
    rw [h2, h15]
    dsimp only
    rw [h14, List.append_assoc, ← List.flatMap_append, hall]
  rw [hbytes] at hin
  have hub : Units 8 (bom8 ++ (c :: cs).flatMap Spec.enc8) :=
    units_append.2 ⟨seq8_units bom8_seq, units_enc8 hu⟩
  obtain ⟨s4, h16⟩ := in8_run_header C hc bom8_seq hin rfl hub rfl
  obtain ⟨segs, h17, h18, h19⟩ := star8in h16
  rw [h19]
  exact map_mod_eq (decode_unique segs _ (fun p hp => (h18 p hp).1) hu h17.symm) hcs

/-- **C20** Text without header read by a facet with `consume_header`: the same, unless the text starts with U+FEFF. -/
theorem C20_utf8_roundtrip_noheader (C C' : Cfg) (hw : C.w ≤ 32) (hg : C'.gen = false)
    (cs bs v : List Nat) (st1 st2 : Nat) (hcs : Units C.w cs) (hfe : cs.head? ≠ some 0xfeff)
    (hout : Run (out8 C') 0 cs bs st1) (hin : Run (in8 C) 0 bs v st2) : v = cs := by
  have hu := units_mono hw hcs
  obtain ⟨st3, h1⟩ := out8_run_star C' hout (Or.inr hg) hu
  obtain ⟨_, rfl⟩ := star8out h1
  have hno : ¬ ∃ b t, cs.flatMap Spec.enc8 = b ++ t ∧ Spec.Seq8 0xfeff b := by
    rintro ⟨b, t, h2, h3⟩
    match cs, h2 with
    | [], h2 => exact absurd (List.append_eq_nil_iff.1 h2.symm).1 (seq8_ne h3)
    | c :: cs, h2 =>
      rw [List.flatMap_cons] at h2
      obtain ⟨_, h4, _⟩ := seq8_unique (enc8_seq (hu c (by simp))) h3 h2
      rw [h4] at hfe
      exact hfe rfl
  obtain ⟨st4, h5⟩ := in8_run_zero C hin rfl (units_enc8 hu) hno
  exact in8_run_of_enc C hw (Or.inl (by omega)) hcs h5

/-- The facet `codecvt_utf8<char32_t, 0x10ffff, consume_header | generate_header>`. -/
def utf8hdr : Cfg := ⟨32, 0x10ffff, true, true, false⟩

/-- A run which meets the hypotheses of the round trip with headers: three codes, in pieces. -/
example : ∃ r bs, out8 utf8hdr 0 (([0x41, 0x20AC, 0x1F600] : List Nat).take 1) 9 = .ok r ∧
    Run (out8 utf8hdr) r.st (r.mid1 ++ ([0x41, 0x20AC, 0x1F600] : List Nat).drop 1) bs 1 ∧
    Run (in8 utf8hdr) 0 (r.out ++ bs) [0x41, 0x20AC, 0x1F600] 1 := by
  refine ⟨⟨.ok, [], [0xef, 0xbb, 0xbf, 0x41], 1⟩, [0xE2, 0x82, 0xAC, 0xF0, 0x9F, 0x98, 0x80], by decide, ?_, ?_⟩
  · exact .call (k := 2) (room := 3) (r := ⟨.ok, [0x1F600], [0xE2, 0x82, 0xAC], 1⟩) (by decide) (by decide)
      (.call (k := 1) (room := 4) (r := ⟨.ok, [], [0xF0, 0x9F, 0x98, 0x80], 1⟩) (by decide) (by decide) (.done 1))
  · exact .call (k := 2) (room := 3) (r := ⟨.part, [0xef, 0xbb], [], 0⟩) (by decide) (by decide)
      (.call (k := 5) (room := 3) (r := ⟨.ok, [0xE2], [0x41], 1⟩) (by decide) (by decide)
        (.call (k := 9) (room := 3) (r := ⟨.ok, [], [0x20AC, 0x1F600], 1⟩) (by decide) (by decide) (.done 1)))

/-- **C20** Finding: if the first call of `do_out` has too little room for the header, the state is changed although
nothing is written, and the header is lost. -/
theorem C20_utf8_header_lost (C : Cfg) (hg : C.gen = true) (c : Nat) (t : List Nat) (hc : c ≤ C.max) (h7 : c < 0x80) :
    out8 C 0 (c :: t) 3 = .ok ⟨.part, c :: t, [], 1⟩ ∧ ∃ r, out8 C 1 [c] 9 = .ok r ∧ r.out = [c] := by
  have hl : outLead c = (c, 0) := by unfold outLead; rw [if_pos h7, Nat.mod_eq_of_lt (by omega)]
  constructor
  · unfold out8
    rw [cvtLoop, if_pos (condNE_true.2 ⟨by simp, by simp⟩)]
    have : out8Step C (3 - ([] : List Nat).length) 0 (c :: t) (c :: t) = .ok (.part (c :: t) 1) := by
      unfold out8Step
      rw [rdHead, R.ok_bind, if_neg (by omega), hl]
      dsimp only
      rw [if_pos ⟨rfl, hg⟩, if_pos (by simp)]
      rfl
    rw [this]
  · obtain ⟨r, a, rest, h1, h2, h3, h4, h5, h6⟩ := C20_utf8_out C 1 [c] 9 (by
      intro b hb; rw [List.mem_singleton.1 hb]; omega) (Or.inl (by omega))
    refine ⟨r, h1, ?_⟩
    have he : Spec.enc8 c = [c] := by unfold Spec.enc8; rw [if_pos h7]
    match a, h2 with
    | [], h2 =>
      obtain rfl : rest = [c] := h2.symm
      rcases h6 with ⟨_, _, h8⟩ | ⟨_, c', t', h8, h9⟩
      · have := h8 c (by simp)
        rw [he, h4] at this
        simp at this
      · simp only [List.cons.injEq] at h8
        omega
    | x :: a, h2 =>
      simp only [List.cons_append, List.cons.injEq] at h2
      have ha : a = [] := (List.append_eq_nil_iff.1 h2.2.symm).1
      rw [h4, ha, ← h2.1]
      simp [he]

end STL.Utf
