import Verif.Utf.Utf16

/-! # User-level theorems on `codecvt_utf16` -/

namespace STL.Utf

theorem star16in {C : Cfg} {st st' : Nat} {a ys : List Nat} (h : Star (E16in C) st a ys st') :
    ∃ cs : List Nat, a = cs.flatMap (Spec.encBytes16 (order C st)) ∧ (∀ c ∈ cs, Spec.Code16 c ∧ c ≤ C.max) ∧
      ys = cs.map (· % 2 ^ C.w) := by
  induction h with
  | nil => exact ⟨[], rfl, by simp, rfl⟩
  | @cons st a xs st1 as ys st2 he _ ih =>
    obtain ⟨c, h1, rfl, h2, rfl, rfl⟩ := he
    obtain ⟨cs, rfl, h4, rfl⟩ := ih
    rw [order_norm]
    exact ⟨c :: cs, rfl, List.forall_mem_cons.2 ⟨⟨h1, h2⟩, h4⟩, rfl⟩

theorem star16out {C : Cfg} {st st' : Nat} {a ys : List Nat} (h : Star (E16out C) st a ys st') :
    (∀ c ∈ a, Spec.Code16 c ∧ c ≤ C.max) ∧ ys = a.flatMap (Spec.encBytes16 (order C st)) ∧ st' = st := by
  induction h with
  | nil => simp
  | @cons st a xs st1 as ys st2 he _ ih =>
    obtain ⟨c, rfl, h0, h1, rfl, rfl⟩ := he
    exact ⟨by simpa using ⟨⟨h0, h1⟩, ih.1⟩, by rw [ih.2.1]; rfl, ih.2.2⟩

theorem encBytes16_ne (l : Bool) (c : Nat) : Spec.encBytes16 l c ≠ [] := by
  intro h
  have := congrArg List.length h
  by_cases h7 : c < 0x10000
  · rw [enc16_lt h7, bytes16_length] at this; simp at this
  · rw [enc16_ge (by omega), List.length_append, bytes16_length] at this; simp at this

theorem flatMap_enc_nil {l : Bool} {cs : List Nat} (h : cs.flatMap (Spec.encBytes16 l) = []) : cs = [] := by
  match cs, h with
  | [], _ => rfl
  | c :: cs, h => exact absurd (List.append_eq_nil_iff.1 h).1 (encBytes16_ne l c)

/-- **C20** One call of `codecvt_utf16::do_in`, with no header to look for, on any bytes and any room: it never reads
outside the input nor writes outside the output; it converts codes one by one, in the byte order of the state (or of the
facet, at the start); it stops with `ok` (or `partial` if nothing was converted) because the input is used up, the output
is full or what follows is incomplete; and with `error` exactly if what follows is none of these and no code up to
`_Mymax`. -/
theorem C20_utf16_in (C : Cfg) (st : Nat) (s : List Nat) (room : Nat) (hu : Units 8 s) (hst2 : st ≤ 2)
    (hst : st ≠ 0 ∨ C.consume = false) :
    ∃ (r : CvtRes) (cs rest : List Nat), in16 C st s room = .ok r ∧
      s = cs.flatMap (Spec.encBytes16 (order C st)) ++ rest ∧ (∀ c ∈ cs, Spec.Code16 c ∧ c ≤ C.max) ∧
      r.out = cs.map (· % 2 ^ C.w) ∧ cs.length ≤ room ∧
      ((r.res = (if cs = [] then .part else .ok) ∧ r.mid1 = rest ∧
          (rest = [] ∨ cs.length = room ∨ Spec.Trunc16 (order C st) rest)) ∨
        (r.res = .error ∧ r.mid1 <:+ rest ∧ cs.length < room ∧ rest ≠ [] ∧ ¬ Spec.Trunc16 (order C st) rest ∧
          ¬ ∃ c t, Spec.Code16 c ∧ c ≤ C.max ∧ rest = Spec.encBytes16 (order C st) c ++ t)) := by
  obtain ⟨r, h1, a, rest, st1, h2, h3, h4, h5, h6, h7, h8, h9⟩ := call_ok (in16_stepOK C) room st s ⟨hst2, hst⟩ hu
  obtain ⟨cs, rfl, h10, h11⟩ := star16in h3
  have hord : order C st1 = order C st := by
    have : ∀ {st a ys st'}, Star (E16in C) st a ys st' → order C st' = order C st := by
      intro st a ys st' h
      induction h with
      | nil => rfl
      | cons he _ ih => obtain ⟨_, _, _, _, _, rfl⟩ := he; rw [ih, order_norm]
    exact this h3
  have hl : r.out.length = cs.length := by rw [h11, List.length_map]
  dsimp only at h5 h6 h9
  rw [hord] at h5 h6 h9
  refine ⟨r, cs, rest, h1, h2, h10, h11, by omega, ?_⟩
  by_cases he : r.res = .error
  · right
    obtain ⟨h12, h13, h14⟩ := h5 he
    rw [cond16in_true] at h14
    exact ⟨he, h13, by omega, h12.1, h12.2.1, h12.2.2⟩
  · left
    obtain ⟨h12, _, _, h13⟩ := h6 he
    refine ⟨?_, h12, ?_⟩
    · split
      · next h => exact (h8 (by rw [h]; rfl)).resolve_left he
      · next h =>
        refine (h7.resolve_left he).resolve_left (fun hp => ?_)
        rcases h9 hp with h | ⟨h, _⟩
        · exact absurd (flatMap_enc_nil h) (by assumption)
        · cases h
    · rcases h13 with h | h
      · have : ¬ (2 ≤ rest.length ∧ room - r.out.length ≠ 0) := by rw [← cond16in_true, h]; simp
        by_cases hr : rest = []
        · exact Or.inl hr
        · have hpos := List.length_pos_iff.2 hr
          by_cases h1 : rest.length = 1
          · exact Or.inr (Or.inr (Or.inl h1))
          · exact Or.inr (Or.inl (by omega))
      · exact Or.inr (Or.inr h)

theorem out16_of_ne (C : Cfg) {st : Nat} (h : st = 1 ∨ st = 2) (s : List Nat) (room : Nat) :
    out16 C st s room = cvtLoop cond16out (out16Step C) room (s.length + 1) s s [] st := by
  unfold out16; rw [if_neg (by omega)]

theorem out16_zero (C : Cfg) (hg : C.gen = false) (s : List Nat) (room : Nat) :
    out16 C 0 s room = out16 C (defEnd C) s room := by
  have := defEnd_ne C
  unfold out16; rw [if_pos rfl, hg, if_neg (by simp), if_neg this.1]

/-- **C20** One call of `codecvt_utf16::do_out` once the byte order is fixed (or with no header to write): the codes
converted are written in UTF-16 in that byte order; it stops because the input is used up or the next code does not fit into
the room left, and with `error` exactly if the next code is too large or is a first surrogate. -/
theorem C20_utf16_out (C : Cfg) (st : Nat) (s : List Nat) (room : Nat) (hu : Units 32 s) (hst2 : st ≤ 2)
    (hst : st ≠ 0 ∨ C.gen = false) :
    ∃ (r : CvtRes) (a rest : List Nat), out16 C st s room = .ok r ∧ s = a ++ rest ∧
      (∀ c ∈ a, Spec.Code16 c ∧ c ≤ C.max) ∧
      r.out = a.flatMap (Spec.encBytes16 (order C st)) ∧ r.out.length ≤ room ∧
      ((r.res ≠ .error ∧ (a = [] → r.res = .part) ∧ r.mid1 = rest ∧
          (∀ c ∈ rest.head?, room < r.out.length + (Spec.encBytes16 (order C st) c).length)) ∨
        (r.res = .error ∧ ∃ c t, rest = c :: t ∧ ¬ (Spec.Code16 c ∧ c ≤ C.max))) := by
  have hd := defEnd_ne C
  have key : ∀ st, (st = 1 ∨ st = 2) → ∃ (r : CvtRes) (a rest : List Nat), out16 C st s room = .ok r ∧ s = a ++ rest ∧
      (∀ c ∈ a, Spec.Code16 c ∧ c ≤ C.max) ∧
      r.out = a.flatMap (Spec.encBytes16 (order C st)) ∧ r.out.length ≤ room ∧
      ((r.res ≠ .error ∧ (a = [] → r.res = .part) ∧ r.mid1 = rest ∧
          (∀ c ∈ rest.head?, room < r.out.length + (Spec.encBytes16 (order C st) c).length)) ∨
        (r.res = .error ∧ ∃ c t, rest = c :: t ∧ ¬ (Spec.Code16 c ∧ c ≤ C.max))) := by
    intro st hst
    obtain ⟨r, h1, a, rest, st1, h2, h3, h4, h5, h6, h7, h8, h9⟩ := call_ok (out16_stepOK C) room st s hst hu
    obtain ⟨h10, h11, h12⟩ := star16out h3
    refine ⟨r, a, rest, by rw [out16_of_ne C hst, h1], h2, h10, h11, h4, ?_⟩
    by_cases he : r.res = .error
    · exact Or.inr ⟨he, (h5 he).1⟩
    · left
      obtain ⟨h13, _, _, h14⟩ := h6 he
      refine ⟨he, fun ha => (h8 ha).resolve_left he, h13, ?_⟩
      intro c hc
      match rest, hc with
      | x :: t, hc =>
      simp only [List.head?_cons, Option.mem_def, Option.some.injEq] at hc
      subst hc
      have hlen : 2 ≤ (Spec.encBytes16 (order C st) x).length ∧
          (0x10000 ≤ x → (Spec.encBytes16 (order C st) x).length = 4) := by
        by_cases h7 : x < 0x10000
        · rw [enc16_lt h7, bytes16_length]; omega
        · rw [enc16_ge (by omega), List.length_append, bytes16_length, bytes16_length]; omega
      rcases h14 with h | ⟨c, t', h15, h16, h17⟩
      · have : ¬ (x :: t ≠ [] ∧ 2 ≤ room - r.out.length) := by rw [← cond16out_true, h]; simp
        have : ¬ 2 ≤ room - r.out.length := fun h => this ⟨by simp, h⟩
        omega
      · simp only [List.cons.injEq] at h15
        have := hlen.2 (by omega)
        omega
  by_cases h0 : st = 0
  · subst h0
    have hg := hst.resolve_left (by simp)
    obtain ⟨r, a, rest, h1, h2⟩ := key (defEnd C) (by omega)
    rw [order_def] at h2
    exact ⟨r, a, rest, by rw [out16_zero C hg]; exact h1, h2⟩
  · exact key st (by omega)

theorem decode16_unique {l : Bool} : ∀ (cs ds : List Nat), (∀ c ∈ cs, Spec.Code16 c) → (∀ c ∈ ds, Spec.Code16 c) →
    cs.flatMap (Spec.encBytes16 l) = ds.flatMap (Spec.encBytes16 l) → cs = ds
  | [], ds, _, _, h => (flatMap_enc_nil h.symm).symm
  | c :: cs, [], _, _, h => absurd (flatMap_enc_nil h) (by simp)
  | c :: cs, d :: ds, h1, h2, h => by
    rw [List.flatMap_cons, List.flatMap_cons] at h
    obtain ⟨hcd, h3⟩ := encBytes16_unique (h1 c (by simp)) (h2 d (by simp)) h
    rw [hcd, decode16_unique cs ds (fun x hx => h1 x (by simp [hx])) (fun x hx => h2 x (by simp [hx])) h3]

theorem in16_run_star (C : Cfg) {st st' : Nat} {s v : List Nat} (h : Run (in16 C) st s v st') (h2 : st ≤ 2)
    (hst : st ≠ 0 ∨ C.consume = false) (hu : Units 8 s) : ∃ st2, Star (E16in C) st s v st2 :=
  run_star (V := Units 8) (fun _ _ h => units_append.1 h)
    (fun st s room hI hu => call_ok (in16_stepOK C) room st s hI hu) st s v st' h ⟨h2, hst⟩ hu

theorem out16_run_star (C : Cfg) {st st' : Nat} {s v : List Nat} (h : Run (out16 C) st s v st')
    (hst : st = 1 ∨ st = 2) (hu : Units 32 s) : ∃ st2, Star (E16out C) st s v st2 :=
  run_star (V := Units 32) (fun _ _ h => units_append.1 h)
    (fun st s room hI hu => by rw [out16_of_ne C hI]; exact call_ok (out16_stepOK C) room st s hI hu) st s v st' h hst hu

theorem bytes16_units {l : Bool} {u : Nat} (h : u < 65536) : Units 8 (Spec.bytes16 l u) := by
  intro b hb
  unfold Spec.bytes16 at hb
  cases l <;> simp at hb <;> omega

theorem units_enc16 {l : Bool} {cs : List Nat} (h : ∀ c ∈ cs, Spec.Code16 c) :
    Units 8 (cs.flatMap (Spec.encBytes16 l)) := by
  intro b hb
  obtain ⟨c, hc, hb⟩ := List.mem_flatMap.1 hb
  have := h c hc
  unfold Spec.Code16 at this
  by_cases h7 : c < 0x10000
  · rw [enc16_lt h7] at hb
    exact bytes16_units (by omega) b hb
  · rw [enc16_ge (by omega)] at hb
    rcases List.mem_append.1 hb with hb | hb
    · exact bytes16_units (by omega) b hb
    · exact bytes16_units (by omega) b hb

theorem in16_star_of_enc (C : Cfg) {st st' : Nat} {cs v : List Nat} (hcs : Units C.w cs)
    (hc16 : ∀ c ∈ cs, Spec.Code16 c) (h : Star (E16in C) st (cs.flatMap (Spec.encBytes16 (order C st))) v st') :
    v = cs := by
  obtain ⟨ds, h2, h3, h4⟩ := star16in h
  have := decode16_unique cs ds hc16 (fun c hc => (h3 c hc).1) h2
  subst this
  rw [h4]
  conv => rhs; rw [← List.map_id cs]
  exact List.map_congr_left fun c hc => Nat.mod_eq_of_lt (hcs c hc)

/-- **C20** Round trip of `codecvt_utf16` without headers: however the codes are split into calls of `do_out`, and
however the bytes are split into calls of `do_in`, whatever room each call has, the codes read are the codes written. -/
theorem C20_utf16_roundtrip (C : Cfg) (hw : C.w ≤ 32) (hg : C.gen = false) (hc : C.consume = false)
    (cs bs v : List Nat) (st1 st2 : Nat) (hcs : Units C.w cs) (hout : Run (out16 C) 0 cs bs st1)
    (hin : Run (in16 C) 0 bs v st2) : v = cs := by
  have hd := defEnd_ne C
  have hout' : ∃ st1, Run (out16 C) (defEnd C) cs bs st1 := by
    cases hout with
    | done => exact ⟨_, .done _⟩
    | call h1 h2 h3 =>
      rw [out16_zero C hg] at h1
      exact ⟨_, .call h1 h2 h3⟩
  obtain ⟨st1, hout⟩ := hout'
  obtain ⟨st3, h1⟩ := out16_run_star C hout (by omega) (units_mono hw hcs)
  obtain ⟨h2, rfl, _⟩ := star16out h1
  obtain ⟨st4, h3⟩ := in16_run_star C hin (by omega) (Or.inr hc) (units_enc16 fun c hc => (h2 c hc).1)
  rw [order_def] at h3
  exact in16_star_of_enc C (st := 0) hcs (fun c hc => (h2 c hc).1) h3

/-! ## Headers -/

/-- The state for a byte order. -/
def endian (l : Bool) : Nat := if l then 1 else 2

theorem order_endian (C : Cfg) (l : Bool) : order C (endian l) = l := by cases l <;> rfl

theorem endian_def (C : Cfg) : endian C.little = defEnd C := rfl

/-- **C20** `codecvt_utf16::do_in` with `consume_header`, at the start of the text: a header in either byte order is
dropped, and the rest is converted in the byte order of the header, whatever the byte order of the facet; if that gives
`partial`, the header stays unread and the state unchanged. -/
theorem C20_utf16_in_header (C : Cfg) (hcon : C.consume = true) (l : Bool) (t : List Nat) (room : Nat)
    (hu : Units 8 t) (hr : room ≠ 0) :
    ∃ r, in16 C (endian l) t room = .ok r ∧
      in16 C 0 (Spec.bytes16 l 0xfeff ++ t) room = .ok (rollback (Spec.bytes16 l 0xfeff ++ t) r) := by
  have he : endian l ≤ 2 ∧ endian l ≠ 0 := by cases l <;> simp [endian]
  obtain ⟨r, h1, _⟩ := call_ok (in16_stepOK C) room (endian l) t ⟨he.1, Or.inl he.2⟩ hu
  refine ⟨r, h1, ?_⟩
  have hstep : ∀ first, in16Step C room 0 first (Spec.bytes16 l 0xfeff ++ t) = .ok (.hdr t (endian l)) := by
    intro first
    unfold in16Step defEnd
    cases l <;> cases hl : C.little <;> simp [Spec.bytes16, rdAt, rdHead, R.ok_bind, hcon, word16, endian] <;> rfl
  unfold in16
  rw [cvtLoop, if_pos (by rw [cond16in_true, List.length_append, bytes16_length]; exact ⟨by omega, by simpa using hr⟩)]
  simp only [List.length_nil, Nat.sub_zero]
  rw [hstep]
  dsimp only
  rw [cvtLoop_fuel _ _ _ _ _ _ h1 _ (by rw [List.length_append, bytes16_length]; omega)]
  rfl

theorem in16_idle (C : Cfg) (st : Nat) (s : List Nat) (room : Nat) (h : s.length < 2 ∨ room = 0) :
    in16 C st s room = .ok ⟨.part, s, [], st⟩ := by
  unfold in16
  rw [cvtLoop, if_neg (by rw [cond16in_true]; simp; omega)]
  unfold fin; rw [if_pos rfl]

/-- A text that starts with a header is read in the byte order of the header, with `consume_header`. -/
theorem in16_run_header (C : Cfg) (hcon : C.consume = true) {l : Bool} {B : List Nat} {st st' : Nat}
    {s v : List Nat} (h : Run (in16 C) st s v st') :
    st = 0 → Units 8 B → s = Spec.bytes16 l 0xfeff ++ B → ∃ st2, Star (E16in C) (endian l) B v st2 := by
  have he : endian l ≤ 2 ∧ endian l ≠ 0 := by cases l <;> simp [endian]
  have hbl := bytes16_length l 0xfeff
  induction h with
  | done st =>
    intro _ _ h
    have := congrArg List.length h
    rw [List.length_append, hbl] at this; simp at this; omega
  | @call st s k room r v st' hcall hne hrun ih =>
    intro h0 hB hs
    subst h0
    have hsk : s = s.take k ++ s.drop k := (List.take_append_drop k s).symm
    have hidle : in16 C 0 (s.take k) room = .ok ⟨.part, s.take k, [], 0⟩ →
        ∃ st2, Star (E16in C) (endian l) B (r.out ++ v) st2 := by
      intro h
      rw [hcall] at h
      cases h
      dsimp only at ih ⊢
      rw [← hsk] at ih
      exact ih rfl hB hs
    by_cases hk : k < 2
    · exact hidle (in16_idle C 0 _ room (Or.inl (by rw [List.length_take]; omega)))
    by_cases hr : room = 0
    · exact hidle (in16_idle C 0 _ room (Or.inr hr))
    have htk : s.take k = Spec.bytes16 l 0xfeff ++ B.take (k - 2) := by
      rw [hs, List.take_append, List.take_of_length_le (by omega), hbl]
    have hdk : s.drop k = B.drop (k - 2) := by
      rw [hs, List.drop_append, List.drop_eq_nil_of_le (by omega), List.nil_append, hbl]
    have hBk := hB
    rw [← List.take_append_drop (k - 2) B] at hBk
    have hBk := units_append.1 hBk
    obtain ⟨r', h1, h2⟩ := C20_utf16_in_header C hcon l (B.take (k - 2)) room hBk.1 hr
    rw [← htk, hcall] at h2
    have h2 := Except.ok.inj h2
    unfold rollback at h2
    obtain ⟨r'', h3, a, rest, st1, h4, h5, h6, h7, h8, h9, h10, h11⟩ :=
      call_ok (in16_stepOK C) room (endian l) (B.take (k - 2)) ⟨he.1, Or.inl he.2⟩ hBk.1
    rw [in16] at h1
    rw [h1] at h3
    cases h3
    by_cases hp : r'.res = .part
    · rw [if_pos hp] at h2
      have ha : a = [] := (h11 hp).resolve_right (fun h => by cases h.1)
      subst ha
      have hout : r'.out = [] := by
        obtain ⟨cs, h12, h13, h14⟩ := star16in h5
        have := flatMap_enc_nil h12.symm
        subst this
        exact h14
      have hst : r.st = 0 := by rw [h2]
      have hm : r.mid1 = s.take k := by rw [h2]
      have ho : r.out = [] := by rw [h2]; exact hout
      rw [ho, List.nil_append]
      rw [hm, ← hsk] at ih
      exact ih hst hB hs
    · rw [if_neg hp] at h2
      subst h2
      obtain ⟨h12, h13, h14, _⟩ := h8 hne
      have hBe : B = a ++ (rest ++ B.drop (k - 2)) := by
        rw [← List.append_assoc, ← h4, List.take_append_drop]
      rw [h12, hdk] at hrun
      have hrest : Units 8 (rest ++ B.drop (k - 2)) := by
        rw [hBe] at hB; exact (units_append.1 hB).2
      obtain ⟨st3, h15⟩ := in16_run_star C hrun h13.1 h13.2 hrest
      obtain ⟨st4, h16⟩ := star_le _ _ _ _ _ h14 h15
      exact ⟨st4, by rw [hBe]; exact h5.append h16⟩

/-- Output written before the loop does not matter for what the loop does, if it never meets a header. -/
theorem cvtLoop_prefix {cond : List Nat → Nat → Bool} {step : Nat → Nat → List Nat → List Nat → R Step} {total : Nat}
    (p : List Nat) (hno : ∀ room st first mid m s, step room st first mid ≠ .ok (.hdr m s)) :
    ∀ (f : Nat) (first mid out : List Nat) (st : Nat) (r : CvtRes),
      cvtLoop cond step total f first mid out st = .ok r →
      cvtLoop cond step (p.length + total) f first mid (p ++ out) st = .ok { r with out := p ++ r.out } := by
  intro f
  induction f with
  | zero => intro first mid out st r h; cases h
  | succ f ih =>
    intro first mid out st r h
    rw [cvtLoop] at h ⊢
    have hroom : p.length + total - (p ++ out).length = total - out.length := by
      rw [List.length_append]; omega
    rw [hroom]
    by_cases hc : cond mid (total - out.length) = true
    swap
    · rw [if_neg hc] at h ⊢
      cases h; rfl
    rw [if_pos hc] at h ⊢
    cases hs : step (total - out.length) st first mid with
    | error e => rw [hs] at h; cases h
    | ok x =>
      rw [hs] at h
      cases x with
      | hdr m s => exact absurd hs (hno _ _ _ _ _ _)
      | emit xs m f' s' =>
        dsimp only at h ⊢
        split at h
        · cases h
        · rename_i hov
          rw [if_neg (by rw [List.length_append]; omega), List.append_assoc]
          exact ih _ _ _ _ _ h
      | brk m f' s => dsimp only at h ⊢; cases h; rfl
      | part m s => dsimp only at h ⊢; cases h; rfl
      | err m s => dsimp only at h ⊢; cases h; rfl

theorem out16Step_no_hdr (C : Cfg) (room st : Nat) (first mid m : List Nat) (s : Nat) :
    out16Step C room st first mid ≠ .ok (.hdr m s) := by
  unfold out16Step
  cases mid with
  | nil => simp [rdHead]; intro h; cases h
  | cons c t =>
    rw [rdHead, R.ok_bind]
    generalize (if C.max < 0x10ffff then C.max else 0x10ffff) = M
    intro h
    by_cases h1 : M < c
    · rw [if_pos h1] at h; cases h
    · rw [if_neg h1] at h
      by_cases h2 : c ≤ 0xffff
      · rw [if_pos h2] at h
        by_cases h3 : 0xd800 ≤ c ∧ c < 0xdc00
        · rw [if_pos h3] at h; cases h
        · rw [if_neg h3] at h; cases h
      · rw [if_neg h2] at h
        by_cases h3 : room < 4
        · rw [if_pos h3] at h; cases h
        · rw [if_neg h3] at h; cases h

theorem bom16_eq (l : Bool) : bom16 (endian l) = Spec.bytes16 l 0xfeff := by cases l <;> rfl

/-- **C20** `codecvt_utf16::do_out` with `generate_header`, at the start of the text and with room for the header and one
code: the header in the byte order of the facet, and then as without. -/
theorem C20_utf16_out_header (C : Cfg) (hgen : C.gen = true) (s : List Nat) (room : Nat) (hr : 6 ≤ room)
    (hu : Units 32 s) :
    ∃ r, out16 C (endian C.little) s (room - 2) = .ok r ∧
      out16 C 0 s room = .ok { r with out := Spec.bytes16 C.little 0xfeff ++ r.out } := by
  have hd := defEnd_ne C
  obtain ⟨r, h1, _⟩ := call_ok (out16_stepOK C) (room - 2) (defEnd C) s (by omega) hu
  refine ⟨r, by rw [endian_def, out16_of_ne C (by omega)]; exact h1, ?_⟩
  have h2 := cvtLoop_prefix (bom16 (defEnd C)) (out16Step_no_hdr C) _ _ _ _ _ _ h1
  have hl : (bom16 (defEnd C)).length = 2 := by rw [← endian_def, bom16_eq, bytes16_length]
  rw [hl, show 2 + (room - 2) = room by omega, List.append_nil] at h2
  unfold out16
  rw [if_pos rfl, if_pos hgen, if_neg (by omega), h2, ← endian_def, bom16_eq]

/-- **C20** Round trip of `codecvt_utf16` with headers: the first call of `do_out` has room for the header and one code;
from then on, any splitting of codes and bytes and any room. The two facets may have different byte orders. -/
theorem C20_utf16_roundtrip_header (C C' : Cfg) (hw : C.w ≤ 32) (hg : C'.gen = true) (hc : C.consume = true)
    (cs bs v : List Nat) (k room st1 st2 : Nat) (r : CvtRes) (hcs : Units C.w cs) (hroom : 6 ≤ room)
    (hfirst : out16 C' 0 (cs.take k) room = .ok r) (hne : r.res ≠ .error)
    (hout : Run (out16 C') r.st (r.mid1 ++ cs.drop k) bs st1)
    (hin : Run (in16 C) 0 (r.out ++ bs) v st2) : v = cs := by
  have hd := defEnd_ne C'
  have hu := units_mono hw hcs
  have huk := hu
  rw [← List.take_append_drop k cs] at huk
  have huk := units_append.1 huk
  obtain ⟨r', h1, h2⟩ := C20_utf16_out_header C' hg (cs.take k) room hroom huk.1
  rw [hfirst] at h2
  have h2 := Except.ok.inj h2
  rw [endian_def, out16_of_ne C' (by omega)] at h1
  obtain ⟨r'', h3, a, rest, s1, h4, h5, h6, h7, h8, h9, _, _⟩ :=
    call_ok (out16_stepOK C') (room - 2) (defEnd C') (cs.take k) (by omega) huk.1
  rw [h1] at h3
  cases h3
  have hne' : r'.res ≠ .error := by rw [h2] at hne; exact hne
  obtain ⟨h10, h11, h12, _⟩ := h8 hne'
  have hst : r.st = 1 ∨ r.st = 2 := by rw [h2]; exact h11
  have hm : r.mid1 = rest := by rw [h2]; exact h10
  have hall : a ++ (rest ++ cs.drop k) = cs := by
    rw [← List.append_assoc, ← h4, List.take_append_drop]
  rw [hm] at hout
  have hur : Units 32 (rest ++ cs.drop k) := by
    rw [← hall] at hu; exact (units_append.1 hu).2
  obtain ⟨s3, h13⟩ := out16_run_star C' hout hst hur
  have h12' : ∀ a xs s, E16out C' r.st a xs s → E16out C' s1 a xs s := by rw [h2]; exact h12
  obtain ⟨s4, h14⟩ := star_le _ _ _ _ _ h12' h13
  obtain ⟨h15, h16, _⟩ := star16out (h5.append h14)
  rw [hall] at h15 h16
  rw [order_def] at h16
  have hbytes : r.out ++ bs = Spec.bytes16 C'.little 0xfeff ++ cs.flatMap (Spec.encBytes16 C'.little) := by
    rw [← h16, h2, List.append_assoc]
  rw [hbytes] at hin
  have hc16 : ∀ c ∈ cs, Spec.Code16 c := fun c hc => (h15 c hc).1
  obtain ⟨s5, h17⟩ := in16_run_header C hc hin rfl (units_enc16 hc16) rfl
  have h18 : Star (E16in C) (endian C'.little) (cs.flatMap (Spec.encBytes16 (order C (endian C'.little)))) v s5 := by
    rw [order_endian]; exact h17
  exact in16_star_of_enc C hcs hc16 h18

/-- `codecvt_utf16<char32_t, 0x10ffff, consume_header | generate_header | little_endian>`, and big-endian. -/
def utf16hdr (l : Bool) : Cfg := ⟨32, 0x10ffff, true, true, l⟩

/-- A run which meets the hypotheses of the round trip with headers: written little-endian, read by the big-endian facet,
in pieces that split the header and a surrogate pair. -/
example : ∃ r bs, out16 (utf16hdr true) 0 (([0x41, 0x1F600] : List Nat).take 1) 6 = .ok r ∧ r.res ≠ .error ∧
    Run (out16 (utf16hdr true)) r.st (r.mid1 ++ ([0x41, 0x1F600] : List Nat).drop 1) bs 1 ∧
    Run (in16 (utf16hdr false)) 0 (r.out ++ bs) [0x41, 0x1F600] 1 := by
  refine ⟨⟨.ok, [], [0xff, 0xfe, 0x41, 0], 1⟩, [0x3D, 0xD8, 0x00, 0xDE], by decide, by decide, ?_, ?_⟩
  · exact .call (k := 1) (room := 3) (r := ⟨.part, [0x1F600], [], 1⟩) (by decide) (by decide)
      (.call (k := 1) (room := 4) (r := ⟨.ok, [], [0x3D, 0xD8, 0x00, 0xDE], 1⟩) (by decide) (by decide) (.done 1))
  · exact .call (k := 1) (room := 3) (r := ⟨.part, [0xff], [], 0⟩) (by decide) (by decide)
      (.call (k := 6) (room := 3) (r := ⟨.ok, [0x3D, 0xD8], [0x41], 1⟩) (by decide) (by decide)
        (.call (k := 9) (room := 3) (r := ⟨.ok, [], [0x1F600], 1⟩) (by decide) (by decide) (.done 1)))

/-- **C20** Finding: if the first call of `do_out` has room for less than three words, the state is changed although
nothing is written, and the header is lost. -/
theorem C20_utf16_header_lost (C : Cfg) (hg : C.gen = true) (s : List Nat) (room : Nat) (hr : room < 6) :
    out16 C 0 s room = .ok ⟨.part, s, [], endian C.little⟩ ∧
    (∀ c, c < 0xD800 → c ≤ C.max → ∃ r, out16 C (endian C.little) [c] 6 = .ok r ∧ r.out = Spec.bytes16 C.little c) := by
  constructor
  · unfold out16; rw [if_pos rfl, if_pos hg, if_pos hr, endian_def]
  · intro c h1 h2
    have hd := defEnd_ne C
    obtain ⟨r, a, rest, h3, h4, h5, h6, h7, h8⟩ := C20_utf16_out C (endian C.little) [c] 6 (by
      intro b hb; rw [List.mem_singleton.1 hb]; omega) (by rw [endian_def]; exact hd.2)
      (Or.inl (by rw [endian_def]; exact hd.1))
    rw [order_endian] at h6 h8
    refine ⟨r, h3, ?_⟩
    match a, h4 with
    | [], h4 =>
      obtain rfl : rest = [c] := h4.symm
      rcases h8 with ⟨_, _, _, h8⟩ | ⟨_, c', t', h8, h9⟩
      · have := h8 c (by simp)
        rw [enc16_lt (by omega), bytes16_length, h6] at this
        simp at this
      · simp only [List.cons.injEq] at h8
        refine absurd ⟨⟨?_, ?_⟩, ?_⟩ h9 <;> omega
    | x :: a, h4 =>
      simp only [List.cons_append, List.cons.injEq] at h4
      have ha : a = [] := (List.append_eq_nil_iff.1 h4.2.symm).1
      rw [h6, ha, ← h4.1]
      simp [enc16_lt (show c < 0x10000 by omega)]

end STL.Utf
