import Verif.Utf.CvtRun

/-! # `codecvt_utf8` -/

namespace STL.Utf

theorem lead8_le5 {n b : Nat} (h1 : (Spec.lead8 n).1 ≤ b) (h2 : b < (Spec.lead8 n).2) : n ≤ 5 := by
  match n with
  | 0 | 1 | 2 | 3 | 4 | 5 => omega
  | n + 6 => simp [Spec.lead8] at h2

/-- The first byte determines the number of continuation bytes. -/
theorem lead8_unique {n m b : Nat} (h1 : (Spec.lead8 n).1 ≤ b) (h2 : b < (Spec.lead8 n).2)
    (h3 : (Spec.lead8 m).1 ≤ b) (h4 : b < (Spec.lead8 m).2) : n = m := by
  have hn := lead8_le5 h1 h2
  have hm := lead8_le5 h3 h4
  interval_cases n <;> interval_cases m <;> simp only [Spec.lead8] at * <;> omega

theorem inLead_ok {b : Nat} (hb : b < 256) :
    (inLead b = none ∧ 0x80 ≤ b ∧ b < 0xC0) ∨
    ∃ n, n ≤ 5 ∧ inLead b = some (b - (Spec.lead8 n).1, n) ∧ (Spec.lead8 n).1 ≤ b ∧ b < (Spec.lead8 n).2 := by
  have a5 : b &&& 0x1f = b % 32 := Nat.and_two_pow_sub_one_eq_mod b 5
  have a4 : b &&& 0x0f = b % 16 := Nat.and_two_pow_sub_one_eq_mod b 4
  have a3 : b &&& 0x07 = b % 8 := Nat.and_two_pow_sub_one_eq_mod b 3
  have a2 : b &&& 0x03 = b % 4 := Nat.and_two_pow_sub_one_eq_mod b 2
  unfold inLead
  rw [a5, a4, a3, a2]
  by_cases h0 : b < 0x80
  · exact Or.inr ⟨0, by omega, by rw [if_pos h0]; rfl, by simp only [Spec.lead8]; omega, by simp only [Spec.lead8]; omega⟩
  rw [if_neg h0]
  by_cases h1 : b < 0xc0
  · exact Or.inl ⟨by rw [if_pos h1], by omega, h1⟩
  rw [if_neg h1]
  by_cases h2 : b < 0xe0
  · refine Or.inr ⟨1, by omega, ?_, by simp only [Spec.lead8]; omega, by simp only [Spec.lead8]; omega⟩
    rw [if_pos h2]; simp only [Spec.lead8, Option.some.injEq, Prod.mk.injEq, and_true]; omega
  rw [if_neg h2]
  by_cases h3 : b < 0xf0
  · refine Or.inr ⟨2, by omega, ?_, by simp only [Spec.lead8]; omega, by simp only [Spec.lead8]; omega⟩
    rw [if_pos h3]; simp only [Spec.lead8, Option.some.injEq, Prod.mk.injEq, and_true]; omega
  rw [if_neg h3]
  by_cases h4 : b < 0xf8
  · refine Or.inr ⟨3, by omega, ?_, by simp only [Spec.lead8]; omega, by simp only [Spec.lead8]; omega⟩
    rw [if_pos h4]; simp only [Spec.lead8, Option.some.injEq, Prod.mk.injEq, and_true]; omega
  rw [if_neg h4]
  by_cases h5 : b < 0xfc
  · refine Or.inr ⟨4, by omega, ?_, by simp only [Spec.lead8]; omega, by simp only [Spec.lead8]; omega⟩
    rw [if_pos h5]; simp only [Spec.lead8, Option.some.injEq, Prod.mk.injEq, and_true]; omega
  · refine Or.inr ⟨5, by omega, ?_, by simp only [Spec.lead8]; omega, by simp only [Spec.lead8]; omega⟩
    rw [if_neg h5]; simp only [Spec.lead8, Option.some.injEq, Prod.mk.injEq, and_true]; omega

theorem lead8_bound {n b : Nat} (h1 : (Spec.lead8 n).1 ≤ b) (h2 : b < (Spec.lead8 n).2) :
    (b - (Spec.lead8 n).1) * 64 ^ n < 2 ^ 32 + 64 * 0 ∧ (n = 0 ∨ (b - (Spec.lead8 n).1) * 64 ^ (n - 1) < 2 ^ 26) := by
  have hn := lead8_le5 h1 h2
  interval_cases n <;> simp only [Spec.lead8] at * <;> omega

/-- The loop over the continuation bytes. -/
theorem inCont_ok : ∀ (n : Nat) (mid : List Nat) (v : Nat), n ≤ mid.length → (n = 0 ∨ v < 2 ^ (32 - 6 * n)) → n ≤ 5 →
    ((∀ x ∈ mid.take n, Spec.Trail x) →
      inCont n mid v = .ok (true, mid.drop n, Spec.contVal v (mid.take n))) ∧
    (¬ (∀ x ∈ mid.take n, Spec.Trail x) → ∃ m v', inCont n mid v = .ok (false, m, v') ∧ m <:+ mid) := by
  intro n
  induction n with
  | zero => intro mid v _ _ _; exact ⟨fun _ => rfl, fun h => by simp at h⟩
  | succ n ih =>
    intro mid v hlen hv hn
    match mid with
    | [] => simp at hlen
    | b :: t =>
    simp only [List.length_cons] at hlen
    have hv : v < 2 ^ (32 - 6 * (n + 1)) := hv.resolve_left (by omega)
    rw [inCont, rdHead, R.ok_bind]
    simp only [List.take_succ_cons, List.mem_cons, forall_eq_or_imp, List.drop_succ_cons, List.drop_zero]
    by_cases hb : Spec.Trail b
    · unfold Spec.Trail at hb
      rw [if_neg (by omega)]
      have hv26 : v < 2 ^ 26 := lt_of_lt_of_le hv (Nat.pow_le_pow_right (by omega) (by omega))
      rw [show (0x3f : Nat) = 0b111111 from rfl, shl6_or v b hv26 hb.1 hb.2]
      have hnew : n = 0 ∨ v * 64 + (b - 0x80) < 2 ^ (32 - 6 * n) := by
        by_cases h0 : n = 0
        · exact Or.inl h0
        · refine Or.inr ?_
          rw [show 32 - 6 * n = (32 - 6 * (n + 1)) + 6 by omega, pow_add]
          omega
      have := ih t (v * 64 + (b - 0x80)) (by omega) hnew (by omega)
      refine ⟨fun h => ?_, fun h => ?_⟩
      · rw [this.1 h.2]; simp only [Spec.contVal, List.foldl_cons]
      · have h' : ¬ ∀ x ∈ t.take n, Spec.Trail x := fun h'' => h ⟨hb, h''⟩
        obtain ⟨m, v', h1, h2⟩ := this.2 h'
        exact ⟨m, v', h1, h2.trans (List.suffix_cons b t)⟩
    · refine ⟨fun h => absurd h.1 hb, fun _ => ⟨b :: t, v, ?_, List.suffix_refl _⟩⟩
      unfold Spec.Trail at hb
      rw [if_pos (by omega)]
      rfl

/-- Sequences are determined by the text they start. -/
theorem seq8_unique {c c' : Nat} {b b' t t' : List Nat} (h : Spec.Seq8 c b) (h' : Spec.Seq8 c' b')
    (he : b ++ t = b' ++ t') : b = b' ∧ c = c' ∧ t = t' := by
  obtain ⟨b0, bs, rfl, h1, h2, h3, h4⟩ := h
  obtain ⟨b0', bs', rfl, h1', h2', h3', h4'⟩ := h'
  simp only [List.cons_append, List.cons.injEq] at he
  obtain ⟨rfl, he⟩ := he
  have hl := lead8_unique h1 h2 h1' h2'
  obtain ⟨rfl, rfl⟩ := List.append_inj he hl
  exact ⟨rfl, by rw [h4, h4'], rfl⟩

theorem seq8_ne {c : Nat} {b : List Nat} (h : Spec.Seq8 c b) : b ≠ [] := by
  obtain ⟨b0, bs, rfl, _⟩ := h; simp

theorem seq8_not_trunc {c : Nat} {b t : List Nat} (h : Spec.Seq8 c b) : ¬ Spec.Trunc8 (b ++ t) := by
  rintro ⟨b0, u, n, h1, h2, h3, h4⟩
  obtain ⟨b0', bs, rfl, h5, h6, _⟩ := h
  simp only [List.cons_append, List.cons.injEq] at h1
  obtain ⟨rfl, rfl⟩ := h1
  have := lead8_unique h2 h3 h5 h6
  rw [List.length_append] at h4
  omega

theorem seq8_units {c : Nat} {b : List Nat} (h : Spec.Seq8 c b) : Units 8 b := by
  obtain ⟨b0, bs, rfl, h1, h2, h3, _⟩ := h
  have hn := lead8_le5 h1 h2
  intro x hx
  rcases List.mem_cons.1 hx with rfl | hx
  · have h : (Spec.lead8 bs.length).2 ≤ 256 := by
      generalize bs.length = n at hn
      interval_cases n <;> simp [Spec.lead8]
    omega
  · have := h3 x hx
    unfold Spec.Trail at this
    omega

/-- One code converted by `codecvt_utf8::do_in`. -/
def E8in (C : Cfg) (st : Nat) (a xs : List Nat) (st' : Nat) : Prop :=
  ∃ c, Spec.Seq8 c a ∧ c ≤ C.max ∧ xs = [c % 2 ^ C.w] ∧ st' = if st = 0 then 1 else st

/-- The text does not start with a sequence of a code up to `max`, nor with an incomplete one. -/
def Bad8 (max : Nat) (s : List Nat) : Prop :=
  s ≠ [] ∧ ¬ Spec.Trunc8 s ∧ ¬ ∃ c b t, Spec.Seq8 c b ∧ c ≤ max ∧ s = b ++ t

/-- The body of the loop, by cases on the text (`st`, `consume` arbitrary). -/
theorem in8Step_cases (C : Cfg) (room st : Nat) (first mid : List Nat) (hu : Units 8 mid) (hne : mid ≠ []) :
    (Spec.Trunc8 mid ∧ in8Step C room st first mid = .ok (.brk mid first st)) ∨
    (∃ c b t, mid = b ++ t ∧ Spec.Seq8 c b ∧ in8Step C room st first mid = .ok (
      if st = 0 ∧ C.consume ∧ c = 0xfeff then .hdr t 1
      else if C.max < c then .err t (if st = 0 then 1 else st)
      else .emit [c % 2 ^ C.w] t first (if st = 0 then 1 else st))) ∨
    (¬ Spec.Trunc8 mid ∧ (¬ ∃ c b t, Spec.Seq8 c b ∧ mid = b ++ t) ∧
      ∃ m, m <:+ mid ∧ ∀ C' : Cfg, in8Step C' room st first mid = .ok (.err m st)) := by
  match mid, hne with
  | b :: t, _ =>
  have hb : b < 256 := hu b (by simp)
  rcases inLead_ok hb with ⟨h1, h2, h3⟩ | ⟨n, hn, h1, h2, h3⟩
  · refine Or.inr (Or.inr ⟨?_, ?_, t, List.suffix_cons b t, fun C' => by
      unfold in8Step; rw [rdHead, R.ok_bind, h1]; rfl⟩)
    · rintro ⟨b0, u, n, he, h4, h5, _⟩
      simp only [List.cons.injEq] at he
      obtain ⟨rfl, rfl⟩ := he
      have := lead8_le5 h4 h5
      interval_cases n <;> simp only [Spec.lead8] at * <;> omega
    · rintro ⟨c, b', u, ⟨b0, bs, rfl, h4, h5, _⟩, he⟩
      simp only [List.cons_append, List.cons.injEq] at he
      obtain ⟨rfl, rfl⟩ := he
      have := lead8_le5 h4 h5
      generalize bs.length = n at *
      interval_cases n <;> simp only [Spec.lead8] at * <;> omega
  · by_cases htr : t.length < n
    · left
      refine ⟨⟨b, t, n, rfl, h2, h3, htr⟩, ?_⟩
      unfold in8Step
      rw [rdHead, R.ok_bind, h1]
      dsimp only
      rw [if_pos ⟨by omega, by simp only [List.length_cons]; omega⟩]
      rfl
    · right
      have hv : n = 0 ∨ b - (Spec.lead8 n).1 < 2 ^ (32 - 6 * n) := by
        interval_cases n <;> simp only [Spec.lead8] at * <;> omega
      have hcont := inCont_ok n t (b - (Spec.lead8 n).1) (by omega) hv hn
      have htake : (t.take n).length = n := by rw [List.length_take]; omega
      by_cases hall : ∀ x ∈ t.take n, Spec.Trail x
      · left
        refine ⟨_, b :: t.take n, t.drop n, by rw [List.cons_append, List.take_append_drop],
          ⟨b, t.take n, rfl, by rw [htake]; exact h2, by rw [htake]; exact h3, hall, rfl⟩, ?_⟩
        unfold in8Step
        rw [rdHead, R.ok_bind, h1]
        dsimp only
        rw [if_neg (by simp only [List.length_cons]; omega)]
        simp only [List.drop_succ_cons, List.drop_zero]
        rw [hcont.1 hall, R.ok_bind]
        dsimp only
        rw [htake]
        simp only [Bool.not_true, Bool.false_eq_true, if_false]
        split
        · rfl
        · split <;> rfl
      · right
        obtain ⟨m, v', h4, h5⟩ := hcont.2 hall
        refine ⟨?_, ?_, m, h5.trans (List.suffix_cons b t), fun C' => ?_⟩
        · rintro ⟨b0, u, k, he, h6, h7, h8⟩
          simp only [List.cons.injEq] at he
          obtain ⟨rfl, rfl⟩ := he
          have := lead8_unique h2 h3 h6 h7
          omega
        · rintro ⟨c, b', u, ⟨b0, bs, rfl, h6, h7, h8, _⟩, he⟩
          simp only [List.cons_append, List.cons.injEq] at he
          obtain ⟨rfl, rfl⟩ := he
          have := lead8_unique h2 h3 h6 h7
          apply hall
          rw [this, List.take_left]
          exact h8
        · unfold in8Step
          rw [rdHead, R.ok_bind, h1]
          dsimp only
          rw [if_neg (by simp only [List.length_cons]; omega)]
          simp only [List.drop_succ_cons, List.drop_zero]
          rw [h4]
          rfl

theorem units_append {w : Nat} {a b : List Nat} : Units w (a ++ b) ↔ Units w a ∧ Units w b := by
  unfold Units; simp only [List.mem_append]
  exact ⟨fun h => ⟨fun x hx => h x (Or.inl hx), fun x hx => h x (Or.inr hx)⟩,
    fun h x hx => hx.elim (h.1 x) (h.2 x)⟩

theorem condNE_true {mid : List Nat} {room : Nat} : condNE mid room = true ↔ mid ≠ [] ∧ room ≠ 0 := by
  unfold condNE; simp only [decide_eq_true_eq]
  rw [Ne, List.length_eq_zero_iff]

/-- Without a header to look for, the body is as it should be. -/
theorem in8_stepOK (C : Cfg) :
    StepOK condNE (in8Step C) (fun st => st ≠ 0 ∨ C.consume = false) (Units 8) (E8in C) (fun _ s => Bad8 C.max s)
      (fun _ s _ => Spec.Trunc8 s) false where
  suffix := fun a b h => (units_append.1 h).2
  inv := by
    rintro st a xs st' h ⟨c, _, _, _, rfl⟩
    left; split <;> omega
  step := by
    intro room st first mid hI hu hc
    rw [condNE_true] at hc
    rcases in8Step_cases C room st first mid hu hc.1 with ⟨h1, h2⟩ | ⟨c, b, t, h1, h2, h3⟩ | ⟨h1, h2, m, h3, h4⟩
    · exact ⟨_, h2, rfl, h1, hI, fun _ _ _ h => h, Or.inl rfl⟩
    · have hcond : ¬ (st = 0 ∧ C.consume ∧ c = 0xfeff) := by
        rintro ⟨h4, h5, _⟩
        rcases hI with h | h
        · exact h h4
        · rw [h] at h5; cases h5
      rw [if_neg hcond] at h3
      by_cases hmax : C.max < c
      · rw [if_pos hmax] at h3
        refine ⟨_, h3, ⟨hc.1, ?_, ?_⟩, ⟨b, h1.symm⟩⟩
        · rw [h1]; exact seq8_not_trunc h2
        · rintro ⟨c', b', t', h5, h6, h7⟩
          obtain ⟨_, h8, _⟩ := seq8_unique h2 h5 (h1 ▸ h7)
          omega
      · rw [if_neg hmax] at h3
        exact ⟨_, h3, b, h1, seq8_ne h2, ⟨c, h2, by omega, rfl, rfl⟩, by simp; omega, Or.inl rfl⟩
    · exact ⟨_, h4 C, ⟨hc.1, h1, fun ⟨c, b, t, h5, _, h7⟩ => h2 ⟨c, b, t, h5, h7⟩⟩, h3⟩

end STL.Utf
