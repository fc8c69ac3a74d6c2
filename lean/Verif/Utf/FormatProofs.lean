import Verif.Utf.Format

/-! # The decoders of `<format>` are correct -/

namespace STL.Utf

theorem rdu_ok {s : List Nat} {i : Nat} (h : i < s.length) : rdu s i = .ok s[i] := by
  unfold rdu; rw [List.getElem?_eq_getElem h]

theorem shl6_or (v b : Nat) (hv : v < 2 ^ 26) (hb : 0x80 ≤ b) (hb' : b < 0xC0) :
    (u32 (v <<< 6) ||| (b &&& 0b111111)) = v * 64 + (b - 0x80) := by
  have h1 : b &&& 0b111111 = b % 64 := Nat.and_two_pow_sub_one_eq_mod b 6
  have h2 : u32 (v <<< 6) = v <<< 6 := by
    unfold u32; rw [Nat.shiftLeft_eq]; exact Nat.mod_eq_of_lt (by omega)
  rw [h1, h2, ← Nat.shiftLeft_add_eq_or_of_lt (show b % 64 < 2 ^ 6 by omega), Nat.shiftLeft_eq]
  omega

/-- A continuation byte. -/
def Cont (b : Nat) : Prop := 0x80 ≤ b ∧ b ≤ 0xBF

/-- Initial parts of UTF-8 sequences of scalar values, by ranges of bytes (Unicode, Table 3-7). -/
def Init8 : List Nat → Prop
  | [] => True
  | [b0] => numBytes b0 ≠ 0
  | [b0, b1] => 2 ≤ numBytes b0 ∧ Cont b1 ∧ badSecond b0 b1 = false
  | [b0, b1, b2] => 3 ≤ numBytes b0 ∧ Cont b1 ∧ badSecond b0 b1 = false ∧ Cont b2
  | [b0, b1, b2, b3] => 4 ≤ numBytes b0 ∧ Cont b1 ∧ badSecond b0 b1 = false ∧ Cont b2 ∧ Cont b3
  | _ => False

theorem badSecond_false {v b : Nat} (h : badSecond v b = false) :
    (v = 0xE0 → 0xA0 ≤ b) ∧ (v = 0xED → b ≤ 0x9F) ∧ (v = 0xF0 → 0x90 ≤ b) ∧ (v = 0xF4 → b ≤ 0x8F) := by
  unfold badSecond at h
  repeat' split at h
  all_goals simp at h
  all_goals omega

theorem badSecond_of {v b : Nat} (h1 : v = 0xE0 → 0xA0 ≤ b) (h2 : v = 0xED → b ≤ 0x9F) (h3 : v = 0xF0 → 0x90 ≤ b)
    (h4 : v = 0xF4 → b ≤ 0x8F) : badSecond v b = false := by
  unfold badSecond
  repeat' split
  all_goals simp
  all_goals omega

theorem numBytes_le (v : Nat) : numBytes v ≤ 4 := by unfold numBytes; repeat' split
                                                     all_goals omega

theorem numBytes_2 {v : Nat} : numBytes v = 2 ↔ 0xC2 ≤ v ∧ v ≤ 0xDF := by
  unfold numBytes; repeat' split
  all_goals omega
theorem numBytes_3 {v : Nat} : numBytes v = 3 ↔ 0xE0 ≤ v ∧ v ≤ 0xEF := by
  unfold numBytes; repeat' split
  all_goals omega
theorem numBytes_4 {v : Nat} : numBytes v = 4 ↔ 0xF0 ≤ v ∧ v ≤ 0xF4 := by
  unfold numBytes; repeat' split
  all_goals omega
theorem numBytes_1 {v : Nat} : numBytes v = 1 ↔ v ≤ 0x7F := by
  unfold numBytes; repeat' split
  all_goals omega

/-- The byte sequence `b0 …` of the given length, read as a code. -/
theorem enc8_2 {b0 b1 : Nat} (h0 : numBytes b0 = 2) (h1 : Cont b1) :
    Spec.Scalar ((b0 - 0xC0) * 64 + (b1 - 0x80)) ∧ Spec.enc8 ((b0 - 0xC0) * 64 + (b1 - 0x80)) = [b0, b1] := by
  rw [numBytes_2] at h0
  unfold Cont at h1
  unfold Spec.Scalar Spec.enc8
  refine ⟨by omega, ?_⟩
  rw [if_neg (by omega), if_pos (by omega)]
  simp only [List.cons.injEq, and_true]
  omega

theorem enc8_3 {b0 b1 b2 : Nat} (h0 : numBytes b0 = 3) (h1 : Cont b1) (hb : badSecond b0 b1 = false) (h2 : Cont b2) :
    Spec.Scalar ((b0 - 0xE0) * 4096 + (b1 - 0x80) * 64 + (b2 - 0x80)) ∧
    Spec.enc8 ((b0 - 0xE0) * 4096 + (b1 - 0x80) * 64 + (b2 - 0x80)) = [b0, b1, b2] := by
  rw [numBytes_3] at h0
  have := badSecond_false hb
  unfold Cont at h1 h2
  unfold Spec.Scalar Spec.enc8
  refine ⟨by omega, ?_⟩
  rw [if_neg (by omega), if_neg (by omega), if_pos (by omega)]
  simp only [List.cons.injEq, and_true]
  omega

theorem enc8_4 {b0 b1 b2 b3 : Nat} (h0 : numBytes b0 = 4) (h1 : Cont b1) (hb : badSecond b0 b1 = false) (h2 : Cont b2)
    (h3 : Cont b3) :
    Spec.Scalar ((b0 - 0xF0) * 262144 + (b1 - 0x80) * 4096 + (b2 - 0x80) * 64 + (b3 - 0x80)) ∧
    Spec.enc8 ((b0 - 0xF0) * 262144 + (b1 - 0x80) * 4096 + (b2 - 0x80) * 64 + (b3 - 0x80)) = [b0, b1, b2, b3] := by
  rw [numBytes_4] at h0
  have := badSecond_false hb
  unfold Cont at h1 h2 h3
  unfold Spec.Scalar Spec.enc8
  refine ⟨by omega, ?_⟩
  rw [if_neg (by omega), if_neg (by omega), if_neg (by omega), if_pos (by omega)]
  simp only [List.cons.injEq, and_true]
  omega

/-- The bytes of a scalar value. -/
theorem enc8_cases {c : Nat} (hc : Spec.Scalar c) :
    (∃ b0, Spec.enc8 c = [b0] ∧ numBytes b0 = 1 ∧ c = b0) ∨
    (∃ b0 b1, Spec.enc8 c = [b0, b1] ∧ numBytes b0 = 2 ∧ Cont b1 ∧ badSecond b0 b1 = false ∧
      c = (b0 - 0xC0) * 64 + (b1 - 0x80)) ∨
    (∃ b0 b1 b2, Spec.enc8 c = [b0, b1, b2] ∧ numBytes b0 = 3 ∧ Cont b1 ∧ badSecond b0 b1 = false ∧ Cont b2 ∧
      c = (b0 - 0xE0) * 4096 + (b1 - 0x80) * 64 + (b2 - 0x80)) ∨
    (∃ b0 b1 b2 b3, Spec.enc8 c = [b0, b1, b2, b3] ∧ numBytes b0 = 4 ∧ Cont b1 ∧ badSecond b0 b1 = false ∧ Cont b2 ∧
      Cont b3 ∧ c = (b0 - 0xF0) * 262144 + (b1 - 0x80) * 4096 + (b2 - 0x80) * 64 + (b3 - 0x80)) := by
  unfold Spec.Scalar at hc
  unfold Spec.enc8 Cont
  split
  · exact Or.inl ⟨_, rfl, numBytes_1.2 (by omega), rfl⟩
  split
  · refine Or.inr (Or.inl ⟨_, _, rfl, numBytes_2.2 (by omega), by omega, badSecond_of ?_ ?_ ?_ ?_, by omega⟩)
    all_goals omega
  split
  · refine Or.inr (Or.inr (Or.inl ⟨_, _, _, rfl, numBytes_3.2 (by omega), by omega, badSecond_of ?_ ?_ ?_ ?_, by omega,
      by omega⟩))
    all_goals omega
  rw [if_pos (by omega)]
  · refine Or.inr (Or.inr (Or.inr ⟨_, _, _, _, rfl, numBytes_4.2 (by omega), by omega, badSecond_of ?_ ?_ ?_ ?_, by omega,
      by omega, by omega⟩))
    all_goals omega

theorem init8_prefix : ∀ {p q : List Nat}, p <+: q → Init8 q → Init8 p := by
  intro p q hpq hq
  obtain ⟨t, rfl⟩ := hpq
  match p, t with
  | [], _ => trivial
  | p, [] => simpa using hq
  | [a], [b] => simp only [List.cons_append, List.nil_append, Init8] at *; omega
  | [a], [b, c] => simp only [List.cons_append, List.nil_append, Init8] at *; omega
  | [a], [b, c, d] => simp only [List.cons_append, List.nil_append, Init8] at *; omega
  | [a, b], [c] => simp only [List.cons_append, List.nil_append, Init8] at *; exact ⟨by omega, hq.2.1, hq.2.2.1⟩
  | [a, b], [c, d] => simp only [List.cons_append, List.nil_append, Init8] at *; exact ⟨by omega, hq.2.1, hq.2.2.1⟩
  | [a, b, c], [d] =>
    simp only [List.cons_append, List.nil_append, Init8] at *
    exact ⟨by omega, hq.2.1, hq.2.2.1, hq.2.2.2.1⟩
  | [a], b :: c :: d :: e :: t => simp [Init8] at hq
  | [a, b], c :: d :: e :: t => simp [Init8] at hq
  | [a, b, c], d :: e :: t => simp [Init8] at hq
  | [a, b, c, d], e :: t => simp [Init8] at hq
  | a :: b :: c :: d :: e :: r, f :: t => simp [Init8] at hq

theorem init8_enc {c : Nat} (hc : Spec.Scalar c) : Init8 (Spec.enc8 c) := by
  rcases enc8_cases hc with ⟨b0, h, h0, _⟩ | ⟨b0, b1, h, h0, h1, h2, _⟩ | ⟨b0, b1, b2, h, h0, h1, h2, h3, _⟩ |
    ⟨b0, b1, b2, b3, h, h0, h1, h2, h3, h4, _⟩
  all_goals rw [h]
  · show numBytes b0 ≠ 0; omega
  · exact ⟨by omega, h1, h2⟩
  · exact ⟨by omega, h1, h2, h3⟩
  · exact ⟨by omega, h1, h2, h3, h4⟩

theorem exists_second {b0 : Nat} : ∃ b1, Cont b1 ∧ badSecond b0 b1 = false := by
  by_cases h1 : b0 = 0xE0
  · exact ⟨0xA0, by unfold Cont; omega, by rw [h1]; rfl⟩
  by_cases h2 : b0 = 0xF0
  · exact ⟨0x90, by unfold Cont; omega, by rw [h2]; rfl⟩
  refine ⟨0x80, by unfold Cont; omega, badSecond_of ?_ ?_ ?_ ?_⟩
  all_goals omega

theorem cont80 : Cont 0x80 := by unfold Cont; omega

theorem init8_iff (p : List Nat) : Init8 p ↔ ∃ c, Spec.Scalar c ∧ p <+: Spec.enc8 c := by
  constructor
  · intro h
    have key : ∃ q c, p <+: q ∧ Spec.Scalar c ∧ Spec.enc8 c = q := by
      match p, h with
      | [], _ => exact ⟨[0], 0, List.nil_prefix, by unfold Spec.Scalar; omega, rfl⟩
      | [b0], h =>
        obtain ⟨b1, h1, h2⟩ := exists_second (b0 := b0)
        have h : numBytes b0 ≠ 0 := h
        have hle := numBytes_le b0
        rcases (by omega : numBytes b0 = 1 ∨ numBytes b0 = 2 ∨ numBytes b0 = 3 ∨ numBytes b0 = 4) with h | h | h | h
        · have h' := numBytes_1.1 h
          exact ⟨[b0], b0, ⟨[], rfl⟩, by unfold Spec.Scalar; omega, by unfold Spec.enc8; rw [if_pos (by omega)]⟩
        · exact ⟨[b0, b1], _, ⟨[b1], rfl⟩, enc8_2 h h1⟩
        · exact ⟨[b0, b1, 0x80], _, ⟨[b1, 0x80], rfl⟩, enc8_3 h h1 h2 cont80⟩
        · exact ⟨[b0, b1, 0x80, 0x80], _, ⟨[b1, 0x80, 0x80], rfl⟩, enc8_4 h h1 h2 cont80 cont80⟩
      | [b0, b1], h =>
        obtain ⟨h0, h1, h2⟩ := h
        have hle := numBytes_le b0
        rcases (by omega : numBytes b0 = 2 ∨ numBytes b0 = 3 ∨ numBytes b0 = 4) with h | h | h
        · exact ⟨[b0, b1], _, ⟨[], rfl⟩, enc8_2 h h1⟩
        · exact ⟨[b0, b1, 0x80], _, ⟨[0x80], rfl⟩, enc8_3 h h1 h2 cont80⟩
        · exact ⟨[b0, b1, 0x80, 0x80], _, ⟨[0x80, 0x80], rfl⟩, enc8_4 h h1 h2 cont80 cont80⟩
      | [b0, b1, b2], h =>
        obtain ⟨h0, h1, h2, h3⟩ := h
        have hle := numBytes_le b0
        rcases (by omega : numBytes b0 = 3 ∨ numBytes b0 = 4) with h | h
        · exact ⟨[b0, b1, b2], _, ⟨[], rfl⟩, enc8_3 h h1 h2 h3⟩
        · exact ⟨[b0, b1, b2, 0x80], _, ⟨[0x80], rfl⟩, enc8_4 h h1 h2 h3 cont80⟩
      | [b0, b1, b2, b3], h =>
        obtain ⟨h0, h1, h2, h3, h4⟩ := h
        have hle := numBytes_le b0
        exact ⟨[b0, b1, b2, b3], _, ⟨[], rfl⟩, enc8_4 (by omega) h1 h2 h3 h4⟩
      | _ :: _ :: _ :: _ :: _ :: _, h => exact h.elim
    obtain ⟨q, c, h1, h2, h3⟩ := key
    exact ⟨c, h2, h3 ▸ h1⟩
  · rintro ⟨c, hc, hp⟩
    exact init8_prefix hp (init8_enc hc)

theorem contLoop_step {s : List Nat} {num f idx v b : Nat} (h1 : idx < num) (h2 : s[idx]? = some b) (hb : Cont b)
    (hv : v < 2 ^ 26) : contLoop s num (f + 1) idx v = contLoop s num f (idx + 1) (v * 64 + (b - 0x80)) := by
  obtain ⟨hlt, rfl⟩ := List.getElem?_eq_some_iff.1 h2
  unfold Cont at hb
  rw [contLoop, if_pos h1, if_neg (by omega), rdu_ok hlt, R.ok_bind, if_neg (by omega),
    shl6_or _ _ hv (by omega) (by omega)]

theorem contLoop_stop {s : List Nat} {num f idx v : Nat} (h1 : idx < num) (h2 : ∀ b, s[idx]? = some b → ¬ Cont b) :
    contLoop s num (f + 1) idx v = .ok ⟨idx, false, 0xFFFD⟩ := by
  rw [contLoop, if_pos h1]
  split
  · rfl
  · next hlt =>
    have hlt : idx < s.length := by omega
    rw [rdu_ok hlt, R.ok_bind, if_pos]
    · rfl
    · have := h2 _ (List.getElem?_eq_getElem hlt)
      unfold Cont at this
      omega

theorem contLoop_done {s : List Nat} {num f v : Nat} : contLoop s num (f + 1) num v = .ok ⟨num, true, v⟩ := by
  rw [contLoop, if_neg (by omega)]

theorem and31 (v : Nat) : v &&& 0b11111 = v % 32 := Nat.and_two_pow_sub_one_eq_mod v 5
theorem and15 (v : Nat) : v &&& 0b1111 = v % 16 := Nat.and_two_pow_sub_one_eq_mod v 4
theorem and7 (v : Nat) : v &&& 0b111 = v % 8 := Nat.and_two_pow_sub_one_eq_mod v 3

/-- Evaluation of `decode8` on a multi-byte lead whose second byte is acceptable. -/
theorem decode8_multi {b0 b1 : Nat} {t : List Nat} (h0 : 2 ≤ numBytes b0) (hb : badSecond b0 b1 = false) :
    decode8 (b0 :: b1 :: t) = contLoop (b0 :: b1 :: t) (numBytes b0) (numBytes b0) 1 (maskLead (numBytes b0) b0) := by
  unfold decode8
  rw [rdu_ok (by simp), R.ok_bind]
  dsimp only [List.getElem_cons_zero]
  rw [if_neg (by omega), if_neg (by omega), if_neg (by simp), rdu_ok (by simp), R.ok_bind]
  dsimp only [List.getElem_cons_succ, List.getElem_cons_zero]
  rw [if_neg (by simp [hb])]

/-- `_Decode_utf` (UTF-8) on a text that starts with the bytes of a scalar value. -/
theorem decode8_good {c : Nat} (hc : Spec.Scalar c) (t : List Nat) :
    decode8 (Spec.enc8 c ++ t) = .ok ⟨(Spec.enc8 c).length, true, c⟩ := by
  rcases enc8_cases hc with ⟨b0, h, h0, hv⟩ | ⟨b0, b1, h, h0, h1, h2, hv⟩ | ⟨b0, b1, b2, h, h0, h1, h2, h3, hv⟩ |
    ⟨b0, b1, b2, b3, h, h0, h1, h2, h3, h4, hv⟩
  all_goals rw [h]
  · unfold decode8
    rw [rdu_ok (by simp), R.ok_bind]
    dsimp only [List.cons_append, List.getElem_cons_zero]
    rw [if_pos h0, hv]
    rfl
  · rw [List.cons_append, List.cons_append, decode8_multi (by omega) h2, h0]
    have h0' := numBytes_2.1 h0
    rw [contLoop_step (b := b1) (by omega) (by simp) h1, contLoop_done]
    · simp only [maskLead, if_true, and31, List.length_cons, List.length_nil]
      unfold Cont at h1
      rw [Except.ok.injEq, Dec.mk.injEq]; exact ⟨rfl, rfl, by omega⟩
    · simp only [maskLead, if_true, and31]; omega
  · rw [List.cons_append, List.cons_append, decode8_multi (by omega) h2, h0]
    have h0' := numBytes_3.1 h0
    have hm : maskLead 3 b0 = b0 - 0xE0 := by unfold maskLead; rw [if_neg (by omega), if_pos rfl, and15]; omega
    unfold Cont at h1 h3
    rw [contLoop_step (b := b1) (by omega) (by simp) h1 (by omega),
      contLoop_step (b := b2) (by omega) (by simp) h3 (by omega), contLoop_done]
    simp only [List.length_cons, List.length_nil]
    rw [Except.ok.injEq, Dec.mk.injEq]; exact ⟨rfl, rfl, by omega⟩
  · rw [List.cons_append, List.cons_append, decode8_multi (by omega) h2, h0]
    have h0' := numBytes_4.1 h0
    have hm : maskLead 4 b0 = b0 - 0xF0 := by
      unfold maskLead; rw [if_neg (by omega), if_neg (by omega), and7]; omega
    unfold Cont at h1 h3 h4
    rw [contLoop_step (b := b1) (by omega) (by simp) h1 (by omega),
      contLoop_step (b := b2) (by omega) (by simp) h3 (by omega),
      contLoop_step (b := b3) (by omega) (by simp) h4 (by omega), contLoop_done]
    simp only [List.length_cons, List.length_nil]
    rw [Except.ok.injEq, Dec.mk.injEq]; exact ⟨rfl, rfl, by omega⟩

theorem subpart8_iff (s : List Nat) (n : Nat) : Spec.Subpart Spec.enc8 s n ↔ n ≤ s.length ∧ Init8 (s.take n) := by
  unfold Spec.Subpart; rw [init8_iff]

/-- If the initial part of length `m` is fine and no longer one is, `m` is the maximal subpart. -/
theorem maximal_of {s : List Nat} {m : Nat} (h1 : m ≤ s.length) (h2 : Init8 (s.take m))
    (h3 : m + 1 ≤ s.length → ¬ Init8 (s.take (m + 1))) : Spec.MaximalSubpart Spec.enc8 s (max m 1) := by
  refine ⟨m, (subpart8_iff _ _).2 ⟨h1, h2⟩, ?_, rfl⟩
  intro k hk
  rw [subpart8_iff] at hk
  by_contra hlt
  exact h3 (by omega) (init8_prefix (List.take_prefix_take_left (by omega)) hk.2)

theorem not_startsWell {s : List Nat} (h : ¬ Spec.StartsWell Spec.enc8 s) {c : Nat} {q : List Nat}
    (hc : Spec.Scalar c ∧ Spec.enc8 c = q) : ¬ q <+: s := by
  intro hq
  exact h ⟨c, hc.1, hc.2 ▸ hq⟩

/-- `_Decode_utf` (UTF-8) on any other text. -/
theorem decode8_bad {s : List Nat} (hs : s ≠ []) (h : ¬ Spec.StartsWell Spec.enc8 s) :
    ∃ n, decode8 s = .ok ⟨n, false, 0xFFFD⟩ ∧ Spec.MaximalSubpart Spec.enc8 s n := by
  match s, hs with
  | b0 :: t, _ =>
  have hle := numBytes_le b0
  by_cases hn0 : numBytes b0 = 0
  · refine ⟨max 0 1, ?_, maximal_of (by simp) trivial (fun _ h => h hn0)⟩
    unfold decode8
    rw [rdu_ok (by simp), R.ok_bind]
    dsimp only [List.getElem_cons_zero]
    rw [if_neg (by omega), if_pos hn0]
    rfl
  by_cases hn1 : numBytes b0 = 1
  · exfalso
    have := numBytes_1.1 hn1
    refine not_startsWell h (c := b0) (q := [b0]) ⟨by unfold Spec.Scalar; omega, ?_⟩ ⟨t, rfl⟩
    unfold Spec.enc8; rw [if_pos (by omega)]
  match t with
  | [] =>
    refine ⟨max 1 1, ?_, maximal_of (by simp) hn0 (fun h => by simp at h)⟩
    unfold decode8
    rw [rdu_ok (by simp), R.ok_bind]
    dsimp only [List.getElem_cons_zero]
    rw [if_neg hn1, if_neg hn0, if_pos (by simp)]
    rfl
  | b1 :: t =>
  cases hbs : badSecond b0 b1 with
  | true =>
    refine ⟨max 1 1, ?_, maximal_of (by simp) hn0 (fun _ h => by have := h.2.2; rw [hbs] at this; cases this)⟩
    unfold decode8
    rw [rdu_ok (by simp), R.ok_bind]
    dsimp only [List.getElem_cons_zero]
    rw [if_neg hn1, if_neg hn0, if_neg (by simp), rdu_ok (by simp), R.ok_bind]
    dsimp only [List.getElem_cons_succ, List.getElem_cons_zero]
    rw [if_pos hbs]
    rfl
  | false =>
  rw [decode8_multi (by omega) hbs]
  have hmask : maskLead (numBytes b0) b0 < 2 ^ 5 := by
    unfold maskLead; rw [and31, and15, and7]; repeat' split
    all_goals omega
  obtain ⟨k, hk⟩ : ∃ k, numBytes b0 = k + 2 := ⟨numBytes b0 - 2, by omega⟩
  have hn : numBytes b0 = 2 ∨ numBytes b0 = 3 ∨ numBytes b0 = 4 := by omega
  by_cases hc1 : Cont b1
  swap
  · refine ⟨max 1 1, ?_, maximal_of (by simp) hn0 (fun _ h => hc1 h.2.1)⟩
    rw [hk, contLoop_stop (by omega) (by simpa using hc1)]
    rfl
  rw [hk, contLoop_step (b := b1) (by omega) (by simp) hc1 (by rw [← hk]; omega), ← hk]
  by_cases h2 : numBytes b0 = 2
  · exact absurd ⟨t, rfl⟩ (not_startsWell h (enc8_2 h2 hc1))
  obtain ⟨k, rfl⟩ : ∃ j, k = j + 1 := ⟨k - 1, by omega⟩
  match t with
  | [] =>
    refine ⟨max 2 1, ?_, maximal_of (by simp) ⟨by omega, hc1, hbs⟩ (fun h => by simp at h)⟩
    rw [contLoop_stop (by omega) (by simp)]
    rfl
  | b2 :: t =>
  by_cases hc2 : Cont b2
  swap
  · refine ⟨max 2 1, ?_, maximal_of (by simp) ⟨by omega, hc1, hbs⟩ (fun _ h => hc2 h.2.2.2)⟩
    rw [contLoop_stop (by omega) (by simpa using hc2)]
    rfl
  rw [contLoop_step (b := b2) (by omega) (by simp) hc2 (by unfold Cont at *; omega)]
  by_cases h3 : numBytes b0 = 3
  · exact absurd ⟨t, rfl⟩ (not_startsWell h (enc8_3 h3 hc1 hbs hc2))
  obtain ⟨k, rfl⟩ : ∃ j, k = j + 1 := ⟨k - 1, by omega⟩
  match t with
  | [] =>
    refine ⟨max 3 1, ?_, maximal_of (by simp) ⟨by omega, hc1, hbs, hc2⟩ (fun h => by simp at h)⟩
    rw [contLoop_stop (by omega) (by simp)]
    rfl
  | b3 :: t =>
  by_cases hc3 : Cont b3
  swap
  · refine ⟨max 3 1, ?_, maximal_of (by simp) ⟨by omega, hc1, hbs, hc2⟩ (fun _ h => hc3 h.2.2.2.2)⟩
    rw [contLoop_stop (by omega) (by simpa using hc3)]
    rfl
  exact absurd ⟨t, rfl⟩ (not_startsWell h (enc8_4 (by omega) hc1 hbs hc2 hc3))

/-! ## UTF-16 -/

theorem decode16_good {c : Nat} (hc : Spec.Scalar c) (t : List Nat) :
    decode16 (Spec.enc16 c ++ t) = .ok ⟨(Spec.enc16 c).length, true, c⟩ := by
  unfold Spec.Scalar at hc
  unfold Spec.enc16
  split
  · unfold decode16
    rw [rdu_ok (by simp), R.ok_bind]
    dsimp only [List.cons_append, List.getElem_cons_zero]
    split
    · rfl
    · rw [if_neg (by omega), if_neg (by omega)]; rfl
  · unfold decode16
    rw [rdu_ok (by simp), R.ok_bind]
    dsimp only [List.cons_append, List.nil_append, List.getElem_cons_zero]
    rw [if_neg (by omega), if_pos (by omega), if_neg (by simp), rdu_ok (by simp), R.ok_bind]
    dsimp only [List.getElem_cons_succ, List.getElem_cons_zero]
    rw [if_neg (by omega)]
    show Except.ok _ = _
    simp only [Nat.shiftLeft_eq, u32, List.length_cons, List.length_nil]
    rw [Except.ok.injEq, Dec.mk.injEq]; exact ⟨rfl, rfl, by omega⟩

theorem startsWell16_one {v : Nat} {t : List Nat} (h : Spec.Scalar v) (hv : v < 0x10000) :
    Spec.StartsWell Spec.enc16 (v :: t) := ⟨v, h, t, by unfold Spec.enc16; rw [if_pos hv]; rfl⟩

theorem subpart16_one {v : Nat} {t : List Nat} : Spec.Subpart Spec.enc16 (v :: t) 1 → v < 0xDC00 ∨ 0xE000 ≤ v := by
  rintro ⟨_, c, hc, h⟩
  unfold Spec.Scalar at hc
  unfold Spec.enc16 at h
  split at h
  · simp at h; omega
  · simp at h; omega

theorem subpart16_two {v w : Nat} {t : List Nat} {k : Nat} (hk : 2 ≤ k) :
    Spec.Subpart Spec.enc16 (v :: w :: t) k → Spec.StartsWell Spec.enc16 (v :: w :: t) := by
  rintro ⟨_, c, hc, h⟩
  obtain ⟨k, rfl⟩ : ∃ j, k = j + 2 := ⟨k - 2, by omega⟩
  refine ⟨c, hc, ?_⟩
  unfold Spec.enc16 at *
  split at h
  · simp at h
  · next h' => rw [if_neg h']; simp at h ⊢; omega

theorem decode16_bad {s : List Nat} (hu : Units 16 s) (hs : s ≠ []) (h : ¬ Spec.StartsWell Spec.enc16 s) :
    ∃ n, decode16 s = .ok ⟨n, false, 0xFFFD⟩ ∧ Spec.MaximalSubpart Spec.enc16 s n := by
  match s, hs with
  | v :: t, _ =>
  have hv : v < 0x10000 := hu v (by simp)
  have hsc : ¬ Spec.Scalar v := fun hv' => h (startsWell16_one hv' hv)
  unfold Spec.Scalar at hsc
  have h00 : Spec.Subpart Spec.enc16 (v :: t) 0 := ⟨by simp, 0, by unfold Spec.Scalar; omega, by simp⟩
  have hmax2 : ∀ k, Spec.Subpart Spec.enc16 (v :: t) k → k ≤ 1 := by
    intro k hk
    by_contra hlt
    match t with
    | [] => have := hk.1; simp at this; omega
    | w :: t => exact h (subpart16_two (by omega) hk)
  refine ⟨1, ?_, ?_⟩
  · unfold decode16
    rw [rdu_ok (by simp), R.ok_bind]
    dsimp only [List.getElem_cons_zero]
    rw [if_neg (by omega)]
    split
    · next hlo =>
      match t with
      | [] => rw [if_pos (by simp)]; rfl
      | w :: t =>
        rw [if_neg (by simp), rdu_ok (by simp), R.ok_bind]
        dsimp only [List.getElem_cons_succ, List.getElem_cons_zero]
        rw [if_pos]
        · rfl
        · by_contra hw
          refine h ⟨0x10000 + (v - 0xD800) * 1024 + (w - 0xDC00), by unfold Spec.Scalar; omega, t, ?_⟩
          unfold Spec.enc16
          rw [if_neg (by omega)]
          simp only [List.cons_append, List.nil_append, List.cons.injEq, and_true]
          omega
    · rw [if_pos (by omega)]; rfl
  · by_cases h1 : v ≤ 0xDBFF
    · refine ⟨1, ⟨by simp, 0x10000 + (v - 0xD800) * 1024, by unfold Spec.Scalar; omega, ?_⟩, hmax2, rfl⟩
      unfold Spec.enc16
      rw [if_neg (by omega)]
      simp
      omega
    · refine ⟨0, h00, ?_, rfl⟩
      intro k hk
      have := hmax2 k hk
      by_contra hlt
      obtain rfl : k = 1 := by omega
      have := subpart16_one hk
      omega

/-- Running the code point iterator over a text. -/
theorem codepoints_ok (enc : Nat → List Nat) (dec : List Nat → R Dec) (P : List Nat → Prop)
    (hP : ∀ s n, P s → P (s.drop n)) (hlen : ∀ c, 0 < (enc c).length)
    (hgood : ∀ c t, Spec.Scalar c → dec (enc c ++ t) = .ok ⟨(enc c).length, true, c⟩)
    (hbad : ∀ s, P s → s ≠ [] → ¬ Spec.StartsWell enc s →
      ∃ n, dec s = .ok ⟨n, false, 0xFFFD⟩ ∧ Spec.MaximalSubpart enc s n) :
    ∀ f s, P s → s.length < f → ∃ v, codepoints dec f s = .ok v ∧ Spec.Decodes enc s v := by
  intro f
  induction f with
  | zero => intro s _ h; omega
  | succ f ih =>
    intro s hs hf
    rw [codepoints]
    by_cases h0 : s.length = 0
    · rw [if_pos h0]
      obtain rfl := List.length_eq_zero_iff.1 h0
      exact ⟨[], rfl, .nil⟩
    rw [if_neg h0]
    by_cases hw : Spec.StartsWell enc s
    · obtain ⟨c, hc, t, rfl⟩ := hw
      have h1 := hlen c
      rw [hgood c t hc, R.ok_bind]
      dsimp only
      rw [if_neg (by simp), List.drop_left]
      simp only [List.length_append] at hf
      obtain ⟨v, h2, h3⟩ := ih t (by have := hP _ (enc c).length hs; rwa [List.drop_left] at this) (by omega)
      rw [h2]
      exact ⟨c :: v, rfl, .good hc h3⟩
    · have hne : s ≠ [] := by intro h; rw [h] at h0; simp at h0
      obtain ⟨n, h1, h2⟩ := hbad s hs hne hw
      rw [h1, R.ok_bind]
      dsimp only
      obtain ⟨m, hm, hmm, hn⟩ := id h2
      have := hm.1
      rw [if_neg (by omega)]
      obtain ⟨v, h3, h4⟩ := ih (s.drop n) (hP _ _ hs) (by rw [List.length_drop]; omega)
      rw [h3]
      exact ⟨_, rfl, .bad hw hne h2 h4⟩

theorem enc8_length (c : Nat) : 0 < (Spec.enc8 c).length := by unfold Spec.enc8; repeat' split
                                                               all_goals simp
theorem enc16_length (c : Nat) : 0 < (Spec.enc16 c).length := by unfold Spec.enc16; split <;> simp

/-- The decoding of a text that is the encoding of scalar values is that sequence. -/
theorem decodes_unique_good {enc : Nat → List Nat} {dec : List Nat → R Dec}
    (hlen : ∀ c, 0 < (enc c).length)
    (hgood : ∀ c t, Spec.Scalar c → dec (enc c ++ t) = .ok ⟨(enc c).length, true, c⟩) :
    ∀ (cs : List Nat) (v : List Nat), (∀ c ∈ cs, Spec.Scalar c) → Spec.Decodes enc (cs.flatMap enc) v → v = cs := by
  intro cs
  induction cs with
  | nil =>
    intro v _ h
    generalize hs : [].flatMap enc = s at h
    cases h with
    | nil => rfl
    | @good c s v _ _ =>
      have := congrArg List.length hs
      have := hlen c
      simp only [List.flatMap_nil, List.length_nil, List.length_append] at *
      omega
    | bad _ h => exact absurd hs.symm h
  | cons c cs ih =>
    intro v hcs h
    generalize hs : (c :: cs).flatMap enc = s at h
    rw [List.flatMap_cons] at hs
    have hc := hcs c (by simp)
    cases h with
    | nil =>
      have := congrArg List.length hs
      have := hlen c
      simp only [List.length_nil, List.length_append] at *
      omega
    | @good c' s v hc' hd =>
      have h1 := hgood c (cs.flatMap enc) hc
      have h2 := hgood c' s hc'
      rw [hs] at h1
      rw [h1] at h2
      simp only [Except.ok.injEq, Dec.mk.injEq, true_and] at h2
      obtain ⟨_, rfl⟩ := h2
      have hs := List.append_cancel_left hs
      rw [← hs] at hd
      rw [ih v (fun x hx => hcs x (by simp [hx])) hd]
    | bad hw _ _ _ => exact absurd ⟨c, hc, _, hs⟩ hw

end STL.Utf
