import Verif.FloatConv.Finish

/-! # Scanning the digits and the exponent -/

namespace STL.FloatConv
open STL Spec STL.Charconv STL.BigInt
open STL.Charconv.Spec (isDigit digitVal)

def Bytes (s : List Nat) : Prop := ∀ c ∈ s, c < 256

theorem Bytes.tail {c : Nat} {s : List Nat} (h : Bytes (c :: s)) : Bytes s := fun x hx => h x (List.mem_cons_of_mem _ hx)
theorem Bytes.head {c : Nat} {s : List Nat} (h : Bytes (c :: s)) : c < 256 := h c (List.mem_cons_self ..)
theorem Bytes.dropWhile {s : List Nat} (h : Bytes s) (p : Nat → Bool) : Bytes (s.dropWhile p) := fun x hx => h x ((List.dropWhile_sublist p).mem hx)
theorem Bytes.suffix {s t : List Nat} (h : Bytes s) (hs : t <:+ s) : Bytes t := fun x hx => h x (hs.mem hx)

/-- The value of a digit. -/
theorem digit_ok {base c : Nat} (hb : base ≤ 36) (hc : c < 256) : ∃ d, digitOf c = .ok d ∧ (isDigit base c = decide (d < base)) ∧ (d < base → (digitVal c).getD 0 = d) := by
  refine ⟨(digitVal c).getD 255, digitFromChar_spec c hc, isDigit_iff base c hb, fun h => ?_⟩
  cases hv : digitVal c with
  | none => rw [hv] at h; simp at h; omega
  | some d => rfl

theorem digits_lt {base : Nat} (hb : base ≤ 36) : ∀ {cs : List Nat}, (∀ c ∈ cs, isDigit base c = true) → ∀ d ∈ digits cs, d < base := by
  intro cs h d hd
  unfold digits at hd
  rw [List.mem_map] at hd
  obtain ⟨c, hc, rfl⟩ := hd
  have h1 := h c hc
  unfold isDigit at h1
  cases hv : digitVal c with
  | none => rw [hv] at h1; simp at h1
  | some d => rw [hv] at h1; simpa using h1

theorem digits_append (a b : List Nat) : digits (a ++ b) = digits a ++ digits b := List.map_append
theorem digits_length (a : List Nat) : (digits a).length = a.length := List.length_map ..
theorem digits_nil : digits [] = [] := rfl

theorem tw_all {p : Nat → Bool} {s : List Nat} : ∀ c ∈ s.takeWhile p, p c = true := by
  induction s with
  | nil => simp
  | cons a t ih =>
    intro c hc
    rw [List.takeWhile_cons] at hc
    split at hc
    · rename_i h
      rcases List.mem_cons.1 hc with rfl | hc
      · exact h
      · exact ih c hc
    · simp at hc

/-- The scanning loops. -/
theorem scan_ok {base : Nat} (hb : base ≤ 36) : ∀ (s buf : List Nat) (zt : Bool), Bytes s → buf.length ≤ 768 →
    scan base s buf zt = .ok (s.dropWhile (isDigit base), buf ++ (digits (s.takeWhile (isDigit base))).take (768 - buf.length),
      zt && ((digits (s.takeWhile (isDigit base))).drop (768 - buf.length)).all (fun d => decide (d = 0))) := by
  intro s
  induction s with
  | nil => intro buf zt _ _; simp [scan, digits_nil]
  | cons c t ih =>
    intro buf zt hB hl
    obtain ⟨d, e1, h1, h2⟩ := digit_ok hb hB.head
    unfold scan
    rw [e1, R.ok_bind, List.dropWhile_cons, List.takeWhile_cons, h1]
    by_cases hd : d < base
    · rw [if_neg (by omega)]
      have hdig : digits (c :: t.takeWhile (isDigit base)) = d :: digits (t.takeWhile (isDigit base)) := by
        unfold digits; rw [List.map_cons, h2 hd]
      by_cases hf : buf.length = 768
      · rw [if_neg (by simpa using hf), ih _ _ hB.tail hl]
        simp [hd, hf, hdig, Bool.and_assoc]
      · rw [if_pos (by simpa using hf), ih _ _ hB.tail (by rw [List.length_append, List.length_singleton]; omega)]
        have : 768 - buf.length = (768 - (buf ++ [d]).length) + 1 := by rw [List.length_append, List.length_singleton]; omega
        simp only [hd, decide_true, if_true, hdig]
        rw [this, List.take_succ_cons, List.drop_succ_cons, List.append_assoc, List.singleton_append]
    · rw [if_pos (by omega)]
      simp [hd, digits_nil]

theorem skipZeros_eq (s : List Nat) : skipZeros s = s.dropWhile (· == 48) := by
  induction s with
  | nil => rfl
  | cons c t ih => unfold skipZeros; rw [List.dropWhile_cons]; by_cases h : c = 48 <;> simp [h, ih]

theorem isDigit_zero {base : Nat} (hb : 2 ≤ base) : isDigit base 48 = true := by
  unfold isDigit digitVal; simp; omega

theorem digitVal_zero : digitVal 48 = some 0 := by decide

theorem digitVal_eq_zero {c : Nat} (h : (digitVal c).getD 255 = 0) : c = 48 := by
  unfold digitVal at h
  split at h
  · simp at h; omega
  · split at h
    · simp at h
    · split at h <;> simp at h

/-- Skipping zeroes: what is skipped are digits, of value zero; the next digit is not zero. -/
theorem skip_spec {base : Nat} (hb : 2 ≤ base) (s : List Nat) : ∃ k, s = List.replicate k 48 ++ skipZeros s ∧
    s.takeWhile (isDigit base) = List.replicate k 48 ++ (skipZeros s).takeWhile (isDigit base) ∧ s.dropWhile (isDigit base) = (skipZeros s).dropWhile (isDigit base) ∧
    (∀ d t, digits ((skipZeros s).takeWhile (isDigit base)) = d :: t → d ≠ 0) := by
  induction s with
  | nil => exact ⟨0, by simp [skipZeros, digits_nil]⟩
  | cons c t ih =>
    unfold skipZeros
    by_cases h : c = 48
    · subst h
      rw [if_pos rfl]
      obtain ⟨k, h1, h2, h3, h4⟩ := ih
      refine ⟨k + 1, ?_, ?_, ?_, h4⟩
      · rw [List.replicate_succ, List.cons_append, ← h1]
      · rw [List.takeWhile_cons, isDigit_zero hb, if_pos rfl, h2, List.replicate_succ, List.cons_append]
      · rw [List.dropWhile_cons, isDigit_zero hb, if_pos rfl, h3]
    · rw [if_neg h]
      refine ⟨0, by simp, by simp, rfl, ?_⟩
      intro d t' hd
      rw [List.takeWhile_cons] at hd
      split at hd
      · rename_i hdig
        unfold digits at hd
        rw [List.map_cons, List.cons.injEq] at hd
        intro h0
        unfold isDigit at hdig
        cases hv : digitVal c with
        | none => rw [hv] at hdig; simp at hdig
        | some v =>
          rw [hv] at hd
          exact h (digitVal_eq_zero (by rw [hv]; simpa [h0] using hd.1))
      · simp [digits_nil] at hd

theorem numOf_zeros {base : Nat} (k : Nat) (l : List Nat) : numOf base (digits (List.replicate k 48) ++ l) = numOf base l := by
  induction k with
  | zero => rfl
  | succ k ih =>
    rw [List.replicate_succ]
    unfold digits at ih ⊢
    rw [List.map_cons, List.cons_append, numOf_cons, ih, digitVal_zero]
    simp

/-! ## The exponent -/

def gsign (t : List Nat) : Option Nat × List Nat := match t with
  | [] => (none, [])
  | s :: u => if s = 43 ∨ s = 45 then (some s, u) else (none, t)

/-- The exponent part at the start of `r`, and what follows. -/
def gexp (fmt : Format) (r : List Nat) : Option Exp × List Nat :=
  if fmt = .fixed then (none, r)
  else match r with
    | [] => (none, [])
    | c :: t =>
      if isLetter fmt c then
        let st := gsign t
        if st.2.takeWhile (isDigit 10) = [] then (none, r) else (some ⟨c, st.1, st.2.takeWhile (isDigit 10)⟩, st.2.dropWhile (isDigit 10))
      else (none, r)

def expVal : Option Exp → Int
  | none => 0
  | some x => x.value

theorem expLoop_ok : ∀ (t next : List Nat) (e V : Int) (big : Bool), Bytes t → 0 ≤ e → e ≤ ptrdiffMax → (big = false → e = V) → (big = true → ptrdiffMax / 10 ≤ e ∧ ptrdiffMax < V) →
    ∃ e' big', expLoop t next e big = .ok (if t.takeWhile (isDigit 10) = [] then next else t.dropWhile (isDigit 10), e', big') ∧ 0 ≤ e' ∧ e' ≤ ptrdiffMax ∧
      (big' = false → e' = V * 10 ^ (t.takeWhile (isDigit 10)).length + numOf 10 (digits (t.takeWhile (isDigit 10)))) ∧
      (big' = true → ptrdiffMax / 10 ≤ e' ∧ ptrdiffMax < V * 10 ^ (t.takeWhile (isDigit 10)).length + numOf 10 (digits (t.takeWhile (isDigit 10)))) := by
  have hpm : ptrdiffMax = 9223372036854775807 := by unfold ptrdiffMax; norm_num
  intro t
  induction t with
  | nil =>
    intro next e V big _ h0 h1 h2 h3
    refine ⟨e, big, by simp [expLoop], h0, h1, fun h => ?_, fun h => ?_⟩
    · simp [numOf_nil, digits_nil, h2 h]
    · have := h3 h; simpa [numOf_nil, digits_nil] using this
  | cons c u ih =>
    intro next e V big hB h0 h1 h2 h3
    obtain ⟨d, e1, hd1, hd2⟩ := digit_ok (base := 10) (by norm_num) hB.head
    unfold expLoop
    rw [e1, R.ok_bind, List.takeWhile_cons, List.dropWhile_cons, hd1]
    by_cases hd : d < 10
    · rw [if_neg (by omega)]
      have hdig : digits (c :: u.takeWhile (isDigit 10)) = d :: digits (u.takeWhile (isDigit 10)) := by
        unfold digits; rw [List.map_cons, hd2 hd]
      have hval : ∀ V' : Int, V' = V * 10 + d → V * 10 ^ (c :: u.takeWhile (isDigit 10)).length + (numOf 10 (digits (c :: u.takeWhile (isDigit 10))) : Int) =
          V' * 10 ^ (u.takeWhile (isDigit 10)).length + numOf 10 (digits (u.takeWhile (isDigit 10))) := by
        intro V' hV
        rw [hdig, numOf_cons, digits_length, List.length_cons, pow_succ, hV]; push_cast; ring
      have hnext : (if u.takeWhile (isDigit 10) = [] then u else u.dropWhile (isDigit 10)) = u.dropWhile (isDigit 10) := by
        split
        · rename_i h
          have := List.takeWhile_append_dropWhile (p := isDigit 10) (l := u)
          rw [h, List.nil_append] at this
          exact this.symm
        · rfl
      simp only [hd, decide_true, if_true, List.cons_ne_nil, if_false]
      rw [hval _ rfl]
      rw [hpm] at h1 h3 ⊢
      by_cases hc : e < 9223372036854775807 / 10 ∨ (e = 9223372036854775807 / 10 ∧ (d : Int) ≤ 9223372036854775807 % 10)
      · rw [if_pos hc, chkL_ok (by omega), R.ok_bind]
        obtain ⟨e', b', he, r1, r2, r3, r4⟩ := ih u (e * 10 + d) (V * 10 + d) big hB.tail (by omega) (by rw [hpm]; omega) (fun h => by rw [h2 h]) (fun h => by have := h3 h; rw [hpm]; omega)
        rw [hnext] at he
        rw [hpm] at r2 r4
        exact ⟨e', b', he, r1, r2, r3, r4⟩
      · rw [if_neg hc]
        obtain ⟨e', b', he, r1, r2, r3, r4⟩ := ih u e (V * 10 + d) true hB.tail h0 (by rw [hpm]; exact h1) (by simp) (fun _ => by
          rw [hpm]
          cases big
          · have := h2 rfl; omega
          · have := h3 rfl; omega)
        rw [hnext] at he
        rw [hpm] at r2 r4
        exact ⟨e', b', he, r1, r2, r3, r4⟩
    · rw [if_pos (by omega)]
      simp only [hd, decide_false, Bool.false_eq_true, if_false, if_true]
      refine ⟨e, big, rfl, h0, h1, fun h => ?_, fun h => ?_⟩
      · simp [numOf_nil, digits_nil, h2 h]
      · have := h3 h; simpa [numOf_nil, digits_nil] using this

theorem letter_iff : ∀ c, c < 256 → ((c ||| 0x20) = 101 ↔ (c = 101 ∨ c = 69)) ∧ ((c ||| 0x20) = 112 ↔ (c = 112 ∨ c = 80)) := by decide +kernel

theorem letter_ok (fmt : Format) {c : Nat} (hc : c < 256) : ((c ||| 0x20) = if fmt = .hex then 112 else 101) ↔ isLetter fmt c = true := by
  unfold isLetter
  split
  · rw [(letter_iff c hc).2]; simp
  · rw [(letter_iff c hc).1]; simp

def msign (t : List Nat) : Bool × List Nat := match t with
  | [] => (false, [])
  | s :: u => if s = 43 ∨ s = 45 then (decide (s = 45), u) else (false, t)

theorem sign_ok (t : List Nat) : ∃ sg u, gsign t = (sg, u) ∧ msign t = (decide (sg = some 45), u) ∧ (Bytes t → Bytes u) := by
  cases t with
  | nil => exact ⟨none, [], rfl, rfl, id⟩
  | cons s v =>
    unfold gsign msign
    by_cases h : s = 43 ∨ s = 45
    · exact ⟨some s, v, by simp [h], by simp [h], fun h => h.tail⟩
    · exact ⟨none, s :: v, by simp [h], by simp [h], id⟩

theorem expPart_eq (fmt : Format) (c : Nat) (t : List Nat) : expPart fmt (c :: t) =
    if fmt ≠ .fixed ∧ (c ||| 0x20) = (if fmt = .hex then 112 else 101) then do
      let (next, e, big) ← expLoop (msign t).2 (c :: t) 0 false
      .ok (next, if (msign t).1 then -e else e, big)
    else .ok (c :: t, 0, false) := by
  unfold expPart msign; rfl

/-- The exponent part of the code. -/
theorem expPart_ok (fmt : Format) {r : List Nat} (hB : Bytes r) : ∃ e big, expPart fmt r = .ok ((gexp fmt r).2, e, big) ∧
    (big = false → e = expVal (gexp fmt r).1 ∧ -(2 ^ 63 - 1) ≤ e ∧ e ≤ 2 ^ 63 - 1) ∧
    (big = true → (0 < e ∧ 2 ^ 62 ≤ expVal (gexp fmt r).1) ∨ (e < 0 ∧ expVal (gexp fmt r).1 ≤ -(2 ^ 62))) := by
  have hpm : ptrdiffMax = 9223372036854775807 := by unfold ptrdiffMax; norm_num
  cases r with
  | nil =>
    unfold expPart gexp
    refine ⟨0, false, ?_, fun _ => ?_, by simp⟩ <;> by_cases h : fmt = .fixed <;> simp [h, expVal]
  | cons c t =>
    rw [expPart_eq]
    unfold gexp
    dsimp only
    by_cases hf : fmt = .fixed
    · rw [if_neg (by tauto), if_pos hf]; exact ⟨0, false, rfl, fun _ => by simp [expVal], by simp⟩
    · rw [if_neg hf]
      by_cases hl : isLetter fmt c = true
      · rw [if_pos ⟨hf, (letter_ok fmt hB.head).2 hl⟩, if_pos hl]
        -- the sign
        obtain ⟨sg, u, hsg, hmodel, hu⟩ := sign_ok t
        have hu := hu hB.tail
        rw [hsg, hmodel]
        dsimp only
        obtain ⟨e', b', he, r1, r2, r3, r4⟩ := expLoop_ok u (c :: t) 0 0 false hu (le_refl _) (by rw [hpm]; norm_num) (fun _ => rfl) (by simp)
        simp only [zero_mul, zero_add] at r3 r4
        rw [hpm] at r2 r4
        rw [he, R.ok_bind]
        dsimp only
        by_cases hnil : u.takeWhile (isDigit 10) = []
        · rw [if_pos hnil, if_pos hnil]
          rw [hnil] at r3 r4
          rw [digits_nil, numOf_nil] at r3 r4
          have hb : b' = false := by
            cases b'
            · rfl
            · have := (r4 rfl).2; simp at this
          subst hb
          have h0 := r3 rfl
          refine ⟨_, false, rfl, fun _ => ?_, by simp⟩
          simp only [Nat.cast_zero] at h0
          subst h0
          simp [expVal]
        · rw [if_neg hnil, if_neg hnil]
          refine ⟨_, b', rfl, fun h => ?_, fun h => ?_⟩
          · have h3 := r3 h
            show (if decide (sg = some 45) = true then -e' else e') = (Exp.value ⟨c, sg, u.takeWhile (isDigit 10)⟩) ∧ _
            unfold Exp.value
            by_cases h45 : sg = some 45
            · simp only [h45, decide_true, if_true]
              exact ⟨by rw [h3], by omega, by omega⟩
            · simp only [h45, decide_false, Bool.false_eq_true, if_false]
              exact ⟨h3, by omega, by omega⟩
          · obtain ⟨h3, h4⟩ := r4 h
            show (0 < (if decide (sg = some 45) = true then -e' else e') ∧ 2 ^ 62 ≤ (Exp.value ⟨c, sg, u.takeWhile (isDigit 10)⟩)) ∨
              ((if decide (sg = some 45) = true then -e' else e') < 0 ∧ (Exp.value ⟨c, sg, u.takeWhile (isDigit 10)⟩) ≤ -(2 ^ 62))
            unfold Exp.value
            by_cases h45 : sg = some 45
            · simp only [h45, decide_true, if_true]
              right; omega
            · simp only [h45, decide_false, Bool.false_eq_true, if_false]
              left; omega
      · rw [if_neg (by rw [letter_ok fmt hB.head]; tauto), if_neg hl]; exact ⟨0, false, rfl, fun _ => by simp [expVal], by simp⟩

end STL.FloatConv
