import Verif.FloatConv.Scan

/-! # `_Ordinary_floating_from_chars` -/

namespace STL.FloatConv
open STL Spec STL.Charconv STL.BigInt
open STL.Charconv.Spec (isDigit digitVal)

def gdot (r : List Nat) : Bool × List Nat := match r with
  | [] => (false, [])
  | c :: t => if c = 46 then (true, t) else (false, c :: t)

/-- The literal found by taking as much as possible at each step, and what follows. -/
def glit (fmt : Format) (neg : Bool) (r : List Nat) : Lit × List Nat :=
  let d := gdot (r.dropWhile (isDigit (base fmt)))
  let x := gexp fmt (d.2.dropWhile (isDigit (base fmt)))
  (⟨neg, r.takeWhile (isDigit (base fmt)), d.1, d.2.takeWhile (isDigit (base fmt)), x.1⟩, x.2)

theorem gexp_split (fmt : Format) (r : List Nat) : r = (match (gexp fmt r).1 with | none => [] | some x => x.render) ++ (gexp fmt r).2 := by
  unfold gexp
  by_cases hf : fmt = .fixed
  · rw [if_pos hf]; rfl
  · rw [if_neg hf]
    cases r with
    | nil => rfl
    | cons c t =>
      dsimp only
      by_cases hl : isLetter fmt c = true
      · rw [if_pos hl]
        by_cases hn : (gsign t).2.takeWhile (isDigit 10) = []
        · rw [if_pos hn]; rfl
        · rw [if_neg hn]
          have hs : t = (gsign t).1.toList ++ (gsign t).2 := by
            unfold gsign
            cases t with
            | nil => rfl
            | cons s u => dsimp only; split <;> rfl
          show c :: t = (c :: ((gsign t).1.toList ++ (gsign t).2.takeWhile (isDigit 10))) ++ _
          rw [List.cons_append, List.append_assoc, List.takeWhile_append_dropWhile, ← hs]
      · rw [if_neg hl]; rfl

theorem gexp_none_iff (fmt : Format) (r : List Nat) : (gexp fmt r).1 = none ↔ r.length = (gexp fmt r).2.length := by
  have h := gexp_split fmt r
  cases hx : (gexp fmt r).1 with
  | none => rw [hx] at h; simp only [List.nil_append] at h; rw [← h]; simp
  | some x =>
    rw [hx] at h
    have := congrArg List.length h
    rw [List.length_append] at this
    simp only [Exp.render, List.length_cons] at this
    simp only [reduceCtorEq, false_iff]
    omega

theorem gdot_split (r : List Nat) : r = (if (gdot r).1 then [46] else []) ++ (gdot r).2 := by
  unfold gdot
  cases r with
  | nil => rfl
  | cons c t => dsimp only; by_cases h : c = 46 <;> simp [h]

theorem glit_split (fmt : Format) (neg : Bool) (r : List Nat) : r = (glit fmt neg r).1.body ++ (glit fmt neg r).2 := by
  unfold glit Lit.body
  dsimp only
  obtain ⟨p, hp⟩ : ∃ p, p = isDigit (base fmt) := ⟨_, rfl⟩
  rw [← hp]
  conv_lhs => rw [← List.takeWhile_append_dropWhile (p := p) (l := r)]
  rw [List.append_assoc]
  congr 1
  rw [List.append_assoc]
  conv_lhs => rw [gdot_split (r.dropWhile p)]
  congr 1
  rw [List.append_assoc]
  conv_lhs => rw [← List.takeWhile_append_dropWhile (p := p) (l := (gdot (r.dropWhile p)).2)]
  congr 1
  exact gexp_split ..

theorem tw_length (p : Nat → Bool) (l : List Nat) : (l.takeWhile p).length + (l.dropWhile p).length = l.length := by
  rw [← List.length_append, List.takeWhile_append_dropWhile]

/-- The digits without leading zeroes, as the two scans collect them. -/
theorem mantissa_ok {bs : Nat} (hb : 2 ≤ bs) (hb36 : bs ≤ 36) {r : List Nat} (hB : Bytes r) :
    ∃ Z : List Nat, ∃ b1 z1, scan bs (skipZeros r) [] true = .ok (r.dropWhile (isDigit bs), b1, z1) ∧
      (((skipZeros r).length : Int) - (r.dropWhile (isDigit bs)).length ≠ 0 →
        ((skipZeros r).length : Int) - (r.dropWhile (isDigit bs)).length = Z.length - ((gdot (r.dropWhile (isDigit bs))).2.takeWhile (isDigit bs)).length ∧
        scan bs (gdot (r.dropWhile (isDigit bs))).2 b1 z1 = .ok ((gdot (r.dropWhile (isDigit bs))).2.dropWhile (isDigit bs), Z.take 768, (Z.drop 768).all fun d => decide (d = 0))) ∧
      (((skipZeros r).length : Int) - (r.dropWhile (isDigit bs)).length = 0 →
        ((skipZeros (gdot (r.dropWhile (isDigit bs))).2).length : Int) - (gdot (r.dropWhile (isDigit bs))).2.length = Z.length - ((gdot (r.dropWhile (isDigit bs))).2.takeWhile (isDigit bs)).length ∧
        scan bs (skipZeros (gdot (r.dropWhile (isDigit bs))).2) b1 z1 = .ok ((gdot (r.dropWhile (isDigit bs))).2.dropWhile (isDigit bs), Z.take 768, (Z.drop 768).all fun d => decide (d = 0))) ∧
      numOf bs Z = numOf bs (digits (r.takeWhile (isDigit bs) ++ (gdot (r.dropWhile (isDigit bs))).2.takeWhile (isDigit bs))) ∧ (∀ d ∈ Z, d < bs) ∧ (∀ d t, Z = d :: t → d ≠ 0) ∧
      Z.length ≤ r.length := by
  have hBz : Bytes (skipZeros r) := by rw [skipZeros_eq]; exact hB.dropWhile _
  obtain ⟨k, hk1, hk2, hk3, hk4⟩ := skip_spec (base := bs) hb r
  obtain ⟨r1, hr1⟩ : ∃ r1, r1 = r.dropWhile (isDigit bs) := ⟨_, rfl⟩
  rw [← hr1] at hk3 ⊢
  have hB1 : Bytes r1 := by rw [hr1]; exact hB.dropWhile _
  obtain ⟨r2, hr2⟩ : ∃ r2, r2 = (gdot r1).2 := ⟨_, rfl⟩
  rw [← hr2]
  have hg := gdot_split r1
  rw [← hr2] at hg
  have hB2 : Bytes r2 := fun c hc => hB1 c (by rw [hg]; exact List.mem_append_right _ hc)
  obtain ⟨dw, hdw⟩ : ∃ dw, dw = digits ((skipZeros r).takeWhile (isDigit bs)) := ⟨_, rfl⟩
  rw [← hdw] at hk4
  have e1 := scan_ok hb36 (skipZeros r) [] true hBz (by simp)
  rw [← hdw, ← hk3] at e1
  simp only [List.nil_append, List.length_nil, Nat.sub_zero, Bool.true_and] at e1
  have hdwl : ((skipZeros r).length : Int) - r1.length = dw.length := by
    have := tw_length (isDigit bs) (skipZeros r)
    rw [← hk3] at this
    rw [hdw, digits_length]; omega
  rw [hdwl]
  have hdwd : ∀ d ∈ dw, d < bs := by rw [hdw]; exact digits_lt hb36 tw_all
  have hrl : r.length = k + (dw.length + r1.length) := by
    have h := congrArg List.length hk1
    rw [List.length_append, List.length_replicate] at h
    omega
  have hr12 : r2.length ≤ r1.length := by
    have h := congrArg List.length hg
    rw [List.length_append] at h
    omega
  -- the second scan, from any of the two starting points
  have hscan2 : ∀ n : List Nat, Bytes n → n.dropWhile (isDigit bs) = r2.dropWhile (isDigit bs) →
      scan bs n (dw.take 768) ((dw.drop 768).all fun d => decide (d = 0)) = .ok (r2.dropWhile (isDigit bs), (dw ++ digits (n.takeWhile (isDigit bs))).take 768,
        ((dw ++ digits (n.takeWhile (isDigit bs))).drop 768).all fun d => decide (d = 0)) := by
    intro n hn hnd
    rw [scan_ok hb36 n _ _ hn (by rw [List.length_take]; omega), hnd, List.length_take, List.take_append, List.drop_append, List.all_append]
    have : 768 - min 768 dw.length = 768 - dw.length := by omega
    rw [this]
  by_cases h0 : dw = []
  · -- all the digits are in the fraction
    obtain ⟨k', h1, h2, h3, h4⟩ := skip_spec (base := bs) hb r2
    refine ⟨digits ((skipZeros r2).takeWhile (isDigit bs)), _, _, e1, fun h => absurd h (by rw [h0]; simp), fun _ => ⟨?_, ?_⟩, ?_, digits_lt hb36 tw_all, h4, ?_⟩
    · have a1 := congrArg List.length h1
      have a2 := congrArg List.length h2
      rw [List.length_append, List.length_replicate] at a1 a2
      rw [digits_length]; omega
    · have := hscan2 (skipZeros r2) (by rw [skipZeros_eq]; exact hB2.dropWhile _) h3.symm
      rw [this, h0, List.nil_append]
    · rw [digits_append, hk2, digits_append, ← hdw, h0, List.append_nil, numOf_zeros, h2, digits_append, numOf_zeros]
    · have a2 := congrArg List.length h2
      rw [List.length_append, List.length_replicate] at a2
      have := tw_length (isDigit bs) r2
      rw [digits_length]; omega
  · refine ⟨dw ++ digits (r2.takeWhile (isDigit bs)), _, _, e1, fun _ => ⟨?_, hscan2 r2 hB2 rfl⟩, fun h => absurd (List.length_eq_zero_iff.1 (by exact_mod_cast h)) h0, ?_, ?_, ?_, ?_⟩
    · rw [List.length_append, digits_length]; push_cast; ring
    · rw [digits_append, hk2, digits_append, ← hdw, List.append_assoc, numOf_zeros]
    · intro d hd
      rcases List.mem_append.1 hd with h | h
      · exact hdwd d h
      · exact digits_lt hb36 tw_all d h
    · intro d t h
      cases hdl : dw with
      | nil => exact absurd hdl h0
      | cons d' t' => rw [hdl, List.cons_append, List.cons.injEq] at h; rw [← h.1]; exact hk4 d' t' hdl
    · have := tw_length (isDigit bs) r2
      rw [List.length_append, digits_length]; omega

/-- Trailing zeroes are removed. -/
theorem trim_ok (l : List Nat) : ∃ k, l = trimZeros l ++ List.replicate k 0 ∧ (trimZeros l ≠ [] → ∃ a x, trimZeros l = a ++ [x] ∧ x ≠ 0) := by
  unfold trimZeros
  obtain ⟨m, hm⟩ : ∃ m, m = l.reverse := ⟨_, rfl⟩
  rw [← hm, show l = m.reverse by rw [hm, List.reverse_reverse]]
  clear hm
  induction m with
  | nil => exact ⟨0, rfl, fun h => absurd rfl h⟩
  | cons x t ih =>
    rw [List.dropWhile_cons]
    by_cases hx : x = 0
    · rw [if_pos (by simpa using hx)]
      obtain ⟨k, h1, h2⟩ := ih
      refine ⟨k + 1, ?_, h2⟩
      rw [List.reverse_cons, h1, List.replicate_succ', List.append_assoc, hx]
    · rw [if_neg (by simpa using hx)]
      exact ⟨0, by simp, fun _ => ⟨t.reverse, x, by rw [List.reverse_cons], hx⟩⟩

theorem all_zero_num {bs : Nat} {l : List Nat} : l.all (fun d => decide (d = 0)) = true → numOf bs l = 0 := by
  induction l with
  | nil => intro _; rfl
  | cons d t ih =>
    intro h
    rw [List.all_cons, Bool.and_eq_true, decide_eq_true_eq] at h
    rw [numOf_cons, ih h.2, h.1]; simp

theorem not_all_zero_num {bs : Nat} (hb : 2 ≤ bs) {l : List Nat} : l.all (fun d => decide (d = 0)) = false → 0 < numOf bs l := by
  induction l with
  | nil => intro h; simp at h
  | cons d t ih =>
    intro h
    rw [List.all_cons, Bool.and_eq_false_iff, decide_eq_false_iff_not] at h
    rw [numOf_cons]
    rcases h with h | h
    · exact lt_of_lt_of_le (Nat.mul_pos (Nat.pos_of_ne_zero h) (by positivity)) (Nat.le_add_right _ _)
    · exact lt_of_lt_of_le (ih h) (Nat.le_add_left _ _)

/-- The buffer and the flag describe the digits. -/
theorem value_ok {bs : Nat} (hb : 2 ≤ bs) {Z : List Nat} (hd : ∀ d ∈ Z, d < bs) :
    Value bs (trimZeros (Z.take 768)) ((Z.drop 768).all fun d => decide (d = 0)) ((numOf bs Z : ℚ) / bs ^ Z.length) := by
  have hb0 : (bs : ℚ) ≠ 0 := by exact_mod_cast (show bs ≠ 0 by omega)
  obtain ⟨k, hk, _⟩ := trim_ok (Z.take 768)
  obtain ⟨t, ht⟩ : ∃ t, t = trimZeros (Z.take 768) := ⟨_, rfl⟩
  rw [← ht] at hk ⊢
  have h1 : (numOf bs (Z.take 768) : ℚ) / bs ^ (Z.take 768).length = numOf bs t / bs ^ t.length := by
    rw [hk, numOf_pad, List.length_append, List.length_replicate, pow_add]
    push_cast
    field_simp
  have h2 : (numOf bs Z : ℚ) / bs ^ Z.length = numOf bs t / bs ^ t.length + numOf bs (Z.drop 768) / bs ^ Z.length := by
    rw [← h1]
    have hZ : numOf bs Z = numOf bs (Z.take 768) * bs ^ (Z.drop 768).length + numOf bs (Z.drop 768) := by
      conv_lhs => rw [← List.take_append_drop 768 Z]
      rw [numOf_append]
    have hl : Z.length = (Z.take 768).length + (Z.drop 768).length := by rw [← List.length_append, List.take_append_drop]
    rw [hZ, hl, pow_add]
    push_cast
    field_simp
  refine ⟨fun h => ?_, fun h => ?_⟩
  · rw [h2, all_zero_num h]; simp
  · have hp := not_all_zero_num hb h
    have hlen : 768 < Z.length := by
      by_contra hc
      rw [List.drop_eq_nil_of_le (by omega)] at h
      simp at h
    have hlt := numOf_lt (base := bs) (ds := Z.drop 768) (fun d h => hd d (List.mem_of_mem_drop h))
    rw [List.length_drop] at hlt
    have hbp : (0 : ℚ) < bs := by exact_mod_cast (show 0 < bs by omega)
    rw [h2]
    constructor
    · have : (0 : ℚ) < numOf bs (Z.drop 768) / bs ^ Z.length := div_pos (by exact_mod_cast hp) (by positivity)
      linarith
    · have : (numOf bs (Z.drop 768) : ℚ) / bs ^ Z.length < 1 / bs ^ 768 := by
        rw [div_lt_div_iff₀ (by positivity) (by positivity), one_mul]
        have h5 : numOf bs (Z.drop 768) * bs ^ 768 < bs ^ Z.length := by
          rw [show Z.length = (Z.length - 768) + 768 by omega, pow_add]
          exact Nat.mul_lt_mul_of_pos_right hlt (by positivity)
        exact_mod_cast h5
      linarith

theorem dot_match (l : List Nat) : skipZeros.match_1 (fun _ => List Nat) l (fun c t => if c = 46 then t else c :: t) (fun _ => []) = (gdot l).2 := by
  unfold gdot
  cases l with
  | nil => rfl
  | cons c t => dsimp only; split <;> rfl

theorem base_ok (fmt : Format) : 2 ≤ base fmt ∧ base fmt ≤ 36 ∧ base fmt = dbase (decide (fmt = .hex)) ∧ expBase fmt = ebase (decide (fmt = .hex)) ∧
    ((base fmt : ℚ) = (expBase fmt : ℚ) ^ (emult (decide (fmt = .hex)))) := by
  unfold base expBase dbase ebase emult
  cases fmt <;> simp <;> norm_num

set_option maxHeartbeats 1600000 in
/-- What the code does for everything but infinities and NaNs. -/
theorem ordinary_ok {T : Traits} (G : Good T) (g : Nat → Nat) (len : Nat) (fmt : Format) (neg : Bool) {r : List Nat} (hB : Bytes r) (hl : r.length < 2 ^ 57) :
    (((glit fmt neg r).1.whole = [] ∧ (glit fmt neg r).1.frac = [] ∨ fmt = .scientific ∧ (glit fmt neg r).1.exp = none) → ordinary T g len fmt neg r = .ok ⟨0, .invalidArgument, none⟩) ∧
    (¬ ((glit fmt neg r).1.whole = [] ∧ (glit fmt neg r).1.frac = [] ∨ fmt = .scientific ∧ (glit fmt neg r).1.exp = none) →
      ∃ b, Rne T.mantissaBits (inf T.mantissaBits T.exponentBits) b ((glit fmt neg r).1.value fmt * scale T) ∧
        ordinary T g len fmt neg r = .ok ⟨len - (glit fmt neg r).2.length, if (glit fmt neg r).1.value fmt = 0 then .none else (outcome T neg b).2, some (withSign T neg b)⟩) := by
  obtain ⟨hb2, hb36, hbd, hbe, hbm⟩ := base_ok fmt
  obtain ⟨Z, b1, z1, e1, h1, h2, hnum, hZd, hZh, hZl⟩ := mantissa_ok hb2 hb36 hB
  have hLW : (glit fmt neg r).1.whole = r.takeWhile (isDigit (base fmt)) := rfl
  have hLF : (glit fmt neg r).1.frac = (gdot (r.dropWhile (isDigit (base fmt)))).2.takeWhile (isDigit (base fmt)) := rfl
  have hLX : (glit fmt neg r).1.exp = (gexp fmt ((gdot (r.dropWhile (isDigit (base fmt)))).2.dropWhile (isDigit (base fmt)))).1 := rfl
  have hR : (glit fmt neg r).2 = (gexp fmt ((gdot (r.dropWhile (isDigit (base fmt)))).2.dropWhile (isDigit (base fmt)))).2 := rfl
  have hval : (glit fmt neg r).1.value fmt = (numOf (base fmt) Z : ℚ) / (base fmt : ℚ) ^ ((gdot (r.dropWhile (isDigit (base fmt)))).2.takeWhile (isDigit (base fmt))).length *
      (expBase fmt : ℚ) ^ expVal (gexp fmt ((gdot (r.dropWhile (isDigit (base fmt)))).2.dropWhile (isDigit (base fmt)))).1 := by
    unfold Lit.value Lit.expValue
    rw [hLW, hLF, hLX, ← hnum]
    congr 2
  rw [hLW, hLF, hLX, hR, hval]
  -- the code
  unfold ordinary
  dsimp only
  have hbs : (if decide (fmt = .hex) = true then 16 else 10) = base fmt := by unfold base; simp
  rw [hbs, e1, R.ok_bind]
  dsimp only
  simp only [dot_match]
  obtain ⟨r1, hr1⟩ : ∃ r1, r1 = r.dropWhile (isDigit (base fmt)) := ⟨_, rfl⟩
  have hw := tw_length (isDigit (base fmt)) r
  rw [← hr1] at h1 h2 hnum hval hw ⊢
  obtain ⟨r2, hr2⟩ : ∃ r2, r2 = (gdot r1).2 := ⟨_, rfl⟩
  have hg := gdot_split r1
  rw [← hr2] at h1 h2 hnum hval hg ⊢
  have hB1 : Bytes r1 := by rw [hr1]; exact hB.dropWhile _
  have hB2 : Bytes r2 := fun c hc => hB1 c (by rw [hg]; exact List.mem_append_right _ hc)
  have hf := tw_length (isDigit (base fmt)) r2
  have hr12 : r2.length ≤ r1.length := by
    have h := congrArg List.length hg
    rw [List.length_append] at h
    omega
  obtain ⟨adj, hadj⟩ : ∃ adj : Int, adj = Z.length - (r2.takeWhile (isDigit (base fmt))).length := ⟨_, rfl⟩
  obtain ⟨n2, hn2, hs2⟩ : ∃ n2, (if ((skipZeros r).length : Int) - r1.length = 0 then (skipZeros r2, ((skipZeros r2).length : Int) - r2.length) else (r2, ((skipZeros r).length : Int) - r1.length)) =
      (n2, adj) ∧ scan (base fmt) n2 b1 z1 = .ok (r2.dropWhile (isDigit (base fmt)), Z.take 768, (Z.drop 768).all fun d => decide (d = 0)) := by
    by_cases h0 : ((skipZeros r).length : Int) - r1.length = 0
    · exact ⟨skipZeros r2, by rw [if_pos h0, (h2 h0).1, hadj], (h2 h0).2⟩
    · exact ⟨r2, by rw [if_neg h0, (h1 h0).1, hadj], (h1 h0).2⟩
  rw [hn2]
  dsimp only
  rw [hs2, R.ok_bind]
  dsimp only
  obtain ⟨r3, hr3⟩ : ∃ r3, r3 = r2.dropWhile (isDigit (base fmt)) := ⟨_, rfl⟩
  rw [← hr3] at hval hf ⊢
  have hB3 : Bytes r3 := by rw [hr3]; exact hB2.dropWhile _
  have hc1 : (r.length = r1.length ∧ r2.length = r3.length) ↔ (r.takeWhile (isDigit (base fmt)) = [] ∧ r2.takeWhile (isDigit (base fmt)) = []) := by
    rw [← List.length_eq_zero_iff, ← List.length_eq_zero_iff]; omega
  by_cases hno : r.takeWhile (isDigit (base fmt)) = [] ∧ r2.takeWhile (isDigit (base fmt)) = []
  · rw [if_pos (hc1.2 hno)]
    exact ⟨fun _ => rfl, fun h => absurd (.inl hno) h⟩
  · rw [if_neg (fun h => hno (hc1.1 h))]
    obtain ⟨e, big, e3, hE1, hE2⟩ := expPart_ok fmt hB3
    rw [e3, R.ok_bind]
    dsimp only
    by_cases hsci : fmt = .scientific ∧ (gexp fmt r3).1 = none
    · rw [if_pos ⟨hsci.1, (gexp_none_iff fmt r3).1 hsci.2⟩]
      exact ⟨fun _ => rfl, fun h => absurd (.inr hsci) h⟩
    · rw [if_neg (fun h => hsci ⟨h.1, (gexp_none_iff fmt r3).2 h.2⟩)]
      refine ⟨fun h => absurd h (by tauto), fun _ => ?_⟩
      obtain ⟨k, hk, hlast⟩ := trim_ok (Z.take 768)
      have hbq : (0 : ℚ) < base fmt := by exact_mod_cast (show 0 < base fmt by omega)
      have hpe : (0 : ℚ) < (expBase fmt : ℚ) ^ expVal (gexp fmt r3).1 := by
        have : (0 : ℚ) < expBase fmt := by unfold expBase; split <;> norm_num
        positivity
      cases hZ : Z with
      | nil =>
        have ht : trimZeros (([] : List Nat).take 768) = [] := rfl
        rw [ht, if_pos rfl, numOf_nil]
        have hz : ((0 : Nat) : ℚ) / (base fmt : ℚ) ^ (r2.takeWhile (isDigit (base fmt))).length * (expBase fmt : ℚ) ^ expVal (gexp fmt r3).1 = 0 := by simp
        rw [hz]
        refine ⟨0, rne_zero G.p2 (two_pow_w G.w2 G.w11).1 (by simp), ?_⟩
        rw [if_pos rfl, asmZero_ok G]
      | cons d0 t0 =>
        have hd0 := hZh d0 t0 hZ
        rw [← hZ]
        have hne : trimZeros (Z.take 768) ≠ [] := by
          intro h
          rw [h, List.nil_append, hZ, List.take_succ_cons] at hk
          cases k with
          | zero => simp at hk
          | succ k => rw [List.replicate_succ, List.cons.injEq] at hk; exact hd0 hk.1
        rw [if_neg hne]
        have hhead : ∃ x t, trimZeros (Z.take 768) = x :: t ∧ x ≠ 0 := by
          cases htz : trimZeros (Z.take 768) with
          | nil => exact absurd htz hne
          | cons x t =>
            rw [htz, hZ, List.take_succ_cons, List.cons_append, List.cons.injEq] at hk
            exact ⟨x, t, rfl, by rw [← hk.1]; exact hd0⟩
        have hlen : (trimZeros (Z.take 768)).length ≤ 768 := by
          have := congrArg List.length hk
          rw [List.length_append, List.length_take] at this
          omega
        have hdig : ∀ d ∈ trimZeros (Z.take 768), d < dbase (decide (fmt = .hex)) := by
          intro d hd
          rw [← hbd]
          exact hZd d (List.mem_of_mem_take (by rw [hk]; exact List.mem_append_left _ hd))
        have hV := value_ok (bs := base fmt) hb2 hZd
        obtain ⟨b, ef, hRne⟩ := finish_ok G g (decide (fmt = .hex)) neg ((Z.drop 768).all fun d => decide (d = 0)) (adj := adj) hdig hlen hhead (hlast hne) (hbd ▸ hV) hE1 hE2 (by omega)
        have hx : (numOf (base fmt) Z : ℚ) / (base fmt : ℚ) ^ Z.length * (ebase (decide (fmt = .hex)) : ℚ) ^ (expVal (gexp fmt r3).1 + emult (decide (fmt = .hex)) * adj) =
            (numOf (base fmt) Z : ℚ) / (base fmt : ℚ) ^ (r2.takeWhile (isDigit (base fmt))).length * (expBase fmt : ℚ) ^ expVal (gexp fmt r3).1 := by
          have hb0 : (expBase fmt : ℚ) ≠ 0 := by unfold expBase; split <;> norm_num
          rw [← hbe, zpow_add₀ hb0, zpow_mul, ← hbm, hadj, zpow_sub₀ (ne_of_gt hbq), zpow_natCast, zpow_natCast]
          have : (base fmt : ℚ) ^ Z.length ≠ 0 := by positivity
          field_simp
        rw [← hbd, hx] at hRne
        refine ⟨b, hRne, ?_⟩
        rw [ef, R.ok_bind, if_neg]
        · rfl
        · have : 0 < numOf (base fmt) Z := by
            rw [hZ]
            exact lt_of_lt_of_le (by positivity) (numOf_ge (base := base fmt) hd0)
          have h5 : (0 : ℚ) < numOf (base fmt) Z := by exact_mod_cast this
          positivity

end STL.FloatConv
