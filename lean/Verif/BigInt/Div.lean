import Verif.BigInt.Mul
import Verif.Int128.KnuthLoop

/-! # Big integers: division -/

namespace STL.BigInt
open STL Digits

/-! ## One-word divisor -/

theorem small_arith {W d P r : Nat} (hd : 0 < d) : (W * P + r) / d = W / d * P + (W % d * P + r) / d ∧ (W * P + r) % d = (W % d * P + r) % d := by
  have h : W * P + r = W % d * P + r + d * (W / d * P) := by
    have := Nat.div_add_mod W d
    nth_rw 1 [← this]
    ring
  rw [h, Nat.add_mul_mod_self_left, Nat.add_mul_div_left _ _ hd, Nat.add_comm]
  exact ⟨rfl, rfl⟩

theorem q_arith {q dg P e : Nat} : ((q * 2 ^ 32 % 2 ^ 64 + dg) % 2 ^ 64 * P + e) % 2 ^ 64 = (q * (P * 2 ^ 32) + (dg * P + e)) % 2 ^ 64 := by
  have h1 : (q * 2 ^ 32 % 2 ^ 64 + dg) % 2 ^ 64 = (q * 2 ^ 32 + dg) % 2 ^ 64 := by omega
  rw [h1, Nat.add_mod, Nat.mod_mul_mod, ← Nat.add_mod]
  congr 1
  ring

theorem divSmallLoop_ok {x : Big} (hx : WF x) {d : Nat} (hd0 : d ≠ 0) (hd : d < 2 ^ 32) : ∀ (i q uu : Nat), i ≤ x.used → uu < d → q < 2 ^ 64 →
    divSmallLoop x d i q uu = .ok ((q * (2 ^ 32) ^ i + (uu * (2 ^ 32) ^ i + val (2 ^ 32) x.f 0 i) / d) % 2 ^ 64, (uu * (2 ^ 32) ^ i + val (2 ^ 32) x.f 0 i) % d) := by
  intro i
  induction i with
  | zero =>
    intro q uu _ hu hq
    simp only [divSmallLoop, pow_zero, Nat.mul_one, val, Nat.add_zero, Nat.div_eq_of_lt hu, Nat.mod_eq_of_lt hu, Nat.mod_eq_of_lt hq]
  | succ i ih =>
    intro q uu hi hu hq
    unfold divSmallLoop
    have hxi := hx.2 i (by omega)
    rw [ldB (by omega), R.ok_bind]
    dsimp only
    rw [if_neg hd0, two_words (by omega) hxi]
    have hW : (uu * 2 ^ 32 + x.f i) / d < 2 ^ 32 := by
      rw [Nat.div_lt_iff_lt_mul (by omega)]
      have : (uu + 1) * 2 ^ 32 ≤ d * 2 ^ 32 := Nat.mul_le_mul_right _ hu
      omega
    rw [Nat.mod_eq_of_lt hW, ih _ _ (by omega) (Nat.mod_lt _ (by omega)) (Nat.mod_lt _ (by norm_num)), Nat.shiftLeft_eq, val_succ, Nat.zero_add, show (2 ^ 32 : Nat) ^ (i + 1) = (2 ^ 32) ^ i * 2 ^ 32 from pow_succ _ _]
    have hre : uu * ((2 ^ 32) ^ i * 2 ^ 32) + (val (2 ^ 32) x.f 0 i + x.f i * (2 ^ 32) ^ i) = (uu * 2 ^ 32 + x.f i) * (2 ^ 32) ^ i + val (2 ^ 32) x.f 0 i := by ring
    obtain ⟨e1, e2⟩ := small_arith (W := uu * 2 ^ 32 + x.f i) (d := d) (P := (2 ^ 32) ^ i) (r := val (2 ^ 32) x.f 0 i) (by omega)
    rw [hre, e1, e2, q_arith]

theorem value_one {z : Big} (hz : z.used = 1) : z.value = z.f 0 := by unfold Big.value; rw [hz]; simp [val]

theorem divSmall_ok {x : Big} (hx : Ok x) (h0 : x.used ≠ 0) {d : Nat} (hd0 : d ≠ 0) (hd : d < 2 ^ 32) :
    ∃ r, divSmall x d = .ok (r, x.value / d % 2 ^ 64) ∧ Ok r ∧ r.value = x.value % d := by
  have hx0 := hx.1.2 0 (by omega)
  have hcap := hx.1.1
  have c115 := cap_eq
  have word : ∀ (f : Nat → Nat) (w : Nat), w < 2 ^ 32 → f 0 = w → Ok ⟨if w > 0 then 1 else 0, f⟩ ∧ (Big.mk (if w > 0 then 1 else 0) f).value = w := by
    intro f w hw hf
    by_cases hw0 : w > 0
    · rw [if_pos hw0]
      refine ⟨⟨⟨by show 1 ≤ cap; omega, fun i hi => ?_⟩, fun _ => ?_⟩, ?_⟩
      · have : i < 1 := hi
        show f i < _
        rw [show i = 0 by omega, hf]; exact hw
      · show f (1 - 1) ≠ 0; rw [Nat.sub_self, hf]; omega
      · rw [value_one rfl]; exact hf
    · rw [if_neg hw0]
      exact ⟨Ok.zero _, by rw [value_zero]; omega⟩
  unfold divSmall
  by_cases h1 : x.used = 1
  · rw [if_pos h1, ldB (by omega), R.ok_bind, value_one h1]
    by_cases hd1 : d = 1
    · rw [if_pos hd1]
      refine ⟨_, by rw [hd1, Nat.div_one, Nat.mod_eq_of_lt (by omega)], Ok.zero _, ?_⟩
      rw [hd1, Nat.mod_one]; rfl
    · rw [if_neg hd1, if_neg hd0, stB (by omega), R.ok_bind, ldB (by show 0 < x.used; omega), R.ok_bind]
      have hm : x.f 0 % d < 2 ^ 32 := lt_trans (Nat.mod_lt _ (by omega)) hd
      have hdv : x.f 0 / d < 2 ^ 64 := lt_of_le_of_lt (Nat.div_le_self _ _) (by omega)
      rw [Nat.mod_eq_of_lt hdv]
      obtain ⟨a, b⟩ := word (fun k => if k = 0 then x.f 0 % d else x.f k) (x.f 0 % d) hm (if_pos rfl)
      exact ⟨_, rfl, a, b⟩
  rw [if_neg h1]
  by_cases hd1 : d = 1
  · rw [if_pos hd1, ldB (by omega), R.ok_bind, ldB (by omega), R.ok_bind]
    have hx1 := hx.1.2 1 (by omega)
    rw [two_words hx1 hx0]
    refine ⟨⟨0, x.f⟩, ?_, Ok.zero _, by rw [hd1, Nat.mod_one]; rfl⟩
    dsimp only
    congr 2
    rw [hd1, Nat.div_one]
    obtain ⟨m, hm⟩ : ∃ m, x.used = 2 + m := ⟨x.used - 2, by omega⟩
    unfold Big.value
    rw [hm, val_add]
    have e2 : (2 ^ 32 : Nat) ^ 2 = 2 ^ 64 := by norm_num
    rw [e2, Nat.add_mul_mod_self_left]
    simp only [val, Nat.zero_add, pow_zero, pow_one, Nat.mul_one]
    omega
  · rw [if_neg hd1, divSmallLoop_ok hx.1 hd0 hd x.used 0 0 (le_refl _) (by omega) (by norm_num), R.ok_bind]
    simp only [Nat.zero_mul, Nat.zero_add]
    rw [val_eq_value rfl]
    have hm : x.value % d < 2 ^ 32 := lt_trans (Nat.mod_lt _ (by omega)) hd
    have hh : (x.value % d) >>> 32 % 2 ^ 32 = 0 := by rw [Nat.shiftRight_eq_div_pow, Nat.div_eq_of_lt hm, Nat.zero_mod]
    rw [hh, Nat.mod_eq_of_lt hm, stB (by omega), R.ok_bind, stB (by omega), R.ok_bind, ldB (by show 1 < x.used; omega), R.ok_bind, ldB (by show 0 < x.used; omega), R.ok_bind]
    obtain ⟨a, b⟩ := word (fun k => if k = 0 then x.value % d else if k = 1 then 0 else x.f k) (x.value % d) hm (if_pos rfl)
    refine ⟨_, rfl, ?_⟩
    have e : (if (if (1 : Nat) = 0 then x.value % d else if 1 = 1 then 0 else x.f 1) > 0 then 2 else if (if (0 : Nat) = 0 then x.value % d else if 0 = 1 then 0 else x.f 0) > 0 then 1 else 0) =
        if x.value % d > 0 then 1 else 0 := by simp
    dsimp only
    rw [e]
    exact ⟨a, b⟩

/-! ## The trial quotient -/

theorem quoLoop_ok {v1 v2 vl P T u2 ul q : Nat} (hv1 : 2 ^ 32 ≤ 2 * v1) (hv1' : v1 < 2 ^ 32) (hv2 : v2 < 2 ^ 32) (hvl : vl < P) (hu2 : u2 < 2 ^ 32) (hul : ul < P)
    (hu : (T * 2 ^ 32 + u2) * P + ul < 2 ^ 32 * ((v1 * 2 ^ 32 + v2) * P + vl)) (hq : q = ((T * 2 ^ 32 + u2) * P + ul) / ((v1 * 2 ^ 32 + v2) * P + vl)) :
    ∀ (fuel qh rh : Nat), qh * v1 + rh = T → q ≤ qh → rh < 2 ^ 64 → qh < 2 ^ 32 → (fuel ≥ 3 ∨ (fuel ≥ 2 ∧ v1 ≤ rh) ∨ (fuel ≥ 1 ∧ 2 * v1 ≤ rh)) →
      ∃ r s, quoLoop v1 v2 u2 fuel qh rh = .ok (r, s) ∧ r < 2 ^ 32 ∧ q ≤ r ∧ r ≤ q + 1 := by
  have hPp : 0 < P := by omega
  have hvpos : 0 < (v1 * 2 ^ 32 + v2) * P + vl := by
    have : 0 < (v1 * 2 ^ 32 + v2) * P := Nat.mul_pos (by omega) hPp
    omega
  have fin : ∀ r, r * ((v1 * 2 ^ 32 + v2) * P + vl) < (T * 2 ^ 32 + u2) * P + ul + ((v1 * 2 ^ 32 + v2) * P + vl) → r ≤ q + 1 := by
    intro r hr
    by_contra hc
    have h1 : (q + 2) * ((v1 * 2 ^ 32 + v2) * P + vl) ≤ r * ((v1 * 2 ^ 32 + v2) * P + vl) := Nat.mul_le_mul_right _ (by omega)
    have h2 := Nat.lt_div_mul_add (a := (T * 2 ^ 32 + u2) * P + ul) hvpos
    rw [← hq] at h2
    have h3 : (q + 2) * ((v1 * 2 ^ 32 + v2) * P + vl) = q * ((v1 * 2 ^ 32 + v2) * P + vl) + 2 * ((v1 * 2 ^ 32 + v2) * P + vl) := by ring
    omega
  intro fuel
  induction fuel with
  | zero => intro qh rh h1 h2 h3 h4 h5; omega
  | succ fuel ih =>
    intro qh rh h1 h2 h3 h4 h5
    unfold quoLoop
    by_cases hr : 2 ^ 32 ≤ rh
    · rw [if_neg (fun h => absurd h.1 (by omega))]
      obtain ⟨h6, h7⟩ := trial_break (b := 2 ^ 32) (by norm_num) hv1 hv2 hvl hu h1 hr
      exact ⟨_, _, rfl, h6, h2, fin _ h7⟩
    have h7 : qh * v2 < 2 ^ 64 := by
      have : qh * v2 ≤ 2 ^ 32 * v2 := Nat.mul_le_mul_right _ (by omega)
      omega
    rw [two_words (by omega) hu2, Nat.mod_eq_of_lt h7]
    by_cases hc : qh * v2 > rh * 2 ^ 32 + u2
    · rw [if_pos ⟨by omega, hc⟩]
      have hqd : q + 1 ≤ qh := by
        have := trial_dec (P := P) (vl := vl) (v1 := v1) (b := 2 ^ 32) hul h1 hc
        have h6 := Nat.div_mul_le_self ((T * 2 ^ 32 + u2) * P + ul) ((v1 * 2 ^ 32 + v2) * P + vl)
        rw [← hq] at h6
        by_contra hcc
        have h7 : qh * ((v1 * 2 ^ 32 + v2) * P + vl) ≤ q * ((v1 * 2 ^ 32 + v2) * P + vl) := Nat.mul_le_mul_right _ (by omega)
        omega
      have e1 : (qh + 2 ^ 64 - 1) % 2 ^ 64 = qh - 1 := by omega
      have e2 : (rh + v1) % 2 ^ 64 = rh + v1 := by omega
      have e3 : (qh - 1) * v1 + (rh + v1) = T := by
        obtain ⟨c, rfl⟩ : ∃ c, qh = c + 1 := ⟨qh - 1, by omega⟩
        rw [Nat.add_sub_cancel, ← h1, Nat.add_mul]; omega
      rw [e1, e2]
      exact ih _ _ e3 (by omega) (by omega) (by omega) (by omega)
    · rw [if_neg (fun h => hc h.2)]
      exact ⟨qh, rh, rfl, h4, h2, fin _ (trial_exit (by norm_num) hv1 (by norm_num) hvl h1 h4 (by omega))⟩

/-! ## Normalization -/

/-- `(a << sh) | (w >> (32 - sh))` in 64 bits. -/
theorem norm_hi {a w sh : Nat} (h0 : 0 < sh) (h : sh < 32) (hw : w < 2 ^ 32) {M : Nat} (ha : a * 2 ^ sh < M) : ((a <<< sh) % M ||| (w >>> (32 - sh))) = a * 2 ^ sh + w / 2 ^ (32 - sh) := by
  rw [Nat.shiftLeft_eq, Nat.mod_eq_of_lt ha, Nat.shiftRight_eq_div_pow, ← Nat.shiftLeft_eq, shl_or, Nat.shiftLeft_eq]
  rw [Nat.div_lt_iff_lt_mul (Nat.two_pow_pos _), ← pow_add, show sh + (32 - sh) = 32 by omega]; exact hw

/-- `(w << sh) | (z >> (32 - sh))` in 32 bits. -/
theorem norm_lo {w z sh : Nat} (h0 : 0 < sh) (h : sh < 32) (hz : z < 2 ^ 32) : ((w <<< sh) % 2 ^ 32 ||| (z >>> (32 - sh))) = w * 2 ^ sh % 2 ^ 32 + z / 2 ^ (32 - sh) := by
  have e : w * 2 ^ sh % 2 ^ 32 = (w % 2 ^ (32 - sh)) * 2 ^ sh := by
    have hp : (2 : Nat) ^ 32 = 2 ^ (32 - sh) * 2 ^ sh := by rw [← pow_add]; congr 1; omega
    rw [hp, Nat.mul_mod_mul_right]
  have hz' : z / 2 ^ (32 - sh) < 2 ^ sh := by
    rw [Nat.div_lt_iff_lt_mul (Nat.two_pow_pos _), ← pow_add, show sh + (32 - sh) = 32 by omega]; exact hz
  rw [Nat.shiftLeft_eq, e, Nat.shiftRight_eq_div_pow, ← Nat.shiftLeft_eq, shl_or hz', Nat.shiftLeft_eq]

theorem lo_lt {w z sh : Nat} (h : sh < 32) (hz : z < 2 ^ 32) : w * 2 ^ sh % 2 ^ 32 + z / 2 ^ (32 - sh) < 2 ^ 32 := by
  have hp : (2 : Nat) ^ 32 = 2 ^ (32 - sh) * 2 ^ sh := by rw [← pow_add]; congr 1; omega
  have e : w * 2 ^ sh % 2 ^ 32 = (w % 2 ^ (32 - sh)) * 2 ^ sh := by rw [hp, Nat.mul_mod_mul_right]
  have hz' : z / 2 ^ (32 - sh) < 2 ^ sh := by
    rw [Nat.div_lt_iff_lt_mul (Nat.two_pow_pos _), ← pow_add, show sh + (32 - sh) = 32 by omega]; exact hz
  have h1 : (w % 2 ^ (32 - sh) + 1) * 2 ^ sh ≤ 2 ^ (32 - sh) * 2 ^ sh := Nat.mul_le_mul_right _ (Nat.mod_lt _ (Nat.two_pow_pos _))
  rw [← hp, Nat.add_mul] at h1
  omega

theorem norm_arith1 {a w2 b S t l : Nat} (e2 : w2 * S = t * b + l) : (a * b + w2) * S = (a * S + t) * b + l := by
  rw [Nat.add_mul, e2]; ring

theorem norm_arith2 {a w2 w3 b S t l u v P r : Nat} (e2 : w2 * S = t * b + l) (e3 : w3 * S = u * b + v * S) :
    ((a * b + w2) * (P * b) + (w3 * P + r)) * S = ((a * S + t) * b + (l + u)) * (P * b) + (v * S * P + r * S) := by
  calc ((a * b + w2) * (P * b) + (w3 * P + r)) * S = (a * S * b + w2 * S) * (P * b) + w3 * S * P + r * S := by ring
    _ = _ := by rw [e2, e3]; ring

/-- The three (or two) top words shifted are the quotient of the shifted number by the weight of the second word. -/
theorem norm_val {a w2 w3 sh Q rest P3 : Nat} (h : sh < 32) (hw : w2 < 2 ^ 32) (hQ : (Q = 1 ∧ rest = 0 ∧ w3 = 0) ∨ (Q = P3 * 2 ^ 32 ∧ ∃ r3, rest = w3 * P3 + r3 ∧ r3 < P3)) :
    ∃ ul, ul < Q ∧ ((a * 2 ^ 32 + w2) * Q + rest) * 2 ^ sh = ((a * 2 ^ sh + w2 / 2 ^ (32 - sh)) * 2 ^ 32 + (w2 * 2 ^ sh % 2 ^ 32 + w3 / 2 ^ (32 - sh))) * Q + ul := by
  have hp : (2 : Nat) ^ 32 = 2 ^ (32 - sh) * 2 ^ sh := by rw [← pow_add]; congr 1; omega
  have e2 : w2 * 2 ^ sh = w2 / 2 ^ (32 - sh) * 2 ^ 32 + w2 * 2 ^ sh % 2 ^ 32 := by
    have := Nat.div_add_mod (w2 * 2 ^ sh) (2 ^ 32)
    rw [show w2 * 2 ^ sh / 2 ^ 32 = w2 / 2 ^ (32 - sh) by rw [hp, Nat.mul_div_mul_right _ _ (Nat.two_pow_pos _)]] at this
    omega
  rcases hQ with ⟨rfl, rfl, rfl⟩ | ⟨rfl, r3, rfl, hr3⟩
  · refine ⟨0, by norm_num, ?_⟩
    rw [Nat.zero_div, Nat.mul_one, Nat.add_zero, Nat.add_zero, Nat.add_zero, Nat.mul_one]
    exact norm_arith1 e2
  · have hd := Nat.div_add_mod w3 (2 ^ (32 - sh))
    refine ⟨(w3 % 2 ^ (32 - sh)) * 2 ^ sh * P3 + r3 * 2 ^ sh, ?_, ?_⟩
    · have hm : w3 % 2 ^ (32 - sh) + 1 ≤ 2 ^ (32 - sh) := Nat.mod_lt _ (Nat.two_pow_pos _)
      have h1 : (w3 % 2 ^ (32 - sh) + 1) * (2 ^ sh * P3) ≤ 2 ^ (32 - sh) * (2 ^ sh * P3) := Nat.mul_le_mul_right _ hm
      have h2 : r3 * 2 ^ sh < P3 * 2 ^ sh := Nat.mul_lt_mul_of_pos_right hr3 (Nat.two_pow_pos _)
      have h3 : 2 ^ (32 - sh) * (2 ^ sh * P3) = P3 * 2 ^ 32 := by rw [hp]; ring
      have h4 : (w3 % 2 ^ (32 - sh) + 1) * (2 ^ sh * P3) = w3 % 2 ^ (32 - sh) * 2 ^ sh * P3 + P3 * 2 ^ sh := by ring
      omega
    · have e3 : w3 * 2 ^ sh = w3 / 2 ^ (32 - sh) * 2 ^ 32 + w3 % 2 ^ (32 - sh) * 2 ^ sh := by
        rw [hp]
        nth_rw 1 [← hd]
        ring
      exact norm_arith2 e2 e3

end STL.BigInt
