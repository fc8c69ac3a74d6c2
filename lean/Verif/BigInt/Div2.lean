import Verif.BigInt.Div

/-! # Big integers: multi-word division -/

namespace STL.BigInt
open STL Digits

theorem sub_word {quo di borrow a : Nat} (hq : quo < 2 ^ 32) (hd : di < 2 ^ 32) (hb : borrow < 2 ^ 32) (ha : a < 2 ^ 32) :
    ∃ t h l, (borrow + quo * di) % 2 ^ 64 = t ∧ t = borrow + quo * di ∧ t % 2 ^ 32 = l ∧ t >>> 32 = h ∧ l < 2 ^ 32 ∧
      ∃ b1, (if a < l then (h + 1) % 2 ^ 64 else h) = b1 ∧ b1 < 2 ^ 32 ∧ (a + 2 ^ 32 - l) % 2 ^ 32 + (borrow + quo * di) = a + 2 ^ 32 * b1 := by
  have hp : quo * di ≤ (2 ^ 32 - 1) * (2 ^ 32 - 1) := Nat.mul_le_mul (by omega) (by omega)
  generalize quo * di = p at *
  refine ⟨borrow + p, _, _, Nat.mod_eq_of_lt (by omega), rfl, rfl, rfl, Nat.mod_lt _ (by norm_num), ?_⟩
  rw [Nat.shiftRight_eq_div_pow]
  by_cases h : a < (borrow + p) % 2 ^ 32
  · rw [if_pos h]
    exact ⟨_, rfl, by omega, by omega⟩
  · rw [if_neg h]
    exact ⟨_, rfl, by omega, by omega⟩

theorem sub_arith {y yv quo di dv borrow a xv b bo b1 P : Nat} (h1 : y + (borrow + quo * di) = a + b * b1) (h2 : yv + quo * dv + b1 = xv + bo * P) :
    y + b * yv + quo * (di + b * dv) + borrow = a + b * xv + bo * (P * b) := by
  have h3 : b * (yv + quo * dv + b1) = b * (xv + bo * P) := by rw [h2]
  calc y + b * yv + quo * (di + b * dv) + borrow = (y + (borrow + quo * di)) + b * (yv + quo * dv) := by ring
    _ = a + b * (yv + quo * dv + b1) := by rw [h1]; ring
    _ = _ := by rw [h3]; ring

theorem subLoop_ok {quo : Nat} (hq : quo < 2 ^ 32) {d : Big} (hd : WF d) (iu : Nat) : ∀ (todo i : Nat) (x : Big) (borrow : Nat), i + todo = d.used → WF x → iu + d.used ≤ x.used → borrow < 2 ^ 32 →
    ∃ y b, subLoop quo d iu todo i x borrow = .ok (y, b) ∧ y.used = x.used ∧ WF y ∧ b < 2 ^ 32 ∧ (∀ k, k < iu + i ∨ iu + d.used ≤ k → y.f k = x.f k) ∧
      val (2 ^ 32) y.f (iu + i) todo + quo * val (2 ^ 32) d.f i todo + borrow = val (2 ^ 32) x.f (iu + i) todo + b * (2 ^ 32) ^ todo := by
  intro todo
  induction todo with
  | zero => intro i x borrow _ hx _ hb; exact ⟨x, borrow, rfl, rfl, hx, hb, fun _ _ => rfl, by simp [val]⟩
  | succ todo ih =>
    intro i x borrow hi hx hu hb
    unfold subLoop
    have hxi := hx.2 (iu + i) (by omega)
    have hdi := hd.2 i (by omega)
    rw [ldB (by omega), R.ok_bind]
    obtain ⟨t, h, l, e1, et, e2, e3, hl, b1, e4, hb1, heq⟩ := sub_word hq hdi hb hxi
    dsimp only
    rw [e1, e2, e3, ldB (by omega), R.ok_bind, e4, stB (by have := hx.1; omega), R.ok_bind]
    have hnew : (x.f (iu + i) + 2 ^ 32 - l) % 2 ^ 32 < 2 ^ 32 := Nat.mod_lt _ (by norm_num)
    obtain ⟨w, hw⟩ : ∃ w, w = (x.f (iu + i) + 2 ^ 32 - l) % 2 ^ 32 := ⟨_, rfl⟩
    rw [← hw] at hnew heq ⊢
    obtain ⟨y, b, e, hyu, hyw, hyb, hsame, hval⟩ := ih (i + 1) ⟨x.used, fun k => if k = iu + i then w else x.f k⟩ b1 (by omega)
      ⟨hx.1, fun k hk => by
        show (if k = iu + i then w else x.f k) < _
        by_cases he : k = iu + i
        · rw [if_pos he]; exact hnew
        · rw [if_neg he]; exact hx.2 k hk⟩ hu hb1
    refine ⟨y, b, e, hyu, hyw, hyb, fun k hk => ?_, ?_⟩
    · rw [hsame k (by omega)]; exact if_neg (by omega)
    · have hyi : y.f (iu + i) = w := by rw [hsame _ (by omega)]; exact if_pos rfl
      have h2 : val (2 ^ 32) (fun k => if k = iu + i then w else x.f k) (iu + (i + 1)) todo = val (2 ^ 32) x.f (iu + (i + 1)) todo := val_st _ _ _ _ _ _ (.inl (by omega))
      dsimp only at hval
      rw [h2] at hval
      rw [val_cons, val_cons, val_cons, hyi, show (2 ^ 32 : Nat) ^ (todo + 1) = (2 ^ 32) ^ todo * 2 ^ 32 from pow_succ _ _]
      exact sub_arith heq hval

theorem add_arith {y yv di dv ca a xv b bo b1 P : Nat} (h1 : b * b1 + y = a + di + ca) (h2 : yv + bo * P = xv + dv + b1) :
    y + b * yv + bo * (P * b) = a + b * xv + (di + b * dv) + ca := by
  have h3 : b * (yv + bo * P) = b * (xv + dv + b1) := by rw [h2]
  calc y + b * yv + bo * (P * b) = y + b * (yv + bo * P) := by ring
    _ = (b * b1 + y) + b * (xv + dv) := by rw [h3]; ring
    _ = _ := by rw [h1]; ring

theorem addBack_ok {d : Big} (hd : WF d) (iu : Nat) : ∀ (todo i : Nat) (x : Big) (ca : Nat), i + todo = d.used → WF x → iu + d.used ≤ x.used → ca < 2 ^ 32 →
    ∃ y c, addBack d iu todo i x ca = .ok y ∧ y.used = x.used ∧ WF y ∧ (∀ k, k < iu + i ∨ iu + d.used ≤ k → y.f k = x.f k) ∧
      val (2 ^ 32) y.f (iu + i) todo + c * (2 ^ 32) ^ todo = val (2 ^ 32) x.f (iu + i) todo + val (2 ^ 32) d.f i todo + ca := by
  intro todo
  induction todo with
  | zero => intro i x ca _ hx _ hb; exact ⟨x, ca, rfl, rfl, hx, fun _ _ => rfl, by simp [val]⟩
  | succ todo ih =>
    intro i x ca hi hx hu hb
    unfold addBack
    have hxi := hx.2 (iu + i) (by omega)
    have hdi := hd.2 i (by omega)
    rw [ldB (by omega), R.ok_bind, ldB (by omega), R.ok_bind]
    dsimp only
    have hs64 : x.f (iu + i) + d.f i + ca < 2 ^ 64 := by omega
    rw [Nat.mod_eq_of_lt hs64, stB (by have := hx.1; omega), R.ok_bind, Nat.shiftRight_eq_div_pow]
    have hdm := Nat.div_add_mod (x.f (iu + i) + d.f i + ca) (2 ^ 32)
    have hnew : (x.f (iu + i) + d.f i + ca) % 2 ^ 32 < 2 ^ 32 := Nat.mod_lt _ (by norm_num)
    have hq : (x.f (iu + i) + d.f i + ca) / 2 ^ 32 < 2 ^ 32 := by omega
    rw [Nat.mod_eq_of_lt hq]
    obtain ⟨w, hw⟩ : ∃ w, w = (x.f (iu + i) + d.f i + ca) % 2 ^ 32 := ⟨_, rfl⟩
    obtain ⟨c1, hc1⟩ : ∃ w, w = (x.f (iu + i) + d.f i + ca) / 2 ^ 32 := ⟨_, rfl⟩
    rw [← hw] at hnew hdm ⊢
    rw [← hc1] at hq hdm ⊢
    obtain ⟨y, b, e, hyu, hyw, hsame, hval⟩ := ih (i + 1) ⟨x.used, fun k => if k = iu + i then w else x.f k⟩ c1 (by omega)
      ⟨hx.1, fun k hk => by
        show (if k = iu + i then w else x.f k) < _
        by_cases he : k = iu + i
        · rw [if_pos he]; exact hnew
        · rw [if_neg he]; exact hx.2 k hk⟩ hu hq
    refine ⟨y, b, e, hyu, hyw, fun k hk => ?_, ?_⟩
    · rw [hsame k (by omega)]; exact if_neg (by omega)
    · have hyi : y.f (iu + i) = w := by rw [hsame _ (by omega)]; exact if_pos rfl
      have h2 : val (2 ^ 32) (fun k => if k = iu + i then w else x.f k) (iu + (i + 1)) todo = val (2 ^ 32) x.f (iu + (i + 1)) todo := val_st _ _ _ _ _ _ (.inl (by omega))
      dsimp only at hval
      rw [h2] at hval
      rw [val_cons, val_cons, val_cons, hyi, show (2 ^ 32 : Nat) ^ (todo + 1) = (2 ^ 32) ^ todo * 2 ^ 32 from pow_succ _ _]
      exact add_arith hdm hval

/-- The effect of subtracting `r` times the divisor, `r` being the quotient digit or one more. -/
theorem seg_arith {U D q r hi b y y0 N : Nat} (hU : U = y0 + hi * N) (hs : y + r * D = y0 + b * N) (hy : y < N) (hD : D < N) (hq : q = U / D) (hD0 : 0 < D) (h1 : q ≤ r) (h2 : r ≤ q + 1) :
    (¬ hi < b → r = q ∧ y = U % D) ∧ (hi < b → r = q + 1 ∧ ∀ y2 c, y2 + c * N = y + D → y2 < N → y2 = U % D) := by
  have hdm := Nat.div_add_mod U D
  have hm : U % D < D := Nat.mod_lt _ hD0
  rw [← hq] at hdm
  generalize U % D = m at *
  rcases (by omega : r = q ∨ r = q + 1) with rfl | rfl
  · have e : y + hi * N = m + b * N := by rw [Nat.mul_comm D] at hdm; omega
    have hib : hi = b := by
      rcases Nat.lt_trichotomy hi b with h | h | h
      · have : (hi + 1) * N ≤ b * N := Nat.mul_le_mul_right _ h
        rw [Nat.add_mul] at this; omega
      · exact h
      · have : (b + 1) * N ≤ hi * N := Nat.mul_le_mul_right _ h
        rw [Nat.add_mul] at this; omega
    subst hib
    exact ⟨fun _ => ⟨rfl, by omega⟩, fun h => by omega⟩
  · have e : y + D + hi * N = m + b * N := by rw [Nat.mul_comm D] at hdm; rw [Nat.add_mul] at hs; omega
    have hib : b = hi + 1 := by
      rcases Nat.lt_trichotomy b (hi + 1) with h | h | h
      · have : b * N ≤ hi * N := Nat.mul_le_mul_right _ (by omega)
        omega
      · exact h
      · have : (hi + 2) * N ≤ b * N := Nat.mul_le_mul_right _ h
        rw [Nat.add_mul] at this; omega
    subst hib
    refine ⟨fun h => by omega, fun _ => ⟨rfl, fun y2 c h h' => ?_⟩⟩
    rw [Nat.add_mul] at e
    have hc : c = 1 := by
      rcases Nat.lt_trichotomy c 1 with h3 | h3 | h3
      · have : c = 0 := by omega
        subst this; omega
      · exact h3
      · have : 2 * N ≤ c * N := Nat.mul_le_mul_right _ h3
        omega
    subst hc
    omega

theorem val_ext {f : Nat → Nat} {mx N : Nat} (h : val (2 ^ 32) f 0 (mx + 1) < (2 ^ 32) ^ N) : val (2 ^ 32) (fun k => if k ≤ mx then f k else 0) 0 N = val (2 ^ 32) f 0 (mx + 1) := by
  by_cases hN : mx + 1 ≤ N
  · obtain ⟨j, rfl⟩ : ∃ j, N = mx + 1 + j := ⟨N - (mx + 1), by omega⟩
    rw [val_add, val_shift _ (fun _ => 0) _ _ j (fun i _ => if_neg (by omega)), val_zeroes j (fun _ _ => rfl), Nat.mul_zero, Nat.add_zero]
    exact val_congr fun i _ hi => if_pos (by omega)
  · obtain ⟨j, hj⟩ : ∃ j, mx + 1 = N + j := ⟨mx + 1 - N, by omega⟩
    rw [hj, val_add] at h ⊢
    have h0 : val (2 ^ 32) f (0 + N) j = 0 := by
      by_contra hc
      have : (2 ^ 32) ^ N * 1 ≤ (2 ^ 32) ^ N * val (2 ^ 32) f (0 + N) j := Nat.mul_le_mul_left _ (by omega)
      omega
    rw [h0, Nat.mul_zero, Nat.add_zero]
    exact val_congr fun i _ hi => if_pos (by omega)

/-- The normalized top words of the divisor. -/
structure Norm (d : Big) (v1 v2 sh : Nat) : Prop where
  n2 : 2 ≤ d.used
  hsh : sh < 32
  hv1 : 2 ^ 32 ≤ 2 * v1
  hv1' : v1 < 2 ^ 32
  hv2 : v2 < 2 ^ 32
  eq : ∃ vl, vl < (2 ^ 32) ^ (d.used - 2) ∧ d.value * 2 ^ sh = (v1 * 2 ^ 32 + v2) * (2 ^ 32) ^ (d.used - 2) + vl

theorem clip {T v q : Nat} (hv : 0 < v) (hv' : v < 2 ^ 32) (hs : q ≤ T / v) (hq : q < 2 ^ 32) (hT : T < 2 ^ 64) :
    ∃ q0 r0, (if T / v > 2 ^ 32 - 1 then (2 ^ 32 - 1, (T % v + v * (T / v - (2 ^ 32 - 1))) % 2 ^ 64) else (T / v, T % v)) = (q0, r0) ∧
      q0 * v + r0 = T ∧ q ≤ q0 ∧ r0 < 2 ^ 64 ∧ q0 < 2 ^ 32 := by
  have htd := Nat.div_add_mod T v
  have hm : T % v < v := Nat.mod_lt _ hv
  obtain ⟨M, hM⟩ : ∃ M : Nat, M = 2 ^ 32 - 1 := ⟨_, rfl⟩
  rw [← hM]
  by_cases hc : T / v > M
  · rw [if_pos hc]
    obtain ⟨k, hk⟩ : ∃ k, T / v = M + k := ⟨T / v - M, by omega⟩
    rw [hk, Nat.add_sub_cancel_left]
    rw [hk, Nat.mul_add] at htd
    have hlt : T % v + v * k < 2 ^ 64 := by omega
    refine ⟨_, _, rfl, ?_, by omega, Nat.mod_lt _ (by norm_num), by omega⟩
    rw [Nat.mod_eq_of_lt hlt, Nat.mul_comm M]
    omega
  · rw [if_neg hc]
    exact ⟨_, _, rfl, by rw [Nat.mul_comm]; exact htd, hs, by omega, by omega⟩

theorem divStep_ok {x d : Big} (hx : WF x) (hd : Ok d) {v1 v2 sh : Nat} (N : Norm d v1 v2 sh) {mx iu : Nat} (h1 : iu + d.used ≤ mx + 1) (h2 : mx < x.used)
    (hlt : val (2 ^ 32) x.f 0 (mx + 1) < d.value * (2 ^ 32) ^ (iu + 1)) :
    ∃ x' mx', divStep d v1 v2 sh x mx iu = .ok (x', mx', val (2 ^ 32) x.f 0 (mx + 1) / (d.value * (2 ^ 32) ^ iu)) ∧ WF x' ∧ x'.used = x.used ∧ iu + d.used ≤ mx' + 1 ∧ mx' < x.used ∧
      val (2 ^ 32) x'.f 0 (mx' + 1) = val (2 ^ 32) x.f 0 (mx + 1) % (d.value * (2 ^ 32) ^ iu) := by
  obtain ⟨n2, hsh, hv1, hv1', hv2, vl, hvl, hD⟩ := N
  obtain ⟨n, hn⟩ : ∃ n, d.used = n + 2 := ⟨d.used - 2, by omega⟩
  have hdlt := hd.1.lt
  have hd0 : 0 < d.value := by
    have := hd.ge (by omega)
    have := powB_pos (d.used - 1)
    omega
  rw [hn] at h1 hvl hD hdlt
  rw [Nat.add_sub_cancel] at hvl hD
  have hPi := powB_pos iu
  -- the numerator
  obtain ⟨V, hV⟩ : ∃ V, V = val (2 ^ 32) x.f 0 (mx + 1) := ⟨_, rfl⟩
  rw [← hV] at hlt ⊢
  obtain ⟨hi, hhi⟩ : ∃ hi, hi = if iu + (n + 2) ≤ mx then x.f (iu + (n + 2)) else 0 := ⟨_, rfl⟩
  have hiL : (if iu + (n + 2) ≤ mx then x.ld (iu + (n + 2)) else .ok 0 : R Nat) = .ok hi := by
    rw [hhi]
    by_cases hc : iu + (n + 2) ≤ mx
    · rw [if_pos hc, if_pos hc, ldB (by omega)]
    · rw [if_neg hc, if_neg hc]
  have hi32 : hi < 2 ^ 32 := by
    rw [hhi]
    by_cases hc : iu + (n + 2) ≤ mx
    · rw [if_pos hc]; exact hx.2 _ (by omega)
    · rw [if_neg hc]; norm_num
  have hVlt : V < (2 ^ 32) ^ (iu + (n + 2) + 1) := by
    calc V < d.value * (2 ^ 32) ^ (iu + 1) := hlt
      _ ≤ (2 ^ 32) ^ (n + 2) * (2 ^ 32) ^ (iu + 1) := Nat.mul_le_mul_right _ (le_of_lt hdlt)
      _ = _ := by rw [← pow_add]; congr 1; omega
  have hVe : V = val (2 ^ 32) x.f 0 (iu + (n + 2)) + hi * (2 ^ 32) ^ (iu + (n + 2)) := by
    have he := val_ext (f := x.f) (mx := mx) (N := iu + (n + 2) + 1) (by rw [← hV]; exact hVlt)
    rw [val_succ, Nat.zero_add, ← hhi, ← hV] at he
    rw [← he]
    congr 1
    exact val_congr fun i _ h => if_pos (show i ≤ mx by omega)
  -- the segment
  obtain ⟨U, hU⟩ : ∃ U, U = val (2 ^ 32) x.f iu (n + 2) + hi * (2 ^ 32) ^ (n + 2) := ⟨_, rfl⟩
  have hVU : V = val (2 ^ 32) x.f 0 iu + (2 ^ 32) ^ iu * U := by
    rw [hVe, hU, val_add, Nat.zero_add, pow_add]; ring
  have hLlt : val (2 ^ 32) x.f 0 iu < (2 ^ 32) ^ iu := val_lt fun i _ h => hx.2 i (by omega)
  have hVdiv : V / (2 ^ 32) ^ iu = U := by rw [hVU, Nat.add_mul_div_left _ _ hPi, Nat.div_eq_of_lt hLlt, Nat.zero_add]
  have hVmod : V % (2 ^ 32) ^ iu = val (2 ^ 32) x.f 0 iu := by rw [hVU, Nat.add_mul_mod_self_left, Nat.mod_eq_of_lt hLlt]
  have hqU : V / (d.value * (2 ^ 32) ^ iu) = U / d.value := by rw [Nat.mul_comm, ← Nat.div_div_eq_div_mul, hVdiv]
  have hrU : V % (d.value * (2 ^ 32) ^ iu) = val (2 ^ 32) x.f 0 iu + (2 ^ 32) ^ iu * (U % d.value) := by rw [Nat.mul_comm d.value, Nat.mod_mul, hVdiv, hVmod]
  -- the top words
  have hw1 := hx.2 (iu + n + 1) (by omega)
  have hw2 := hx.2 (iu + n) (by omega)
  obtain ⟨w3, hw3⟩ : ∃ w3, w3 = if iu + n = 0 then 0 else x.f (iu + n - 1) := ⟨_, rfl⟩
  have hw3' : w3 < 2 ^ 32 := by
    rw [hw3]
    by_cases hc : iu + n = 0
    · rw [if_pos hc]; norm_num
    · rw [if_neg hc]; exact hx.2 _ (by omega)
  have hVt : V = ((hi * 2 ^ 32 + x.f (iu + n + 1)) * 2 ^ 32 + x.f (iu + n)) * (2 ^ 32) ^ (iu + n) + val (2 ^ 32) x.f 0 (iu + n) := by
    rw [hVe, show iu + (n + 2) = iu + n + 1 + 1 by omega, val_succ, val_succ, Nat.zero_add, Nat.zero_add, show (2 ^ 32 : Nat) ^ (iu + n + 1 + 1) = (2 ^ 32) ^ (iu + n) * 2 ^ 32 * 2 ^ 32 by rw [pow_succ, pow_succ],
      show (2 ^ 32 : Nat) ^ (iu + n + 1) = (2 ^ 32) ^ (iu + n) * 2 ^ 32 from pow_succ _ _]
    ring
  obtain ⟨ul, hul, hVs⟩ := norm_val (a := hi * 2 ^ 32 + x.f (iu + n + 1)) (w2 := x.f (iu + n)) (w3 := w3) (sh := sh) (Q := (2 ^ 32) ^ (iu + n)) (rest := val (2 ^ 32) x.f 0 (iu + n))
    (P3 := (2 ^ 32) ^ (iu + n - 1)) hsh hw2 (by
      by_cases hc : iu + n = 0
      · refine .inl ⟨by rw [hc, pow_zero], by rw [hc]; rfl, by rw [hw3, if_pos hc]⟩
      · refine .inr ⟨by rw [← pow_succ]; congr 1; omega, val (2 ^ 32) x.f 0 (iu + n - 1), ?_, val_lt fun i _ h => hx.2 i (by omega)⟩
        rw [hw3, if_neg hc]
        obtain ⟨k, hk⟩ : ∃ k, iu + n = k + 1 := ⟨iu + n - 1, by omega⟩
        rw [hk, val_succ, Nat.zero_add, Nat.add_sub_cancel]; omega)
  rw [← hVt] at hVs
  have hu2 := lo_lt (w := x.f (iu + n)) (z := w3) hsh hw3'
  obtain ⟨T, hT⟩ : ∃ T, T = (hi * 2 ^ 32 + x.f (iu + n + 1)) * 2 ^ sh + x.f (iu + n) / 2 ^ (32 - sh) := ⟨_, rfl⟩
  obtain ⟨u2, hu2e⟩ : ∃ u, u = x.f (iu + n) * 2 ^ sh % 2 ^ 32 + w3 / 2 ^ (32 - sh) := ⟨_, rfl⟩
  rw [← hT, ← hu2e] at hVs
  rw [← hu2e] at hu2
  -- the divisor, aligned
  have hDs : d.value * (2 ^ 32) ^ iu * 2 ^ sh = (v1 * 2 ^ 32 + v2) * (2 ^ 32) ^ (iu + n) + vl * (2 ^ 32) ^ iu := by
    rw [Nat.mul_right_comm, hD, pow_add]; ring
  have hvl' : vl * (2 ^ 32) ^ iu < (2 ^ 32) ^ (iu + n) := by
    rw [pow_add, Nat.mul_comm ((2 ^ 32) ^ iu)]
    exact Nat.mul_lt_mul_of_pos_right hvl hPi
  have hprod : V * 2 ^ sh < 2 ^ 32 * (d.value * (2 ^ 32) ^ iu * 2 ^ sh) := by
    calc V * 2 ^ sh < d.value * (2 ^ 32) ^ (iu + 1) * 2 ^ sh := Nat.mul_lt_mul_of_pos_right hlt (Nat.two_pow_pos _)
      _ = _ := by rw [show (2 ^ 32 : Nat) ^ (iu + 1) = (2 ^ 32) ^ iu * 2 ^ 32 from pow_succ _ _]; ring
  have hq : U / d.value = ((T * 2 ^ 32 + u2) * (2 ^ 32) ^ (iu + n) + ul) / ((v1 * 2 ^ 32 + v2) * (2 ^ 32) ^ (iu + n) + vl * (2 ^ 32) ^ iu) := by
    rw [← hVs, ← hDs, Nat.mul_div_mul_right _ _ (Nat.two_pow_pos _), hqU]
  rw [hVs, hDs] at hprod
  have hT64 : T < 2 ^ 64 := by
    by_contra hc
    have c1 : 2 ^ 64 * 2 ^ 32 * (2 ^ 32) ^ (iu + n) ≤ (T * 2 ^ 32 + u2) * (2 ^ 32) ^ (iu + n) := Nat.mul_le_mul_right _ (by omega)
    have c2 : (v1 * 2 ^ 32 + v2 + 1) * (2 ^ 32) ^ (iu + n) ≤ 2 ^ 64 * (2 ^ 32) ^ (iu + n) := Nat.mul_le_mul_right _ (by omega)
    rw [Nat.add_mul _ 1, Nat.one_mul] at c2
    have c3 : 2 ^ 64 * 2 ^ 32 * (2 ^ 32) ^ (iu + n) = 2 ^ 32 * (2 ^ 64 * (2 ^ 32) ^ (iu + n)) := by ring
    omega
  have hnum : ((if sh > 0 then do
      let num := ((hi * 2 ^ 32 + x.f (iu + n + 1)) <<< sh) % 2 ^ 64 ||| (x.f (iu + n) >>> (32 - sh))
      let num2 := (x.f (iu + n) <<< sh) % 2 ^ 32
      if iu + (n + 2) ≥ 3 then .ok (num, num2 ||| ((← x.ld (iu + (n + 2) - 3)) >>> (32 - sh))) else .ok (num, num2)
    else .ok (hi * 2 ^ 32 + x.f (iu + n + 1), x.f (iu + n)) : R (Nat × Nat))) = .ok (T, u2) := by
    by_cases h0 : sh = 0
    · have e1 : T = hi * 2 ^ 32 + x.f (iu + n + 1) := by rw [hT, h0, pow_zero, Nat.mul_one, Nat.sub_zero, Nat.div_eq_of_lt hw2, Nat.add_zero]
      have e2 : u2 = x.f (iu + n) := by rw [hu2e, h0, pow_zero, Nat.mul_one, Nat.sub_zero, Nat.div_eq_of_lt hw3', Nat.add_zero, Nat.mod_eq_of_lt hw2]
      rw [if_neg (by omega), e1, e2]
    · rw [if_pos (by omega)]
      dsimp only
      have hb : (hi * 2 ^ 32 + x.f (iu + n + 1)) * 2 ^ sh < 2 ^ 64 := lt_of_le_of_lt (by rw [hT]; exact Nat.le_add_right _ _) hT64
      rw [norm_hi (by omega) hsh hw2 hb, ← hT]
      by_cases h3 : iu + n = 0
      · rw [if_neg (by omega), hu2e, hw3, if_pos h3, Nat.zero_div, Nat.add_zero, Nat.shiftLeft_eq]
      · rw [if_pos (by omega), ldB (by omega), R.ok_bind, norm_lo (by omega) hsh (hx.2 _ (by omega)), hu2e, hw3, if_neg h3,
          show iu + (n + 2) - 3 = iu + n - 1 by omega]
  unfold divStep
  dsimp only
  rw [hn, hiL, R.ok_bind, ldB (by omega), R.ok_bind, ldB (by omega), R.ok_bind, show iu + (n + 2) - 1 = iu + n + 1 by omega, show iu + (n + 2) - 2 = iu + n by omega,
    two_words hi32 hw1]
  rw [hnum, R.ok_bind]
  dsimp only
  have hv1p : 0 < v1 := by omega
  rw [if_neg (by omega)]
  -- the trial quotient
  have hqlt : U / d.value < 2 ^ 32 := by
    rw [← hqU, Nat.div_lt_iff_lt_mul (Nat.mul_pos hd0 hPi)]
    rw [show (2 ^ 32 : Nat) * (d.value * (2 ^ 32) ^ iu) = d.value * (2 ^ 32) ^ (iu + 1) by rw [pow_succ]; ring]
    exact hlt
  have hstart : U / d.value ≤ T / v1 := by rw [hq]; exact trial_start hu2 hul hv1p
  have hrm : T % v1 < 2 ^ 32 := lt_trans (Nat.mod_lt _ hv1p) hv1'
  rw [Nat.mod_eq_of_lt hrm]

  have hclip : ∃ q0 r0, (if T / v1 > 2 ^ 32 - 1 then (2 ^ 32 - 1, (T % v1 + v1 * (T / v1 - (2 ^ 32 - 1))) % 2 ^ 64) else (T / v1, T % v1)) = (q0, r0) ∧
      q0 * v1 + r0 = T ∧ U / d.value ≤ q0 ∧ r0 < 2 ^ 64 ∧ q0 < 2 ^ 32 := clip hv1p (by omega) hstart hqlt hT64
  obtain ⟨q0, r0, ec, hqr, hq0, hr0, hq0'⟩ := hclip
  rw [ec]
  dsimp only
  obtain ⟨r, s, er, hr32, hqr1, hqr2⟩ := quoLoop_ok hv1 hv1' hv2 hvl' hu2 hul hprod hq 5 q0 r0 hqr hq0 hr0 hq0' (.inl (by norm_num))
  rw [er, R.ok_bind]
  dsimp only
  by_cases hr0 : r > 0
  · rw [if_pos hr0]
    obtain ⟨y, b, ey, hyu, hyw, hyb, hsame, hval⟩ := subLoop_ok hr32 hd.1 iu (n + 2) 0 x 0 (by omega) hx (by omega) (by norm_num)
    rw [ey, R.ok_bind]
    dsimp only
    rw [Nat.add_zero, Nat.add_zero, val_eq_value hn.symm] at hval
    have hylt : val (2 ^ 32) y.f iu (n + 2) < (2 ^ 32) ^ (n + 2) := val_lt fun i _ h => hyw.2 i (by omega)
    obtain ⟨g1, g2⟩ := seg_arith hU hval hylt hdlt rfl hd0 hqr1 hqr2
    have fin : ∀ z : Big, (∀ k, k < iu → z.f k = x.f k) → val (2 ^ 32) z.f iu (n + 2) = U % d.value → val (2 ^ 32) z.f 0 (iu + (n + 2)) = V % (d.value * (2 ^ 32) ^ iu) := by
      intro z hz hzv
      rw [val_add, Nat.zero_add, hzv, hrU]
      congr 1
      exact val_congr fun i _ h => hz i (by omega)
    by_cases hbo : hi < b
    · rw [if_pos hbo]
      obtain ⟨g3, g4⟩ := g2 hbo
      obtain ⟨z, c, ez, hzu, hzw, hzs, hzv⟩ := addBack_ok hd.1 iu (n + 2) 0 y 0 (by omega) hyw (by omega) (by norm_num)
      rw [ez, R.ok_bind, R.ok_bind]
      rw [Nat.add_zero, Nat.add_zero, val_eq_value hn.symm] at hzv
      have hzlt : val (2 ^ 32) z.f iu (n + 2) < (2 ^ 32) ^ (n + 2) := val_lt fun i _ h => hzw.2 i (by omega)
      refine ⟨z, iu + n + 1, ?_, hzw, by omega, by omega, by omega, fin z (fun k hk => by rw [hzs k (.inl (by omega)), hsame k (.inl (by omega))]) (g4 _ _ hzv hzlt)⟩
      dsimp only
      rw [hqU, show r - 1 = U / d.value by omega]
    · rw [if_neg hbo]
      obtain ⟨g3, g4⟩ := g1 hbo
      refine ⟨y, iu + n + 1, ?_, hyw, hyu, by omega, by omega, fin y (fun k hk => hsame k (.inl (by omega))) g4⟩
      rw [R.ok_bind]
      dsimp only
      rw [hqU, g3]
  · rw [if_neg hr0]
    have hr : r = 0 := by omega
    have hz : U / d.value = 0 := by rw [hr] at hqr1; exact Nat.le_zero.1 hqr1
    refine ⟨x, mx, by rw [hqU, hz, hr], hx, rfl, by omega, h2, ?_⟩
    rw [← hV, Nat.mod_eq_of_lt]
    have := (Nat.div_eq_zero_iff (a := V) (b := d.value * (2 ^ 32) ^ iu)).1 (by rw [hqU, hz])
    have h3 := Nat.mul_pos hd0 hPi
    omega

end STL.BigInt
