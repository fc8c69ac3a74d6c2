import Verif.BigInt.Basic

/-! # Big integers: addition and multiplication -/

namespace STL.BigInt
open STL Digits

theorem push_ok {x : Big} {c : Nat} (h : WF x) (hc : c < 2 ^ 32) (ht : c = 0 → Ok x) : Res (x.value + c * (2 ^ 32) ^ x.used) (push x c) := by
  unfold push
  by_cases h0 : c = 0
  · rw [if_neg (by simpa using h0)]
    exact .inl ⟨x, rfl, ht h0, by rw [h0, Nat.zero_mul, Nat.add_zero]⟩
  rw [if_pos h0]
  by_cases h1 : x.used < cap
  · rw [if_pos h1, stB h1, R.ok_bind]
    have hv : (Big.mk (x.used + 1) fun k => if k = x.used then c else x.f k).value = x.value + c * (2 ^ 32) ^ x.used := by
      show val (2 ^ 32) (fun k => if k = x.used then c else x.f k) 0 (x.used + 1) = _
      rw [val_succ, Nat.zero_add, if_pos rfl, val_st _ _ _ _ _ _ (.inr (by omega))]; rfl
    refine .inl ⟨_, rfl, ⟨⟨?_, fun i hi => ?_⟩, fun _ => ?_⟩, hv⟩
    · show x.used + 1 ≤ cap; omega
    · show (if i = x.used then c else x.f i) < _
      have hi' : i < x.used + 1 := hi
      by_cases he : i = x.used
      · rw [if_pos he]; exact hc
      · rw [if_neg he]; exact h.2 i (by omega)
    · show (if x.used + 1 - 1 = x.used then c else _) ≠ 0
      rw [if_pos (by omega)]; exact h0
  · rw [if_neg h1]
    refine .inr ⟨_, rfl, rfl, ?_⟩
    have hu : x.used = cap := le_antisymm h.1 (by omega)
    rw [hu]
    have : 1 * (2 ^ 32) ^ cap ≤ c * (2 ^ 32) ^ cap := Nat.mul_le_mul_right _ (by omega)
    omega

theorem mulCore_ok {m : Nat} (hm : m < 2 ^ 32) : ∀ (todo i : Nat) (x : Big) (carry : Nat), i + todo = x.used → WF x → carry < 2 ^ 32 →
    ∃ y c, mulCore m x carry todo i = .ok (y, c) ∧ y.used = x.used ∧ WF y ∧ c < 2 ^ 32 ∧ (∀ k, k < i → y.f k = x.f k) ∧
      val (2 ^ 32) y.f i todo + c * (2 ^ 32) ^ todo = val (2 ^ 32) x.f i todo * m + carry := by
  intro todo
  induction todo with
  | zero => intro i x carry hi hx hc; exact ⟨x, carry, rfl, rfl, hx, hc, fun _ _ => rfl, by simp [val]⟩
  | succ todo ih =>
    intro i x carry hi hx hc
    unfold mulCore
    rw [ldB (by omega), R.ok_bind]
    have hxi := hx.2 i (by omega)
    have hb : x.f i * m + carry < 2 ^ 64 := by
      have : x.f i * m ≤ (2 ^ 32 - 1) * (2 ^ 32 - 1) := Nat.mul_le_mul (by omega) (by omega)
      omega
    dsimp only
    rw [Nat.mod_eq_of_lt hb, stB (by have := hx.1; omega), R.ok_bind, Nat.shiftRight_eq_div_pow]
    have hd := Nat.div_add_mod (x.f i * m + carry) (2 ^ 32)
    have hml : (x.f i * m + carry) % 2 ^ 32 < 2 ^ 32 := Nat.mod_lt _ (by norm_num)
    have hq : (x.f i * m + carry) / 2 ^ 32 < 2 ^ 32 := by omega
    rw [Nat.mod_eq_of_lt hq]
    generalize (x.f i * m + carry) / 2 ^ 32 = qd at *
    generalize (x.f i * m + carry) % 2 ^ 32 = md at *
    obtain ⟨y, c, e, hu, hw, hcc, hsame, hval⟩ := ih (i + 1) ⟨x.used, fun k => if k = i then md else x.f k⟩ qd (by show _ = x.used; omega)
      ⟨hx.1, fun k hk => by
        show (if k = i then md else x.f k) < _
        split
        · exact hml
        · exact hx.2 k hk⟩ hq
    refine ⟨y, c, e, hu, hw, hcc, fun k hk => ?_, ?_⟩
    · rw [hsame k (by omega)]; exact if_neg (by omega)
    · have h1 : y.f i = md := by rw [hsame i (by omega)]; exact if_pos rfl
      have h2 : val (2 ^ 32) (fun k => if k = i then md else x.f k) (i + 1) todo = val (2 ^ 32) x.f (i + 1) todo := val_st _ _ _ _ _ _ (.inl (by omega))
      dsimp only at hval
      rw [h2] at hval
      rw [val_cons, val_cons, h1]
      generalize (2 ^ 32 : Nat) = b at *
      rw [pow_succ]
      nlinarith [hval, hd]

theorem val_eq_value {x : Big} {n : Nat} (h : n = x.used) : val (2 ^ 32) x.f 0 n = x.value := by rw [h]; rfl

theorem mulPush_ok {x : Big} (h : Ok x) {m c : Nat} (hm : m < 2 ^ 32) (hm0 : m ≠ 0) (hc : c < 2 ^ 32) :
    Res (x.value * m + c) (do let (x, carry) ← mulCore m x c x.used 0; push x carry) := by
  obtain ⟨y, k, e, hu, hw, hk, _, hv⟩ := mulCore_ok hm x.used 0 x c (Nat.zero_add _) h.1 hc
  rw [e, R.ok_bind]
  dsimp only
  rw [val_eq_value rfl, val_eq_value hu.symm] at hv
  rw [← hv]
  have hle : x.value ≤ x.value * m + c := le_trans (Nat.le_mul_of_pos_right _ (by omega)) (Nat.le_add_right _ _)
  rw [← hu] at hv ⊢
  apply push_ok hw hk
  intro k0
  subst k0
  refine Ok.of_ge hw fun h0 => ?_
  have := h.ge (by omega)
  rw [hu]
  omega

theorem addLoop_eq : ∀ (todo i : Nat) (x : Big) (c : Nat), addLoop x c todo i = mulCore 1 x c todo i := by
  intro todo
  induction todo with
  | zero => intro i x c; rfl
  | succ todo ih =>
    intro i x c
    unfold addLoop mulCore
    simp only [Nat.mul_one, ih]

/-- Addition of a 32-bit number. -/
theorem add_ok {x : Big} (h : Ok x) {v : Nat} (hv : v < 2 ^ 32) : Res (x.value + v) (add x v) := by
  unfold add
  by_cases h0 : v = 0
  · rw [if_pos h0]; exact .inl ⟨x, rfl, h, by omega⟩
  · rw [if_neg h0, addLoop_eq]
    have := mulPush_ok h (m := 1) (by norm_num) (by norm_num) hv
    rw [Nat.mul_one] at this
    exact this

/-- Multiplication by a 32-bit number. -/
theorem mul32_ok {x : Big} (h : Ok x) {m : Nat} (hm : m < 2 ^ 32) : Res (x.value * m) (mul32 x m) := by
  unfold mul32
  by_cases h0 : m = 0
  · rw [if_pos h0]; exact .inl ⟨_, rfl, Ok.zero _, by rw [h0]; rfl⟩
  rw [if_neg h0]
  by_cases h1 : m = 1
  · rw [if_pos h1]; exact .inl ⟨x, rfl, h, by rw [h1, Nat.mul_one]⟩
  rw [if_neg h1]
  by_cases h2 : x.used = 0
  · rw [if_pos h2]; exact .inl ⟨x, rfl, h, by rw [h.used_zero.1 h2, Nat.zero_mul]⟩
  rw [if_neg h2]
  exact mulPush_ok h hm h0 (by norm_num)

/-! ## Multiplication -/

theorem val_set (b : Nat) (f : Nat → Nat) (i v : Nat) : ∀ n, i < n → val b (fun k => if k = i then v else f k) 0 n + f i * b ^ i = val b f 0 n + v * b ^ i := by
  intro n
  induction n with
  | zero => intro h; omega
  | succ n ih =>
    intro h
    rw [val_succ, val_succ, Nat.zero_add]
    by_cases hn : n = i
    · subst hn
      rw [if_pos rfl, val_st _ _ _ _ _ _ (.inr (by omega))]
      omega
    · rw [if_neg hn]
      have := ih (by omega)
      omega

theorem ensure_ok {r : Big} {i : Nat} (h : WF r) (hi : i ≤ r.used) (hc : i < cap) :
    ∃ s, ensure r i = .ok s ∧ WF s ∧ s.value = r.value ∧ i < s.used ∧ (s.used = r.used ∨ (i = r.used ∧ s.used = i + 1)) := by
  unfold ensure
  by_cases h0 : i = r.used
  · rw [if_pos h0, stB hc, R.ok_bind]
    refine ⟨_, rfl, ⟨?_, fun k hk => ?_⟩, ?_, Nat.lt_succ_self _, .inr ⟨h0, rfl⟩⟩
    · show i + 1 ≤ cap; omega
    · show (if k = i then 0 else r.f k) < _
      have : k < i + 1 := hk
      by_cases he : k = i
      · rw [if_pos he]; norm_num
      · rw [if_neg he]; exact h.2 k (by omega)
    · show val (2 ^ 32) (fun k => if k = i then 0 else r.f k) 0 (i + 1) = _
      rw [val_succ, Nat.zero_add, if_pos rfl, val_st _ _ _ _ _ _ (.inr (by omega)), Nat.zero_mul, Nat.add_zero, h0]; rfl
  · rw [if_neg h0]
    exact ⟨r, rfl, h, rfl, by omega, .inl rfl⟩

/-- Writing a word. -/
theorem set_ok {r : Big} {i v : Nat} (h : WF r) (hi : i < r.used) (hv : v < 2 ^ 32) :
    ∃ s, r.st i v = .ok s ∧ WF s ∧ s.used = r.used ∧ s.value + r.f i * (2 ^ 32) ^ i = r.value + v * (2 ^ 32) ^ i := by
  rw [stB (by have := h.1; omega)]
  refine ⟨_, rfl, ⟨h.1, fun k hk => ?_⟩, rfl, val_set _ _ _ _ _ hi⟩
  show (if k = i then v else r.f k) < _
  by_cases he : k = i
  · rw [if_pos he]; exact hv
  · rw [if_neg he]; exact h.2 k hk

theorem inner_arith {rv c P q s2v sfi s1v md r1v ca cur yv yi b bt : Nat} (h1 : rv + c * (P * b * bt) = s2v + q * (P * b) + cur * yv * (P * b)) (h2 : s2v + sfi * P = s1v + md * P)
    (h3 : b * q + md = cur * yi + sfi + ca) (h4 : s1v = r1v) : rv + c * (P * (bt * b)) = r1v + ca * P + cur * (yi + b * yv) * P := by
  have h5 : (b * q + md) * P = (cur * yi + sfi + ca) * P := by rw [h3]
  subst h4
  have : rv + c * (P * (bt * b)) + sfi * P = s1v + ca * P + cur * (yi + b * yv) * P + sfi * P := by
    calc rv + c * (P * (bt * b)) + sfi * P = (rv + c * (P * b * bt)) + sfi * P := by ring
      _ = s2v + sfi * P + q * (P * b) + cur * yv * (P * b) := by rw [h1]; ring
      _ = s1v + (b * q + md) * P + cur * yv * (P * b) := by rw [h2]; ring
      _ = _ := by rw [h5]; ring
  omega

theorem inner_ok {cur : Nat} (hcur : cur < 2 ^ 32) {y : Big} (hy : WF y) (i1 : Nat) : ∀ (todo i2 : Nat) (res : Big) (carry i : Nat), i = i1 + i2 → i2 + todo = y.used → i + todo ≤ cap →
    WF res → i ≤ res.used → res.used ≤ i1 + y.used → carry < 2 ^ 32 →
    ∃ r c, mulInner cur y todo i2 res carry i = .ok (r, c, i + todo) ∧ WF r ∧ r.used = i1 + y.used ∧ c < 2 ^ 32 ∧
      r.value + c * (2 ^ 32) ^ (i + todo) = res.value + carry * (2 ^ 32) ^ i + cur * val (2 ^ 32) y.f i2 todo * (2 ^ 32) ^ i := by
  intro todo
  induction todo with
  | zero =>
    intro i2 res carry i hi h2 hc hr hle hu hca
    exact ⟨res, carry, rfl, hr, by omega, hca, by simp [val]⟩
  | succ todo ih =>
    intro i2 res carry i hi h2 hc hr hle hu hca
    unfold mulInner
    rw [if_neg (by omega)]
    obtain ⟨s, es, hs, hsv, hsu, hsu'⟩ := ensure_ok hr hle (by omega)
    rw [es, R.ok_bind, ldB (by omega), R.ok_bind, ldB hsu, R.ok_bind]
    have hyi := hy.2 i2 (by omega)
    have hsi := hs.2 i hsu
    have hb : cur * y.f i2 + s.f i + carry < 2 ^ 64 := by
      have : cur * y.f i2 ≤ (2 ^ 32 - 1) * (2 ^ 32 - 1) := Nat.mul_le_mul (by omega) (by omega)
      omega
    dsimp only
    rw [Nat.mod_eq_of_lt hb, Nat.shiftRight_eq_div_pow]
    have hd := Nat.div_add_mod (cur * y.f i2 + s.f i + carry) (2 ^ 32)
    have hml : (cur * y.f i2 + s.f i + carry) % 2 ^ 32 < 2 ^ 32 := Nat.mod_lt _ (by norm_num)
    have hq : (cur * y.f i2 + s.f i + carry) / 2 ^ 32 < 2 ^ 32 := by omega
    rw [Nat.mod_eq_of_lt hq]
    generalize (cur * y.f i2 + s.f i + carry) / 2 ^ 32 = qd at *
    generalize (cur * y.f i2 + s.f i + carry) % 2 ^ 32 = md at *
    obtain ⟨t, et, ht, htu, htv⟩ := set_ok hs hsu hml
    rw [et, R.ok_bind]
    obtain ⟨r, c, e, hrw, hru, hrc, hrv⟩ := ih (i2 + 1) t qd (i + 1) (by omega) (by omega) (by omega) ht (by omega) (by omega) hq
    rw [e]
    refine ⟨r, c, by rw [show i + 1 + todo = i + (todo + 1) by omega], hrw, hru, hrc, ?_⟩
    rw [val_cons]
    generalize (2 ^ 32 : Nat) = b at *
    rw [pow_add, pow_succ] at hrv ⊢
    exact inner_arith hrv htv hd hsv

theorem inner_stop {cur : Nat} {y : Big} (hy : WF y) : ∀ (todo i2 : Nat) (res : Big) (carry i : Nat), i2 + todo = y.used → i ≤ cap → cap < i + todo →
    WF res → i ≤ res.used → ∃ r c, mulInner cur y todo i2 res carry i = .ok (r, c, cap) := by
  intro todo
  induction todo with
  | zero => intro i2 res carry i h2 h3 h4; omega
  | succ todo ih =>
    intro i2 res carry i h2 hc hgt hr hle
    unfold mulInner
    by_cases hi : i = cap
    · rw [if_pos hi]; exact ⟨res, carry, by rw [hi]⟩
    rw [if_neg hi]
    obtain ⟨s, es, hs, hsv, hsu, hsu'⟩ := ensure_ok hr hle (by omega)
    rw [es, R.ok_bind, ldB (by omega), R.ok_bind, ldB hsu, R.ok_bind]
    dsimp only
    obtain ⟨t, et, ht, htu, htv⟩ := set_ok (v := (cur * y.f i2 + s.f i + carry) % 2 ^ 64 % 2 ^ 32) hs hsu (Nat.mod_lt _ (by norm_num))
    rw [et, R.ok_bind]
    exact ih _ _ _ _ (by omega) (by omega) (by omega) ht (by omega)

theorem mulCarry_stop (r : Big) (c i : Nat) (f : Nat) (h : c = 0 ∨ i = cap) : mulCarry (f + 1) r c i = .ok (r, i) := by
  unfold mulCarry
  rw [if_neg (by omega)]

theorem mulCarry_one {r : Big} {c : Nat} (hr : WF r) (hc : c < 2 ^ 32) (hc0 : c ≠ 0) (hcap : r.used < cap) :
    ∃ s, mulCarry (cap + 1) r c r.used = .ok (s, r.used + 1) ∧ WF s ∧ s.used = r.used + 1 ∧ s.value = r.value + c * (2 ^ 32) ^ r.used := by
  obtain ⟨s, es, hs, hsv, hsu, hsu'⟩ := ensure_ok hr (le_refl _) hcap
  obtain ⟨t, et, ht, htu, htv⟩ := set_ok (v := c) hs hsu hc
  have hsf : s.f r.used = 0 := by
    have h1 : s.used = r.used + 1 := by omega
    have h2 : ensure r r.used = .ok ⟨r.used + 1, fun k => if k = r.used then 0 else r.f k⟩ := by
      unfold ensure; rw [if_pos rfl, stB hcap, R.ok_bind]
    rw [h2] at es
    cases es
    exact if_pos rfl
  have e : mulCarry (cap + 1) r c r.used = .ok (t, r.used + 1) := by
    unfold mulCarry
    rw [if_pos ⟨hc0, by omega⟩, es, R.ok_bind, ldB hsu, R.ok_bind, hsf]
    dsimp only
    rw [show (0 + 0 + c) % 2 ^ 64 = c by omega, Nat.mod_eq_of_lt hc, et, R.ok_bind]
    rw [show c >>> 32 % 2 ^ 32 = 0 by rw [Nat.shiftRight_eq_div_pow, Nat.div_eq_of_lt hc, Nat.zero_mod]]
    exact mulCarry_stop _ _ _ 114 (.inl rfl)
  refine ⟨t, e, ht, by omega, ?_⟩
  rw [hsf, Nat.zero_mul, Nat.add_zero, hsv] at htv
  exact htv

theorem outer_ok {x y : Big} (hx : Ok x) (hy : Ok y) (hy0 : y.used ≠ 0) (hx0 : x.used ≠ 0) : ∀ (todo i1 : Nat) (res : Big), i1 + todo = x.used → WF res → i1 ≤ res.used → res.used < cap →
    res.used ≤ i1 + y.used → res.value = val (2 ^ 32) x.f 0 i1 * y.value → (i1 ≠ 0 → x.f (i1 - 1) ≠ 0 → Ok res) →
    (∃ r, mulOuter x y todo i1 res = .ok (some r) ∧ Ok r ∧ r.value = x.value * y.value ∧ r.used < cap) ∨ (mulOuter x y todo i1 res = .ok none ∧ (2 ^ 32) ^ (cap - 1) ≤ x.value * y.value) := by
  intro todo
  induction todo with
  | zero =>
    intro i1 res hi hr hle hlt hu hv ht
    have hi' : i1 = x.used := by omega
    subst hi'
    exact .inl ⟨res, rfl, ht hx0 (hx.2 hx0), hv, hlt⟩
  | succ todo ih =>
    intro i1 res hi hr hle hlt hu hv ht
    unfold mulOuter
    rw [ldB (by omega), R.ok_bind]
    have hxi := hx.1.2 i1 (by omega)
    have hxc := hx.1.1
    have hyge := hy.ge hy0
    have hxge := hx.ge hx0
    have hpre : val (2 ^ 32) x.f 0 (i1 + 1) ≤ x.value := by
      have : x.used = i1 + 1 + todo := by omega
      unfold Big.value
      rw [this, val_add _ _ 0 (i1 + 1) todo]
      exact Nat.le_add_right _ _
    have hpre' := Nat.mul_le_mul_right y.value hpre
    by_cases hc : x.f i1 = 0
    · rw [if_pos hc]
      obtain ⟨s, es, hs, hsv, hsu, hsu'⟩ := ensure_ok hr hle (by omega)
      rw [es, R.ok_bind]
      have : i1 ≠ x.used - 1 := fun he => hx.2 hx0 (by rw [← he]; exact hc)
      exact ih (i1 + 1) s (by omega) hs (by omega) (by omega) (by omega) (by rw [hsv, hv, val_succ, Nat.zero_add, hc, Nat.zero_mul, Nat.add_zero])
        (fun _ h => absurd hc (by rw [Nat.add_sub_cancel] at h; exact h))
    rw [if_neg hc]
    have hprod : (2 ^ 32) ^ (i1 + y.used - 1) ≤ x.value * y.value := by
      calc (2 ^ 32) ^ (i1 + y.used - 1) ≤ (2 ^ 32) ^ (x.used - 1 + (y.used - 1)) := powB_mono (by omega)
        _ = (2 ^ 32) ^ (x.used - 1) * (2 ^ 32) ^ (y.used - 1) := pow_add _ _ _
        _ ≤ _ := Nat.mul_le_mul hxge hyge
    have hpart : (2 ^ 32) ^ (i1 + y.used - 1) ≤ val (2 ^ 32) x.f 0 (i1 + 1) * y.value := by
      calc (2 ^ 32) ^ (i1 + y.used - 1) = (2 ^ 32) ^ (i1 + (y.used - 1)) := by congr 1; omega
        _ = (2 ^ 32) ^ i1 * (2 ^ 32) ^ (y.used - 1) := pow_add _ _ _
        _ ≤ _ := Nat.mul_le_mul (val_top (n := i1 + 1) (by rw [Nat.add_sub_cancel]; exact hc) (by omega)) hyge
    by_cases hst : cap < i1 + y.used
    · obtain ⟨r, c, e⟩ := inner_stop (cur := x.f i1) hy.1 y.used 0 res 0 i1 (by omega) (by omega) hst hr hle
      rw [e, R.ok_bind]
      dsimp only
      rw [mulCarry_stop _ _ _ _ (.inr rfl), R.ok_bind]
      dsimp only
      rw [if_pos rfl]
      exact .inr ⟨rfl, le_trans (powB_mono (by omega)) hprod⟩
    obtain ⟨r, c, e, hrw, hru, hrc, hrv⟩ := inner_ok hxi hy.1 i1 y.used 0 res 0 i1 rfl (by omega) (by omega) hr hle hu (by norm_num)
    have hrv' : r.value + c * (2 ^ 32) ^ (i1 + y.used) = val (2 ^ 32) x.f 0 (i1 + 1) * y.value := by
      rw [hrv, hv, val_succ, Nat.zero_add, Nat.zero_mul, Nat.add_zero, Nat.add_mul]
      rw [val_eq_value rfl]; ring
    rw [e, R.ok_bind]
    dsimp only
    by_cases hic : i1 + y.used = cap
    · rw [mulCarry_stop _ _ _ _ (.inr hic), R.ok_bind]
      dsimp only
      rw [if_pos hic]
      exact .inr ⟨rfl, le_trans (powB_mono (by omega)) hprod⟩
    by_cases hc0 : c = 0
    · subst hc0
      rw [Nat.zero_mul, Nat.add_zero] at hrv'
      rw [mulCarry_stop _ _ _ _ (.inl rfl), R.ok_bind]
      dsimp only
      rw [if_neg hic]
      exact ih (i1 + 1) r (by omega) hrw (by omega) (by omega) (by omega) hrv' fun _ _ => Ok.of_ge hrw fun _ => by rw [hrv', hru]; exact hpart
    · rw [← hru] at hrv' hic ⊢
      obtain ⟨s, es, hs, hsu, hsv⟩ := mulCarry_one hrw hrc hc0 (by omega)
      rw [es, R.ok_bind]
      dsimp only
      rw [← hsv] at hrv'
      have hge : (2 ^ 32) ^ r.used ≤ s.value := by
        have : 1 * (2 ^ 32) ^ r.used ≤ c * (2 ^ 32) ^ r.used := Nat.mul_le_mul_right _ (by omega)
        omega
      by_cases hi2 : r.used + 1 = cap
      · rw [if_pos hi2]
        refine .inr ⟨rfl, ?_⟩
        rw [← hi2, Nat.add_sub_cancel]
        omega
      · rw [if_neg hi2]
        exact ih (i1 + 1) s (by omega) hs (by omega) (by omega) (by omega) hrv' fun _ _ => Ok.of_ge hs fun _ => by rw [hsu, Nat.add_sub_cancel]; exact hge

/-- Multiplication: exact or overflow. The product of two multi-word numbers is refused as soon as it would need the last word. -/
theorem mul_ok {x m : Big} (g : Nat → Nat) (hx : Ok x) (hm : Ok m) :
    (∃ y, mul g x m = .ok (y, true) ∧ Ok y ∧ y.value = x.value * m.value ∧ (1 < x.used → 1 < m.used → x.value * m.value < (2 ^ 32) ^ (cap - 1))) ∨
    (∃ y, mul g x m = .ok (y, false) ∧ y.used = 0 ∧ (2 ^ 32) ^ (if 1 < x.used ∧ 1 < m.used then cap - 1 else cap) ≤ x.value * m.value) := by
  unfold mul
  by_cases h0 : x.used = 0
  · rw [if_pos h0]; exact .inl ⟨x, rfl, hx, by rw [hx.used_zero.1 h0, Nat.zero_mul], fun h => by omega⟩
  rw [if_neg h0]
  by_cases h1 : m.used = 0
  · rw [if_pos h1]; exact .inl ⟨_, rfl, Ok.zero _, by rw [hm.used_zero.1 h1, Nat.mul_zero]; rfl, fun _ h => by omega⟩
  rw [if_neg h1]
  have v1 : ∀ {z : Big}, z.used = 1 → z.value = z.f 0 := by
    intro z hz; unfold Big.value; rw [hz]; simp [val]
  by_cases h2 : m.used = 1
  · rw [if_pos h2, ldB (by omega), R.ok_bind, v1 h2, if_neg (by omega)]
    rcases mul32_ok hx (hm.1.2 0 (by omega)) with ⟨y, e, hy, hv⟩ | ⟨y, e, hy, hv⟩
    · exact .inl ⟨y, e, hy, hv, fun _ h => by omega⟩
    · exact .inr ⟨y, e, hy, hv⟩
  rw [if_neg h2]
  by_cases h3 : x.used = 1
  · rw [if_pos h3, ldB (by omega), R.ok_bind, v1 h3, if_neg (by omega), Nat.mul_comm]
    rcases mul32_ok hm (hx.1.2 0 (by omega)) with ⟨y, e, hy, hv⟩ | ⟨y, e, hy, hv⟩
    · exact .inl ⟨y, e, hy, hv, fun h _ => by omega⟩
    · exact .inr ⟨y, e, hy, hv⟩
  rw [if_neg h3, if_pos (by omega)]
  dsimp only
  have key : ∀ a b : Big, Ok a → Ok b → a.used ≠ 0 → b.used ≠ 0 → a.value * b.value = x.value * m.value →
      (∃ y, (do match ← mulOuter a b a.used 0 (empty g) with
          | none => .ok (⟨0, x.f⟩, false)
          | some res => .ok (res, true) : R (Big × Bool)) = .ok (y, true) ∧ Ok y ∧ y.value = x.value * m.value ∧ (1 < x.used → 1 < m.used → x.value * m.value < (2 ^ 32) ^ (cap - 1))) ∨
      (∃ y, (do match ← mulOuter a b a.used 0 (empty g) with
          | none => .ok (⟨0, x.f⟩, false)
          | some res => .ok (res, true) : R (Big × Bool)) = .ok (y, false) ∧ y.used = 0 ∧ (2 ^ 32) ^ (cap - 1) ≤ x.value * m.value) := by
    intro a b ha hb ha0 hb0 hab
    rcases outer_ok ha hb hb0 ha0 a.used 0 (empty g) (Nat.zero_add _) (Ok.zero g).1 (Nat.zero_le _) (show 0 < cap by decide) (Nat.zero_le _) (by simp [val, empty, Big.value]) (fun h => absurd rfl h) with
      ⟨r, e, hr, hv, hu⟩ | ⟨e, hv⟩
    · rw [e, R.ok_bind]
      refine .inl ⟨r, rfl, hr, by rw [hv, hab], fun _ _ => ?_⟩
      rw [← hab, ← hv]
      exact lt_of_lt_of_le hr.1.lt (powB_mono (by omega))
    · rw [e, R.ok_bind]
      exact .inr ⟨_, rfl, rfl, by rw [← hab]; exact hv⟩
  by_cases hs : m.used < x.used
  · simp only [hs, decide_true, if_true]
    exact key m x hm hx h1 h0 (Nat.mul_comm _ _)
  · simp only [hs, decide_false, Bool.false_eq_true, if_false]
    exact key x m hx hm h0 h1 rfl

end STL.BigInt
