import Verif.BigInt.Div2

/-! # Big integers: the division function -/

namespace STL.BigInt
open STL Digits

theorem divLoop_ok {d : Big} (hd : Ok d) {v1 v2 sh : Nat} (N : Norm d v1 v2 sh) : ∀ (k : Nat) (x : Big) (mx q : Nat), WF x → k + d.used ≤ mx + 2 → mx < x.used → q < 2 ^ 64 →
    val (2 ^ 32) x.f 0 (mx + 1) < d.value * (2 ^ 32) ^ k →
    ∃ x' mx', divLoop d v1 v2 sh k x mx q = .ok (x', mx', (q * (2 ^ 32) ^ k + val (2 ^ 32) x.f 0 (mx + 1) / d.value) % 2 ^ 64) ∧ WF x' ∧ x'.used = x.used ∧ mx' < x.used ∧
      val (2 ^ 32) x'.f 0 (mx' + 1) = val (2 ^ 32) x.f 0 (mx + 1) % d.value := by
  intro k
  induction k with
  | zero =>
    intro x mx q hx h1 h2 hq hlt
    rw [pow_zero, Nat.mul_one] at hlt
    refine ⟨x, mx, ?_, hx, rfl, h2, (Nat.mod_eq_of_lt hlt).symm⟩
    rw [divLoop, pow_zero, Nat.mul_one, Nat.div_eq_of_lt hlt, Nat.add_zero, Nat.mod_eq_of_lt hq]
  | succ iu ih =>
    intro x mx q hx h1 h2 hq hlt
    unfold divLoop
    obtain ⟨x1, mx1, e1, hw1, hu1, hm1, hm1', hv1⟩ := divStep_ok hx hd N (mx := mx) (iu := iu) (by omega) h2 hlt
    rw [e1, R.ok_bind]
    dsimp only
    have hd0 : 0 < d.value := by
      rcases Nat.eq_zero_or_pos d.value with h | h
      · rw [h, Nat.zero_mul] at hlt; omega
      · exact h
    have hP := Nat.mul_pos hd0 (powB_pos iu)
    obtain ⟨V, hV⟩ : ∃ V, V = val (2 ^ 32) x.f 0 (mx + 1) := ⟨_, rfl⟩
    rw [← hV] at hv1 hlt ⊢
    have hq1 : V / (d.value * (2 ^ 32) ^ iu) < 2 ^ 32 := by
      rw [Nat.div_lt_iff_lt_mul hP, show (2 ^ 32 : Nat) * (d.value * (2 ^ 32) ^ iu) = d.value * (2 ^ 32) ^ (iu + 1) by rw [pow_succ]; ring]
      exact hlt
    rw [Nat.mod_eq_of_lt hq1, Nat.shiftLeft_eq]
    obtain ⟨x2, mx2, e2, hw2, hu2, hm2, hv2⟩ := ih x1 mx1 ((q * 2 ^ 32 % 2 ^ 64 + V / (d.value * (2 ^ 32) ^ iu)) % 2 ^ 64) hw1 (by have := N.n2; omega) (by omega) (Nat.mod_lt _ (by norm_num))
      (by rw [hv1]; exact Nat.mod_lt _ hP)
    rw [e2]
    refine ⟨x2, mx2, ?_, hw2, by omega, by omega, ?_⟩
    · rw [hv1, q_arith, show (2 ^ 32 : Nat) ^ (iu + 1) = (2 ^ 32) ^ iu * 2 ^ 32 from pow_succ _ _]
      congr 3
      have hdm := Nat.div_add_mod V (d.value * (2 ^ 32) ^ iu)
      have : V = V % (d.value * (2 ^ 32) ^ iu) + d.value * (V / (d.value * (2 ^ 32) ^ iu) * (2 ^ 32) ^ iu) := by
        nth_rw 1 [← hdm]; ring
      conv_rhs => rw [this]
      rw [Nat.add_mul_div_left _ _ hd0]
      omega
    · rw [hv2, hv1, Nat.mod_mod_of_dvd _ (Nat.dvd_mul_right _ _)]

theorem cmpTop_ok {x d : Big} (hx : WF x) (hd : WF d) (diff : Nat) : ∀ n, n ≤ d.used → n + diff ≤ x.used →
    cmpTop x d diff n = .ok (decide (val (2 ^ 32) d.f 0 n ≤ val (2 ^ 32) x.f diff n)) := by
  intro n
  induction n with
  | zero => intro _ _; rfl
  | succ n ih =>
    intro h1 h2
    unfold cmpTop
    rw [ldB (by omega), R.ok_bind, ldB (by omega), R.ok_bind, val_succ, val_succ, Nat.zero_add]
    have l1 : val (2 ^ 32) d.f 0 n < (2 ^ 32) ^ n := val_lt fun i _ h => hd.2 i (by omega)
    have l2 : val (2 ^ 32) x.f diff n < (2 ^ 32) ^ n := val_lt fun i _ h => hx.2 i (by omega)
    rw [Nat.add_comm n diff]
    generalize (2 ^ 32) ^ n = P at *
    by_cases he : d.f n = x.f (diff + n)
    · rw [if_neg (by simpa using he), ih (by omega) (by omega), he]
      congr 1
      rw [decide_eq_decide]
      omega
    · rw [if_pos he]
      congr 1
      rw [decide_eq_decide]
      generalize d.f n = a at *
      generalize x.f (diff + n) = b at *
      constructor
      · intro h
        have : (a + 1) * P ≤ b * P := Nat.mul_le_mul_right _ h
        rw [Nat.add_mul] at this
        omega
      · intro h
        by_contra hc
        have : (b + 1) * P ≤ a * P := Nat.mul_le_mul_right _ (by omega)
        rw [Nat.add_mul] at this
        omega

theorem trim_ok {x : Big} (hx : WF x) : ∀ u, u ≤ x.used → ∃ v, trim x u = .ok v ∧ Ok ⟨v, x.f⟩ ∧ (Big.mk v x.f).value = val (2 ^ 32) x.f 0 u := by
  intro u
  induction u with
  | zero => intro _; exact ⟨0, rfl, Ok.zero _, rfl⟩
  | succ u ih =>
    intro h
    unfold trim
    rw [ldB (by omega), R.ok_bind]
    by_cases h0 : x.f u = 0
    · rw [if_pos h0]
      obtain ⟨v, e, ho, hv⟩ := ih (by omega)
      exact ⟨v, e, ho, by rw [hv, val_succ, Nat.zero_add, h0, Nat.zero_mul, Nat.add_zero]⟩
    · rw [if_neg h0]
      exact ⟨u + 1, rfl, ⟨⟨le_trans h hx.1, fun i hi => hx.2 i (lt_of_lt_of_le hi h)⟩, fun _ => h0⟩, rfl⟩

/-- Top words of the divisor after normalization. -/
theorem norm_den {d : Big} (hd : Ok d) (hn : 2 ≤ d.used) :
    ∃ v1 v2, ((if 32 - Nat.size (d.f (d.used - 1)) > 0 then do
        let den := (d.f (d.used - 1) <<< (32 - Nat.size (d.f (d.used - 1)))) % 2 ^ 32 ||| (d.f (d.used - 2) >>> (32 - (32 - Nat.size (d.f (d.used - 1)))))
        let den2 := (d.f (d.used - 2) <<< (32 - Nat.size (d.f (d.used - 1)))) % 2 ^ 32
        if d.used > 2 then .ok (den, den2 ||| ((← d.ld (d.used - 3)) >>> (32 - (32 - Nat.size (d.f (d.used - 1)))))) else .ok (den, den2)
      else .ok (d.f (d.used - 1), d.f (d.used - 2)) : R (Nat × Nat))) = .ok (v1, v2) ∧ Norm d v1 v2 (32 - Nat.size (d.f (d.used - 1))) := by
  obtain ⟨n, hn'⟩ : ∃ n, d.used = n + 2 := ⟨d.used - 2, by omega⟩
  have ht := hd.2 (by omega)
  have hw1 := hd.1.2 (d.used - 1) (by omega)
  have hw2 := hd.1.2 (d.used - 2) (by omega)
  rw [hn'] at ht hw1 hw2 ⊢
  rw [show n + 2 - 1 = n + 1 by omega] at ht hw1 ⊢
  rw [Nat.add_sub_cancel] at hw2 ⊢
  have hs : 0 < Nat.size (d.f (n + 1)) := Nat.size_pos.2 (by omega)
  have a1 : 2 ^ (Nat.size (d.f (n + 1)) - 1) ≤ d.f (n + 1) := Nat.lt_size.1 (by omega)
  have a2 : d.f (n + 1) < 2 ^ Nat.size (d.f (n + 1)) := Nat.lt_size_self _
  have a3 : Nat.size (d.f (n + 1)) ≤ 32 := Nat.size_le.2 hw1
  obtain ⟨sh, hsh⟩ : ∃ sh, sh = 32 - Nat.size (d.f (n + 1)) := ⟨_, rfl⟩
  rw [← hsh]
  have hsh32 : sh < 32 := by omega
  have hs1 : Nat.size (d.f (n + 1)) - 1 = 31 - sh := by omega
  have hs2 : Nat.size (d.f (n + 1)) = 32 - sh := by omega
  rw [hs1] at a1
  rw [hs2] at a2
  have b1 : 2 ^ 31 ≤ d.f (n + 1) * 2 ^ sh := by
    calc 2 ^ 31 = 2 ^ (31 - sh) * 2 ^ sh := by rw [← pow_add]; congr 1; omega
      _ ≤ _ := Nat.mul_le_mul_right _ a1
  have b2 : (d.f (n + 1) + 1) * 2 ^ sh ≤ 2 ^ 32 := by
    calc (d.f (n + 1) + 1) * 2 ^ sh ≤ 2 ^ (32 - sh) * 2 ^ sh := Nat.mul_le_mul_right _ a2
      _ = 2 ^ 32 := by rw [← pow_add]; congr 1; omega
  rw [Nat.add_mul, Nat.one_mul] at b2
  have hps := Nat.two_pow_pos sh
  have b3 : d.f n / 2 ^ (32 - sh) < 2 ^ sh := by
    rw [Nat.div_lt_iff_lt_mul (Nat.two_pow_pos _), ← pow_add, show sh + (32 - sh) = 32 by omega]; exact hw2
  obtain ⟨w3, hw3⟩ : ∃ w3, w3 = if n = 0 then 0 else d.f (n - 1) := ⟨_, rfl⟩
  have hw3' : w3 < 2 ^ 32 := by
    rw [hw3]
    by_cases hc : n = 0
    · rw [if_pos hc]; norm_num
    · rw [if_neg hc]; exact hd.1.2 _ (by omega)
  refine ⟨d.f (n + 1) * 2 ^ sh + d.f n / 2 ^ (32 - sh), d.f n * 2 ^ sh % 2 ^ 32 + w3 / 2 ^ (32 - sh), ?_, ⟨hn, hsh32, ?_, by omega, lo_lt hsh32 hw3', ?_⟩⟩
  rotate_left
  · exact le_trans (by omega : 2 ^ 32 ≤ 2 * (d.f (n + 1) * 2 ^ sh)) (Nat.mul_le_mul_left 2 (Nat.le_add_right _ _))
  rotate_left
  · by_cases h0 : sh = 0
    · rw [if_neg (by omega)]
      congr 2
      · rw [h0, pow_zero, Nat.mul_one, Nat.sub_zero, Nat.div_eq_of_lt hw2]; rfl
      · rw [h0, pow_zero, Nat.mul_one, Nat.sub_zero, Nat.div_eq_of_lt hw3', Nat.mod_eq_of_lt hw2]; rfl
    · rw [if_pos (by omega)]
      dsimp only
      rw [norm_hi (by omega) hsh32 hw2 (by omega : d.f (n + 1) * 2 ^ sh < 2 ^ 32)]
      by_cases h3 : n = 0
      · rw [if_neg (by omega), hw3, if_pos h3, Nat.zero_div, Nat.shiftLeft_eq]; rfl
      · rw [if_pos (by omega), ldB (by omega), R.ok_bind, norm_lo (by omega) hsh32 (hd.1.2 _ (by omega)), hw3, if_neg h3, show n + 2 - 3 = n - 1 by omega]
  · rw [hn', Nat.add_sub_cancel]
    obtain ⟨ul, hul, he⟩ := norm_val (a := d.f (n + 1)) (w2 := d.f n) (w3 := w3) (sh := sh) (Q := (2 ^ 32) ^ n) (rest := val (2 ^ 32) d.f 0 n)
      (P3 := (2 ^ 32) ^ (n - 1)) hsh32 hw2 (by
        by_cases hc : n = 0
        · refine .inl ⟨by rw [hc, pow_zero], by rw [hc]; rfl, by rw [hw3, if_pos hc]⟩
        · refine .inr ⟨by rw [← pow_succ]; congr 1; omega, val (2 ^ 32) d.f 0 (n - 1), ?_, val_lt fun i _ h => hd.1.2 i (by omega)⟩
          rw [hw3, if_neg hc]
          obtain ⟨k, hk⟩ : ∃ k, n = k + 1 := ⟨n - 1, by omega⟩
          rw [hk, val_succ, Nat.zero_add, Nat.add_sub_cancel]; omega)
    refine ⟨ul, hul, ?_⟩
    rw [← he]
    congr 1
    unfold Big.value
    rw [hn', val_succ, val_succ, Nat.zero_add, Nat.zero_add, show (2 ^ 32 : Nat) ^ (n + 1) = (2 ^ 32) ^ n * 2 ^ 32 from pow_succ _ _]
    ring

/-- Division by a non-zero number: the remainder, and the low 64 bits of the quotient. -/
theorem divide_ok {x d : Big} (hx : Ok x) (hd : Ok d) (h0 : d.value ≠ 0) :
    ∃ r, divide x d = .ok (r, x.value / d.value % 2 ^ 64) ∧ Ok r ∧ r.value = x.value % d.value := by
  unfold divide
  have hd0 : d.used ≠ 0 := fun h => h0 (hd.used_zero.1 h)
  by_cases hx0 : x.used = 0
  · rw [if_pos hx0]
    have := hx.used_zero.1 hx0
    exact ⟨x, by rw [this, Nat.zero_div, Nat.zero_mod], hx, by rw [this, Nat.zero_mod]⟩
  rw [if_neg hx0, if_neg hd0]
  by_cases h1 : d.used = 1
  · rw [if_pos h1, ldB (by omega), R.ok_bind]
    have hv := value_one h1
    rw [hv]
    exact divSmall_ok hx hx0 (by rw [hv] at h0; exact h0) (hd.1.2 0 (by omega))
  rw [if_neg h1]
  have small : x.value < d.value → (.ok (x, 0) : R (Big × Nat)) = .ok (x, x.value / d.value % 2 ^ 64) ∧ x.value = x.value % d.value := by
    intro h; rw [Nat.div_eq_of_lt h, Nat.zero_mod, Nat.mod_eq_of_lt h]; exact ⟨rfl, rfl⟩
  by_cases h2 : d.used > x.used
  · rw [if_pos h2]
    have hlt : x.value < d.value := by
      have a := hx.1.lt
      have b := hd.ge hd0
      have c := powB_mono (a := x.used) (b := d.used - 1) (by omega)
      omega
    exact ⟨x, (small hlt).1, hx, (small hlt).2⟩
  rw [if_neg h2]
  dsimp only
  rw [cmpTop_ok hx.1 hd.1 (x.used - d.used) d.used (le_refl _) (by omega), R.ok_bind]
  rw [val_eq_value rfl]
  obtain ⟨diff, hdiff⟩ : ∃ diff, x.used = d.used + diff := ⟨x.used - d.used, by omega⟩
  rw [show x.used - d.used = diff by omega]
  have hxv : x.value = val (2 ^ 32) x.f 0 diff + (2 ^ 32) ^ diff * val (2 ^ 32) x.f diff d.used := by
    unfold Big.value; rw [hdiff, Nat.add_comm d.used, val_add, Nat.zero_add]
  have hlow : val (2 ^ 32) x.f 0 diff < (2 ^ 32) ^ diff := val_lt fun i _ h => hx.1.2 i (by omega)
  have hdge := hd.ge hd0
  obtain ⟨k, hk, hkv, hkd⟩ : ∃ k, k = diff + (if decide (d.value ≤ val (2 ^ 32) x.f diff d.used) = true then 1 else 0) ∧ x.value < d.value * (2 ^ 32) ^ k ∧ (k = diff ∨ k = diff + 1) := by
    refine ⟨_, rfl, ?_⟩
    by_cases hc : d.value ≤ val (2 ^ 32) x.f diff d.used
    · simp only [hc, decide_true, if_true]
      refine ⟨?_, by simp⟩
      calc x.value < (2 ^ 32) ^ x.used := hx.1.lt
        _ = (2 ^ 32) ^ (d.used - 1) * (2 ^ 32) ^ (diff + 1) := by rw [← pow_add]; congr 1; omega
        _ ≤ _ := Nat.mul_le_mul_right _ hdge
    · simp only [hc, decide_false, Bool.false_eq_true, if_false, Nat.add_zero]
      refine ⟨?_, by simp⟩
      have : (val (2 ^ 32) x.f diff d.used + 1) * (2 ^ 32) ^ diff ≤ d.value * (2 ^ 32) ^ diff := Nat.mul_le_mul_right _ (by omega)
      rw [Nat.add_mul, Nat.mul_comm (val _ _ _ _)] at this
      omega
  rw [← hk]
  by_cases hk0 : k = 0
  · rw [if_pos hk0]
    rw [hk0, pow_zero, Nat.mul_one] at hkv
    exact ⟨x, (small hkv).1, hx, (small hkv).2⟩
  rw [if_neg hk0, ldB (by omega), R.ok_bind, ldB (by omega), R.ok_bind]
  obtain ⟨v1, v2, en, hN⟩ := norm_den hd (by omega)
  rw [en, R.ok_bind]
  dsimp only
  have hxu : x.used - 1 + 1 = x.used := by omega
  obtain ⟨y, mx, e, hyw, hyu, hm, hyv⟩ := divLoop_ok hd hN k x (x.used - 1) 0 hx.1 (by omega) (by omega) (by norm_num) (by rw [hxu, val_eq_value rfl]; exact hkv)
  rw [hxu, val_eq_value rfl, Nat.zero_mul, Nat.zero_add] at e
  rw [hxu, val_eq_value rfl] at hyv
  rw [e, R.ok_bind]
  dsimp only
  obtain ⟨v, et, ho, hv⟩ := trim_ok hyw (mx + 1) (by omega)
  rw [et, R.ok_bind]
  exact ⟨_, rfl, ho, by rw [hv, hyv]⟩

end STL.BigInt
