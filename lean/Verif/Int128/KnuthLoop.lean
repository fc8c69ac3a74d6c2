import Verif.Int128.Knuth

/-! # Correctness of `_Knuth_4_3_1_D`: the main loop -/

namespace STL.Digits
open STL

/-- Truncated division of a value by a positive one is determined by its bounds. -/
theorem div_mod_of {U V q r : Nat} (h : U = q * V + r) (hr : r < V) : U / V = q ∧ U % V = r := by
  subst h
  have hV : 0 < V := by omega
  constructor
  · rw [Nat.add_comm, Nat.mul_comm, Nat.add_mul_div_left _ _ hV, Nat.div_eq_of_lt hr, Nat.zero_add]
  · rw [Nat.add_comm, Nat.mul_comm, Nat.add_mul_mod_self_left, Nat.mod_eq_of_lt hr]

/-- The first estimate is not too small. -/
theorem trial_start {T u2 ul v1 v2 vl P b : Nat} (hu2 : u2 < b) (hul : ul < P) (hv1 : 0 < v1) : ((T * b + u2) * P + ul) / ((v1 * b + v2) * P + vl) ≤ T / v1 := by
  rw [Nat.le_div_iff_mul_le hv1]
  generalize hqq : ((T * b + u2) * P + ul) / ((v1 * b + v2) * P + vl) = qq
  have h1 : qq * ((v1 * b + v2) * P + vl) ≤ (T * b + u2) * P + ul := by
    rw [← hqq]; exact Nat.div_mul_le_self _ _
  have h2 : qq * (v1 * b * P) ≤ qq * ((v1 * b + v2) * P + vl) := by
    apply Nat.mul_le_mul_left
    have : (v1 * b + v2) * P = v1 * b * P + v2 * P := by ring
    omega
  have h3 : (T * b + u2) * P + ul < (T + 1) * (b * P) := by
    have h4 : (T * b + u2 + 1) * P ≤ ((T + 1) * b) * P := Nat.mul_le_mul_right _ (by rw [Nat.add_mul]; omega)
    have h5 : (T * b + u2 + 1) * P = (T * b + u2) * P + P := by ring
    have h6 : ((T + 1) * b) * P = (T + 1) * (b * P) := by ring
    omega
  have h4 : qq * (v1 * b * P) = qq * v1 * (b * P) := by ring
  rw [h4] at h2
  have h5 : qq * v1 * (b * P) < (T + 1) * (b * P) := by omega
  have := Nat.lt_of_mul_lt_mul_right h5
  omega

theorem knuthStep_ok {n : Nat} (hn : 2 ≤ n) {v : Arr} (hv : W32 v) (hvn : n ≤ v.size) (hvt : 2 ^ 31 ≤ v.f (n - 1)) {u q : Arr} (hu : W32 u) {j : Nat} (hj : j + n < u.size) (hjq : j < q.size)
    (hlt : val (2 ^ 32) u.f j (n + 1) < 2 ^ 32 * val (2 ^ 32) v.f 0 n) :
    ∃ u', knuthStep n v j u q = .ok (u', ⟨q.size, fun x => if x = j then val (2 ^ 32) u.f j (n + 1) / val (2 ^ 32) v.f 0 n else q.f x⟩) ∧
      u'.size = u.size ∧ W32 u' ∧ (∀ x, x < j ∨ j + n < x → u'.f x = u.f x) ∧ val (2 ^ 32) u'.f j (n + 1) = val (2 ^ 32) u.f j (n + 1) % val (2 ^ 32) v.f 0 n := by
  obtain ⟨m, rfl⟩ : ∃ m, n = m + 2 := ⟨n - 2, by omega⟩
  rw [show m + 2 - 1 = m + 1 by omega] at hvt
  unfold knuthStep
  have b0 := hu (j + (m + 2)) (by omega)
  have b1 := hu (j + (m + 2) - 1) (by omega)
  have b2 := hu (j + (m + 2) - 2) (by omega)
  have c1 := hv (m + 1) (by omega)
  have c2 := hv m (by omega)
  rw [ld_ok (by omega), R.ok_bind, if_neg (by omega : ¬ m + 2 < 2), ld_ok (by omega), R.ok_bind, ld_ok (by omega), R.ok_bind, ld_ok (by omega), R.ok_bind, two_words b0 b1]
  simp only [show m + 2 - 1 = m + 1 by omega, show m + 2 - 2 = m by omega]
  rw [if_neg (by omega), ld_ok (by omega), R.ok_bind]
  have eU : val (2 ^ 32) u.f j (m + 2 + 1) = ((u.f (j + (m + 2)) * 2 ^ 32 + u.f (j + (m + 2) - 1)) * 2 ^ 32 + u.f (j + (m + 2) - 2)) * (2 ^ 32) ^ m + val (2 ^ 32) u.f j m := by
    rw [val_succ, val_succ, val_succ, show j + (m + 2) - 1 = j + (m + 1) by omega, show j + (m + 2) - 2 = j + m by omega]; ring
  have eV : val (2 ^ 32) v.f 0 (m + 2) = (v.f (m + 1) * 2 ^ 32 + v.f m) * (2 ^ 32) ^ m + val (2 ^ 32) v.f 0 m := by
    rw [val_succ, val_succ, show 0 + (m + 1) = m + 1 by omega, Nat.zero_add]; ring
  have hul : val (2 ^ 32) u.f j m < (2 ^ 32) ^ m := val_lt fun i h1 h2 => hu i (by omega)
  have hvl : val (2 ^ 32) v.f 0 m < (2 ^ 32) ^ m := val_lt fun i h1 h2 => hv i (by omega)
  have hVlt : val (2 ^ 32) v.f 0 (m + 2) < (2 ^ 32) ^ (m + 2) := val_lt fun i h1 h2 => hv i (by omega)
  have hVpos : 0 < val (2 ^ 32) v.f 0 (m + 2) := by
    by_contra hc
    have hz : val (2 ^ 32) v.f 0 (m + 2) = 0 := by omega
    rw [hz] at hlt; omega
  have hT := Nat.div_add_mod (u.f (j + (m + 2)) * 2 ^ 32 + u.f (j + (m + 2) - 1)) (v.f (m + 1))
  rw [Nat.mul_comm] at hT
  have hqT : val (2 ^ 32) u.f j (m + 2 + 1) / val (2 ^ 32) v.f 0 (m + 2) ≤ (u.f (j + (m + 2)) * 2 ^ 32 + u.f (j + (m + 2) - 1)) / v.f (m + 1) := by
    rw [eU, eV]
    exact trial_start b2 hul (by omega)
  obtain ⟨qh, e1, q1, q2, q3⟩ := qhatLoop_ok (v1 := v.f (m + 1)) (v2 := v.f m) (vl := val (2 ^ 32) v.f 0 m) (P := (2 ^ 32) ^ m) (T := u.f (j + (m + 2)) * 2 ^ 32 + u.f (j + (m + 2) - 1))
    (u2 := u.f (j + (m + 2) - 2)) (ul := val (2 ^ 32) u.f j m) (by omega) c1 c2 hvl b2 hul (by rw [← eU, ← eV]; exact hlt) rfl 3 _ _ hT (by rw [← eU, ← eV]; exact hqT)
    (by have := Nat.mod_lt (u.f (j + (m + 2)) * 2 ^ 32 + u.f (j + (m + 2) - 1)) (by omega : 0 < v.f (m + 1)); omega)
    (lt_of_le_of_lt (Nat.div_le_self _ _) (by omega)) (by omega)
  rw [← eU, ← eV] at q2 q3
  rw [e1, R.ok_bind]
  obtain ⟨u1, k1, e2, s1, w1, k10, k11, o1, v1⟩ := mulSub_ok q1 hv (j := j) hvn (m + 2) 0 u 0 (by omega) hu (by omega) (by omega) (by omega)
  rw [e2, R.ok_bind]
  dsimp only
  simp only [Nat.zero_add] at o1 v1
  have hu1 : u1.f (j + (m + 2)) = u.f (j + (m + 2)) := o1 _ (by omega)
  rw [ld_ok (by omega), R.ok_bind, i64_ok (by omega), R.ok_bind, st_ok (by omega), R.ok_bind, st_ok hjq, R.ok_bind, hu1]
  have hU := val_succ (2 ^ 32) u.f j (m + 2)
  have hL1 : val (2 ^ 32) u1.f j (m + 2) < (2 ^ 32) ^ (m + 2) := val_lt fun i h1 h2 => w1 i (by omega)
  generalize ht : (u.f (j + (m + 2)) : Int) - k1 = t
  -- the signed value of the window
  have hW : (val (2 ^ 32) u.f j (m + 2 + 1) : Int) - qh * val (2 ^ 32) v.f 0 (m + 2) = t * (2 ^ 32) ^ (m + 2) + val (2 ^ 32) u1.f j (m + 2) := by
    rw [hU, ← ht]
    generalize val (2 ^ 32) u1.f j (m + 2) = A at v1 ⊢
    generalize val (2 ^ 32) u.f j (m + 2) = B at v1 ⊢
    generalize val (2 ^ 32) v.f 0 (m + 2) = C at v1 ⊢
    push_cast at v1 ⊢
    linear_combination -v1
  generalize hA : val (2 ^ 32) u1.f j (m + 2) = A at *
  generalize hB : val (2 ^ 32) u.f j (m + 2 + 1) = B at *
  generalize hC : val (2 ^ 32) v.f 0 (m + 2) = C at *
  generalize hE : (2 ^ 32) ^ (m + 2) = E at *
  have hE' : ((2 : Int) ^ 32) ^ (m + 2) = (E : Int) := by rw [← hE]; push_cast; rfl
  rw [hE'] at hW
  have hdm := Nat.div_add_mod B C
  have hml := Nat.mod_lt B hVpos
  have hqc : qh = B / C ∨ qh = B / C + 1 := by omega
  have hCE : C < E := hVlt
  generalize hq0 : B / C = q0 at *
  generalize hr0 : B % C = r0 at *
  have hwin : (t = 0 ∧ qh = q0 ∧ A = r0) ∨ (t = -1 ∧ qh = q0 + 1 ∧ A + C = r0 + E) ∨ (0 < t ∧ False) := by
    rcases hqc with rfl | rfl
    · have h1 : (r0 : Int) = t * E + A := by
        rw [← hW, ← hdm]; push_cast; ring
      left
      have h2 : t = 0 := by
        by_contra hc
        rcases lt_or_gt_of_ne hc with h3 | h3
        · have : t * E ≤ -1 * E := Int.mul_le_mul_of_nonneg_right (by omega) (by omega)
          omega
        · have : 1 * (E : Int) ≤ t * E := Int.mul_le_mul_of_nonneg_right (by omega) (by omega)
          omega
      subst h2
      exact ⟨rfl, rfl, by omega⟩
    · have h1 : (r0 : Int) - C = t * E + A := by
        rw [← hW, ← hdm]; push_cast; ring
      right; left
      have h2 : t = -1 := by
        by_contra hc
        rcases lt_or_gt_of_ne hc with h3 | h3
        · have : t * E ≤ -2 * E := Int.mul_le_mul_of_nonneg_right (by omega) (by omega)
          omega
        · have : 0 * (E : Int) ≤ t * E := Int.mul_le_mul_of_nonneg_right (by omega) (by omega)
          omega
      subst h2
      exact ⟨rfl, rfl, by omega⟩
  rcases hwin with ⟨rfl, rfl, rfl⟩ | ⟨rfl, rfl, hAC⟩ | ⟨_, hf⟩
  · rw [if_neg (by omega), Nat.mod_eq_of_lt q1]
    refine ⟨_, rfl, s1, ?_, ?_, ?_⟩
    · intro x hx
      simp only
      split
      · norm_num
      · exact w1 x hx
    · intro x hx
      simp only
      rw [if_neg (by omega)]
      exact o1 x (by omega)
    · rw [val_succ, val_st _ _ _ _ _ _ (by omega), hA]
      simp
  · rw [if_pos (by omega), ld_ok (by exact hjq), R.ok_bind, st_ok (by exact hjq), R.ok_bind]
    have w2 : W32 ⟨u1.size, fun x => if x = j + (m + 2) then ((-1 : Int) % 2 ^ 32).toNat else u1.f x⟩ := by
      intro x hx
      simp only
      split
      · norm_num
      · exact w1 x hx
    obtain ⟨u2, k2, e3, s2, w3, k20, k21, o2, v2⟩ := addBack_ok hv (j := j) hvn (m + 2) 0 _ 0 (by omega) w2 (by simp only; omega) (by omega) (by omega)
    rw [e3, R.ok_bind]
    dsimp only
    simp only [Nat.zero_add] at o2 v2 s2
    rw [val_st _ _ _ _ _ _ (by omega), hA, hC, hE'] at v2
    have hu2 : u2.f (j + (m + 2)) = 2 ^ 32 - 1 := by rw [o2 _ (by omega)]; simp
    rw [ld_ok (by omega), R.ok_bind, st_ok (by omega), R.ok_bind, hu2]
    have hL2 : val (2 ^ 32) u2.f j (m + 2) < E := by rw [← hE]; exact val_lt fun i h1 h2 => w3 i (by omega)
    have hk2 : k2 = 1 := by
      by_contra hc
      have : k2 = 0 := by omega
      subst this
      omega
    subst hk2
    have hu0 : (((2 ^ 32 - 1 : Nat) : Int) + 1) % 2 ^ 32 = 0 := by norm_num
    rw [hu0]
    refine ⟨⟨u2.size, fun x => if x = j + (m + 2) then 0 else u2.f x⟩, ?_, by simp only; omega, ?_, ?_, ?_⟩
    · have : ((q0 + 1) % 2 ^ 32 + 2 ^ 32 - 1) % 2 ^ 32 = q0 := by omega
      have hf : (fun x => if x = j then q0 else if x = j then (q0 + 1) % 2 ^ 32 else q.f x) = (fun x => if x = j then q0 else q.f x) := by
        funext x
        by_cases h : x = j
        · rw [if_pos h, if_pos h]
        · rw [if_neg h, if_neg h, if_neg h]
      simp only [this, if_true, hf, Int.toNat_zero]
    · intro x hx
      simp only
      split
      · norm_num
      · exact w3 x hx
    · intro x hx
      simp only
      rw [if_neg (by omega), o2 x (by omega), if_neg (by omega)]
      exact o1 x (by omega)
    · rw [val_succ, val_st _ _ _ _ _ _ (by omega)]
      simp only [if_true]
      omega
  · exact hf.elim

/-- The main loop: the rounds `j - 1, …, 0`. -/
theorem knuthLoop_ok {n : Nat} (hn : 2 ≤ n) {v : Arr} (hv : W32 v) (hvn : n ≤ v.size) (hvt : 2 ^ 31 ≤ v.f (n - 1)) :
    ∀ (j : Nat) (u q : Arr), W32 u → j + n ≤ u.size → j ≤ q.size → val (2 ^ 32) u.f j n < val (2 ^ 32) v.f 0 n →
      ∃ u' q', knuthLoop n v j u q = .ok (u', q') ∧ u'.size = u.size ∧ q'.size = q.size ∧ W32 u' ∧ (∀ x, j + n ≤ x → u'.f x = u.f x) ∧ (∀ x, j ≤ x → q'.f x = q.f x) ∧
        (∀ x, x < j → q'.f x < 2 ^ 32) ∧ (∀ x, n ≤ x → x < j + n → u'.f x = 0) ∧
        val (2 ^ 32) u.f 0 (j + n) = val (2 ^ 32) q'.f 0 j * val (2 ^ 32) v.f 0 n + val (2 ^ 32) u'.f 0 n ∧ val (2 ^ 32) u'.f 0 n < val (2 ^ 32) v.f 0 n := by
  intro j
  induction j with
  | zero =>
    intro u q h1 h2 h3 h4
    refine ⟨u, q, rfl, rfl, rfl, h1, fun _ _ => rfl, fun _ _ => rfl, fun _ h => by omega, fun _ _ _ => by omega, ?_, h4⟩
    simp [val]
  | succ j ih =>
    intro u q h1 h2 h3 h4
    unfold knuthLoop
    have hlt : val (2 ^ 32) u.f j (n + 1) < 2 ^ 32 * val (2 ^ 32) v.f 0 n := by
      rw [val_cons]
      have := h1 j (by omega)
      have : 2 ^ 32 * (val (2 ^ 32) u.f (j + 1) n + 1) ≤ 2 ^ 32 * val (2 ^ 32) v.f 0 n := Nat.mul_le_mul_left _ h4
      omega
    obtain ⟨u1, e1, s1, w1, o1, v1⟩ := knuthStep_ok hn hv hvn hvt h1 (by omega : j + n < u.size) (by omega : j < q.size) hlt
    rw [e1, R.ok_bind]
    have hVp : 0 < val (2 ^ 32) v.f 0 n := by omega
    have hVlt : val (2 ^ 32) v.f 0 n < (2 ^ 32) ^ n := val_lt fun i h1 h2 => hv i (by omega)
    have hm := Nat.mod_lt (val (2 ^ 32) u.f j (n + 1)) hVp
    have hdm := Nat.div_add_mod (val (2 ^ 32) u.f j (n + 1)) (val (2 ^ 32) v.f 0 n)
    rw [← v1] at hm hdm
    have htop : u1.f (j + n) = 0 := by
      rw [val_succ] at hm
      by_contra hc
      have : 1 * (2 ^ 32) ^ n ≤ u1.f (j + n) * (2 ^ 32) ^ n := Nat.mul_le_mul_right _ (by omega)
      omega
    have hlow : val (2 ^ 32) u1.f j (n + 1) = val (2 ^ 32) u1.f j n := by rw [val_succ, htop]; omega
    obtain ⟨u2, q2, e2, s2, sq, w2, o2, oq, bq, z2, f2, l2⟩ := ih u1 ⟨q.size, fun x => if x = j then val (2 ^ 32) u.f j (n + 1) / val (2 ^ 32) v.f 0 n else q.f x⟩ w1 (by omega) (by simp only; omega) (by rw [← hlow]; exact hm)
    simp only at e2 sq oq
    refine ⟨u2, q2, e2, by omega, sq, w2, fun x hx => ?_, fun x hx => ?_, fun x hx => ?_, fun x h5 h6 => ?_, ?_, l2⟩
    · rw [o2 x (by omega), o1 x (by omega)]
    · rw [oq x (by omega), if_neg (by omega)]
    · by_cases hxj : x = j
      · subst hxj
        rw [oq _ (by omega), if_pos rfl, Nat.div_lt_iff_lt_mul hVp]
        exact hlt
      · exact bq x (by omega)
    · by_cases hxj : x = j + n
      · subst hxj; rw [o2 _ (by omega), htop]
      · exact z2 x h5 (by omega)
    · have hqj : q2.f j = val (2 ^ 32) u.f j (n + 1) / val (2 ^ 32) v.f 0 n := by rw [oq j (by omega), if_pos rfl]
      rw [val_succ, Nat.zero_add, hqj, show j + 1 + n = j + (n + 1) by omega, val_add, Nat.zero_add]
      rw [val_add, Nat.zero_add] at f2
      have hl : val (2 ^ 32) u.f 0 j = val (2 ^ 32) u1.f 0 j := val_congr fun i _ hi => (o1 i (by omega)).symm
      generalize val (2 ^ 32) u.f j (n + 1) / val (2 ^ 32) v.f 0 n = Q at hdm ⊢
      rw [hl, ← hdm]
      rw [hlow, Nat.mul_add, ← Nat.add_assoc, Nat.add_right_comm, f2]
      ring

/-- `_Knuth_4_3_1_D`: for a divisor of at least two digits with the top bit set, and a dividend whose leading `__v_size` digits are below the divisor, the array `__q`
receives the quotient and the array `__u` the remainder. -/
theorem knuthD_ok {us n : Nat} (hn : 2 ≤ n) {u v q : Arr} (hu : W32 u) (hv : W32 v) (hus : us = u.size) (hun : n < us) (hvn : n ≤ v.size) (hq : us - n ≤ q.size) (hvt : 2 ^ 31 ≤ v.f (n - 1))
    (hlt : val (2 ^ 32) u.f (us - n) n < val (2 ^ 32) v.f 0 n) :
    ∃ u' q', knuthD u us v n q = .ok (u', q') ∧ u'.size = u.size ∧ q'.size = q.size ∧ W32 u' ∧ (∀ x, us - n ≤ x → q'.f x = q.f x) ∧ (∀ x, x < us - n → q'.f x < 2 ^ 32) ∧
      (∀ x, n ≤ x → x < us → u'.f x = 0) ∧
      val (2 ^ 32) q'.f 0 (us - n) = val (2 ^ 32) u.f 0 us / val (2 ^ 32) v.f 0 n ∧ val (2 ^ 32) u'.f 0 n = val (2 ^ 32) u.f 0 us % val (2 ^ 32) v.f 0 n := by
  obtain ⟨u', q', e1, s1, s2, w1, _, oq, bq, z, f, l⟩ := knuthLoop_ok hn hv hvn hvt (us - n) u q hu (by omega) hq hlt
  rw [show us - n + n = us by omega] at f
  obtain ⟨h1, h2⟩ := div_mod_of f l
  exact ⟨u', q', e1, s1, s2, w1, oq, bq, fun x h3 h4 => z x h3 (by omega), h1.symm, h2.symm⟩

end STL.Digits
