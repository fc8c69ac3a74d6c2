import Verif.Adaptors.Model
import Verif.Adaptors.Spec
import Mathlib.Data.Nat.Prime.Basic
import Mathlib.Tactic.Ring
import Mathlib.Tactic.Linarith

namespace STL.Adaptors

/-- The number of calls of the standard: the least `k` with `2^d ≤ R^k`. -/
structure LeastK (d R k : Nat) : Prop where
  ge : 2 ^ d ≤ R ^ k
  least : ∀ j, 2 ^ d ≤ R ^ j → k ≤ j

theorem LeastK.le {d R k : Nat} (h : LeastK d R k) (hR : 2 ≤ R) : k ≤ d :=
  h.least d (Nat.pow_le_pow_left hR d)

theorem LeastK.pos {d R k : Nat} (h : LeastK d R k) (hd : 0 < d) : 0 < k := by
  rcases Nat.eq_zero_or_pos k with rfl | hk
  · have := h.ge
    have h2 : 2 ^ 1 ≤ 2 ^ d := Nat.pow_le_pow_right (by decide) hd
    simp at this h2
    omega
  · exact hk

theorem LeastK.lt {d R k j : Nat} (h : LeastK d R k) (hj : j < k) : R ^ j < 2 ^ d := by
  by_contra hc
  have := h.least j (by omega)
  omega

theorem gcProd_eq {d R k : Nat} (h : LeastK d R k) (hd : d ≤ 64) (hR2 : R ≤ 2 ^ 64) :
    ∀ (fuel j : Nat), j ≤ k → k - j < fuel → gcProd R (2 ^ d) fuel (R ^ j) j = some (R ^ k, k)
  | 0, j, _, hf => by omega
  | fuel + 1, j, hj, hf => by
    unfold gcProd
    by_cases hlt : j < k
    · have h1 := h.lt hlt
      have h2 : 2 ^ d ≤ 2 ^ 64 := Nat.pow_le_pow_right (by decide) hd
      have h3 : R ^ j * R < 2 ^ 128 := by
        calc R ^ j * R ≤ R ^ j * 2 ^ 64 := Nat.mul_le_mul_left _ hR2
          _ < 2 ^ 64 * 2 ^ 64 := Nat.mul_lt_mul_of_pos_right (by omega) (by decide)
          _ = 2 ^ 128 := by decide
      rw [if_pos h1, Nat.mod_eq_of_lt h3, ← Nat.pow_succ]
      exact gcProd_eq h hd hR2 fuel (j + 1) hlt (by omega)
    · have e : j = k := by omega
      subst e
      rw [if_neg (by have := h.ge; omega)]

theorem gcBits_eq (p b : Nat) : gcBits p b = b + (if p = 0 then 0 else Nat.log 2 p + 1) := by
  induction p using Nat.strongRecOn generalizing b with
  | _ p ih =>
    unfold gcBits
    by_cases h : 0 < p
    · rw [if_pos h, Nat.shiftRight_eq_div_pow, Nat.pow_one, ih _ (by omega), if_neg (show p ≠ 0 by omega)]
      by_cases h1 : p = 1
      · subst h1; simp
      · rw [if_neg (by omega), Nat.log_of_one_lt_of_le (b := 2) (n := p) (by decide) (by omega)]
        omega
    · rw [if_neg h, if_pos (by omega), Nat.add_zero]

theorem Rk_lt {d R k : Nat} (h : LeastK d R k) (hd0 : 0 < d) (hd : d ≤ 64) (hR2 : R ≤ 2 ^ 64) :
    R ^ k < 2 ^ d * R ∨ R = 0 := by
  rcases Nat.eq_zero_or_pos R with rfl | hR
  · exact Or.inr rfl
  · have hk := h.pos hd0
    have h1 := h.lt (j := k - 1) (by omega)
    left
    calc R ^ k = R ^ (k - 1) * R := by rw [← Nat.pow_succ]; congr 1; omega
      _ < 2 ^ d * R := Nat.mul_lt_mul_of_pos_right h1 hR

theorem gcParams_eq {d R k : Nat} (h : LeastK d R k) (hd0 : 0 < d) (hd : d ≤ 64) (hR : 2 ≤ R) (hR2 : R ≤ 2 ^ 64) :
    gcParams d (R - 1) = some ⟨decide (Nat.isPowerOfTwo R), k, R ^ k / 2 ^ d, Nat.log 2 (R ^ k - 1) + 1⟩ := by
  have h64 : (2:Nat) ^ 64 < 2 ^ 128 := by decide
  have h2d : 2 ^ d ≤ 2 ^ 64 := Nat.pow_le_pow_right (by decide) hd
  have hk := h.pos hd0
  have hkd := h.le hR
  have hRk : R ^ k < 2 ^ d * R := by
    rcases Rk_lt h hd0 hd hR2 with q | q
    · exact q
    · omega
  have hRk2 : R ^ k < 2 ^ 128 := by
    calc R ^ k < 2 ^ d * R := hRk
      _ ≤ 2 ^ 64 * 2 ^ 64 := Nat.mul_le_mul h2d hR2
      _ = 2 ^ 128 := by decide
  have hRk3 : 2 ≤ R ^ k := by
    calc 2 ≤ R := hR
      _ = R ^ 1 := (Nat.pow_one R).symm
      _ ≤ R ^ k := Nat.pow_le_pow_right (by omega) hk
  unfold gcParams
  rw [show R - 1 + 1 = R by omega, Nat.mod_eq_of_lt (a := R) (by omega), Nat.shiftLeft_eq, Nat.one_mul,
    Nat.mod_eq_of_lt (a := 2 ^ d) (by omega)]
  simp only []
  rw [show gcProd R (2 ^ d) 66 1 0 = gcProd R (2 ^ d) 66 (R ^ 0) 0 by rw [Nat.pow_zero],
    gcProd_eq h hd hR2 66 0 (by omega) (by omega)]
  simp only [Option.map_some]
  have e1 : ∀ y, 0 < y → y < 2 ^ 128 → (y + 2 ^ 128 - 1) % 2 ^ 128 = y - 1 := by
    intro y q1 q2
    rw [show y + 2 ^ 128 - 1 = y - 1 + 2 ^ 128 by omega, Nat.add_mod_right, Nat.mod_eq_of_lt (by omega)]
  rw [e1 R (by omega) (by omega), e1 (R ^ k) (by omega) hRk2, gcBits_eq, if_neg (by omega), Nat.zero_add,
    Nat.mod_eq_of_lt (a := R ^ k / 2 ^ d) (Nat.lt_of_lt_of_le (Nat.div_lt_of_lt_mul hRk) hR2)]
  congr 2
  exact decide_eq_decide.2 (Nat.and_sub_one_eq_zero_iff_isPowerOfTwo (by omega))

theorem stdS_lt {R : Nat} (hR : 0 < R) : ∀ (L : List Nat), (∀ g ∈ L, g < R) → stdS R L < R ^ L.length
  | [], _ => by simp [stdS]
  | g :: L, h => by
    have h1 := stdS_lt hR L (fun x hx => h x (List.mem_cons_of_mem _ hx))
    have h2 := h g List.mem_cons_self
    unfold stdS
    rw [List.length_cons, Nat.pow_succ, Nat.mul_comm (R ^ L.length)]
    have : R * (stdS R L + 1) ≤ R * R ^ L.length := Nat.mul_le_mul_left _ h1
    rw [Nat.mul_add] at this
    omega

/-! ## the path for powers of two -/

theorem pow2Loop_eq {U rb : Nat} (hrb : 0 < rb) : ∀ (cnt shift sx : Nat) (L : List Nat),
    sx < 2 ^ (shift + rb) → shift + rb + cnt * rb ≤ U → (∀ g ∈ L, g < 2 ^ rb) →
    gcPow2Loop U rb cnt shift sx L =
      if cnt ≤ L.length then some (sx + 2 ^ (shift + rb) * stdS (2 ^ rb) (L.take cnt), L.drop cnt) else none
  | 0, shift, sx, L, _, _, _ => by
    unfold gcPow2Loop
    simp [stdS]
  | cnt + 1, shift, sx, [], _, _, _ => by
    unfold gcPow2Loop
    simp
  | cnt + 1, shift, sx, g :: L, hs, hU, hg => by
    have hg0 := hg g List.mem_cons_self
    have e1 : shift + rb + (cnt + 1) * rb = shift + rb + rb + cnt * rb := by ring
    have hle : 2 ^ (shift + rb + rb) ≤ 2 ^ U := Nat.pow_le_pow_right (by decide) (by omega)
    have hrU : 2 ^ rb ≤ 2 ^ U := Nat.pow_le_pow_right (by decide) (by omega)
    have hm : g * 2 ^ (shift + rb) + 2 ^ (shift + rb) ≤ 2 ^ (shift + rb + rb) := by
      rw [Nat.pow_add 2 (shift + rb) rb, Nat.mul_comm (2 ^ (shift + rb))]
      calc g * 2 ^ (shift + rb) + 2 ^ (shift + rb) = (g + 1) * 2 ^ (shift + rb) := by ring
        _ ≤ 2 ^ rb * 2 ^ (shift + rb) := Nat.mul_le_mul_right _ hg0
    have hpos : 0 < 2 ^ (shift + rb) := Nat.pow_pos (by decide)
    unfold gcPow2Loop
    simp only []
    have hshl : shl U (g % 2 ^ U) (shift + rb) = some (g * 2 ^ (shift + rb)) := by
      unfold shl
      rw [if_pos (by omega), Nat.mod_eq_of_lt (a := g) (by omega), Nat.shiftLeft_eq, Nat.mod_eq_of_lt (by omega)]
    rw [hshl]
    simp only [Option.bind_some]
    rw [Nat.mod_eq_of_lt (by omega), pow2Loop_eq hrb cnt (shift + rb) _ L (by omega) (by omega)
      (fun x hx => hg x (List.mem_cons_of_mem _ hx))]
    rw [List.length_cons, List.take_succ_cons, List.drop_succ_cons]
    by_cases hc : cnt ≤ L.length
    · rw [if_pos hc, if_pos (by omega)]
      congr 2
      rw [show stdS (2 ^ rb) (g :: L.take cnt) = g + 2 ^ rb * stdS (2 ^ rb) (L.take cnt) from rfl]
      rw [Nat.pow_add 2 (shift + rb) rb]
      ring
    · rw [if_neg hc, if_neg (by omega)]

/-! ## the general path -/

theorem gcTerms_eq {S R k : Nat} (hR : 2 ≤ R) (hk : R ^ k < 2 ^ S) : ∀ (cnt j sx : Nat) (L : List Nat),
    sx < R ^ (j + 1) → j + 1 + cnt = k → (∀ g ∈ L, g < R) →
    gcTerms S R cnt (R ^ j) sx L =
      if cnt ≤ L.length then some (sx + R ^ (j + 1) * stdS R (L.take cnt), L.drop cnt) else none
  | 0, j, sx, L, _, _, _ => by
    unfold gcTerms
    simp [stdS]
  | cnt + 1, j, sx, [], _, _, _ => by
    unfold gcTerms
    simp
  | cnt + 1, j, sx, g :: L, hs, hj, hg => by
    have hg0 := hg g List.mem_cons_self
    have hle : R ^ (j + 2) ≤ R ^ k := Nat.pow_le_pow_right (by omega) (by omega)
    have hpos : 0 < R ^ (j + 1) := Nat.pow_pos (by omega)
    have e2 : R ^ (j + 2) = R * R ^ (j + 1) := by rw [Nat.pow_succ, Nat.mul_comm]
    have hm : g * R ^ (j + 1) + R ^ (j + 1) ≤ R ^ (j + 2) := by
      rw [e2]
      calc g * R ^ (j + 1) + R ^ (j + 1) = (g + 1) * R ^ (j + 1) := by ring
        _ ≤ R * R ^ (j + 1) := Nat.mul_le_mul_right _ hg0
    have hRle : R ≤ R ^ (j + 2) := by
      rw [e2]; exact Nat.le_mul_of_pos_right _ hpos
    unfold gcTerms
    simp only []
    rw [← Nat.pow_succ, Nat.mod_eq_of_lt (a := R ^ (j + 1)) (by omega), Nat.mod_eq_of_lt (a := g) (by omega),
      Nat.mod_eq_of_lt (a := g * R ^ (j + 1)) (by omega), Nat.mod_eq_of_lt (a := sx + g * R ^ (j + 1)) (by omega),
      gcTerms_eq hR hk cnt (j + 1) _ L (by show _ < R ^ (j + 2); omega) (by omega) (fun x hx => hg x (List.mem_cons_of_mem _ hx))]
    rw [List.length_cons, List.take_succ_cons, List.drop_succ_cons]
    by_cases hc : cnt ≤ L.length
    · rw [if_pos hc, if_pos (by omega)]
      congr 2
      rw [show stdS R (g :: L.take cnt) = g + R * stdS R (L.take cnt) from rfl, Nat.pow_succ R (j + 1)]
      ring
    · rw [if_neg hc, if_neg (by omega)]

theorem gcAttempt_eq {S R k : Nat} (hR : 2 ≤ R) (hk0 : 0 < k) (hk : R ^ k < 2 ^ S) {L : List Nat} (hg : ∀ g ∈ L, g < R) :
    gcAttempt S R k L = if k ≤ L.length then some (stdS R (L.take k), L.drop k) else none := by
  have hRk : R ≤ R ^ k := by
    calc R = R ^ 1 := (Nat.pow_one R).symm
      _ ≤ R ^ k := Nat.pow_le_pow_right (by omega) hk0
  cases L with
  | nil =>
    unfold gcAttempt
    rw [if_neg (by simp; omega)]
  | cons g L =>
    have hg0 := hg g List.mem_cons_self
    unfold gcAttempt
    simp only []
    rw [Nat.mod_eq_of_lt (a := g) (by omega)]
    by_cases h1 : k = 1
    · subst h1
      rw [if_neg (by decide), if_neg (by decide), if_pos (by simp)]
      simp [stdS]
    · have h2k : R ^ 2 ≤ R ^ k := Nat.pow_le_pow_right (by omega) (by omega)
      have hfirst : ∀ h, h < R → (g + h % 2 ^ S * R % 2 ^ S) % 2 ^ S = g + h * R ∧ g + h * R < R ^ 2 := by
        intro h hh
        have : h * R + R ≤ R ^ 2 := by
          rw [Nat.pow_two]
          calc h * R + R = (h + 1) * R := by ring
            _ ≤ R * R := Nat.mul_le_mul_right _ hh
        rw [Nat.mod_eq_of_lt (a := h) (by omega), Nat.mod_eq_of_lt (a := h * R) (by omega),
          Nat.mod_eq_of_lt (by omega)]
        exact ⟨rfl, by omega⟩
      cases L with
      | nil =>
        by_cases h2 : k = 2
        · rw [if_pos h2, if_neg (by simp; omega)]
        · rw [if_neg h2, if_pos (by omega), if_neg (by simp; omega)]
      | cons h L =>
        obtain ⟨e1, e2⟩ := hfirst h (hg h (by simp))
        by_cases h2 : k = 2
        · subst h2
          rw [if_pos rfl, if_pos (by simp)]
          simp only [List.take_succ_cons, List.take_zero, List.drop_succ_cons, List.drop_zero, stdS]
          rw [e1]
          congr 2
          ring
        · rw [if_neg h2, if_pos (by omega)]
          simp only []
          rw [e1]
          have := gcTerms_eq hR hk (k - 2) 1 (g + h * R) L e2 (by omega) (fun x hx => hg x (by simp [hx]))
          rw [Nat.pow_one] at this
          rw [this]
          obtain ⟨k', rfl⟩ : ∃ k', k = k' + 2 := ⟨k - 2, by omega⟩
          simp only [Nat.add_sub_cancel, List.take_succ_cons, List.drop_succ_cons, List.length_cons, stdS]
          by_cases hc : k' ≤ L.length
          · rw [if_pos hc, if_pos (by omega)]
            congr 2
            ring
          · rw [if_neg hc, if_neg (by omega)]

theorem gcRetry_iff {S R k limit : Nat} (hR : 2 ≤ R) (hk0 : 0 < k) (hk : R ^ k < 2 ^ S) (res : Nat) (rest : List Nat) :
    ∀ (fuel : Nat) (L : List Nat), (∀ g ∈ L, g < R) → L.length < fuel →
    (gcRetry S R k limit fuel L = some (res, rest) ↔
      ∃ j, (j + 1) * k ≤ L.length ∧ (∀ i, i < j → limit ≤ stdS R ((L.drop (i * k)).take k)) ∧
        stdS R ((L.drop (j * k)).take k) < limit ∧ res = stdS R ((L.drop (j * k)).take k) ∧
        rest = L.drop ((j + 1) * k))
  | 0, L, _, hf => by omega
  | fuel + 1, L, hg, hf => by
    unfold gcRetry
    rw [gcAttempt_eq hR hk0 hk hg]
    by_cases hl : k ≤ L.length
    · rw [if_pos hl]
      simp only [Option.bind_some]
      by_cases ht : limit ≤ stdS R (L.take k)
      · rw [if_pos ht, gcRetry_iff hR hk0 hk res rest fuel (L.drop k) (fun g h => hg g (List.mem_of_mem_drop h))
          (by rw [List.length_drop]; omega)]
        have hd : ∀ i, (L.drop k).drop (i * k) = L.drop ((i + 1) * k) := by
          intro i
          rw [List.drop_drop]
          congr 1
          ring
        constructor
        · rintro ⟨j, h1, h2, h3, h4, h5⟩
          rw [hd] at h3 h4
          rw [hd] at h5
          refine ⟨j + 1, ?_, ?_, h3, h4, h5⟩
          · rw [List.length_drop] at h1
            have : (j + 1 + 1) * k = (j + 1) * k + k := by ring
            omega
          · intro i hi
            cases i with
            | zero => simpa using ht
            | succ i =>
              have := h2 i (by omega)
              rwa [hd] at this
        · rintro ⟨j, h1, h2, h3, h4, h5⟩
          cases j with
          | zero =>
            simp at h3
            omega
          | succ j =>
            refine ⟨j, ?_, ?_, ?_, ?_, ?_⟩
            · rw [List.length_drop]
              have : (j + 1 + 1) * k = (j + 1) * k + k := by ring
              omega
            · intro i hi
              rw [hd]
              exact h2 (i + 1) (by omega)
            · rw [hd]; exact h3
            · rw [hd]; exact h4
            · rw [hd]; exact h5
      · rw [if_neg ht]
        constructor
        · intro h
          cases h
          exact ⟨0, by simpa using hl, by intro i hi; omega, by simpa using ht, by simp, by simp⟩
        · rintro ⟨j, h1, h2, h3, h4, h5⟩
          cases j with
          | zero =>
            simp at h4 h5
            rw [h4, h5]
          | succ j =>
            exfalso
            have := h2 0 (by omega)
            simp at this
            omega
    · rw [if_neg hl]
      constructor
      · intro h; cases h
      · rintro ⟨j, h1, _⟩
        exfalso
        have : k ≤ (j + 1) * k := Nat.le_mul_of_pos_left _ (by omega)
        omega

theorem isPow2_of_pow {R k j : Nat} (hk : 0 < k) (h : R ^ k = 2 ^ j) : Nat.isPowerOfTwo R := by
  have : R ∣ 2 ^ j := by
    rw [← h]
    exact dvd_pow_self R (by omega)
  obtain ⟨i, _, e⟩ := (Nat.dvd_prime_pow Nat.prime_two).1 this
  exact ⟨i, e⟩

theorem canonical_iff {digits bits R k : Nat} (hd : digits ≤ 64) (hR : 2 ≤ R) (hR2 : R ≤ 2 ^ 64) {L : List Nat}
    (hg : ∀ g ∈ L, g < R) (hk : LeastK (min digits bits) R k) (res : Nat) (rest : List Nat) :
    generateCanonical digits bits (R - 1) L = some (res, rest) ↔
      ∃ j, (j + 1) * k ≤ L.length ∧
        (∀ i, i < j → R ^ k / 2 ^ min digits bits * 2 ^ min digits bits ≤ stdS R ((L.drop (i * k)).take k)) ∧
        stdS R ((L.drop (j * k)).take k) < R ^ k / 2 ^ min digits bits * 2 ^ min digits bits ∧
        res = stdS R ((L.drop (j * k)).take k) / (R ^ k / 2 ^ min digits bits) ∧
        rest = L.drop ((j + 1) * k) := by
  have hmin : (if digits < bits then digits else bits) = min digits bits := by
    split <;> omega
  unfold generateCanonical
  rw [hmin]
  have hd64 : min digits bits ≤ 64 := by omega
  generalize min digits bits = d at *
  simp only []
  by_cases hd0 : d = 0
  · subst hd0
    rw [if_pos rfl]
    have hk0 : k = 0 := by
      have := hk.least 0 (by simp)
      omega
    subst hk0
    constructor
    · intro h
      cases h
      exact ⟨0, by simp, by intro i hi; omega, by simp [stdS], by simp [stdS], by simp⟩
    · rintro ⟨j, h1, h2, h3, h4, h5⟩
      simp [stdS] at h4 h5
      rw [h4, h5]
  · rw [if_neg hd0]
    have hdp : 0 < d := by omega
    have hkp := hk.pos hdp
    rw [gcParams_eq hk hdp hd64 hR hR2]
    simp only [Option.bind_some]
    generalize hU : (if d ≤ 32 then 32 else 64) = U
    have hUd : d ≤ U := by rw [← hU]; split <;> omega
    have hpd : 0 < 2 ^ d := Nat.pow_pos (by decide)
    have hge := hk.ge
    have hxp : 0 < R ^ k / 2 ^ d := Nat.div_pos hge hpd
    by_cases hp : Nat.isPowerOfTwo R
    · -- a power of two
      simp only [hp, decide_true, if_true]
      obtain ⟨rb, rfl⟩ := hp
      have hrb : 0 < rb := by
        rcases Nat.eq_zero_or_pos rb with e | e
        · subst e; simp at hR
        · exact e
      have hRk : (2 ^ rb) ^ k = 2 ^ (rb * k) := (Nat.pow_mul 2 rb k).symm
      have hdk : d ≤ rb * k := by
        rw [hRk] at hge
        exact (Nat.pow_le_pow_iff_right (by decide)).1 hge
      have hkl : rb * (k - 1) < d := by
        have := hk.lt (j := k - 1) (by omega)
        rw [← Nat.pow_mul] at this
        exact (Nat.pow_lt_pow_iff_right (by decide)).1 this
      have hrk : rb * k = rb * (k - 1) + rb := by
        conv_lhs => rw [show k = (k - 1) + 1 by omega]
        ring
      have hlog : Nat.log 2 ((2 ^ rb) ^ k - 1) + 1 = rb * k := by
        rw [hRk]
        have hpos : 0 < rb * k := Nat.mul_pos hrb hkp
        have e : 2 ^ (rb * k) = 2 * 2 ^ (rb * k - 1) := by
          conv_lhs => rw [show rb * k = (rb * k - 1) + 1 by omega]
          rw [Nat.pow_succ]; omega
        have h1 : 0 < 2 ^ (rb * k - 1) := Nat.pow_pos (by decide)
        have : Nat.log 2 (2 ^ (rb * k) - 1) = rb * k - 1 := by
          rw [Nat.log_eq_iff (Or.inr ⟨by decide, by omega⟩), show rb * k - 1 + 1 = rb * k by omega]
          omega
        omega
      rw [hlog]
      generalize hdisc : rb * k - d = disc
      have hdl : disc < rb := by omega
      have hx : (2 ^ rb) ^ k / 2 ^ d = 2 ^ disc := by
        rw [hRk, Nat.pow_div hdk (by decide), hdisc]
      rw [hx]
      have hxl : 2 ^ disc * 2 ^ d = (2 ^ rb) ^ k := by
        rw [hRk, ← Nat.pow_add]
        congr 1
        omega
      rw [hxl]
      have hSlt : ∀ i, stdS (2 ^ rb) ((L.drop (i * k)).take k) < (2 ^ rb) ^ k := by
        intro i
        have h1 := stdS_lt (R := 2 ^ rb) (by omega) ((L.drop (i * k)).take k)
          (fun g h => hg g (List.mem_of_mem_drop (List.mem_of_mem_take h)))
        refine Nat.lt_of_lt_of_le h1 (Nat.pow_le_pow_right (by omega) ?_)
        rw [List.length_take]
        omega
      -- the right side has `j = 0`
      have hrhs : (∃ j, (j + 1) * k ≤ L.length ∧
          (∀ i, i < j → (2 ^ rb) ^ k ≤ stdS (2 ^ rb) ((L.drop (i * k)).take k)) ∧
          stdS (2 ^ rb) ((L.drop (j * k)).take k) < (2 ^ rb) ^ k ∧
          res = stdS (2 ^ rb) ((L.drop (j * k)).take k) / 2 ^ disc ∧ rest = L.drop ((j + 1) * k)) ↔
          (k ≤ L.length ∧ res = stdS (2 ^ rb) (L.take k) / 2 ^ disc ∧ rest = L.drop k) := by
        constructor
        · rintro ⟨j, h1, h2, h3, h4, h5⟩
          cases j with
          | zero =>
            simp only [Nat.zero_add, Nat.one_mul, Nat.zero_mul, List.drop_zero] at h1 h4 h5
            exact ⟨h1, h4, h5⟩
          | succ j =>
            exfalso
            have := h2 0 (by omega)
            have := hSlt 0
            omega
        · rintro ⟨h1, h2, h3⟩
          refine ⟨0, by simpa using h1, by intro i hi; omega, hSlt 0, by simpa using h2, by simpa using h3⟩
      rw [hrhs]
      clear hrhs hSlt
      cases L with
      | nil =>
        simp only []
        constructor
        · intro h; cases h
        · rintro ⟨h1, _⟩
          simp at h1
          omega
      | cons g L =>
        have hg0 := hg g List.mem_cons_self
        have hgl : ∀ x ∈ L, x < 2 ^ rb := fun x hx => hg x (List.mem_cons_of_mem _ hx)
        simp only []
        have hsx : g >>> disc < 2 ^ (rb - disc) := by
          rw [Nat.shiftRight_eq_div_pow]
          apply Nat.div_lt_of_lt_mul
          rw [← Nat.pow_add, show disc + (rb - disc) = rb by omega]
          exact hg0
        have hbd : rb - disc ≤ d := by
          by_cases h1 : k = 1
          · subst h1; omega
          · have : rb ≤ rb * (k - 1) := Nat.le_mul_of_pos_right _ (by omega)
            omega
        have hsx2 : (g >>> disc) % 2 ^ U = g >>> disc := by
          apply Nat.mod_eq_of_lt
          exact Nat.lt_of_lt_of_le hsx (Nat.pow_le_pow_right (by decide) (by omega))
        rw [hsx2]
        have hdiv : ∀ T, (g + 2 ^ rb * T) / 2 ^ disc = (g >>> disc) + 2 ^ (rb - disc) * T := by
          intro T
          rw [show 2 ^ rb = 2 ^ disc * 2 ^ (rb - disc) by rw [← Nat.pow_add]; congr 1; omega, Nat.mul_assoc,
            Nat.add_mul_div_left _ _ (Nat.pow_pos (by decide)), Nat.shiftRight_eq_div_pow]
        by_cases h1 : 1 < k
        · rw [if_pos h1, Nat.mul_div_cancel _ hkp]
          obtain ⟨k', rfl⟩ : ∃ k', k = k' + 2 := ⟨k - 2, by omega⟩
          cases L with
          | nil =>
            simp only []
            constructor
            · intro h; cases h
            · rintro ⟨q, _⟩
              simp at q
          | cons h L =>
            have hh := hgl h List.mem_cons_self
            simp only []
            rw [if_neg (by omega)]
            have hk2 : rb * (k' + 2) = rb * k' + 2 * rb := by ring
            have hbits : rb - disc + rb + k' * rb = d := by
              have : k' * rb = rb * k' := Nat.mul_comm _ _
              omega
            have hle : 2 ^ (rb - disc + rb) ≤ 2 ^ U := Nat.pow_le_pow_right (by decide) (by omega)
            have hm : h * 2 ^ (rb - disc) + 2 ^ (rb - disc) ≤ 2 ^ (rb - disc + rb) := by
              rw [Nat.pow_add 2 (rb - disc) rb, Nat.mul_comm (2 ^ (rb - disc))]
              calc h * 2 ^ (rb - disc) + 2 ^ (rb - disc) = (h + 1) * 2 ^ (rb - disc) := by ring
                _ ≤ 2 ^ rb * 2 ^ (rb - disc) := Nat.mul_le_mul_right _ hh
            have hrU : 2 ^ rb ≤ 2 ^ U := Nat.le_trans (Nat.pow_le_pow_right (by decide) (by omega)) hle
            have hpos : 0 < 2 ^ (rb - disc) := Nat.pow_pos (by decide)
            have hshl : shl U (h % 2 ^ U) (rb - disc) = some (h * 2 ^ (rb - disc)) := by
              unfold shl
              rw [if_pos (by omega), Nat.mod_eq_of_lt (a := h) (by omega), Nat.shiftLeft_eq, Nat.mod_eq_of_lt (by omega)]
            rw [hshl]
            simp only [Option.bind_some, Nat.add_sub_cancel]
            rw [Nat.mod_eq_of_lt (by omega), pow2Loop_eq hrb k' (rb - disc) _ L (by omega) (by omega)
              (fun x hx => hgl x (List.mem_cons_of_mem _ hx))]
            simp only [List.take_succ_cons, List.drop_succ_cons, List.length_cons, stdS, hdiv]
            by_cases hc : k' ≤ L.length
            · rw [if_pos hc]
              have e : g >>> disc + h * 2 ^ (rb - disc) + 2 ^ (rb - disc + rb) * stdS (2 ^ rb) (L.take k')
                  = g >>> disc + 2 ^ (rb - disc) * (h + 2 ^ rb * stdS (2 ^ rb) (L.take k')) := by
                rw [Nat.pow_add 2 (rb - disc) rb]; ring
              rw [e]
              constructor
              · intro q
                cases q
                exact ⟨by omega, rfl, rfl⟩
              · rintro ⟨_, rfl, rfl⟩
                rfl
            · rw [if_neg hc]
              constructor
              · intro q; cases q
              · rintro ⟨q, _⟩
                omega
        · have e : k = 1 := by omega
          subst e
          rw [if_neg (by decide)]
          simp only [List.take_succ_cons, List.take_zero, List.drop_succ_cons, List.drop_zero, List.length_cons, stdS, hdiv]
          constructor
          · intro q
            cases q
            exact ⟨by omega, by simp, rfl⟩
          · rintro ⟨_, rfl, rfl⟩
            simp
    · -- the general path
      simp only [hp, decide_false, Bool.false_eq_true, if_false]
      have hne : ∀ j, R ^ k ≠ 2 ^ j := fun j e => hp (isPow2_of_pow hkp e)
      generalize hS : (if Nat.log 2 (R ^ k - 1) + 1 ≤ 32 then 32 else if Nat.log 2 (R ^ k - 1) + 1 ≤ 64 then 64 else 128) = S
      have hgt : 2 ^ d < R ^ k := by
        have := hne d
        omega
      have hRk128 : R ^ k < 2 ^ 128 := by
        have h2d : 2 ^ d ≤ 2 ^ 64 := Nat.pow_le_pow_right (by decide) hd64
        rcases Rk_lt hk hdp hd64 hR2 with q | q
        · calc R ^ k < 2 ^ d * R := q
            _ ≤ 2 ^ 64 * 2 ^ 64 := Nat.mul_le_mul h2d hR2
            _ = 2 ^ 128 := by decide
        · omega
      have hlt : R ^ k < 2 ^ S := by
        have h1 : R ^ k - 1 < 2 ^ (Nat.log 2 (R ^ k - 1) + 1) := Nat.lt_pow_succ_log_self (by decide) _
        have h2 : R ^ k ≤ 2 ^ S := by
          by_cases c1 : Nat.log 2 (R ^ k - 1) + 1 ≤ 32
          · rw [if_pos c1] at hS
            subst hS
            have := Nat.pow_le_pow_right (n := 2) (by decide) c1
            omega
          · rw [if_neg c1] at hS
            by_cases c2 : Nat.log 2 (R ^ k - 1) + 1 ≤ 64
            · rw [if_pos c2] at hS
              subst hS
              have := Nat.pow_le_pow_right (n := 2) (by decide) c2
              omega
            · rw [if_neg c2] at hS
              subst hS
              omega
        have := hne S
        omega
      have hRle : R ≤ R ^ k := by
        calc R = R ^ 1 := (Nat.pow_one R).symm
          _ ≤ R ^ k := Nat.pow_le_pow_right (by omega) hkp
      have hxd : R ^ k / 2 ^ d * 2 ^ d ≤ R ^ k := Nat.div_mul_le_self _ _
      have hxle : R ^ k / 2 ^ d ≤ R ^ k := Nat.div_le_self _ _
      rw [Nat.mod_eq_of_lt (a := R - 1) (by omega), show R - 1 + 1 = R by omega, Nat.mod_eq_of_lt (a := R) (by omega),
        Nat.shiftLeft_eq, Nat.one_mul, Nat.mod_eq_of_lt (a := 2 ^ d) (by omega),
        Nat.mod_eq_of_lt (a := R ^ k / 2 ^ d) (by omega), Nat.mod_eq_of_lt (a := R ^ k / 2 ^ d * 2 ^ d) (by omega)]
      generalize R ^ k / 2 ^ d = x at *
      have hresU : ∀ s, s < x * 2 ^ d → s / x % 2 ^ U = s / x := by
        intro s hs
        apply Nat.mod_eq_of_lt
        exact Nat.lt_of_lt_of_le (Nat.div_lt_of_lt_mul hs) (Nat.pow_le_pow_right (by decide) hUd)
      constructor
      · intro h
        rw [Option.map_eq_some_iff] at h
        obtain ⟨⟨s, t⟩, h1, h2⟩ := h
        obtain ⟨j, q1, q2, q3, q4, q5⟩ := (gcRetry_iff hR hkp hlt s t (L.length + 1) L hg (by omega)).1 h1
        cases h2
        refine ⟨j, q1, q2, q3, ?_, q5⟩
        rw [← q4] at q3 ⊢
        exact hresU _ q3
      · rintro ⟨j, q1, q2, q3, q4, q5⟩
        have := (gcRetry_iff (limit := x * 2 ^ d) hR hkp hlt _ rest (L.length + 1) L hg (by omega)).2
          ⟨j, q1, q2, q3, rfl, q5⟩
        rw [this, Option.map_some, hresU _ q3, q4]

end STL.Adaptors
