import Verif.Bits.Model
import Mathlib.Data.Nat.Size
import Mathlib.Algebra.Ring.Parity
import Mathlib.Algebra.Order.Ring.Nat
import Mathlib.Tactic.Ring
import Mathlib.Tactic.Linarith

/-! # Counting zeros: proofs -/

namespace STL.Bits
open STL

/-- `n` is the number of consecutive zero bits of the `w`-bit `v`, from the most significant bit ([bit.count]). -/
def IsClz (w v n : Nat) : Prop := n ≤ w ∧ (∀ i, w - n ≤ i → i < w → v.testBit i = false) ∧ (n < w → v.testBit (w - 1 - n) = true)

/-- `n` is the number of consecutive zero bits of the `w`-bit `v`, from the least significant bit. -/
def IsCtz (w v n : Nat) : Prop := n ≤ w ∧ (∀ i, i < n → v.testBit i = false) ∧ (n < w → v.testBit n = true)

theorem toU_nat {w v : Nat} (h : v < 2 ^ w) : toU w (v : Int) = v := by
  unfold toU
  rw [Int.emod_eq_of_lt (by omega) (by exact_mod_cast h)]
  simp

theorem toU_natmod {w v : Nat} : toU w (v : Int) = v % 2 ^ w := by
  unfold toU
  have : ((v : Int) % 2 ^ w) = ((v % 2 ^ w : Nat) : Int) := by push_cast; rfl
  rw [this, Int.toNat_natCast]

theorem toS32_small {v : Nat} (h : v < 2147483648) : toS 32 (v : Int) = v := by
  unfold toS
  norm_num
  omega

theorem size_iff_clz {w v n : Nat} (hv : v < 2 ^ w) : IsClz w v n ↔ (n : Int) = w - Nat.size v := by
  have hs : Nat.size v ≤ w := Nat.size_le.2 hv
  have key : ∀ n, IsClz w v n → n = w - Nat.size v := by
    rintro n ⟨h1, h2, h3⟩
    have hle : Nat.size v ≤ w - n := by
      rw [Nat.size_le]
      apply Nat.lt_pow_two_of_testBit
      intro i hi
      by_cases hiw : i < w
      · exact h2 i hi hiw
      · exact Nat.testBit_lt_two_pow (lt_of_lt_of_le hv (Nat.pow_le_pow_right (by omega) (by omega)))
    have hge : n < w → w - n ≤ Nat.size v := by
      intro hn
      have := Nat.ge_two_pow_of_testBit (h3 hn)
      have := Nat.lt_size.2 this
      omega
    omega
  constructor
  · intro h; have := key n h; omega
  · intro h
    have hn : n = w - Nat.size v := by omega
    subst hn
    refine ⟨by omega, fun i hi hiw => ?_, fun hlt => ?_⟩
    · apply Nat.testBit_lt_two_pow
      rw [← Nat.size_le]; omega
    · have hpos : 0 < Nat.size v := by omega
      have he : w - 1 - (w - Nat.size v) = Nat.size v - 1 := by omega
      rw [he]
      have h1 : 2 ^ (Nat.size v - 1) ≤ v := Nat.lt_size.1 (by omega)
      have h2 : v < 2 ^ (Nat.size v - 1 + 1) := by rw [show Nat.size v - 1 + 1 = Nat.size v by omega]; exact Nat.lt_size_self v
      rw [Nat.testBit_eq_decide_div_mod_eq]
      have : v / 2 ^ (Nat.size v - 1) = 1 := by
        rw [Nat.div_eq_iff (by positivity)]
        rw [pow_succ] at h2
        omega
      rw [this]; rfl

theorem size_div {v k : Nat} (h : 2 ^ k ≤ v) : Nat.size v = Nat.size (v / 2 ^ k) + k := by
  apply le_antisymm
  · rw [Nat.size_le]
    have h1 := Nat.lt_size_self (v / 2 ^ k)
    rw [Nat.div_lt_iff_lt_mul (by positivity)] at h1
    rw [pow_add]; exact h1
  · have h1 : 0 < v / 2 ^ k := Nat.div_pos h (by positivity)
    have h2 : 0 < Nat.size (v / 2 ^ k) := Nat.size_pos.2 h1
    have h3 : 2 ^ (Nat.size (v / 2 ^ k) - 1) ≤ v / 2 ^ k := Nat.lt_size.1 (by omega)
    rw [Nat.le_div_iff_mul_le (by positivity), ← pow_add] at h3
    have := Nat.lt_size.2 h3
    omega

theorem size_of_lt_two {v : Nat} (h : v < 2) : Nat.size v = v := by
  have : v = 0 ∨ v = 1 := by omega
  rcases this with rfl | rfl <;> rfl

theorem clzLoop_ok {w : Nat} : ∀ (j val nx : Nat), 2 ^ (j + 1) ≤ w → w ≤ 64 → val < 2 ^ w → val < 2 ^ (2 ^ (j + 1)) → 2 ^ (j + 1) ≤ nx → nx ≤ w →
    ∃ v' nx', clzLoop w (2 ^ j) val nx = .ok (v', nx') ∧ v' < 2 ∧ nx' ≤ w ∧ (nx : Int) - Nat.size val = (nx' : Int) - Nat.size v' ∧ v' ≤ nx'
  | j, val, nx, hw, hw64, hvw, hv, hn, hnw => by
    have hj : 2 ^ (j + 1) = 2 ^ j + 2 ^ j := by rw [pow_succ]; ring
    have hjp : 1 ≤ 2 ^ j := Nat.one_le_two_pow
    unfold clzLoop shr
    rw [if_pos (by omega), R.ok_bind]
    have hlt : val / 2 ^ (2 ^ j) < 2 ^ w := lt_of_le_of_lt (Nat.div_le_self _ _) hvw
    rw [toU_nat hlt]
    have hd : val / 2 ^ (2 ^ j) < 2 ^ (2 ^ j) := by
      rw [Nat.div_lt_iff_lt_mul (by positivity), ← pow_add, ← hj]; exact hv
    -- the state after the conditional
    have hs : ∃ v1 n1, (if val / 2 ^ (2 ^ j) ≠ 0 then (val / 2 ^ (2 ^ j), toU 32 ((nx : Int) - (2 ^ j : Nat))) else (val, nx)) = (v1, n1) ∧ v1 < 2 ^ (2 ^ j) ∧ v1 < 2 ^ w ∧
        (nx : Int) - Nat.size val = (n1 : Int) - Nat.size v1 ∧ 2 ^ j ≤ n1 ∧ n1 ≤ w := by
      by_cases h0 : val / 2 ^ (2 ^ j) = 0
      · refine ⟨val, nx, by rw [if_neg (by simpa using h0)], ?_, hvw, rfl, by omega, hnw⟩
        rcases Nat.div_eq_zero_iff.1 h0 with h | h
        · exact absurd h (by positivity)
        · exact h
      · refine ⟨val / 2 ^ (2 ^ j), nx - 2 ^ j, ?_, hd, hlt, ?_, by omega, by omega⟩
        · rw [if_pos h0]
          have : (nx : Int) - (2 ^ j : Nat) = ((nx - 2 ^ j : Nat) : Int) := by omega
          rw [this, toU_nat (by norm_num; omega)]
        · have hge : 2 ^ (2 ^ j) ≤ val := by
            by_contra hc
            exact h0 (Nat.div_eq_of_lt (by omega))
          have := size_div hge
          omega
    obtain ⟨v1, n1, he, h1, h2, h3, h4, h5⟩ := hs
    simp only [he]
    cases j with
    | zero =>
      rw [dif_neg (by norm_num)]
      have hv1 : v1 < 2 := by simpa using h1
      exact ⟨v1, n1, rfl, hv1, h5, h3, by simp at h4; omega⟩
    | succ j =>
      have hh : 2 ^ (j + 1) / 2 = 2 ^ j := by rw [pow_succ]; omega
      rw [dif_pos (by rw [hh]; positivity), hh]
      obtain ⟨v', nx', e, a1, a2, a3, a4⟩ := clzLoop_ok (w := w) j v1 n1 (by omega) hw64 h2 h1 h4 h5
      exact ⟨v', nx', e, a1, a2, by rw [h3, a3], a4⟩

/-- The widths of the standard unsigned types. -/
def StdW (w : Nat) : Prop := w = 8 ∨ w = 16 ∨ w = 32 ∨ w = 64

theorem StdW.pow {w : Nat} (h : StdW w) : ∃ j, w = 2 ^ (j + 1) ∧ w / 2 = 2 ^ j ∧ w ≤ 64 ∧ 8 ≤ w := by
  rcases h with rfl | rfl | rfl | rfl
  · exact ⟨2, by norm_num⟩
  · exact ⟨3, by norm_num⟩
  · exact ⟨4, by norm_num⟩
  · exact ⟨5, by norm_num⟩

theorem clzFallback_ok {w v : Nat} (hw : StdW w) (hv : v < 2 ^ w) : clzFallback w v = .ok ((w : Int) - Nat.size v) := by
  obtain ⟨j, h1, h2, h3, _⟩ := hw.pow
  unfold clzFallback
  obtain ⟨v', nx', e, a1, a2, a3, a4⟩ := clzLoop_ok (w := w) j v w (by omega) h3 hv (by rw [← h1]; exact hv) (by omega) (le_refl _)
  rw [h2, e, R.ok_bind]
  simp only
  rw [toS32_small (by omega), toS32_small (by omega), chkI_ok (by omega), a3, size_of_lt_two a1]

theorem compl_testBit {w v : Nat} (hv : v < 2 ^ w) (i : Nat) : (2 ^ w - 1 - v).testBit i = (decide (i < w) && !v.testBit i) := by
  rw [show 2 ^ w - 1 - v = 2 ^ w - (v + 1) by omega]
  exact Nat.testBit_two_pow_sub_succ hv i

theorem arith_pred {w v : Nat} (hw : StdW w) (hv : v < 2 ^ w) : ∃ m, arith w ((v : Int) - 1) = .ok m ∧ toU w m = (if v = 0 then 2 ^ w - 1 else v - 1) := by
  unfold arith
  have hval : toU w ((v : Int) - 1) = (if v = 0 then 2 ^ w - 1 else v - 1) := by
    split
    · rename_i h; subst h
      unfold toU
      have : ((((0 : Nat) : Int) - 1) % 2 ^ w) = ((2 ^ w - 1 : Nat) : Int) := by
        have hp : 1 ≤ 2 ^ w := Nat.one_le_two_pow
        push_cast [hp]
        rcases hw with rfl | rfl | rfl | rfl <;> norm_num
      rw [this, Int.toNat_natCast]
    · have : (v : Int) - 1 = ((v - 1 : Nat) : Int) := by omega
      rw [this, toU_nat (by omega)]
  by_cases h32 : w < 32
  · rw [if_pos h32]
    have : v < 65536 := by
      rcases hw with rfl | rfl | rfl | rfl <;> norm_num at hv h32 <;> omega
    rw [chkI_ok (by omega)]
    exact ⟨_, rfl, hval⟩
  · rw [if_neg h32]
    refine ⟨_, rfl, ?_⟩
    rw [hval]
    exact toU_nat (by split <;> omega)

/-- `v = 2 ^ k * (2 * m + 1)` -/
theorem odd_part {v : Nat} (h : v ≠ 0) : ∃ k m, v = 2 ^ k * (2 * m + 1) := by
  induction v using Nat.strong_induction_on with
  | _ v ih =>
    rcases Nat.even_or_odd' v with ⟨q, hq | hq⟩
    · obtain ⟨k, m, hm⟩ := ih q (by omega) (by omega)
      exact ⟨k + 1, m, by rw [hq, hm, pow_succ]; ring⟩
    · exact ⟨0, q, by omega⟩

theorem testBit_odd_part {k m i : Nat} : (2 ^ k * (2 * m + 1)).testBit i = (decide (k ≤ i) && (2 * m + 1).testBit (i - k)) := by
  rw [Nat.testBit_two_pow_mul]

theorem ctz_of_odd_part {w v k m : Nat} (he : v = 2 ^ k * (2 * m + 1)) (hk : k < w) : IsCtz w v k := by
  refine ⟨by omega, fun i hi => ?_, fun _ => ?_⟩
  · rw [he, testBit_odd_part]; simp; omega
  · rw [he, testBit_odd_part]; simp

theorem k_lt {w v k m : Nat} (he : v = 2 ^ k * (2 * m + 1)) (hv : v < 2 ^ w) : k < w := by
  by_contra hc
  have : 2 ^ w ≤ 2 ^ k := Nat.pow_le_pow_right (by omega) (by omega)
  nlinarith

theorem ctz_unique {w v a b : Nat} (ha : IsCtz w v a) (hb : IsCtz w v b) : a = b := by
  obtain ⟨a1, a2, a3⟩ := ha
  obtain ⟨b1, b2, b3⟩ := hb
  rcases Nat.lt_trichotomy a b with h | h | h
  · have := b2 a h; rw [a3 (by omega)] at this; cases this
  · exact h
  · have := a2 b h; rw [b3 (by omega)] at this; cases this

theorem ctzFallback_ok {w v : Nat} (hw : StdW w) (hv : v < 2 ^ w) : ∃ n : Nat, ctzFallback w v = .ok (n : Int) ∧ IsCtz w v n := by
  obtain ⟨m, e1, e2⟩ := arith_pred hw hv
  obtain ⟨_, _, _, h64, _⟩ := hw.pow
  unfold ctzFallback
  rw [e1, R.ok_bind, e2]
  have hfin : ∀ (x n : Nat), x = 2 ^ n - 1 → n ≤ w → (do let c ← clzFallback w x; chkI ((w : Int) - c)) = (.ok (n : Int) : R Int) := by
    intro x n hx hn
    have hp : 1 ≤ 2 ^ n := Nat.one_le_two_pow
    have hpw : 2 ^ n ≤ 2 ^ w := Nat.pow_le_pow_right (by omega) hn
    have hsz : Nat.size x = n := by
      apply le_antisymm
      · rw [Nat.size_le]; omega
      · by_contra hc
        have : x < 2 ^ Nat.size x := Nat.lt_size_self x
        have h2 : 2 ^ (Nat.size x + 1) ≤ 2 ^ n := Nat.pow_le_pow_right (by omega) (by omega)
        rw [pow_succ] at h2
        have : 1 ≤ 2 ^ Nat.size x := Nat.one_le_two_pow
        omega
    rw [clzFallback_ok hw (by omega), R.ok_bind, hsz, chkI_ok (by omega)]
    congr 1; omega
  by_cases h0 : v = 0
  · subst h0
    refine ⟨w, ?_, le_refl _, fun i _ => by simp, fun h => by omega⟩
    apply hfin _ w _ (le_refl _)
    rw [if_pos rfl, Nat.sub_zero, Nat.and_self]
  · obtain ⟨k, q, he⟩ := odd_part h0
    have hk := k_lt he hv
    refine ⟨k, ?_, ctz_of_odd_part he hk⟩
    apply hfin _ k _ (by omega)
    rw [if_neg h0]
    have hp : 1 ≤ 2 ^ k := Nat.one_le_two_pow
    have hv1 : v - 1 = 2 ^ k * (2 * q) + (2 ^ k - 1) := by
      rw [he]
      have : 2 ^ k * (2 * q + 1) = 2 ^ k * (2 * q) + 2 ^ k := by ring
      omega
    apply Nat.eq_of_testBit_eq
    intro i
    rw [Nat.testBit_and, compl_testBit hv, Nat.testBit_two_pow_sub_one, hv1, Nat.testBit_two_pow_mul_add _ (by omega), he, testBit_odd_part, Nat.testBit_two_pow_sub_one]
    by_cases hi : i < k
    · simp [hi, show i < w by omega, show ¬ k ≤ i by omega]
    · rw [if_neg hi]
      simp only [hi, show k ≤ i by omega, decide_true, Bool.true_and, decide_false]
      rcases Nat.eq_zero_or_pos (i - k) with h | h
      · rw [h]; simp
      · obtain ⟨j, hj⟩ : ∃ j, i - k = j + 1 := ⟨i - k - 1, by omega⟩
        rw [hj, Nat.testBit_succ, Nat.testBit_succ]
        have h1 : (2 * q + 1) / 2 = q := by omega
        have h2 : 2 * q / 2 = q := by omega
        rw [h1, h2]
        cases q.testBit j <;> simp

/-! ## Intrinsics -/

theorem bsr_size {v : Nat} (h : v ≠ 0) : ∃ k, bsr v = some k ∧ k + 1 = Nat.size v := by
  refine ⟨Nat.log2 v, by unfold bsr; rw [if_neg h], ?_⟩
  have h1 := Nat.log2_self_le h
  have h2 : v < 2 ^ (Nat.log2 v + 1) := Nat.lt_log2_self
  have := Nat.lt_size.2 h1
  have := Nat.size_le.2 h2
  omega

theorem bsr_zero : bsr 0 = none := rfl

theorem lzcnt_size {w v : Nat} (hv : v < 2 ^ w) : (lzcnt w v : Int) = w - Nat.size v := by
  unfold lzcnt
  have hs := Nat.size_le.2 hv
  by_cases h : v = 0
  · subst h; rw [bsr_zero]; simp
  · obtain ⟨k, e, hk⟩ := bsr_size h
    rw [e]; simp only; omega

theorem size_high {v : Nat} (h : v / 2 ^ 32 ≠ 0) : Nat.size v = Nat.size (v / 2 ^ 32) + 32 := size_div (by
  by_contra hc
  exact h (Nat.div_eq_of_lt (by omega)))

theorem countlZero_ok {w v : Nat} (hw : StdW w) (hv : v < 2 ^ w) (p : Path) : countlZero p w v = .ok ((w : Int) - Nat.size v) := by
  have hsz := Nat.size_le.2 hv
  unfold countlZero
  cases p with
  | fallback => exact clzFallback_ok hw hv
  | lzcnt x =>
    simp only
    congr 1
    unfold clzLzcnt
    rcases hw with rfl | rfl | rfl | rfl
    · rw [if_pos (by norm_num), lzcnt_size (w := 16) (by norm_num at *; omega)]; push_cast; omega
    · rw [if_pos (by norm_num), lzcnt_size (w := 16) (by norm_num at *; omega)]; push_cast; omega
    · rw [if_neg (by norm_num), if_pos rfl, lzcnt_size hv]
    · rw [if_neg (by norm_num), if_neg (by norm_num)]
      cases x with
      | true => rw [if_pos rfl, lzcnt_size hv]
      | false =>
        simp only [Bool.false_eq_true, if_false]
        by_cases hh : v / 2 ^ 32 = 0
        · rw [if_pos hh]
          have : v < 2 ^ 32 := by rcases Nat.div_eq_zero_iff.1 hh with h | h
                                  · norm_num at h
                                  · exact h
          rw [Nat.mod_eq_of_lt this, lzcnt_size this]; push_cast; omega
        · rw [if_neg hh, lzcnt_size (by norm_num at *; omega), size_high hh]; push_cast; omega
  | bsr x =>
    simp only
    congr 1
    unfold clzBsr
    have base : (match bsr v with
        | none => (w : Int)
        | some r => (w : Int) - 1 - r : Int) = w - Nat.size v := by
      by_cases h : v = 0
      · subst h; rw [bsr_zero]; simp
      · obtain ⟨k, e, hk⟩ := bsr_size h
        rw [e]; simp only; omega
    by_cases h32 : w ≤ 32
    · rw [if_pos h32]; exact base
    · rw [if_neg h32]
      have : w = 64 := by rcases hw with rfl | rfl | rfl | rfl <;> omega
      subst this
      cases x with
      | true => rw [if_pos rfl]; exact base
      | false =>
        simp only [Bool.false_eq_true, if_false]
        by_cases hh : v / 2 ^ 32 = 0
        · have : v < 2 ^ 32 := by rcases Nat.div_eq_zero_iff.1 hh with h | h
                                  · norm_num at h
                                  · exact h
          rw [hh, bsr_zero, Nat.mod_eq_of_lt this]
          exact base
        · obtain ⟨k, e, hk⟩ := bsr_size hh
          rw [e]; simp only; rw [size_high hh, ← hk]; push_cast; omega
  | arm =>
    simp only
    congr 1
    unfold clzArm
    by_cases h : v = 0
    · subst h; simp
    · rw [if_neg h]
      rcases hw with rfl | rfl | rfl | rfl
      · rw [if_pos (by norm_num), lzcnt_size (w := 32) (by norm_num at *; omega)]; push_cast; omega
      · rw [if_pos (by norm_num), lzcnt_size (w := 32) (by norm_num at *; omega)]; push_cast; omega
      · rw [if_pos (by norm_num), lzcnt_size (w := 32) hv]; push_cast; omega
      · rw [if_neg (by norm_num), lzcnt_size hv]

theorem lowest_ok (v : Nat) : ∀ (n i : Nat), i ≤ lowest v n i ∧ lowest v n i ≤ i + n ∧ (∀ j, i ≤ j → j < lowest v n i → v.testBit j = false) ∧ (lowest v n i < i + n → v.testBit (lowest v n i) = true)
  | 0, i => by simp [lowest]; omega
  | n + 1, i => by
    unfold lowest
    by_cases h : v.testBit i = true
    · rw [if_pos h]
      exact ⟨le_refl _, by omega, fun j h1 h2 => by omega, fun _ => h⟩
    · rw [if_neg h]
      obtain ⟨a, b, c, d⟩ := lowest_ok v n (i + 1)
      refine ⟨by omega, by omega, fun j h1 h2 => ?_, fun hl => d (by omega)⟩
      rcases Nat.eq_or_lt_of_le h1 with h3 | h3
      · subst h3; simpa using h
      · exact c j h3 h2

theorem lowest_ctz (w v : Nat) : IsCtz w v (lowest v w 0) := by
  obtain ⟨_, b, c, d⟩ := lowest_ok v w 0
  exact ⟨by omega, fun i h => c i (by omega) h, fun h => d (by omega)⟩

theorem widen_ctz {w v : Nat} (hw : w ≤ 32) {n : Nat} (h : IsCtz 32 (widen w v) n) : IsCtz w v n := by
  obtain ⟨h1, h2, h3⟩ := h
  have hp : 1 ≤ 2 ^ w := Nat.one_le_two_pow
  have hpw : 2 ^ w ≤ 2 ^ 32 := Nat.pow_le_pow_right (by omega) hw
  have hbit : ∀ i, (widen w v).testBit i = ((decide (i < 32) && !decide (i < w)) || v.testBit i) := by
    intro i
    unfold widen
    rw [Nat.testBit_or, compl_testBit (by omega), Nat.testBit_two_pow_sub_one]
  have hle : n ≤ w := by
    by_contra hc
    have := h2 w (by omega)
    rw [hbit] at this
    simp at this
    omega
  refine ⟨hle, fun i hi => ?_, fun hn => ?_⟩
  · have := h2 i hi
    rw [hbit] at this
    simp at this
    exact this.2
  · have := h3 (by omega)
    rw [hbit] at this
    simp at this
    rcases this with h | h
    · omega
    · exact h

theorem widen_ne {w v : Nat} (hw : w < 32) : widen w v ≠ 0 := by
  intro h
  have := congrArg (fun x => x.testBit w) h
  unfold widen at this
  have hp : 1 ≤ 2 ^ w := Nat.one_le_two_pow
  have hpw : 2 ^ w ≤ 2 ^ 32 := Nat.pow_le_pow_right (by omega) (by omega)
  simp only [Nat.testBit_or, Nat.zero_testBit] at this
  rw [compl_testBit (by omega), Nat.testBit_two_pow_sub_one] at this
  simp [hw] at this

theorem ctz_low {v n : Nat} (hn : v % 2 ^ 32 ≠ 0) (h : IsCtz 32 (v % 2 ^ 32) n) : IsCtz 64 v n := by
  obtain ⟨h1, h2, h3⟩ := h
  have hlt : n < 32 := by
    by_contra hc
    have h32 : n = 32 := by omega
    apply hn
    apply Nat.eq_of_testBit_eq
    intro i
    rw [Nat.zero_testBit]
    by_cases hi : i < 32
    · exact h2 i (by omega)
    · rw [Nat.testBit_mod_two_pow]; simp; omega
  refine ⟨by omega, fun i hi => ?_, fun _ => ?_⟩
  · have := h2 i hi
    rw [Nat.testBit_mod_two_pow] at this
    simpa [show i < 32 by omega] using this
  · have := h3 hlt
    rw [Nat.testBit_mod_two_pow] at this
    simpa [hlt] using this

theorem ctz_high {v n : Nat} (hz : v % 2 ^ 32 = 0) (h : IsCtz 32 (v / 2 ^ 32) n) : IsCtz 64 v (n + 32) := by
  obtain ⟨h1, h2, h3⟩ := h
  refine ⟨by omega, fun i hi => ?_, fun hlt => ?_⟩
  · by_cases hi32 : i < 32
    · have : (v % 2 ^ 32).testBit i = false := by rw [hz]; simp
      rw [Nat.testBit_mod_two_pow] at this
      simpa [hi32] using this
    · have := h2 (i - 32) (by omega)
      rw [Nat.testBit_div_two_pow] at this
      rw [show i = i - 32 + 32 by omega]; exact this
  · have := h3 (by omega)
    rw [Nat.testBit_div_two_pow] at this
    exact this

theorem ctz_zero {w n : Nat} (h : IsCtz w 0 n) : n = w := by
  obtain ⟨h1, _, h3⟩ := h
  by_contra hc
  have := h3 (by omega)
  simp at this

theorem countrZero_ok {w v : Nat} (hw : StdW w) (hv : v < 2 ^ w) (p : Path) : ∃ n : Nat, countrZero p w v = .ok (n : Int) ∧ IsCtz w v n := by
  unfold countrZero
  cases p with
  | fallback => exact ctzFallback_ok hw hv
  | arm => exact ctzFallback_ok hw hv
  | lzcnt x =>
    simp only [ctzTzcnt]
    by_cases h32 : w ≤ 32
    · rw [if_pos h32]
      exact ⟨_, rfl, widen_ctz h32 (lowest_ctz 32 _)⟩
    · rw [if_neg h32]
      have : w = 64 := by rcases hw with rfl | rfl | rfl | rfl <;> omega
      subst this
      cases x with
      | true => rw [if_pos rfl]; exact ⟨_, rfl, lowest_ctz 64 v⟩
      | false =>
        simp only [Bool.false_eq_true, if_false]
        by_cases h0 : v % 2 ^ 32 = 0
        · rw [if_pos h0]
          refine ⟨tzcnt 32 (v / 2 ^ 32) + 32, by congr 1; push_cast; omega, ctz_high h0 (lowest_ctz 32 _)⟩
        · rw [if_neg h0]
          exact ⟨_, rfl, ctz_low h0 (lowest_ctz 32 _)⟩
  | bsr x =>
    simp only [ctzBsf, bsf]
    by_cases h32 : w ≤ 32
    · rw [if_pos h32]
      by_cases h0 : widen w v = 0
      · rw [if_pos h0]
        have hw32 : w = 32 := by
          by_contra hc
          exact widen_ne (v := v) (by omega) h0
        subst hw32
        refine ⟨32, rfl, ?_⟩
        have hl := lowest_ctz 32 (widen 32 v)
        have h3 := widen_ctz (le_refl _) hl
        rw [h0] at hl
        rw [h0, ctz_zero hl] at h3
        exact h3
      · rw [if_neg h0]
        exact ⟨_, rfl, widen_ctz h32 (lowest_ctz 32 _)⟩
    · rw [if_neg h32]
      have : w = 64 := by rcases hw with rfl | rfl | rfl | rfl <;> omega
      subst this
      cases x with
      | true =>
        rw [if_pos rfl]
        by_cases h0 : v = 0
        · rw [if_pos h0]
          subst h0
          exact ⟨64, rfl, le_refl _, fun i _ => by simp, fun h => by omega⟩
        · rw [if_neg h0]
          exact ⟨_, rfl, lowest_ctz 64 v⟩
      | false =>
        simp only [Bool.false_eq_true, if_false]
        by_cases h0 : v % 2 ^ 32 = 0
        · rw [if_pos h0]
          simp only
          by_cases h1 : v / 2 ^ 32 = 0
          · rw [if_pos h1]
            have : v = 0 := by omega
            subst this
            exact ⟨64, rfl, le_refl _, fun i _ => by simp, fun h => by omega⟩
          · rw [if_neg h1]
            exact ⟨lowest (v / 2 ^ 32) 32 0 + 32, by congr 1, ctz_high h0 (lowest_ctz 32 _)⟩
        · rw [if_neg h0]
          exact ⟨_, rfl, ctz_low h0 (lowest_ctz 32 _)⟩

end STL.Bits
