import Verif.Int128.Model
import Verif.Int128.KnuthLoop

/-! # 128-bit integers: addition, multiplication, shifts, comparison -/

namespace STL.Int128
open STL Digits

/-- The value of an unsigned 128-bit integer (specification). -/
def B128.toNat (x : B128) : Nat := x.w1.toNat * 2 ^ 64 + x.w0.toNat

/-- The value of a signed 128-bit integer: two's complement (specification). -/
def B128.toInt (x : B128) : Int := if x.toNat < 2 ^ 127 then x.toNat else x.toNat - 2 ^ 128

theorem B128.lt (x : B128) : x.toNat < 2 ^ 128 := by
  unfold B128.toNat
  have := x.w0.isLt; have := x.w1.isLt; omega

theorem tn0 : (0 : W).toNat = 0 := rfl
theorem tn1 : (1 : W).toNat = 1 := rfl

/-- Carry as a number. -/
def c01 (c : Bool) : Nat := if c then 1 else 0

theorem addCarry64_ok (c : Bool) (l r : W) : (addCarry64 c l r).1.toNat + c01 (addCarry64 c l r).2 * 2 ^ 64 = l.toNat + r.toNat + c01 c := by
  have hl := l.isLt; have hr := r.isLt
  unfold addCarry64 c01
  cases c
  · simp only [Bool.false_eq_true, if_false, BitVec.lt_def, BitVec.toNat_add, tn0, decide_eq_true_eq]
    split <;> omega
  · simp only [if_true, BitVec.le_def, BitVec.toNat_add, decide_eq_true_eq, tn1]
    split <;> omega

theorem subBorrow64_ok (c : Bool) (l r : W) :
    ((subBorrow64 c l r).1.toNat : Int) - c01 (subBorrow64 c l r).2 * 2 ^ 64 = l.toNat - r.toNat - c01 c := by
  have hl := l.isLt; have hr := r.isLt
  unfold subBorrow64 c01
  cases c
  · simp only [Bool.false_eq_true, if_false, BitVec.lt_def, BitVec.toNat_sub, tn0, decide_eq_true_eq, gt_iff_lt]
    split <;> omega
  · simp only [if_true, BitVec.le_def, BitVec.toNat_sub, decide_eq_true_eq, tn1, ge_iff_le]
    split <;> omega

theorem add_ok (x y : B128) : (add x y).toNat = (x.toNat + y.toNat) % 2 ^ 128 := by
  unfold add B128.toNat
  have h1 := addCarry64_ok false x.w0 y.w0
  have h2 := addCarry64_ok (addCarry64 false x.w0 y.w0).2 x.w1 y.w1
  have h3 := (addCarry64 false x.w0 y.w0).1.isLt
  have h4 := (addCarry64 (addCarry64 false x.w0 y.w0).2 x.w1 y.w1).1.isLt
  dsimp only
  have h5 : c01 false = 0 := rfl
  generalize (addCarry64 false x.w0 y.w0) = a at *
  generalize (addCarry64 a.2 x.w1 y.w1) = b at *
  have h6 : c01 b.2 ≤ 1 := by unfold c01; split <;> omega
  omega

theorem sub_ok (x y : B128) : ((sub x y).toNat : Int) = ((x.toNat : Int) - y.toNat) % 2 ^ 128 := by
  unfold sub B128.toNat
  have h1 := subBorrow64_ok false x.w0 y.w0
  have h2 := subBorrow64_ok (subBorrow64 false x.w0 y.w0).2 x.w1 y.w1
  have h3 := (subBorrow64 false x.w0 y.w0).1.isLt
  have h4 := (subBorrow64 (subBorrow64 false x.w0 y.w0).2 x.w1 y.w1).1.isLt
  dsimp only
  have h5 : c01 false = 0 := rfl
  generalize (subBorrow64 false x.w0 y.w0) = a at *
  generalize (subBorrow64 a.2 x.w1 y.w1) = b at *
  have h6 : c01 b.2 ≤ 1 := by unfold c01; split <;> omega
  push_cast
  omega

theorem neg_ok (x : B128) : ((neg x).toNat : Int) = (-(x.toNat : Int)) % 2 ^ 128 := by
  unfold neg
  rw [sub_ok]
  congr 1
  have : (B128.mk 0 0).toNat = 0 := rfl
  rw [this]; omega

theorem inc_ok (x : B128) : (inc x).toNat = (x.toNat + 1) % 2 ^ 128 := by
  unfold inc B128.toNat
  have h0 := x.w0.isLt; have h1 := x.w1.isLt
  have e : (x.w0 + 1 = 0) ↔ x.w0.toNat = 2 ^ 64 - 1 := by
    rw [← BitVec.toNat_inj, BitVec.toNat_add]
    simp only [tn0, tn1]
    omega
  dsimp only
  split
  · rename_i h
    have := e.1 h
    simp only [BitVec.toNat_add, tn1]
    omega
  · rename_i h
    have h5 := mt e.2 h
    simp only [BitVec.toNat_add, tn1]
    omega

theorem dec_ok (x : B128) : ((dec x).toNat : Int) = ((x.toNat : Int) - 1) % 2 ^ 128 := by
  unfold dec B128.toNat
  have h0 := x.w0.isLt; have h1 := x.w1.isLt
  have e : (x.w0 = 0) ↔ x.w0.toNat = 0 := by
    rw [← BitVec.toNat_inj]; rfl
  dsimp only
  split
  · rename_i h
    have := e.1 h
    simp only [BitVec.toNat_sub, tn1]
    omega
  · rename_i h
    have h5 := mt e.2 h
    simp only [BitVec.toNat_sub, tn1]
    omega

/-! ## Multiplication -/

theorem lo32_toNat (x : W) : (lo32 x).toNat = x.toNat % 2 ^ 32 := by
  unfold lo32
  rw [BitVec.toNat_and]
  exact Nat.and_two_pow_sub_one_eq_mod _ 32

theorem hi32_toNat (x : W) : (lo32 (x >>> 32)).toNat = x.toNat / 2 ^ 32 := by
  rw [lo32_toNat, BitVec.toNat_ushiftRight, Nat.shiftRight_eq_div_pow, Nat.mod_eq_of_lt]
  have := x.isLt; omega

/-- `(hi << 32) | lo` for two 32-bit values. -/
theorem shl32_or {a c : W} (ha : a.toNat < 2 ^ 32) (hc : c.toNat < 2 ^ 32) : ((a <<< 32) ||| c).toNat = a.toNat * 2 ^ 32 + c.toNat := by
  rw [BitVec.toNat_or, BitVec.toNat_shiftLeft]
  exact two_words ha hc

theorem uMul128_ok (l r : W) : (uMul128 l r).1.toNat + (uMul128 l r).2.toNat * 2 ^ 64 = l.toNat * r.toNat := by
  have hl := l.isLt; have hr := r.isLt
  have al := lo32_toNat l
  have ah := hi32_toNat l
  have bl := lo32_toNat r
  have bh := hi32_toNat r
  unfold uMul128
  dsimp only
  generalize lo32 l = aLo at *
  generalize lo32 (l >>> 32) = aHi at *
  generalize lo32 r = bLo at *
  generalize lo32 (r >>> 32) = bHi at *
  have m : ∀ a c : W, a.toNat < 2 ^ 32 → c.toNat < 2 ^ 32 → (a * c).toNat = a.toNat * c.toNat ∧ a.toNat * c.toNat ≤ (2 ^ 32 - 1) * (2 ^ 32 - 1) := by
    intro a c h1 h2
    have : a.toNat * c.toNat ≤ (2 ^ 32 - 1) * (2 ^ 32 - 1) := Nat.mul_le_mul (by omega) (by omega)
    refine ⟨?_, this⟩
    rw [BitVec.toNat_mul, Nat.mod_eq_of_lt (by omega)]
  obtain ⟨p00, q00⟩ := m aLo bLo (by omega) (by omega)
  obtain ⟨p01, q01⟩ := m aLo bHi (by omega) (by omega)
  obtain ⟨p10, q10⟩ := m aHi bLo (by omega) (by omega)
  obtain ⟨p11, q11⟩ := m aHi bHi (by omega) (by omega)
  have key : l.toNat * r.toNat = aLo.toNat * bLo.toNat + (aLo.toNat * bHi.toNat + aHi.toNat * bLo.toNat) * 2 ^ 32 + aHi.toNat * bHi.toNat * 2 ^ 64 := by
    have e1 : l.toNat = aLo.toNat + aHi.toNat * 2 ^ 32 := by omega
    have e2 : r.toNat = bLo.toNat + bHi.toNat * 2 ^ 32 := by omega
    rw [e1, e2]; ring
  rw [key, ← p00, ← p01, ← p10, ← p11]
  rw [← p00] at q00; rw [← p01] at q01; rw [← p10] at q10; rw [← p11] at q11
  generalize aLo * bLo = b00 at *
  generalize aLo * bHi = b01 at *
  generalize aHi * bLo = b10 at *
  generalize aHi * bHi = b11 at *
  clear key p00 p01 p10 p11 m al ah bl bh
  have c1 := lo32_toNat b00
  have c2 := hi32_toNat b00
  generalize lo32 b00 = b00Lo at *
  generalize lo32 (b00 >>> 32) = b00Hi at *
  have c3 : (b10 + b00Hi).toNat = b10.toNat + b00Hi.toNat := by rw [BitVec.toNat_add]; omega
  generalize b10 + b00Hi = mid1 at *
  have c4 := lo32_toNat mid1
  have c5 := hi32_toNat mid1
  generalize lo32 mid1 = mid1Lo at *
  generalize lo32 (mid1 >>> 32) = mid1Hi at *
  have c6 : (b01 + mid1Lo).toNat = b01.toNat + mid1Lo.toNat := by rw [BitVec.toNat_add]; omega
  generalize b01 + mid1Lo = mid2 at *
  have c7 := lo32_toNat mid2
  have c8 := hi32_toNat mid2
  generalize lo32 mid2 = mid2Lo at *
  generalize lo32 (mid2 >>> 32) = mid2Hi at *
  rw [shl32_or (by omega) (by omega), BitVec.toNat_add, BitVec.toNat_add]
  omega

theorem multiply_ok (x y : B128) : (multiply x y).toNat = x.toNat * y.toNat % 2 ^ 128 := by
  unfold multiply B128.toNat
  have h := uMul128_ok x.w0 y.w0
  have h1 := (uMul128 x.w0 y.w0).1.isLt
  have h2 := (uMul128 x.w0 y.w0).2.isLt
  dsimp only
  generalize uMul128 x.w0 y.w0 = p at *
  have key : (x.w1.toNat * 2 ^ 64 + x.w0.toNat) * (y.w1.toNat * 2 ^ 64 + y.w0.toNat) =
      x.w0.toNat * y.w0.toNat + (x.w0.toNat * y.w1.toNat + x.w1.toNat * y.w0.toNat) * 2 ^ 64 + x.w1.toNat * y.w1.toNat * 2 ^ 128 := by ring
  rw [key, ← h, BitVec.toNat_add, BitVec.toNat_add, BitVec.toNat_mul, BitVec.toNat_mul]
  generalize x.w0.toNat * y.w1.toNat = a
  generalize x.w1.toNat * y.w0.toNat = b
  generalize x.w1.toNat * y.w1.toNat = c
  omega

/-! ## Comparison -/

theorem B128.ext_iff (x y : B128) : x = y ↔ x.toNat = y.toNat := by
  constructor
  · rintro rfl; rfl
  · intro h
    unfold B128.toNat at h
    have := x.w0.isLt; have := x.w1.isLt; have := y.w0.isLt; have := y.w1.isLt
    obtain ⟨x0, x1⟩ := x
    obtain ⟨y0, y1⟩ := y
    simp only at *
    rw [B128.mk.injEq, ← BitVec.toNat_inj, ← BitVec.toNat_inj]
    omega

theorem blt_ok (x y : B128) : blt x y = decide (x.toNat < y.toNat) := by
  unfold blt B128.toNat
  have := x.w0.isLt; have := y.w0.isLt
  rw [Bool.eq_iff_iff]
  simp only [BitVec.lt_def, gt_iff_lt, decide_eq_true_eq]
  split
  · simp only [true_iff]; omega
  · split
    · simp only [Bool.false_eq_true, false_iff]; omega
    · simp only [decide_eq_true_eq]; omega

theorem toInt64 (w : W) : w.toInt = if w.toNat < 2 ^ 63 then (w.toNat : Int) else w.toNat - 2 ^ 64 := by
  rw [BitVec.toInt_eq_toNat_cond]
  have := w.isLt
  split <;> split <;> omega

theorem slt_ok (x y : B128) : slt x y = decide (x.toInt < y.toInt) := by
  unfold slt B128.toInt B128.toNat
  have := x.w0.isLt; have := y.w0.isLt; have := x.w1.isLt; have := y.w1.isLt
  rw [toInt64, toInt64, Bool.eq_iff_iff]
  simp only [BitVec.lt_def, decide_eq_true_eq]
  split_ifs <;> simp only [true_iff, Bool.false_eq_true, false_iff, decide_eq_true_eq] <;> omega

theorem isNeg_ok (x : B128) : isNeg x = decide (x.toInt < 0) := by
  have h : isNeg x = x.w1.getMsbD 0 := by
    unfold isNeg
    have h63 : x.w1 &&& (1#64 <<< 63) ≠ 0 ↔ x.w1.getLsbD 63 = true := by
      constructor
      · intro hne
        by_contra hc
        apply hne
        apply BitVec.eq_of_getLsbD_eq
        intro i hi
        simp only [BitVec.getLsbD_and, BitVec.getLsbD_shiftLeft]
        by_cases h3 : i = 63
        · subst h3; rw [Bool.not_eq_true] at hc; rw [hc]; simp
        · have : i < 63 := by omega
          simp [this]
      · intro h3 he
        have := congrArg (fun z => z.getLsbD 63) he
        simp only [BitVec.getLsbD_and, h3, BitVec.getLsbD_shiftLeft] at this
        simp at this
    rw [Bool.eq_iff_iff, decide_eq_true_iff]
    rw [h63]; simp [BitVec.getMsbD]
  rw [h, ← BitVec.msb_eq_getMsbD_zero, BitVec.msb_eq_decide, B128.toInt, B128.toNat]
  have := x.w0.isLt; have := x.w1.isLt
  rw [Bool.eq_iff_iff, decide_eq_true_eq, decide_eq_true_eq]
  split <;> omega

end STL.Int128
