import Verif.CInt
import Verif.Tac
import Mathlib.Data.Nat.GCD.Basic
import Mathlib.Data.Rat.Lemmas
import Mathlib.Algebra.Order.Field.Rat
import Mathlib.Tactic.FieldSimp
import Mathlib.Tactic.LinearCombination

/-!
# Model of `<ratio>` and property C37

`/repo/stl/inc/ratio`. A ratio type is the pair of its template arguments. Everything is evaluated at compile time in `intmax_t` (64 bits): a failed
`static_assert` is `.error (.exc .overflowError)`, signed overflow is `.error .ub`; both make the program ill-formed.
-/

namespace STL.Ratio
open STL

/-- `_Abs`, `ratio:27-29`. -/
def abs (v : Int) : R Int := if v < 0 then chkL (-v) else .ok v

/-- `INTMAX_MAX` -/
def imax : Int := 9223372036854775807

/-- `_Safe_mult`, `ratio:31-38`. -/
def safeMult (a b : Int) : R Int := do
  let x ← abs a
  let y ← (if b = 0 then .ok 1 else abs b : R Int)
  if x ≤ imax / y then chkL (a * b) else .error (.exc .overflowError)

/-- `_Sign_of`, `ratio:40-42`. -/
def signOf (v : Int) : Int := if v < 0 then -1 else 1

/-- `_Safe_add`, `ratio:46-52`. Calling the non-`constexpr` function makes the constant expression ill-formed. -/
def safeAdd (a b : Int) : R Int := do
  if signOf a = signOf b then do
    let x ← abs a
    let y ← abs b
    let d ← chkL (imax - y)
    if x > d then .error (.exc .overflowError) else chkL (a + b)
  else chkL (a + b)

/-- The loop of `_Gcd`, `ratio:63-67`. -/
def gcdLoop : Nat → Int → Int → R Int
  | 0, _, _ => .error .fuel
  | f + 1, a, b => if b = 0 then .ok a else gcdLoop f b (Int.tmod a b)

/-- `_Gcd`, `ratio:54-70`. -/
def gcd (a b : Int) : R Int :=
  if a = 0 ∧ b = 0 then .ok 1
  else do
    let x ← abs a
    let y ← abs b
    gcdLoop (y.toNat + 1) x y

/-- `a / b` -/
def div (a b : Int) : R Int := if b = 0 then .error .ub else chkL (cdiv a b)

/-- The members `num` and `den` of `ratio<n, d>`, `ratio:72-82`. -/
def mk (n d : Int) : R (Int × Int) :=
  if d = 0 ∨ n < -imax ∨ d < -imax then .error (.exc .overflowError)
  else do
    let an ← abs n
    let ad ← abs d
    let g ← gcd n d
    let m ← chkL (signOf n * signOf d * an)
    let num ← div m g
    let den ← div ad g
    .ok (num, den)

/-- `ratio_add`, `ratio:90-108`: `num` and `den` of the result. -/
def add (x y : Int × Int) : R (Int × Int) := do
  let g ← gcd x.2 y.2
  let q1 ← div y.2 g
  let q2 ← div x.2 g
  let a ← safeMult x.1 q1
  let b ← safeMult y.1 q2
  let s ← safeAdd a b
  let d ← safeMult x.2 q1
  mk s d

/-- `ratio_subtract`, `ratio:110-121`. -/
def sub (x y : Int × Int) : R (Int × Int) := do
  let n ← chkL (-y.1)
  let z ← mk n y.2
  add x z

/-- `ratio_multiply`, `ratio:123-153`. -/
def mul (x y : Int × Int) : R (Int × Int) := do
  let gx ← gcd x.1 y.2
  let gy ← gcd y.1 x.2
  let a ← div x.1 gx
  let b ← div y.1 gy
  let c ← div x.2 gy
  let e ← div y.2 gx
  let n ← safeMult a b
  let d ← safeMult c e
  mk n d

/-- `ratio_divide`, `ratio:155-171`. -/
def divide (x y : Int × Int) : R (Int × Int) := do
  let z ← mk y.2 y.1
  mul x z

/-- `ratio_equal`, `ratio:173-176`. -/
def equal (x y : Int × Int) : Bool := x.1 = y.1 ∧ x.2 = y.2

/-- `_Big_multiply`, `ratio:203-226`: upper and lower word of the product. -/
def bigMultiply (l r : Nat) : Nat × Nat :=
  let llow := l % 2 ^ 32
  let lhigh := l / 2 ^ 32
  let rlow := r % 2 ^ 32
  let rhigh := r / 2 ^ 32
  let t1 := llow * rlow % 2 ^ 64
  let lower32 := t1 % 2 ^ 32
  let c1 := t1 / 2 ^ 32
  let t2 := (llow * rhigh % 2 ^ 64 + c1) % 2 ^ 64
  let midLower := t2 % 2 ^ 32
  let midUpper := t2 / 2 ^ 32
  let t3 := (lhigh * rlow % 2 ^ 64 + midLower) % 2 ^ 64
  let c3 := t3 / 2 ^ 32
  (((lhigh * rhigh % 2 ^ 64 + midUpper) % 2 ^ 64 + c3) % 2 ^ 64, (t3 * 2 ^ 32 % 2 ^ 64 + lower32) % 2 ^ 64)

/-- `_Big_uint128::operator<`, `ratio:194-200`. -/
def bigLess (x y : Nat × Nat) : Bool := if x.1 ≠ y.1 then x.1 < y.1 else x.2 < y.2

/-- `_Ratio_less`, `ratio:228-240` and `ratio_less`, `242-245`. -/
def less (x y : Int × Int) : R Bool :=
  if x.1 ≥ 0 ∧ y.1 ≥ 0 then .ok (bigLess (bigMultiply (toU 64 x.1) (toU 64 y.2)) (bigMultiply (toU 64 y.1) (toU 64 x.2)))
  else if x.1 < 0 ∧ y.1 < 0 then do
    let a ← chkL (-y.1)
    let b ← chkL (-x.1)
    .ok (bigLess (bigMultiply (toU 64 a) (toU 64 x.2)) (bigMultiply (toU 64 b) (toU 64 y.2)))
  else .ok (x.1 < y.1)

/-! ## Specification -/

/-- `|v| ≤ INTMAX_MAX` -/
def Small (v : Int) : Prop := -imax ≤ v ∧ v ≤ imax

instance (v : Int) : Decidable (Small v) := by unfold Small; infer_instance

/-- The normal form of the members of a `ratio`. -/
structure Normal (x : Int × Int) : Prop where
  num : Small x.1
  den : 0 < x.2
  den' : x.2 ≤ imax
  coprime : Nat.Coprime x.1.natAbs x.2.natAbs

/-- The number a ratio stands for. -/
def val (x : Int × Int) : ℚ := (x.1 : ℚ) / (x.2 : ℚ)

/-! ## Proofs -/

theorem abs_ok {v : Int} (h : Small v) : abs v = .ok (v.natAbs : Int) := by
  unfold abs; unfold Small imax at h
  split
  · rw [chkL_ok (by omega)]; congr 1; omega
  · congr 1; omega

theorem gcdLoop_ok : ∀ (f a b : Nat), b < f → gcdLoop f (a : Int) (b : Int) = .ok ((Nat.gcd a b : Nat) : Int)
  | 0, _, _, h => by omega
  | f + 1, a, b, h => by
    unfold gcdLoop
    split
    · rename_i h0
      have : b = 0 := by omega
      subst this; simp
    · rename_i h0
      rw [show Int.tmod (a : Int) (b : Int) = ((a % b : Nat) : Int) by rw [Int.tmod_eq_emod_of_nonneg (by omega)]; push_cast; rfl]
      have := Nat.mod_lt a (show 0 < b by omega)
      rw [gcdLoop_ok f b (a % b) (by omega), Nat.gcd_comm b, ← Nat.gcd_rec, Nat.gcd_comm]

theorem gcd_ok {a b : Int} (ha : Small a) (hb : Small b) (h : a ≠ 0 ∨ b ≠ 0) : gcd a b = .ok ((Nat.gcd a.natAbs b.natAbs : Nat) : Int) := by
  unfold gcd
  rw [if_neg (by omega), abs_ok ha, abs_ok hb]
  simp only [R.ok_bind]
  exact gcdLoop_ok _ _ _ (by omega)

theorem div_ok {a b : Int} (ha : Small a) (hb : 0 < b) (hd : b ∣ a) : div a b = .ok (a / b) ∧ Small (a / b) := by
  have h1 : cdiv a b = a / b := Int.tdiv_eq_ediv_of_dvd hd
  obtain ⟨k, rfl⟩ := hd
  have h2 : b * k / b = k := Int.mul_ediv_cancel_left k (by omega)
  rw [h2] at h1 ⊢
  have hs : Small k := by
    unfold Small at *
    unfold imax at *
    constructor
    · by_contra hc
      nlinarith
    · by_contra hc
      nlinarith
  refine ⟨?_, hs⟩
  unfold div; rw [if_neg (by omega), h1]
  unfold Small imax at hs
  exact chkL_ok (by omega)

theorem safeMult_ok {a b : Int} (ha : Small a) (hb : Small b) : safeMult a b = if Small (a * b) then .ok (a * b) else .error (.exc .overflowError) := by
  unfold safeMult
  rw [abs_ok ha, abs_ok hb]
  simp only [R.ok_bind]
  by_cases h0 : b = 0
  · subst h0
    simp only [if_true, R.ok_bind, mul_zero]
    have : Small 0 := by unfold Small imax; omega
    unfold Small imax at ha
    rw [if_pos this, if_pos (by unfold imax; omega)]
    exact chkL_ok (by omega)
  · rw [if_neg h0]
    simp only [R.ok_bind]
    have hiff : (a.natAbs : Int) ≤ imax / (b.natAbs : Int) ↔ Small (a * b) := by
      rw [Int.le_ediv_iff_mul_le (by omega)]
      have : ((a.natAbs : Int)) * (b.natAbs : Int) = ((a * b).natAbs : Int) := by rw [Int.natAbs_mul]; push_cast; rfl
      rw [this]; unfold Small; omega
    by_cases h : Small (a * b)
    · rw [if_pos h, if_pos (hiff.2 h)]
      unfold Small imax at h
      exact chkL_ok (by omega)
    · rw [if_neg h, if_neg (fun h' => h (hiff.1 h'))]

theorem safeAdd_ok {a b : Int} (ha : Small a) (hb : Small b) : safeAdd a b = if Small (a + b) then .ok (a + b) else .error (.exc .overflowError) := by
  unfold safeAdd
  rw [abs_ok ha, abs_ok hb]
  simp only [R.ok_bind]
  unfold Small at ha hb
  have hm : imax = 9223372036854775807 := rfl
  rw [show chkL (imax - (b.natAbs : Int)) = .ok (imax - (b.natAbs : Int)) from chkL_ok (by omega)]
  simp only [R.ok_bind]
  unfold signOf
  by_cases h1 : a < 0 <;> by_cases h2 : b < 0 <;> simp only [h1, h2, if_true, if_false]
  · split
    · rw [if_neg (by unfold Small; omega)]
    · rw [if_pos (by unfold Small; omega)]; exact chkL_ok (by omega)
  · rw [if_neg (by omega), if_pos (by unfold Small; omega)]; exact chkL_ok (by omega)
  · rw [if_neg (by omega), if_pos (by unfold Small; omega)]; exact chkL_ok (by omega)
  · split
    · rw [if_neg (by unfold Small; omega)]
    · rw [if_pos (by unfold Small; omega)]; exact chkL_ok (by omega)

theorem Normal.small {x : Int × Int} (h : Normal x) : Small x.2 := ⟨by have := h.den; unfold imax; omega, h.den'⟩

/-- `ratio<n, d>`: accepted iff `d ≠ 0` and neither argument is the most negative value; then the members are the reduced fraction. -/
theorem mk_ok {n d : Int} (hn : Small n) (hd : Small d) (h0 : d ≠ 0) : ∃ r, mk n d = .ok r ∧ Normal r ∧ val r = (n : ℚ) / (d : ℚ) := by
  unfold mk
  have hm : imax = 9223372036854775807 := rfl
  rw [if_neg (by unfold Small at hn hd; omega), abs_ok hn, abs_ok hd, gcd_ok hn hd (.inr h0)]
  simp only [R.ok_bind]
  obtain ⟨m, hm'⟩ : ∃ m, signOf n * signOf d * (n.natAbs : Int) = m := ⟨_, rfl⟩
  rw [hm']
  have hmabs : m = (if (n < 0) = (d < 0) then (n.natAbs : Int) else -(n.natAbs : Int)) := by
    rw [← hm']; unfold signOf
    by_cases h1 : n < 0 <;> by_cases h2 : d < 0 <;> simp [h1, h2]
  have hms : Small m := by
    unfold Small at *; split at hmabs <;> omega
  have hmn : m.natAbs = n.natAbs := by split at hmabs <;> omega
  have hmd : m * d = n * (d.natAbs : Int) := by
    obtain ⟨k, hk⟩ : ∃ k : Int, (n.natAbs : Int) = k := ⟨_, rfl⟩
    rw [hk] at hmabs
    by_cases h1 : n < 0 <;> by_cases h2 : d < 0 <;> simp [h1, h2] at hmabs
    · rw [show (d.natAbs : Int) = -d by omega, show m = -n by omega]; ring
    · rw [show (d.natAbs : Int) = d by omega, show m = n by omega]
    · rw [show (d.natAbs : Int) = -d by omega, show m = -n by omega]; ring
    · rw [show (d.natAbs : Int) = d by omega, show m = n by omega]
  rw [show chkL m = .ok m from chkL_ok (by unfold Small at hms; omega)]
  simp only [R.ok_bind]
  have hgp : 0 < Nat.gcd n.natAbs d.natAbs := Nat.gcd_pos_of_pos_right _ (by omega)
  obtain ⟨g, hg⟩ : ∃ g, Nat.gcd n.natAbs d.natAbs = g := ⟨_, rfl⟩
  have hdn : g ∣ n.natAbs := by rw [← hg]; exact Nat.gcd_dvd_left _ _
  have hdd : g ∣ d.natAbs := by rw [← hg]; exact Nat.gcd_dvd_right _ _
  rw [hg] at hgp ⊢
  have hdm : (g : Int) ∣ m := by rw [← Int.natAbs_dvd_natAbs]; simpa [hmn] using hdn
  have hdd' : (g : Int) ∣ (d.natAbs : Int) := by exact_mod_cast hdd
  have hsd : Small (d.natAbs : Int) := by unfold Small at *; omega
  obtain ⟨e1, s1⟩ := div_ok hms (show (0 : Int) < g by omega) hdm
  obtain ⟨e2, s2⟩ := div_ok hsd (show (0 : Int) < g by omega) hdd'
  rw [e1]; simp only [R.ok_bind]
  rw [e2]; simp only [R.ok_bind]
  refine ⟨_, rfl, ⟨s1, ?_, s2.2, ?_⟩, ?_⟩
  · simp only
    exact Int.ediv_pos_of_pos_of_dvd (by omega) (by omega) hdd'
  · simp only
    rw [Int.natAbs_ediv_of_dvd hdm, Int.natAbs_ediv_of_dvd hdd', hmn]
    simp only [Int.natAbs_natCast]
    rw [← hg]; exact Nat.coprime_div_gcd_div_gcd (by rw [hg]; exact hgp)
  · unfold val
    simp only
    have hg0 : (g : ℚ) ≠ 0 := by exact_mod_cast (show g ≠ 0 by omega)
    rw [Int.cast_div hdm (by exact_mod_cast (show g ≠ 0 by omega)), Int.cast_div hdd' (by exact_mod_cast (show g ≠ 0 by omega))]
    have hd0 : (d : ℚ) ≠ 0 := by exact_mod_cast h0
    have hda : ((d.natAbs : Int) : ℚ) ≠ 0 := by exact_mod_cast (show (d.natAbs : Int) ≠ 0 by omega)
    have hq : (m : ℚ) * d = n * ((d.natAbs : Int) : ℚ) := by exact_mod_cast hmd
    have hg1 : ((g : Int) : ℚ) ≠ 0 := by exact_mod_cast hg0
    rw [div_div_div_cancel_right₀ hg1, div_eq_div_iff hda hd0]
    exact hq

theorem normal_unique {x y : Int × Int} (hx : Normal x) (hy : Normal y) (h : val x = val y) : x = y := by
  obtain ⟨e1, e2⟩ := Rat.div_int_inj hx.den hy.den hx.coprime hy.coprime h
  exact Prod.ext e1 e2

theorem q_pos {x : Int × Int} (hx : Normal x) : (0 : ℚ) < (x.2 : ℚ) := by exact_mod_cast hx.den

/-- Bringing two fractions to the common denominator. -/
theorem lcm_parts {d1 d2 : Int} (h1 : 0 < d1) (h2 : 0 < d2) : ∃ g a b : Int, (Nat.gcd d1.natAbs d2.natAbs : Int) = g ∧ 0 < g ∧ 0 < a ∧ 0 < b ∧ d1 = g * a ∧ d2 = g * b ∧
    ((Nat.lcm d1.natAbs d2.natAbs : Nat) : Int) = g * a * b := by
  obtain ⟨D1, rfl⟩ := Int.eq_ofNat_of_zero_le (le_of_lt h1)
  obtain ⟨D2, rfl⟩ := Int.eq_ofNat_of_zero_le (le_of_lt h2)
  simp only [Int.natAbs_natCast]
  have hg : 0 < Nat.gcd D1 D2 := Nat.gcd_pos_of_pos_left _ (by omega)
  obtain ⟨a, ha⟩ := Nat.gcd_dvd_left D1 D2
  obtain ⟨b, hb⟩ := Nat.gcd_dvd_right D1 D2
  have ha0 : 0 < a := by
    rcases Nat.eq_zero_or_pos a with h | h
    · rw [h] at ha; omega
    · exact h
  have hb0 : 0 < b := by
    rcases Nat.eq_zero_or_pos b with h | h
    · rw [h] at hb; omega
    · exact h
  refine ⟨(Nat.gcd D1 D2 : Nat), a, b, rfl, by exact_mod_cast hg, by exact_mod_cast ha0, by exact_mod_cast hb0, by exact_mod_cast ha, by exact_mod_cast hb, ?_⟩
  have hl := Nat.gcd_mul_lcm D1 D2
  generalize hG : Nat.gcd D1 D2 = G at *
  subst ha hb
  have : Nat.lcm (G * a) (G * b) = G * a * b := Nat.eq_of_mul_eq_mul_left hg (by rw [hl]; ring)
  rw [this]; push_cast; rfl

theorem small_of_dvd {g a : Int} (hg : 0 < g) (ha : 0 < a) (h : g * a ≤ imax) : Small a ∧ Small g := by
  unfold Small imax at *
  constructor <;> constructor <;> nlinarith

/-- What `ratio_add` needs to compile: both numerators over the least common denominator, their sum and that denominator are representable. -/
def AddFits (x y : Int × Int) : Prop :=
  let l : Int := (Nat.lcm x.2.natAbs y.2.natAbs : Nat)
  Small (x.1 * (l / x.2)) ∧ Small (y.1 * (l / y.2)) ∧ Small (x.1 * (l / x.2) + y.1 * (l / y.2)) ∧ Small l

theorem add_ok {x y : Int × Int} (hx : Normal x) (hy : Normal y) :
    (AddFits x y → ∃ r, add x y = .ok r ∧ Normal r ∧ val r = val x + val y) ∧ (¬ AddFits x y → add x y = .error (.exc .overflowError)) := by
  obtain ⟨g, a, b, hg, hg0, ha0, hb0, e1, e2, hl⟩ := lcm_parts hx.den hy.den
  have hxs := hx.small
  have hys := hy.small
  have hx0 := hx.den
  have hy0 := hy.den
  have s1 := small_of_dvd hg0 ha0 (e1 ▸ hx.den')
  have s2 := small_of_dvd hg0 hb0 (e2 ▸ hy.den')
  have hq1 : div y.2 g = .ok b := by
    rw [(div_ok hys hg0 ⟨b, e2⟩).1, e2, Int.mul_ediv_cancel_left _ (by omega)]
  have hq2 : div x.2 g = .ok a := by
    rw [(div_ok hxs hg0 ⟨a, e1⟩).1, e1, Int.mul_ediv_cancel_left _ (by omega)]
  have hlx : g * a * b / x.2 = b := by rw [e1]; exact Int.mul_ediv_cancel_left _ (by have := mul_pos hg0 ha0; omega)
  have hly : g * a * b / y.2 = a := by
    rw [e2, show g * a * b = g * b * a by ring]; exact Int.mul_ediv_cancel_left _ (by have := mul_pos hg0 hb0; omega)
  unfold AddFits
  simp only [hl, hlx, hly]
  have hrun : add x y = (do
      let u ← safeMult x.1 b
      let v ← safeMult y.1 a
      let s ← safeAdd u v
      let d ← safeMult x.2 b
      mk s d) := by
    unfold add
    rw [gcd_ok hxs hys (.inl (by omega)), hg]; simp only [R.ok_bind]
    rw [hq1]; simp only [R.ok_bind]
    rw [hq2]; simp only [R.ok_bind]
  rw [hrun, safeMult_ok hx.num s2.1, safeMult_ok hy.num s1.1, safeMult_ok hxs s2.1]
  have hd : x.2 * b = g * a * b := by rw [e1]
  rw [hd]
  constructor
  · rintro ⟨f1, f2, f3, f4⟩
    rw [if_pos f1]; simp only [R.ok_bind]
    rw [if_pos f2]; simp only [R.ok_bind]
    rw [safeAdd_ok f1 f2, if_pos f3]; simp only [R.ok_bind]
    rw [if_pos f4]; simp only [R.ok_bind]
    have hgab : g * a * b ≠ 0 := by have := mul_pos (mul_pos hg0 ha0) hb0; omega
    obtain ⟨r, h1, h2, h3⟩ := mk_ok f3 f4 hgab
    refine ⟨r, h1, h2, ?_⟩
    rw [h3]; unfold val; rw [e1, e2]
    have hgq : (g : ℚ) ≠ 0 := by exact_mod_cast (show g ≠ 0 by omega)
    have haq : (a : ℚ) ≠ 0 := by exact_mod_cast (show a ≠ 0 by omega)
    have hbq : (b : ℚ) ≠ 0 := by exact_mod_cast (show b ≠ 0 by omega)
    push_cast
    field_simp
  · intro hn
    by_cases f1 : Small (x.1 * b)
    · rw [if_pos f1]; simp only [R.ok_bind]
      by_cases f2 : Small (y.1 * a)
      · rw [if_pos f2]; simp only [R.ok_bind]
        rw [safeAdd_ok f1 f2]
        by_cases f3 : Small (x.1 * b + y.1 * a)
        · rw [if_pos f3]; simp only [R.ok_bind]
          rw [if_neg (fun f4 => hn ⟨f1, f2, f3, f4⟩)]; rfl
        · rw [if_neg f3]; rfl
      · rw [if_neg f2]; rfl
    · rw [if_neg f1]; rfl

theorem small_neg {v : Int} (h : Small v) : Small (-v) := by unfold Small at *; omega

theorem normal_mk {n d : Int} (h : Normal (n, d)) : mk n d = .ok (n, d) := by
  obtain ⟨r, h1, h2, h3⟩ := mk_ok h.num h.small (by have := h.den; simp only at this; omega)
  rw [h1, normal_unique h2 h h3]

theorem normal_neg {x : Int × Int} (h : Normal x) : Normal (-x.1, x.2) :=
  ⟨small_neg h.num, h.den, h.den', by simpa using h.coprime⟩

theorem sub_eq {x y : Int × Int} (hy : Normal y) : sub x y = add x (-y.1, y.2) := by
  unfold sub
  have := hy.num
  unfold Small imax at this
  rw [chkL_ok (by omega)]; simp only [R.ok_bind]
  rw [normal_mk (normal_neg hy)]; rfl

theorem mul_core {x y : Int × Int} (hx : Normal x) (hy : Normal y) :
    ∃ n d : Int, 0 < d ∧ Nat.Coprime n.natAbs d.natAbs ∧ (n : ℚ) / (d : ℚ) = val x * val y ∧
      mul x y = if Small n ∧ Small d then .ok (n, d) else .error (.exc .overflowError) := by
  have hxs := hx.small
  have hys := hy.small
  have hx0 := hx.den
  have hy0 := hy.den
  obtain ⟨gx, hgx⟩ : ∃ g, Nat.gcd x.1.natAbs y.2.natAbs = g := ⟨_, rfl⟩
  obtain ⟨gy, hgy⟩ : ∃ g, Nat.gcd y.1.natAbs x.2.natAbs = g := ⟨_, rfl⟩
  have hgx0 : 0 < gx := by rw [← hgx]; exact Nat.gcd_pos_of_pos_right _ (by omega)
  have hgy0 : 0 < gy := by rw [← hgy]; exact Nat.gcd_pos_of_pos_right _ (by omega)
  have d1 : (gx : Int) ∣ x.1 := by rw [← Int.natAbs_dvd_natAbs, Int.natAbs_natCast, ← hgx]; exact Nat.gcd_dvd_left _ _
  have d2 : (gx : Int) ∣ y.2 := by rw [← Int.natAbs_dvd_natAbs, Int.natAbs_natCast, ← hgx]; exact Nat.gcd_dvd_right _ _
  have d3 : (gy : Int) ∣ y.1 := by rw [← Int.natAbs_dvd_natAbs, Int.natAbs_natCast, ← hgy]; exact Nat.gcd_dvd_left _ _
  have d4 : (gy : Int) ∣ x.2 := by rw [← Int.natAbs_dvd_natAbs, Int.natAbs_natCast, ← hgy]; exact Nat.gcd_dvd_right _ _
  obtain ⟨q1, t1⟩ := div_ok hx.num (show (0 : Int) < gx by omega) d1
  obtain ⟨q2, t2⟩ := div_ok hys (show (0 : Int) < gx by omega) d2
  obtain ⟨q3, t3⟩ := div_ok hy.num (show (0 : Int) < gy by omega) d3
  obtain ⟨q4, t4⟩ := div_ok hxs (show (0 : Int) < gy by omega) d4
  have hc1 : Nat.Coprime (x.1 / gx).natAbs (y.2 / gx).natAbs := by
    rw [Int.natAbs_ediv_of_dvd d1, Int.natAbs_ediv_of_dvd d2, Int.natAbs_natCast, ← hgx]
    exact Nat.coprime_div_gcd_div_gcd (by rw [hgx]; exact hgx0)
  have hc2 : Nat.Coprime (y.1 / gy).natAbs (x.2 / gy).natAbs := by
    rw [Int.natAbs_ediv_of_dvd d3, Int.natAbs_ediv_of_dvd d4, Int.natAbs_natCast, ← hgy]
    exact Nat.coprime_div_gcd_div_gcd (by rw [hgy]; exact hgy0)
  have p2 : 0 < y.2 / gx := Int.ediv_pos_of_pos_of_dvd hy0 (by omega) d2
  have p4 : 0 < x.2 / gy := Int.ediv_pos_of_pos_of_dvd hx0 (by omega) d4
  obtain ⟨a, ea⟩ := d1
  obtain ⟨e, ee⟩ := d2
  obtain ⟨b, eb⟩ := d3
  obtain ⟨c, ec⟩ := d4
  have ra : x.1 / gx = a := by rw [ea]; exact Int.mul_ediv_cancel_left _ (by omega)
  have re : y.2 / gx = e := by rw [ee]; exact Int.mul_ediv_cancel_left _ (by omega)
  have rb : y.1 / gy = b := by rw [eb]; exact Int.mul_ediv_cancel_left _ (by omega)
  have rc : x.2 / gy = c := by rw [ec]; exact Int.mul_ediv_cancel_left _ (by omega)
  rw [ra] at q1 t1 hc1
  rw [re] at q2 t2 hc1 p2
  rw [rb] at q3 t3 hc2
  rw [rc] at q4 t4 hc2 p4
  have hcac : Nat.Coprime a.natAbs c.natAbs := by
    have h := hx.coprime
    rw [ea, ec, Int.natAbs_mul, Int.natAbs_mul] at h
    exact Nat.Coprime.coprime_mul_left_right (Nat.Coprime.coprime_mul_left h)
  have hcbe : Nat.Coprime b.natAbs e.natAbs := by
    have h := hy.coprime
    rw [eb, ee, Int.natAbs_mul, Int.natAbs_mul] at h
    exact Nat.Coprime.coprime_mul_left_right (Nat.Coprime.coprime_mul_left h)
  refine ⟨a * b, c * e, mul_pos p4 p2, ?_, ?_, ?_⟩
  · rw [Int.natAbs_mul, Int.natAbs_mul]
    exact Nat.Coprime.mul_left (Nat.Coprime.mul_right hcac hc1) (Nat.Coprime.mul_right hc2 hcbe)
  · unfold val
    rw [ea, eb, ec, ee]
    have hg1 : ((gx : Int) : ℚ) ≠ 0 := by exact_mod_cast (show (gx : Int) ≠ 0 by omega)
    have hg2 : ((gy : Int) : ℚ) ≠ 0 := by exact_mod_cast (show (gy : Int) ≠ 0 by omega)
    have hcq : (c : ℚ) ≠ 0 := by exact_mod_cast (show c ≠ 0 by omega)
    have heq : (e : ℚ) ≠ 0 := by exact_mod_cast (show e ≠ 0 by omega)
    push_cast at hg1 hg2 ⊢
    field_simp
  · unfold mul
    rw [gcd_ok hx.num hys (.inr (by omega)), gcd_ok hy.num hxs (.inr (by omega)), hgx, hgy]
    simp only [R.ok_bind]
    rw [q1]; simp only [R.ok_bind]
    rw [q3]; simp only [R.ok_bind]
    rw [q4]; simp only [R.ok_bind]
    rw [q2]; simp only [R.ok_bind]
    rw [safeMult_ok t1 t3, safeMult_ok t4 t2]
    by_cases f1 : Small (a * b)
    · rw [if_pos f1]; simp only [R.ok_bind]
      by_cases f2 : Small (c * e)
      · rw [if_pos f2]; simp only [R.ok_bind]
        rw [if_pos ⟨f1, f2⟩]
        refine normal_mk ⟨f1, mul_pos p4 p2, f2.2, ?_⟩
        simp only
        rw [Int.natAbs_mul, Int.natAbs_mul]
        exact Nat.Coprime.mul_left (Nat.Coprime.mul_right hcac hc1) (Nat.Coprime.mul_right hc2 hcbe)
      · rw [if_neg f2, if_neg (fun h => f2 h.2)]; rfl
    · rw [if_neg f1]
      rw [if_neg (show ¬ (Small (a * b) ∧ Small (c * e)) from fun h => f1 h.1)]; rfl

theorem mul_ok {x y : Int × Int} (hx : Normal x) (hy : Normal y) (r : Int × Int) : mul x y = .ok r ↔ Normal r ∧ val r = val x * val y := by
  obtain ⟨n, d, h0, hc, hv, he⟩ := mul_core hx hy
  rw [he]
  constructor
  · intro h
    split at h
    · rename_i hs
      cases h
      exact ⟨⟨hs.1, h0, hs.2.2, hc⟩, hv⟩
    · cases h
  · rintro ⟨hr, hrv⟩
    have e := Rat.div_int_inj hr.den h0 hr.coprime hc (by rw [hv, ← hrv]; rfl)
    have : r = (n, d) := Prod.ext e.1 e.2
    subst this
    rw [if_pos ⟨hr.num, hr.small⟩]

theorem mk_inv {y : Int × Int} (hy : Normal y) (h0 : y.1 ≠ 0) : ∃ z, mk y.2 y.1 = .ok z ∧ Normal z ∧ val z = (val y)⁻¹ := by
  obtain ⟨r, h1, h2, h3⟩ := mk_ok hy.small hy.num h0
  refine ⟨r, h1, h2, ?_⟩
  rw [h3]; unfold val; rw [inv_div]

theorem bigMultiply_ok {l r : Nat} (hl : l < 2 ^ 64) (hr : r < 2 ^ 64) :
    (bigMultiply l r).1 * 2 ^ 64 + (bigMultiply l r).2 = l * r ∧ (bigMultiply l r).2 < 2 ^ 64 := by
  unfold bigMultiply
  simp only
  have ea : l = l / 2 ^ 32 * 2 ^ 32 + l % 2 ^ 32 := (Nat.div_add_mod' l _).symm
  have eb : r = r / 2 ^ 32 * 2 ^ 32 + r % 2 ^ 32 := (Nat.div_add_mod' r _).symm
  have a1 : l % 2 ^ 32 ≤ 4294967295 := by omega
  have a2 : l / 2 ^ 32 ≤ 4294967295 := by omega
  have a3 : r % 2 ^ 32 ≤ 4294967295 := by omega
  have a4 : r / 2 ^ 32 ≤ 4294967295 := by omega
  have hm : l * r = (l / 2 ^ 32) * (r / 2 ^ 32) * 2 ^ 64 + ((l % 2 ^ 32) * (r / 2 ^ 32) + (l / 2 ^ 32) * (r % 2 ^ 32)) * 2 ^ 32 + (l % 2 ^ 32) * (r % 2 ^ 32) := by
    conv_lhs => rw [ea, eb]
    ring
  rw [hm]
  have b1 := Nat.mul_le_mul a1 a3
  have b2 := Nat.mul_le_mul a1 a4
  have b3 := Nat.mul_le_mul a2 a3
  have b4 := Nat.mul_le_mul a2 a4
  clear hm ea eb
  generalize (l % 2 ^ 32) * (r % 2 ^ 32) = P at *
  generalize (l % 2 ^ 32) * (r / 2 ^ 32) = Q at *
  generalize (l / 2 ^ 32) * (r % 2 ^ 32) = S at *
  generalize (l / 2 ^ 32) * (r / 2 ^ 32) = T at *
  norm_num at b1 b2 b3 b4
  norm_num
  omega

theorem bigLess_ok {l r l' r' : Nat} (hl : l < 2 ^ 64) (hr : r < 2 ^ 64) (hl' : l' < 2 ^ 64) (hr' : r' < 2 ^ 64) :
    bigLess (bigMultiply l r) (bigMultiply l' r') = decide (l * r < l' * r') := by
  obtain ⟨e1, f1⟩ := bigMultiply_ok hl hr
  obtain ⟨e2, f2⟩ := bigMultiply_ok hl' hr'
  rw [← e1, ← e2]
  generalize bigMultiply l r = p at *
  generalize bigMultiply l' r' = q at *
  unfold bigLess
  rw [Bool.eq_iff_iff]
  split <;> simp <;> omega

theorem toU64 {v : Int} (h0 : 0 ≤ v) (h1 : v ≤ imax) : toU 64 v = v.toNat ∧ toU 64 v < 2 ^ 64 := by
  unfold imax at h1
  unfold toU
  constructor <;> omega

theorem less_ok {x y : Int × Int} (hx : Normal x) (hy : Normal y) : ∃ b, less x y = .ok b ∧ (b = true ↔ val x < val y) := by
  have hval : val x < val y ↔ x.1 * y.2 < y.1 * x.2 := by
    unfold val
    rw [div_lt_div_iff₀ (q_pos hx) (q_pos hy)]
    exact_mod_cast Iff.rfl
  rw [hval]
  have hx1 := hx.num
  have hy1 := hy.num
  have hx0 := hx.den
  have hy0 := hy.den
  have key : ∀ a b c d : Int, 0 ≤ a → a ≤ imax → 0 ≤ b → b ≤ imax → 0 ≤ c → c ≤ imax → 0 ≤ d → d ≤ imax →
      bigLess (bigMultiply (toU 64 a) (toU 64 b)) (bigMultiply (toU 64 c) (toU 64 d)) = decide (a * b < c * d) := by
    intro a b c d a0 a1 b0 b1 c0 c1 d0 d1
    obtain ⟨e1, f1⟩ := toU64 a0 a1
    obtain ⟨e2, f2⟩ := toU64 b0 b1
    obtain ⟨e3, f3⟩ := toU64 c0 c1
    obtain ⟨e4, f4⟩ := toU64 d0 d1
    rw [bigLess_ok f1 f2 f3 f4, e1, e2, e3, e4]
    obtain ⟨A, rfl⟩ := Int.eq_ofNat_of_zero_le a0
    obtain ⟨B, rfl⟩ := Int.eq_ofNat_of_zero_le b0
    obtain ⟨C, rfl⟩ := Int.eq_ofNat_of_zero_le c0
    obtain ⟨D, rfl⟩ := Int.eq_ofNat_of_zero_le d0
    simp only [Int.toNat_natCast]
    rw [Bool.eq_iff_iff]; simp only [decide_eq_true_eq]
    exact_mod_cast Iff.rfl
  unfold less
  split
  · rename_i h
    refine ⟨_, rfl, ?_⟩
    rw [key _ _ _ _ h.1 hx1.2 (by omega) hy.den' h.2 hy1.2 (by omega) hx.den']
    simp
  · split
    · rename_i h1 h2
      have hm : imax = 9223372036854775807 := rfl
      unfold Small at hx1 hy1
      rw [chkL_ok (by omega)]; simp only [R.ok_bind]
      rw [chkL_ok (by omega)]; simp only [R.ok_bind]
      refine ⟨_, rfl, ?_⟩
      rw [key _ _ _ _ (by omega) (by omega) (by omega) hx.den' (by omega) (by omega) (by omega) hy.den']
      simp only [decide_eq_true_eq]
      constructor <;> intro h <;> nlinarith
    · rename_i h1 h2
      refine ⟨_, rfl, ?_⟩
      simp only [decide_eq_true_eq]
      push Not at h1 h2
      by_cases h : x.1 ≥ 0
      · have := h1 h
        constructor
        · intro; omega
        · intro h'
          have a1 : 0 ≤ x.1 * y.2 := mul_nonneg h (by omega)
          have a2 : y.1 * x.2 ≤ 0 := mul_nonpos_of_nonpos_of_nonneg (by omega) (by omega)
          omega
      · have := h2 (by omega)
        constructor
        · intro _
          have a1 : x.1 * y.2 < 0 := mul_neg_of_neg_of_pos (by omega) hy0
          have a2 : 0 ≤ y.1 * x.2 := mul_nonneg this (by omega)
          omega
        · intro _; omega

/-! ## Property C37 -/

/-- `ratio<n, d>` is accepted exactly if `d` is not zero and both are at least `-INTMAX_MAX`; then `num/den` is the reduced fraction with positive
denominator of the same value. -/
theorem C37_ratio {n d : Int} (hn : n ≤ imax) (hd : d ≤ imax) :
    (d ≠ 0 ∧ -imax ≤ n ∧ -imax ≤ d → ∃ r, mk n d = .ok r ∧ Normal r ∧ val r = (n : ℚ) / (d : ℚ)) ∧
    (¬ (d ≠ 0 ∧ -imax ≤ n ∧ -imax ≤ d) → mk n d = .error (.exc .overflowError)) := by
  constructor
  · rintro ⟨h0, h1, h2⟩
    exact mk_ok ⟨h1, hn⟩ ⟨h2, hd⟩ h0
  · intro h
    unfold mk
    rw [if_pos (by omega)]

example : mk 6 (-4) = .ok (-3, 2) := by decide

/-- `ratio_add` is exact, in normal form, and compiles exactly when the operands brought to the least common denominator are representable. -/
theorem C37_add {x y : Int × Int} (hx : Normal x) (hy : Normal y) :
    (AddFits x y → ∃ r, add x y = .ok r ∧ Normal r ∧ val r = val x + val y) ∧ (¬ AddFits x y → add x y = .error (.exc .overflowError)) := add_ok hx hy

/-- `ratio_subtract` -/
theorem C37_subtract {x y : Int × Int} (hx : Normal x) (hy : Normal y) :
    (AddFits x (-y.1, y.2) → ∃ r, sub x y = .ok r ∧ Normal r ∧ val r = val x - val y) ∧
    (¬ AddFits x (-y.1, y.2) → sub x y = .error (.exc .overflowError)) := by
  rw [sub_eq hy]
  have h := add_ok hx (normal_neg hy)
  have hv : val (-y.1, y.2) = - val y := by unfold val; push_cast; rw [neg_div]
  rw [hv, ← sub_eq_add_neg] at h
  exact h

/-- `ratio_multiply` compiles exactly when the product is a representable ratio, and is that ratio. -/
theorem C37_multiply {x y : Int × Int} (hx : Normal x) (hy : Normal y) (r : Int × Int) : mul x y = .ok r ↔ Normal r ∧ val r = val x * val y := mul_ok hx hy r

/-- `ratio_divide` compiles exactly when the divisor is not zero and the quotient is a representable ratio, and is that ratio. -/
theorem C37_divide {x y : Int × Int} (hx : Normal x) (hy : Normal y) (r : Int × Int) : divide x y = .ok r ↔ y.1 ≠ 0 ∧ Normal r ∧ val r = val x / val y := by
  unfold divide
  by_cases h0 : y.1 = 0
  · have : mk y.2 y.1 = .error (.exc .overflowError) := by unfold mk; rw [if_pos (.inl h0)]
    rw [this]
    simp only [h0, ne_eq, not_true, false_and, iff_false]
    intro h; cases h
  · obtain ⟨z, h1, h2, h3⟩ := mk_inv hy h0
    rw [h1]; simp only [R.ok_bind]
    rw [mul_ok hx h2, h3, div_eq_mul_inv]
    simp [h0]

/-- `ratio_equal` compares values. -/
theorem C37_equal {x y : Int × Int} (hx : Normal x) (hy : Normal y) : equal x y = true ↔ val x = val y := by
  unfold equal
  simp only [decide_eq_true_eq]
  constructor
  · rintro ⟨h1, h2⟩; rw [show x = y from Prod.ext h1 h2]
  · intro h; rw [normal_unique hx hy h]; exact ⟨rfl, rfl⟩

/-- `ratio_less` compares values, for all ratios, without overflow (the other comparisons are defined by it). -/
theorem C37_less {x y : Int × Int} (hx : Normal x) (hy : Normal y) : ∃ b, less x y = .ok b ∧ (b = true ↔ val x < val y) := less_ok hx hy

/-- Two extreme ratios satisfy the hypotheses. -/
example : Normal (9223372036854775807, 9223372036854775806) ∧ Normal (-3, 7) ∧ AddFits (-3, 7) (1, 6) := by
  refine ⟨⟨by unfold Small imax; omega, by omega, by unfold imax; omega, ?_⟩, ⟨by unfold Small imax; omega, by omega, by unfold imax; omega, by decide⟩, by
    unfold AddFits; decide⟩
  exact (Nat.coprime_self_add_left (m := 9223372036854775806) (n := 1)).2 (Nat.coprime_one_left _)

end STL.Ratio
