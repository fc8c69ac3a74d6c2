import Verif.Mdspan.Model
import Verif.Tac
import Mathlib.Data.List.Sort
import Mathlib.Data.List.Perm.Subperm
import Mathlib.Tactic.Positivity

/-! # Layout mappings: proofs -/

namespace STL.Mds
open STL

/-- Largest value of the type. -/
def IT.max (t : IT) : Int := if t.sg then 2 ^ (t.w - 1) - 1 else 2 ^ t.w - 1

/-- Number of multidimensional indices. -/
def vol : List Int → Int
  | [] => 1
  | e :: es => e * vol es

theorem vol_cons (e : Int) (es : List Int) : vol (e :: es) = e * vol es := rfl

/-- `idx` is a multidimensional index inside the extents. -/
def InBox (exts idx : List Int) : Prop := List.Forall₂ (fun e i => 0 ≤ i ∧ i < e) exts idx

/-- `Σ i * s` -/
def dot : List Int → List Int → Int
  | s :: ss, i :: is => i * s + dot ss is
  | _, _ => 0

variable {t : IT}

theorem two_pow_pred' {w : Nat} (hw : 1 ≤ w) : (2 : Int) ^ w = 2 ^ (w - 1) + 2 ^ (w - 1) := by
  obtain ⟨v, rfl⟩ : ∃ v, w = v + 1 := ⟨w - 1, by omega⟩
  rw [pow_succ]; simp; ring

theorem arith_ok (hw : 1 ≤ t.w) {v : Int} (h0 : 0 ≤ v) (h1 : v ≤ t.max) : t.arith v = .ok v := by
  unfold IT.arith
  unfold IT.max at h1
  have h2 := two_pow_pred' hw
  have hp : (0 : Int) < 2 ^ (t.w - 1) := by positivity
  split
  · rename_i hlt
    refine chkI_ok ⟨by omega, ?_⟩
    have : (2 : Int) ^ t.w ≤ 2 ^ 31 := pow_le_pow_right₀ (by norm_num) (by omega)
    have h3 : (2 : Int) ^ 31 = 2147483648 := by norm_num
    split at h1 <;> omega
  · split
    · rename_i hs
      rw [if_pos hs] at h1
      unfold chkS; rw [if_pos ⟨by omega, by omega⟩]
    · rename_i hs
      rw [if_neg hs] at h1
      unfold toU; rw [Int.emod_eq_of_lt h0 (by omega), Int.toNat_of_nonneg h0]

theorem conv_ok (hw : 1 ≤ t.w) {v : Int} (h0 : 0 ≤ v) (h1 : v ≤ t.max) : t.conv v = v := by
  unfold IT.conv
  unfold IT.max at h1
  have h2 := two_pow_pred' hw
  have hp : (0 : Int) < 2 ^ (t.w - 1) := by positivity
  split
  · rename_i hs
    rw [if_pos hs] at h1
    unfold toS; rw [Int.emod_eq_of_lt (by omega) (by omega)]; omega
  · rename_i hs
    rw [if_neg hs] at h1
    unfold toU; rw [Int.emod_eq_of_lt h0 (by omega), Int.toNat_of_nonneg h0]

theorem max_le_uns (hw : 1 ≤ t.w) : t.max ≤ t.uns.max := by
  unfold IT.max IT.uns
  have h2 := two_pow_pred' hw
  have hp : (0 : Int) < 2 ^ (t.w - 1) := by positivity
  simp only [Bool.false_eq_true, if_false]
  split <;> omega

theorem vol_pos : ∀ {exts idx : List Int}, InBox exts idx → 1 ≤ vol exts
  | _, _, .nil => by simp [vol]
  | _, _, .cons (a := e) h hs => by
    have := vol_pos hs
    unfold vol
    nlinarith [h.1, h.2]

theorem vol_nonneg : ∀ {exts : List Int}, (∀ e ∈ exts, 0 ≤ e) → 0 ≤ vol exts
  | [], _ => by simp [vol]
  | e :: es, h => by
    have := vol_nonneg (exts := es) fun x hx => h x (by simp [hx])
    unfold vol
    exact mul_nonneg (h e (by simp)) this

/-! ## layout_left -/

def leftVal : List Int → List Int → Int
  | e :: es, i :: is => i + e * leftVal es is
  | _, _ => 0

theorem leftVal_bound : ∀ {exts idx : List Int}, InBox exts idx → 0 ≤ leftVal exts idx ∧ leftVal exts idx < vol exts
  | _, _, .nil => by simp [leftVal, vol]
  | _, _, .cons (a := e) (b := i) h hs => by
    have := leftVal_bound hs
    unfold leftVal vol
    constructor <;> nlinarith [h.1, h.2]

theorem leftVal_inj : ∀ {exts idx idx' : List Int}, InBox exts idx → InBox exts idx' → leftVal exts idx = leftVal exts idx' → idx = idx'
  | _, _, _, .nil, .nil, _ => rfl
  | _, _, _, .cons (a := e) (b := i) (l₁ := es) (l₂ := is) h hs, .cons (b := i') (l₂ := is') h' hs', he => by
    unfold leftVal at he
    have h1 : i = i' := by
      have h1 : (i + e * leftVal es is) % e = (i' + e * leftVal es is') % e := by rw [he]
      rw [Int.add_mul_emod_self_left, Int.add_mul_emod_self_left, Int.emod_eq_of_lt h.1 h.2, Int.emod_eq_of_lt h'.1 h'.2] at h1
      exact h1
    subst h1
    have h2 : e * leftVal es is = e * leftVal es is' := by omega
    have h3 := Int.eq_of_mul_eq_mul_left (by omega) h2
    rw [leftVal_inj hs hs' h3]

theorem leftVal_surj : ∀ {exts : List Int}, (∀ e ∈ exts, 0 ≤ e) → ∀ off, 0 ≤ off → off < vol exts → ∃ idx, InBox exts idx ∧ leftVal exts idx = off
  | [], _, off, h0, h1 => ⟨[], .nil, by simp [vol] at h1; simp [leftVal]; omega⟩
  | e :: es, h, off, h0, h1 => by
    unfold vol at h1
    have he : 0 < e := by
      rcases (h e (by simp)).lt_or_eq with h2 | h2
      · exact h2
      · rw [← h2] at h1; simp at h1; omega
    obtain ⟨is, h2, h3⟩ := leftVal_surj (exts := es) (fun x hx => h x (by simp [hx])) (off / e) (Int.ediv_nonneg h0 he.le) (Int.ediv_lt_of_lt_mul he (by rw [mul_comm]; exact h1))
    refine ⟨(off % e) :: is, .cons ⟨Int.emod_nonneg _ he.ne', Int.emod_lt_of_pos _ he⟩ h2, ?_⟩
    unfold leftVal; rw [h3]; exact Int.emod_add_mul_ediv off e

theorem leftLoop_ok (hw : 1 ≤ t.w) : ∀ {exts idx : List Int}, InBox exts idx → ∀ {stride result : Int}, 1 ≤ stride → 0 ≤ result → result < stride → stride * vol exts ≤ t.max →
    leftLoop t exts idx stride result = .ok (result + stride * leftVal exts idx)
  | _, _, .nil, stride, result, _, _, _, _ => by simp [leftLoop, leftVal]
  | _, _, .cons (a := e) (b := i) (l₁ := es) (l₂ := is) h hs, stride, result, h1, h2, h3, h4 => by
    unfold leftLoop
    have hv := vol_pos hs
    unfold vol at h4
    have hse : stride * e ≤ stride * (e * vol es) := by
      have : e ≤ e * vol es := by nlinarith [h.1, h.2]
      exact mul_le_mul_of_nonneg_left this (by omega)
    have hi : i * stride ≤ (e - 1) * stride := mul_le_mul_of_nonneg_right (by omega) (by omega)
    have hi0 : 0 ≤ i * stride := mul_nonneg h.1 (by omega)
    have hsum : result + i * stride < stride * e := by nlinarith
    rw [arith_ok hw hi0 (by nlinarith), R.ok_bind, arith_ok hw (by omega) (by omega), R.ok_bind,
      arith_ok hw (by nlinarith [h.1, h.2]) (by omega), R.ok_bind, conv_ok hw (by nlinarith [h.1, h.2]) (by omega), conv_ok hw (by omega) (by omega),
      leftLoop_ok hw hs (by nlinarith [h.1, h.2]) (by omega) hsum (by rw [mul_assoc]; exact h4)]
    congr 1
    conv_rhs => unfold leftVal
    ring

/-! ## layout_right -/

def rightVal : List Int → List Int → Int
  | _ :: es, i :: is => i * vol es + rightVal es is
  | _, _ => 0

theorem rightVal_bound : ∀ {exts idx : List Int}, InBox exts idx → 0 ≤ rightVal exts idx ∧ rightVal exts idx < vol exts
  | _, _, .nil => by simp [rightVal, vol]
  | _, _, .cons (a := e) (b := i) h hs => by
    have := rightVal_bound hs
    have := vol_pos hs
    unfold rightVal; rw [vol_cons]
    constructor <;> nlinarith [h.1, h.2]

theorem rightVal_inj : ∀ {exts idx idx' : List Int}, InBox exts idx → InBox exts idx' → rightVal exts idx = rightVal exts idx' → idx = idx'
  | _, _, _, .nil, .nil, _ => rfl
  | _, _, _, .cons (a := e) (b := i) (l₁ := es) (l₂ := is) h hs, .cons (b := i') (l₂ := is') h' hs', he => by
    unfold rightVal at he
    have b1 := rightVal_bound hs
    have b2 := rightVal_bound hs'
    have hv := vol_pos hs
    have h1 : i = i' := by
      have h1 : (i * vol es + rightVal es is) / vol es = (i' * vol es + rightVal es is') / vol es := by rw [he]
      rw [Int.mul_comm i, Int.mul_comm i', Int.mul_add_ediv_left _ _ (by omega), Int.mul_add_ediv_left _ _ (by omega), Int.ediv_eq_zero_of_lt b1.1 b1.2, Int.ediv_eq_zero_of_lt b2.1 b2.2] at h1
      omega
    subst h1
    rw [rightVal_inj hs hs' (by omega)]

theorem rightVal_surj : ∀ {exts : List Int}, (∀ e ∈ exts, 0 ≤ e) → ∀ off, 0 ≤ off → off < vol exts → ∃ idx, InBox exts idx ∧ rightVal exts idx = off
  | [], _, off, h0, h1 => ⟨[], .nil, by simp [vol] at h1; simp [rightVal]; omega⟩
  | e :: es, h, off, h0, h1 => by
    unfold vol at h1
    have hn := vol_nonneg (exts := es) fun x hx => h x (by simp [hx])
    have hv : 0 < vol es := by
      rcases hn.lt_or_eq with h2 | h2
      · exact h2
      · rw [← h2] at h1; simp at h1; omega
    obtain ⟨is, h2, h3⟩ := rightVal_surj (exts := es) (fun x hx => h x (by simp [hx])) (off % vol es) (Int.emod_nonneg _ hv.ne') (Int.emod_lt_of_pos _ hv)
    refine ⟨(off / vol es) :: is, .cons ⟨Int.ediv_nonneg h0 hv.le, Int.ediv_lt_of_lt_mul hv h1⟩ h2, ?_⟩
    unfold rightVal; rw [h3]; exact Int.ediv_mul_add_emod off (vol es)

theorem rightLoop_ok (hw : 1 ≤ t.w) : ∀ {exts idx : List Int}, InBox exts idx → ∀ {acc : Int}, 0 ≤ acc → (acc + 1) * vol exts ≤ t.max + 1 →
    rightLoop t exts idx acc = .ok (acc * vol exts + rightVal exts idx)
  | _, _, .nil, acc, _, _ => by simp [rightLoop, rightVal, vol]
  | _, _, .cons (a := e) (b := i) (l₁ := es) (l₂ := is) h hs, acc, h1, h2 => by
    unfold rightLoop
    have hv := vol_pos hs
    unfold vol at h2
    have he0 : 0 ≤ e * acc := mul_nonneg (by omega) h1
    have hle : i + e * acc + 1 ≤ (acc + 1) * e := by nlinarith
    have hle2 : (acc + 1) * e ≤ (acc + 1) * (e * vol es) := by
      have : e ≤ e * vol es := by nlinarith [h.1, h.2]
      exact mul_le_mul_of_nonneg_left this (by omega)
    have hm : (i + e * acc + 1) * vol es ≤ t.max + 1 := by
      calc _ ≤ (acc + 1) * e * vol es := mul_le_mul_of_nonneg_right hle (by omega)
        _ = (acc + 1) * (e * vol es) := by ring
        _ ≤ _ := h2
    rw [arith_ok hw he0 (by omega), R.ok_bind, arith_ok hw (by omega) (by omega), R.ok_bind, conv_ok hw (by omega) (by omega), rightLoop_ok hw hs (by omega) hm]
    congr 1
    conv_rhs => unfold rightVal
    rw [vol_cons]; ring

/-! ## Products -/

theorem fwdLoop_ok (hw : 1 ≤ t.w) : ∀ (exts : List Int), (∀ e ∈ exts, 1 ≤ e) → ∀ (r : Int), 1 ≤ r → r * vol exts ≤ t.max → fwdLoop t exts r = .ok (r * vol exts)
  | [], _, r, _, _ => by simp [fwdLoop, vol]
  | e :: es, h, r, h1, h2 => by
    have he := h e (by simp)
    have hes : ∀ x ∈ es, 1 ≤ x := fun x hx => h x (by simp [hx])
    have hv : 1 ≤ vol es := by
      have : ∀ l : List Int, (∀ x ∈ l, 1 ≤ x) → 1 ≤ vol l := by
        intro l
        induction l with
        | nil => intro; simp [vol]
        | cons a l ih =>
          intro hl
          have := ih fun x hx => hl x (by simp [hx])
          unfold vol; nlinarith [hl a (by simp)]
      exact this es hes
    have hmu := max_le_uns (t := t) hw
    have hw' : 1 ≤ t.uns.w := hw
    unfold vol at h2
    have hev : e ≤ e * vol es := by nlinarith
    have h3 : r * e ≤ r * (e * vol es) := mul_le_mul_of_nonneg_left hev (by omega)
    have h4 : e ≤ r * e := by nlinarith
    have hpos : 1 ≤ r * e := by omega
    unfold fwdLoop
    rw [conv_ok hw' (by omega) (by omega), arith_ok hw' (by omega) (by omega), R.ok_bind, conv_ok hw' (by omega) (by omega),
      fwdLoop_ok hw es hes (r * e) hpos (by rw [mul_assoc]; exact h2)]
    conv_rhs => unfold vol
    rw [mul_assoc]

/-- After a zero factor (types at least as wide as `int`, so no promotion). -/
theorem fwdLoop_zero (hw : 32 ≤ t.w) : ∀ (exts : List Int), fwdLoop t exts 0 = .ok 0
  | [] => rfl
  | e :: es => by
    unfold fwdLoop
    have hw' : 1 ≤ t.uns.w := by show 1 ≤ t.w; omega
    have hm : 0 ≤ t.uns.max := by unfold IT.max IT.uns; simp only [Bool.false_eq_true, if_false]; have : (0 : Int) < 2 ^ t.w := by positivity
                                  omega
    rw [zero_mul, arith_ok hw' (le_refl 0) hm, R.ok_bind, conv_ok hw' (le_refl 0) hm, fwdLoop_zero hw es]

theorem fwdLoop_has_zero (hw : 32 ≤ t.w) : ∀ (exts : List Int), 0 ∈ exts → ∀ r, fwdLoop t exts r = .ok 0
  | e :: es, h, r => by
    have hw' : 1 ≤ t.uns.w := by show 1 ≤ t.w; omega
    have hm : 0 ≤ t.uns.max := by unfold IT.max IT.uns; simp only [Bool.false_eq_true, if_false]; have : (0 : Int) < 2 ^ t.w := by positivity
                                  omega
    unfold fwdLoop
    have ha : ∀ v, t.uns.arith v = .ok (toU t.w v : Int) := by
      intro v; unfold IT.arith IT.uns; simp only [Bool.false_eq_true, if_false]; rw [if_neg (by omega)]
    rw [ha, R.ok_bind]
    rcases List.mem_cons.1 h with h | h
    · subst h
      rw [conv_ok hw' (le_refl 0) hm, mul_zero]
      have : toU t.w 0 = 0 := by unfold toU; simp
      rw [this]; simp only [Nat.cast_zero]
      rw [conv_ok hw' (le_refl 0) hm]
      exact fwdLoop_zero hw es
    · exact fwdLoop_has_zero hw es h _

theorem vol_zero : ∀ {exts : List Int}, 0 ∈ exts → vol exts = 0
  | e :: es, h => by
    unfold vol
    rcases List.mem_cons.1 h with h | h
    · rw [← h, zero_mul]
    · rw [vol_zero h, mul_zero]

theorem spanSize_ok (hw : 1 ≤ t.w) {exts : List Int} (h : ∀ e ∈ exts, 0 ≤ e) (hz : 32 ≤ t.w ∨ 0 ∉ exts) (hm : vol exts ≤ t.max) : spanSize t exts = .ok (vol exts) := by
  unfold spanSize fwdProd
  rw [List.take_length]
  by_cases h0 : 0 ∈ exts
  · have hw32 : 32 ≤ t.w := by tauto
    rw [fwdLoop_has_zero hw32 exts h0, R.ok_bind, vol_zero h0]
    rw [vol_zero h0] at hm
    rw [conv_ok hw (le_refl 0) hm]
  · have hpos : ∀ e ∈ exts, 1 ≤ e := fun e he => by
      have := h e he
      have : e ≠ 0 := fun hc => h0 (hc ▸ he)
      omega
    rw [fwdLoop_ok hw exts hpos 1 (le_refl _) (by rw [one_mul]; exact hm), R.ok_bind, one_mul, conv_ok hw (vol_nonneg h) hm]

theorem fwdStatic_ok (hw : 1 ≤ t.w) (hw64 : t.w ≤ 64) : ∀ (exts : List Int), (∀ e ∈ exts, 1 ≤ e) → ∀ (r : Int), 1 ≤ r → r * vol exts ≤ t.max → fwdStatic t exts r = r * vol exts
  | [], _, r, _, _ => by simp [fwdStatic, vol]
  | e :: es, h, r, h1, h2 => by
    have he := h e (by simp)
    have hes : ∀ x ∈ es, 1 ≤ x := fun x hx => h x (by simp [hx])
    have hv : 1 ≤ vol es := by
      have : ∀ l : List Int, (∀ x ∈ l, 1 ≤ x) → 1 ≤ vol l := by
        intro l
        induction l with
        | nil => intro; simp [vol]
        | cons a l ih =>
          intro hl
          have := ih fun x hx => hl x (by simp [hx])
          unfold vol; nlinarith [hl a (by simp)]
      exact this es hes
    unfold vol at h2
    have hev : e ≤ e * vol es := by nlinarith
    have h3 : r * e ≤ r * (e * vol es) := mul_le_mul_of_nonneg_left hev (by omega)
    have h4 : e ≤ r * e := by nlinarith
    have h5 : r ≤ r * e := by nlinarith
    have hmax : t.max < 2 ^ 64 := by
      unfold IT.max
      have h6 : (2 : Int) ^ t.w ≤ 2 ^ 64 := pow_le_pow_right₀ (by norm_num) hw64
      have h7 : (2 : Int) ^ (t.w - 1) ≤ 2 ^ t.w := pow_le_pow_right₀ (by norm_num) (by omega)
      split <;> omega
    have hU : ∀ v : Int, 0 ≤ v → v ≤ t.max → ((toU 64 v : Nat) : Int) = v := by
      intro v h0 hm
      unfold toU; rw [Int.emod_eq_of_lt h0 (by omega), Int.toNat_of_nonneg h0]
    unfold fwdStatic
    rw [hU r (by omega) (by omega), hU (r * e) (by omega) (by omega), conv_ok hw (by omega) (by omega), fwdStatic_ok hw hw64 es hes (r * e) (by omega) (by rw [mul_assoc]; exact h2)]
    conv_rhs => unfold vol
    rw [mul_assoc]

theorem revLoop_ok (hw : 1 ≤ t.w) : ∀ (exts : List Int), (∀ e ∈ exts, 1 ≤ e) → ∀ (r : Int), 1 ≤ r → r * vol exts ≤ t.max → revLoop t exts r = .ok (r * vol exts)
  | [], _, r, _, _ => by simp [revLoop, vol]
  | e :: es, h, r, h1, h2 => by
    have he := h e (by simp)
    have hes : ∀ x ∈ es, 1 ≤ x := fun x hx => h x (by simp [hx])
    have hv : 1 ≤ vol es := by
      have : ∀ l : List Int, (∀ x ∈ l, 1 ≤ x) → 1 ≤ vol l := by
        intro l
        induction l with
        | nil => intro; simp [vol]
        | cons a l ih =>
          intro hl
          have := ih fun x hx => hl x (by simp [hx])
          unfold vol; nlinarith [hl a (by simp)]
      exact this es hes
    unfold vol at h2
    have hev : e ≤ e * vol es := by nlinarith
    have h3 : r * e ≤ r * (e * vol es) := mul_le_mul_of_nonneg_left hev (by omega)
    have h4 : e ≤ r * e := by nlinarith
    unfold revLoop
    rw [arith_ok hw (by omega) (by omega), R.ok_bind, conv_ok hw (by omega) (by omega), revLoop_ok hw es hes (r * e) (by omega) (by rw [mul_assoc]; exact h2)]
    conv_rhs => unfold vol
    rw [mul_assoc]

theorem vol_append : ∀ (a b : List Int), vol (a ++ b) = vol a * vol b
  | [], b => by simp [vol]
  | e :: a, b => by rw [List.cons_append, vol_cons, vol_cons, vol_append a b, mul_assoc]

theorem vol_ge_one {l : List Int} (h : ∀ x ∈ l, 1 ≤ x) : 1 ≤ vol l := by
  induction l with
  | nil => simp [vol]
  | cons a l ih =>
    have := ih fun x hx => h x (by simp [hx])
    unfold vol; nlinarith [h a (by simp)]

theorem vol_take_le {exts : List Int} (h : ∀ e ∈ exts, 1 ≤ e) (n : Nat) : vol (exts.take n) ≤ vol exts ∧ vol (exts.drop n) ≤ vol exts := by
  have e := vol_append (exts.take n) (exts.drop n)
  rw [List.take_append_drop] at e
  have h1 := vol_ge_one (l := exts.take n) fun x hx => h x (List.mem_of_mem_take hx)
  have h2 := vol_ge_one (l := exts.drop n) fun x hx => h x (List.mem_of_mem_drop hx)
  rw [e]
  constructor <;> nlinarith

theorem leftStride_ok (hw : 1 ≤ t.w) {exts : List Int} (h : ∀ e ∈ exts, 1 ≤ e) (hm : vol exts ≤ t.max) (r : Nat) : leftStride t exts r = .ok (vol (exts.take r)) := by
  have h1 := vol_take_le h r
  have h2 : ∀ e ∈ exts.take r, 1 ≤ e := fun x hx => h x (List.mem_of_mem_take hx)
  have h3 := vol_ge_one h2
  unfold leftStride fwdProd
  rw [fwdLoop_ok hw _ h2 1 (le_refl _) (by omega), R.ok_bind, one_mul, conv_ok hw (by omega) (by omega)]

theorem rightStride_ok (hw : 1 ≤ t.w) {exts : List Int} (h : ∀ e ∈ exts, 1 ≤ e) (hm : vol exts ≤ t.max) (r : Nat) : rightStride t exts r = .ok (vol (exts.drop (r + 1))) := by
  have h1 := vol_take_le h (r + 1)
  unfold rightStride revProd
  rw [revLoop_ok hw _ (fun x hx => h x (List.mem_of_mem_drop hx)) 1 (le_refl _) (by omega), one_mul]

/-- The offsets are the sums of index times stride. -/
theorem leftVal_dot : ∀ {exts idx : List Int}, InBox exts idx → ∀ (p : List Int), vol p * leftVal exts idx = dot ((List.range exts.length).map fun r => vol ((p ++ exts).take (p.length + r))) idx
  | _, _, .nil, p => by simp [leftVal, dot]
  | _, _, .cons (a := e) (b := i) (l₁ := es) (l₂ := is) h hs, p => by
    rw [List.length_cons, List.range_succ_eq_map, List.map_cons, List.map_map]
    unfold dot leftVal
    have := leftVal_dot hs (p ++ [e])
    rw [vol_append] at this
    have e1 : vol [e] = e := by simp [vol]
    rw [e1, List.append_assoc, List.singleton_append] at this
    rw [mul_add, ← mul_assoc, this]
    congr 1
    · simp; ring
    · congr 2
      funext r
      simp only [Function.comp, List.length_append, List.length_singleton]
      congr 2; omega

theorem rightVal_dot : ∀ {exts idx : List Int}, InBox exts idx → rightVal exts idx = dot ((List.range exts.length).map fun r => vol (exts.drop (r + 1))) idx
  | _, _, .nil => by simp [rightVal, dot]
  | _, _, .cons (a := e) (b := i) (l₁ := es) (l₂ := is) h hs => by
    rw [List.length_cons, List.range_succ_eq_map, List.map_cons, List.map_map]
    unfold dot rightVal
    rw [rightVal_dot hs]
    congr 1

end STL.Mds
