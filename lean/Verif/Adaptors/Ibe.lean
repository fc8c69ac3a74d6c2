import Verif.Adaptors.Model
import Verif.Adaptors.Spec
import Mathlib.Tactic.Ring
import Mathlib.Tactic.Linarith

namespace STL.Adaptors

theorem ibeLog_eq (tmp mx : Nat) : ibeLog tmp mx = mx + Nat.log 2 tmp := by
  induction tmp using Nat.strongRecOn generalizing mx with
  | _ tmp ih =>
    unfold ibeLog
    by_cases h : 1 < tmp
    · rw [if_pos h, Nat.shiftRight_eq_div_pow, Nat.pow_one, ih _ (by omega), Nat.log_of_one_lt_of_le (b := 2) (by decide) (show 2 ≤ tmp from h)]
      omega
    · rw [if_neg h, Nat.log_of_lt (by omega)]
      rfl

theorem ibeMx_eq {E R : Nat} (hE : 0 < E) (hR : 2 ≤ R) (hR2 : R ≤ 2 ^ E) : ibeMx E (R % 2 ^ E) = Nat.log 2 R := by
  unfold ibeMx
  by_cases h : R = 2 ^ E
  · subst h
    rw [Nat.mod_self, if_pos rfl, ibeLog_eq, Nat.log_pow (by decide), Nat.zero_add,
      Nat.mod_eq_of_lt (Nat.sub_lt (Nat.pow_pos (by decide)) (by decide))]
    have : Nat.log 2 (2 ^ E - 1) = E - 1 := by
      rw [Nat.log_eq_iff (Or.inr ⟨by decide, by omega⟩)]
      have e : 2 ^ E = 2 * 2 ^ (E - 1) := by
        conv_lhs => rw [show E = (E - 1) + 1 by omega]
        rw [Nat.pow_succ]; omega
      rw [show E - 1 + 1 = E by omega]
      have : 0 < 2 ^ (E - 1) := Nat.pow_pos (by decide)
      omega
    omega
  · have : R < 2 ^ E := by omega
    rw [Nat.mod_eq_of_lt this, if_neg (by omega), ibeLog_eq, Nat.zero_add]

/-- `y0` and `y1` for a number of bits. -/
def yOf (R b : Nat) : Nat := 2 ^ b * (R / 2 ^ b)

theorem yOf_le (R b : Nat) : yOf R b ≤ R := Nat.mul_div_le _ _

theorem yOf_pos {R b : Nat} (h : 2 ^ b ≤ R) : 0 < yOf R b :=
  Nat.mul_pos (Nat.pow_pos (by decide)) (Nat.div_pos h (Nat.pow_pos (by decide)))

theorem yOf_full {E b : Nat} (h : b ≤ E) : yOf (2 ^ E) b = 2 ^ E := by
  unfold yOf
  exact Nat.mul_div_cancel' (Nat.pow_dvd_pow 2 h)

theorem le_log {R b : Nat} (hR : 2 ≤ R) : 2 ^ b ≤ R ↔ b ≤ Nat.log 2 R :=
  (Nat.le_log_iff_pow_le (by decide) (by omega)).symm

theorem log_le {E R : Nat} (hR : 2 ≤ R) (hR2 : R ≤ 2 ^ E) : Nat.log 2 R ≤ E := by
  have : Nat.log 2 R ≤ Nat.log 2 (2 ^ E) := Nat.log_mono_right hR2
  rwa [Nat.log_pow (by decide)] at this

theorem y0_code {E R b : Nat} (hR : 2 ≤ R) (hR2 : R ≤ 2 ^ E) (hb : b ≤ Nat.log 2 R) :
    (if b < E then ((R % 2 ^ E) >>> b) <<< b % 2 ^ E else 0) = yOf R b % 2 ^ E := by
  have hbE : b ≤ E := Nat.le_trans hb (log_le hR hR2)
  by_cases h : R = 2 ^ E
  · subst h
    rw [yOf_full hbE, Nat.mod_self]
    simp
  · have hlt : R < 2 ^ E := by omega
    have : b < E := by
      by_contra hc
      have e : b = E := by omega
      subst e
      exact h (Nat.le_antisymm hR2 ((le_log hR).2 hb))
    rw [if_pos this, Nat.mod_eq_of_lt hlt, Nat.shiftRight_eq_div_pow, Nat.shiftLeft_eq, Nat.mul_comm]
    rfl

theorem y1_code {E R b : Nat} (hR : 2 ≤ R) (hR2 : R ≤ 2 ^ E) (hb : b + 1 ≤ Nat.log 2 R) :
    (if b < E then ((((R % 2 ^ E) >>> b) >>> 1) <<< b % 2 ^ E) <<< 1 % 2 ^ E else 0) = yOf R (b + 1) % 2 ^ E := by
  have hbE : b + 1 ≤ E := Nat.le_trans hb (log_le hR hR2)
  rw [if_pos (by omega)]
  by_cases h : R = 2 ^ E
  · subst h
    rw [yOf_full hbE, Nat.mod_self]
    simp
  · have hlt : R < 2 ^ E := by omega
    rw [Nat.mod_eq_of_lt hlt, Nat.shiftRight_eq_div_pow, Nat.shiftRight_eq_div_pow, Nat.shiftLeft_eq, Nat.shiftLeft_eq,
      Nat.div_div_eq_div_mul, Nat.mod_mul_mod]
    unfold yOf
    rw [Nat.pow_one, ← Nat.pow_succ, Nat.mul_assoc, ← Nat.pow_succ, Nat.mul_comm]

/-- What the parameters of `_Init` have to be. -/
structure IbeOk (w R : Nat) (t : Ibe) : Prop where
  nx : t.nx = stdN w R
  wx0 : t.wx0 = w / stdN w R
  nx0 : t.nx0 = stdN w R - w % stdN w R
  yx0 : t.yx0 = stdY0 w R (stdN w R) - 1
  yx1 : w % stdN w R ≠ 0 → t.yx1 = stdY1 w R (stdN w R) - 1

/-- The first trial for `n`. -/
def ceilN (w R : Nat) : Nat := (w + Nat.log 2 R - 1) / Nat.log 2 R

theorem log_pos {R : Nat} (hR : 2 ≤ R) : 0 < Nat.log 2 R := Nat.log_pos (by decide) hR

theorem ceilN_pos {w R : Nat} (hw : 0 < w) (hR : 2 ≤ R) : 0 < ceilN w R := by
  have := log_pos hR
  exact Nat.div_pos (by omega) this

theorem le_ceilN {w R : Nat} (hR : 2 ≤ R) : w ≤ Nat.log 2 R * ceilN w R := by
  have h := log_pos hR
  have h1 := Nat.div_add_mod (w + Nat.log 2 R - 1) (Nat.log 2 R)
  have h2 := Nat.mod_lt (w + Nat.log 2 R - 1) h
  unfold ceilN
  omega

theorem stdN_ge (w R : Nat) : ceilN w R ≤ stdN w R := by
  unfold stdN
  simp only []
  split
  · exact Nat.le_refl _
  · exact Nat.le_succ _

theorem w0_le {w R n : Nat} (hR : 2 ≤ R) (hn : ceilN w R ≤ n) : w / n ≤ Nat.log 2 R := by
  apply Nat.div_le_of_le_mul
  rw [Nat.mul_comm]
  exact Nat.le_trans (le_ceilN hR) (Nat.mul_le_mul_left _ hn)

theorem w0_lt {w R n : Nat} (hR : 2 ≤ R) (hn : ceilN w R ≤ n) (h : w % n ≠ 0) : w / n + 1 ≤ Nat.log 2 R := by
  have h1 := w0_le hR hn
  rcases Nat.lt_or_ge (w / n) (Nat.log 2 R) with hlt | hge
  · exact hlt
  · exfalso
    have e : w / n = Nat.log 2 R := by omega
    have h2 := Nat.div_add_mod w n
    have h3 := Nat.le_trans (le_ceilN (w := w) hR) (Nat.mul_le_mul_left _ hn)
    rw [e, Nat.mul_comm] at h2
    omega

theorem ibeInit_ok {E w R : Nat} (hE : 0 < E) (hw : 0 < w) (hR : 2 ≤ R) (hR2 : R ≤ 2 ^ E) :
    IbeOk w R (ibeInit E w (R - 1)) := by
  have hP : 0 < 2 ^ E := Nat.pow_pos (by decide)
  have hc := ceilN_pos hw hR
  -- one trial
  have key : ∀ nfix, ceilN w R ≤ ceilN w R + nfix →
      (ibeTry E w (R % 2 ^ E) (Nat.log 2 R) nfix).yx0 = yOf R (w / (ceilN w R + nfix)) % 2 ^ E ∧
      (w % (ceilN w R + nfix) ≠ 0 →
        (ibeTry E w (R % 2 ^ E) (Nat.log 2 R) nfix).yx1 = yOf R (w / (ceilN w R + nfix) + 1) % 2 ^ E) := by
    intro nfix hn
    constructor
    · exact y0_code hR hR2 (w0_le hR hn)
    · intro h
      exact y1_code hR hR2 (w0_lt hR hn h)
  have hdec : ∀ y, 0 < y → y ≤ R → (y % 2 ^ E + 2 ^ E - 1) % 2 ^ E = y - 1 := by
    intro y h1 h2
    by_cases e : y = 2 ^ E
    · rw [e, Nat.mod_self, Nat.zero_add, Nat.mod_eq_of_lt (by omega)]
    · rw [Nat.mod_eq_of_lt (a := y) (by omega), show y + 2 ^ E - 1 = y - 1 + 2 ^ E by omega, Nat.add_mod_right,
        Nat.mod_eq_of_lt (by omega)]
  have htest : ((R % 2 ^ E + 2 ^ E - (ibeTry E w (R % 2 ^ E) (Nat.log 2 R) 0).yx0) % 2 ^ E
        ≤ (ibeTry E w (R % 2 ^ E) (Nat.log 2 R) 0).yx0 / (ibeTry E w (R % 2 ^ E) (Nat.log 2 R) 0).nx) ↔
      R - stdY0 w R (ceilN w R) ≤ stdY0 w R (ceilN w R) / ceilN w R := by
    rw [(key 0 (Nat.le_refl _)).1]
    have hb : w / ceilN w R ≤ Nat.log 2 R := w0_le hR (Nat.le_refl _)
    have hnx : (ibeTry E w (R % 2 ^ E) (Nat.log 2 R) 0).nx = ceilN w R := rfl
    have hy : stdY0 w R (ceilN w R) = yOf R (w / ceilN w R) := rfl
    rw [hnx, hy, Nat.add_zero]
    generalize w / ceilN w R = b at hb ⊢
    generalize ceilN w R = c
    by_cases e : R = 2 ^ E
    · have hbE := Nat.le_trans hb (log_le hR hR2)
      rw [e, yOf_full hbE, Nat.mod_self]
      simp
    · have hle := yOf_le R b
      have hp : 0 < yOf R b := yOf_pos ((le_log hR).2 hb)
      rw [Nat.mod_eq_of_lt (a := R) (by omega), Nat.mod_eq_of_lt (a := yOf R b) (by omega),
        show R + 2 ^ E - yOf R b = R - yOf R b + 2 ^ E by omega, Nat.add_mod_right,
        Nat.mod_eq_of_lt (a := R - yOf R b) (by omega)]
  have hN : stdN w R = if R - stdY0 w R (ceilN w R) ≤ stdY0 w R (ceilN w R) / ceilN w R then ceilN w R + 0
      else ceilN w R + 1 := rfl
  unfold ibeInit
  rw [show R - 1 + 1 = R by omega]
  simp only [ibeMx_eq hE hR hR2]
  have fin : ∀ nfix, stdN w R = ceilN w R + nfix →
      IbeOk w R { ibeTry E w (R % 2 ^ E) (Nat.log 2 R) nfix with
        yx0 := ((ibeTry E w (R % 2 ^ E) (Nat.log 2 R) nfix).yx0 + 2 ^ E - 1) % 2 ^ E
        yx1 := ((ibeTry E w (R % 2 ^ E) (Nat.log 2 R) nfix).yx1 + 2 ^ E - 1) % 2 ^ E } := by
    intro nfix hn
    obtain ⟨k0, k1⟩ := key nfix (by omega)
    have hge : ceilN w R ≤ ceilN w R + nfix := by omega
    refine ⟨hn.symm, ?_, ?_, ?_, ?_⟩
    · rw [hn]; rfl
    · rw [hn]; rfl
    · show ((ibeTry E w (R % 2 ^ E) (Nat.log 2 R) nfix).yx0 + 2 ^ E - 1) % 2 ^ E = _
      rw [k0, hn]
      exact hdec _ (yOf_pos ((le_log hR).2 (w0_le hR hge))) (yOf_le _ _)
    · intro h
      rw [hn] at h ⊢
      show ((ibeTry E w (R % 2 ^ E) (Nat.log 2 R) nfix).yx1 + 2 ^ E - 1) % 2 ^ E = _
      rw [k1 h]
      exact hdec _ (yOf_pos ((le_log hR).2 (w0_lt hR hge h))) (yOf_le _ _)
  by_cases ht : R - stdY0 w R (ceilN w R) ≤ stdY0 w R (ceilN w R) / ceilN w R
  · rw [if_pos (htest.2 ht)]
    exact fin 0 (by rw [hN, if_pos ht])
  · rw [if_neg (fun q => ht (htest.1 q))]
    exact fin 1 (by rw [hN, if_neg ht])

/-- `w0` is 0 only for `R = 3` and at least 3 bits. -/
theorem w0_pos {w R : Nat} (hw : 0 < w) (hR : 2 ≤ R) (h3 : R ≠ 3 ∨ w ≤ 2) : 0 < w / stdN w R := by
  have hc := ceilN_pos hw hR
  have hN : stdN w R = if R - stdY0 w R (ceilN w R) ≤ stdY0 w R (ceilN w R) / ceilN w R then ceilN w R
      else ceilN w R + 1 := rfl
  have hm := log_pos hR
  have hcw : ceilN w R ≤ w := by
    unfold ceilN
    apply Nat.div_le_of_le_mul
    have : w + Nat.log 2 R - 1 = (w - 1) + Nat.log 2 R := by omega
    have h2 : w - 1 ≤ Nat.log 2 R * (w - 1) := Nat.le_mul_of_pos_left _ hm
    have h3 : Nat.log 2 R * w = Nat.log 2 R * (w - 1) + Nat.log 2 R := by
      conv_lhs => rw [show w = (w - 1) + 1 by omega]
      ring
    omega
  have hpos : stdN w R ≤ w → 0 < w / stdN w R := fun h =>
    Nat.div_pos h (Nat.lt_of_lt_of_le hc (stdN_ge w R))
  apply hpos
  rw [hN]
  split
  · exact hcw
  · rename_i ht
    by_contra hlt
    have hce : ceilN w R = w := by omega
    rw [hce] at ht
    have hw0 : w / w = 1 := Nat.div_self hw
    have hy : stdY0 w R w = 2 * (R / 2) := by unfold stdY0; rw [hw0, Nat.pow_one]
    rw [hy] at ht
    by_cases h1 : w = 1
    · subst h1
      omega
    · -- then the engine gives one bit
      have hm1 : Nat.log 2 R < 2 := by
        by_contra hm2
        have : ceilN w R ≤ (w + 1) / 2 := by
          unfold ceilN
          apply Nat.le_of_lt_succ
          apply Nat.div_lt_of_lt_mul
          have h4 : w ≤ 2 * ((w + 1) / 2) := by omega
          have h5 : 2 * ((w + 1) / 2) ≤ Nat.log 2 R * ((w + 1) / 2) := Nat.mul_le_mul_right _ (by omega)
          rw [Nat.mul_succ]
          omega
        omega
      have hR4 : R < 4 := by
        have := Nat.lt_pow_succ_log_self (b := 2) (by decide) R
        have e1 : Nat.log 2 R = 1 := by omega
        rw [e1] at this
        exact this
      have : R = 2 ∨ R = 3 := by omega
      rcases this with rfl | rfl
      · simp at ht
      · have : w = 2 := by omega
        subst this
        simp at ht

theorem ibeDraw_eq {y : Nat} (hy : 0 < y) : ∀ L, ibeDraw (y - 1) L =
    match L.dropWhile (fun u => decide (y ≤ u)) with
    | [] => none
    | u :: L => some (u, L)
  | [] => rfl
  | u :: L => by
    unfold ibeDraw
    by_cases h : y ≤ u
    · rw [if_pos (by omega), ibeDraw_eq hy L, List.dropWhile_cons_of_pos (by simpa using h)]
    · rw [if_neg (by omega), List.dropWhile_cons_of_neg (by simpa using h)]

theorem and_pow_mask {D b x : Nat} (h : b ≤ D) : x % 2 ^ D &&& (2 ^ b - 1) = x % 2 ^ b := by
  rw [Nat.and_two_pow_sub_one_eq_mod, Nat.mod_mod_of_dvd _ (Nat.pow_dvd_pow 2 h)]

theorem step_lt {a b S u : Nat} (hS : S < 2 ^ a) : 2 ^ b * S + u % 2 ^ b < 2 ^ (a + b) := by
  have h1 : u % 2 ^ b < 2 ^ b := Nat.mod_lt _ (Nat.pow_pos (by decide))
  rw [Nat.pow_add]
  have h2 : 2 ^ b * (S + 1) ≤ 2 ^ b * 2 ^ a := Nat.mul_le_mul_left _ hS
  rw [Nat.mul_comm (2 ^ a)]
  rw [Nat.mul_add] at h2
  omega

theorem ibePack_eq {D b y : Nat} (hy : 0 < y) : ∀ (cnt a res : Nat) (L : List Nat), res < 2 ^ a → a + cnt * b ≤ D →
    (0 < cnt → b < D) →
    ibePack D b (2 ^ b - 1) (y - 1) cnt res L = stdPack b y cnt res L
  | 0, _, _, _, _, _, _ => rfl
  | cnt + 1, a, res, L, hr, ha, hb => by
    have hbD := hb (Nat.succ_pos _)
    unfold ibePack stdPack
    rw [ibeDraw_eq hy]
    cases L.dropWhile (fun u => decide (y ≤ u)) with
    | nil => rfl
    | cons u L =>
      simp only [Option.bind_some]
      have e : a + (cnt + 1) * b = (a + b) + cnt * b := by ring
      have hlt : 2 ^ b * res < 2 ^ D := by
        have := step_lt (b := b) (u := 0) hr
        have h2 : 2 ^ (a + b) ≤ 2 ^ D := Nat.pow_le_pow_right (by decide) (by rw [e] at ha; omega)
        rw [Nat.zero_mod, Nat.add_zero] at this
        omega
      have hs : shl D res b = some (res <<< b) := by
        unfold shl
        rw [if_pos hbD, Nat.mod_eq_of_lt (by rw [Nat.shiftLeft_eq, Nat.mul_comm]; exact hlt)]
      rw [hs]
      simp only [Option.bind_some]
      rw [and_pow_mask (by omega), ← Nat.shiftLeft_add_eq_or_of_lt (Nat.mod_lt _ (Nat.pow_pos (by decide))),
        Nat.shiftLeft_eq, Nat.mul_comm res]
      exact ibePack_eq hy cnt (a + b) _ L (step_lt hr) (by omega) (fun _ => hbD)

theorem stdPack_succ (b y k S : Nat) (L : List Nat) : stdPack b y (k + 1) S L =
    match L.dropWhile (fun u => decide (y ≤ u)) with
    | [] => none
    | u :: L => stdPack b y k (2 ^ b * S + u % 2 ^ b) L := rfl

theorem stdPack_lt {b y : Nat} : ∀ (cnt a S : Nat) (L : List Nat) (r : Nat × List Nat), S < 2 ^ a →
    stdPack b y cnt S L = some r → r.1 < 2 ^ (a + cnt * b)
  | 0, a, S, L, r, hS, h => by
    unfold stdPack at h
    cases h
    simpa using hS
  | cnt + 1, a, S, L, r, hS, h => by
    unfold stdPack at h
    revert h
    cases L.dropWhile (fun u => decide (y ≤ u)) with
    | nil => intro h; cases h
    | cons u L =>
      intro h
      have := stdPack_lt cnt (a + b) _ L r (step_lt hS) h
      rwa [show a + (cnt + 1) * b = (a + b) + cnt * b by ring]

theorem bits_total {w n : Nat} (hn : 0 < n) : (n - w % n) * (w / n) + (w % n) * (w / n + 1) = w := by
  have h1 := Nat.mod_lt w hn
  have h2 := Nat.div_add_mod w n
  have e : (n - w % n) * (w / n) + (w % n) * (w / n + 1) = ((n - w % n) + w % n) * (w / n) + w % n := by ring
  rw [e, Nat.sub_add_cancel (by omega)]
  exact h2

theorem ibits_lt {w R : Nat} (hw : 0 < w) (hR : 2 ≤ R) {L : List Nat} {r : Nat × List Nat}
    (h : stdIbits w R L = some r) : r.1 < 2 ^ w := by
  have hn : 0 < stdN w R := Nat.lt_of_lt_of_le (ceilN_pos hw hR) (stdN_ge w R)
  unfold stdIbits at h
  simp only [Option.bind_eq_some_iff] at h
  obtain ⟨q, h1, h2⟩ := h
  have g1 := stdPack_lt _ 0 0 L q (by decide) h1
  have g2 := stdPack_lt _ _ _ _ r g1 h2
  rw [Nat.zero_add, bits_total hn] at g2
  exact g2

theorem ibe_next_eq {D E w R : Nat} (hD : 2 ≤ D) (hw : 0 < w) (hwD : w ≤ D) (hE : 0 < E) (hR : 2 ≤ R)
    (hR2 : R ≤ 2 ^ E) (h3 : R ≠ 3 ∨ w ≤ 2) (L : List Nat) :
    (ibeInit E w (R - 1)).next D L = stdIbits w R L := by
  have hok := ibeInit_ok hE hw hR hR2
  have hw0 := w0_pos hw hR h3
  generalize ibeInit E w (R - 1) = t at *
  have hge := stdN_ge w R
  have hn : 0 < stdN w R := Nat.lt_of_lt_of_le (ceilN_pos hw hR) hge
  have hml := Nat.mod_lt w hn
  have hY0 : 0 < stdY0 w R (stdN w R) := yOf_pos ((le_log hR).2 (w0_le hR hge))
  have htot := bits_total (w := w) hn
  unfold Ibe.next stdIbits
  rw [hok.wx0, hok.nx0, hok.yx0, hok.nx]
  simp only []
  generalize hN : stdN w R = n at *
  generalize hb : w / n = b at *
  generalize hc : w % n = c at *
  have hbw : b ≤ w := by rw [← hb]; exact Nat.div_le_self _ _
  have hPD : 0 < 2 ^ D := Nat.pow_pos (by decide)
  have hbp : 2 ^ b = 2 ^ (b - 1) * 2 := by
    conv_lhs => rw [show b = (b - 1) + 1 by omega]
    rw [Nat.pow_succ]
  have hs1 : (if b = 0 then none else shl D 1 (b - 1)) = some (2 ^ (b - 1)) := by
    rw [if_neg (by omega)]
    unfold shl
    rw [if_pos (by omega), Nat.shiftLeft_eq, Nat.one_mul,
      Nat.mod_eq_of_lt (Nat.pow_lt_pow_right (by decide) (by omega))]
  have hs2 : shl D (2 ^ (b - 1)) 1 = some (2 ^ b % 2 ^ D) := by
    unfold shl
    rw [if_pos (by omega), Nat.shiftLeft_eq, Nat.pow_one, ← hbp]
  have hmask : (2 ^ b % 2 ^ D + 2 ^ D - 1) % 2 ^ D = 2 ^ b - 1 := by
    have hpb : 0 < 2 ^ b := Nat.pow_pos (by decide)
    by_cases e : b = D
    · subst e
      rw [Nat.mod_self, Nat.zero_add, Nat.mod_eq_of_lt (by omega)]
    · have : 2 ^ b < 2 ^ D := Nat.pow_lt_pow_right (by decide) (by omega)
      rw [Nat.mod_eq_of_lt this, show 2 ^ b + 2 ^ D - 1 = 2 ^ b - 1 + 2 ^ D by omega, Nat.add_mod_right,
        Nat.mod_eq_of_lt (by omega)]
  rw [hs1]
  simp only [Option.bind_some]
  rw [hs2]
  simp only [Option.bind_some]
  rw [hmask]
  obtain ⟨n1, hn1⟩ : ∃ n1, n - c = n1 + 1 := ⟨n - c - 1, by omega⟩
  rw [hn1, show n - (n1 + 1) = c by omega, Nat.add_sub_cancel, ibeDraw_eq hY0]
  rw [stdPack_succ]
  cases L.dropWhile (fun u => decide (stdY0 w R n ≤ u)) with
  | nil => rfl
  | cons u L =>
    simp only [Option.bind_some]
    rw [and_pow_mask (by omega)]
    have hbits : b + n1 * b + c * (b + 1) = w := by
      rw [← htot, hn1]; ring
    have hpos2 : 0 < n1 → b < D := by
      intro h
      have : b ≤ n1 * b := Nat.le_mul_of_pos_left _ h
      omega
    rw [ibePack_eq hY0 n1 b _ L (Nat.mod_lt _ (Nat.pow_pos (by decide))) (by omega) hpos2, Nat.mul_zero, Nat.zero_add]
    cases hq : stdPack b (stdY0 w R n) n1 (u % 2 ^ b) L with
    | none => rfl
    | some q =>
      simp only [Option.bind_some]
      by_cases hc0 : c = 0
      · subst hc0
        rfl
      · have hlt := stdPack_lt n1 b _ L q (Nat.mod_lt _ (Nat.pow_pos (by decide))) hq
        have hY1 : 0 < stdY1 w R n := by
          have := w0_lt (n := n) hR hge (by rw [hc]; exact hc0)
          exact yOf_pos ((le_log hR).2 this)
        have hcp : b + 1 ≤ c * (b + 1) := Nat.le_mul_of_pos_left _ (by omega)
        rw [hok.yx1 (by rw [hN, hc]; exact hc0), hN]
        have hm2 : ((2 ^ b - 1) <<< 1 % 2 ^ D) ||| 1 = 2 ^ (b + 1) - 1 := by
          have hpb : 0 < 2 ^ b := Nat.pow_pos (by decide)
          have h5 : 2 ^ (b + 1) ≤ 2 ^ D := Nat.pow_le_pow_right (by decide) (by omega)
          rw [Nat.pow_succ] at h5 ⊢
          rw [Nat.mod_eq_of_lt (by rw [Nat.shiftLeft_eq]; omega), ← Nat.shiftLeft_add_eq_or_of_lt (by decide),
            Nat.shiftLeft_eq]
          omega
        rw [hm2]
        refine ibePack_eq hY1 c (b + n1 * b) _ _ hlt ?_ ?_
        · omega
        · intro _
          -- the words before have at least one bit
          omega

theorem ibe_ub {D E w : Nat} (hE : 2 ≤ E) (hw : 3 ≤ w) (L : List Nat) : (ibeInit E w 2).next D L = none := by
  have h4 : 4 ≤ 2 ^ E := Nat.pow_le_pow_right (n := 2) (i := 2) (by decide) hE
  have hok := ibeInit_ok (E := E) (w := w) (R := 3) (by omega) (by omega) (by decide) (by omega)
  have hlog : Nat.log 2 3 = 1 := by
    rw [Nat.log_eq_iff (Or.inr ⟨by decide, by decide⟩)]; decide
  have hN : stdN w 3 = w + 1 := by
    unfold stdN
    simp only [hlog, Nat.div_one, Nat.add_sub_cancel]
    rw [if_neg]
    unfold stdY0
    rw [Nat.div_self (by omega)]
    simp only [Nat.pow_one]
    rw [show 2 * (3 / 2) = 2 from rfl, Nat.div_eq_of_lt (by omega)]
    decide
  have : (ibeInit E w 2).wx0 = 0 := by
    have := hok.wx0
    rw [hN, Nat.div_eq_of_lt (by omega)] at this
    exact this
  unfold Ibe.next
  rw [if_pos this]
  rfl

theorem stdPack_ends {b y : Nat} (hy : 0 < y) : ∀ (cnt S : Nat) (L : List Nat), cnt ≤ L.count 0 →
    ∃ r, stdPack b y cnt S L = some r ∧ L.count 0 ≤ r.2.count 0 + cnt
  | 0, S, L, _ => ⟨_, rfl, Nat.le_refl _⟩
  | cnt + 1, S, L, h => by
    have key : ∀ L : List Nat, 0 < L.count 0 → ∃ u L', L.dropWhile (fun u => decide (y ≤ u)) = u :: L' ∧
        L.count 0 ≤ L'.count 0 + 1 := by
      intro L
      induction L with
      | nil => intro h; simp at h
      | cons x L ih =>
        intro h
        by_cases hx : y ≤ x
        · rw [List.dropWhile_cons_of_pos (by simpa using hx)]
          have h0 : (x :: L).count 0 = L.count 0 := List.count_cons_of_ne (by omega)
          rw [h0] at h ⊢
          exact ih h
        · rw [List.dropWhile_cons_of_neg (by simpa using hx)]
          refine ⟨x, L, rfl, ?_⟩
          rw [List.count_cons]
          split <;> omega
    obtain ⟨u, L', e, hc⟩ := key L (by omega)
    unfold stdPack
    rw [e]
    obtain ⟨r, h1, h2⟩ := stdPack_ends hy cnt (2 ^ b * S + u % 2 ^ b) L' (by omega)
    exact ⟨r, h1, by omega⟩

theorem ibits_ends {w R : Nat} (hw : 0 < w) (hR : 2 ≤ R) {L : List Nat} (h : stdN w R ≤ L.count 0) :
    ∃ r, stdIbits w R L = some r := by
  have hge := stdN_ge w R
  have hn : 0 < stdN w R := Nat.lt_of_lt_of_le (ceilN_pos hw hR) hge
  have hml := Nat.mod_lt w hn
  obtain ⟨q, h1, h2⟩ := stdPack_ends (b := w / stdN w R) (y := stdY0 w R (stdN w R))
    (yOf_pos ((le_log hR).2 (w0_le hR hge))) (stdN w R - w % stdN w R) 0 L (by omega)
  unfold stdIbits
  simp only []
  rw [h1]
  simp only [Option.bind_some]
  by_cases hc : w % stdN w R = 0
  · rw [hc]; exact ⟨_, rfl⟩
  · obtain ⟨r, h3, _⟩ := stdPack_ends (b := w / stdN w R + 1) (y := stdY1 w R (stdN w R))
      (yOf_pos ((le_log hR).2 (w0_lt hR hge hc))) (w % stdN w R) q.1 q.2 (by omega)
    exact ⟨r, h3⟩

end STL.Adaptors
