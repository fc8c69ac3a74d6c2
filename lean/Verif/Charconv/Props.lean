import Verif.Charconv.Model
import Verif.At
import Verif.Tac
import Mathlib.Data.Nat.Digits.Lemmas

/-!
# Properties C10, C11: integer `from_chars`, `to_chars`, `to_string`
-/

namespace STL.Charconv
open STL

namespace Spec

/-- The value of a digit character `0-9`, `A-Z`, `a-z`. -/
def digitVal (c : Nat) : Option Nat :=
  if 48 ≤ c ∧ c ≤ 57 then some (c - 48)
  else if 65 ≤ c ∧ c ≤ 90 then some (c - 65 + 10)
  else if 97 ≤ c ∧ c ≤ 122 then some (c - 97 + 10)
  else none

/-- `c` is a digit of base `base`. -/
def isDigit (base c : Nat) : Bool := match digitVal c with | some d => decide (d < base) | none => false

/-- The number denoted by a string of digits, most significant first. -/
def numVal (base : Nat) (s : List Nat) : Nat := s.foldl (fun acc c => acc * base + (digitVal c).getD 0) 0

/-- The values of an integer type with `w` bits. -/
def InRange (signed : Bool) (w : Nat) (v : Int) : Prop :=
  if signed then -(2 ^ (w - 1) : Int) ≤ v ∧ v < 2 ^ (w - 1) else 0 ≤ v ∧ v < 2 ^ w

instance (signed : Bool) (w : Nat) (v : Int) : Decidable (InRange signed w v) := by unfold InRange; infer_instance

/-- [charconv.from.chars]: the optional `-` (signed types only), the longest run of digits of the base, and the outcome. -/
def fromChars (signed : Bool) (w base : Nat) (s : List Nat) : Nat × Errc × Option Int :=
  let neg := signed && s.head? == some 45
  let ds := (if neg then s.tail else s).takeWhile (isDigit base)
  let v : Int := if neg then -(numVal base ds : Int) else numVal base ds
  if ds = [] then (0, .invalidArgument, none)
  else if InRange signed w v then ((if neg then 1 else 0) + ds.length, .none, some v)
  else ((if neg then 1 else 0) + ds.length, .resultOutOfRange, none)

/-- The character of a digit value. -/
def digitChar (d : Nat) : Nat := if d < 10 then 48 + d else 97 + (d - 10)

/-- The usual numeral of `n` in base `base`, most significant digit first, no leading zeros, lower case. -/
def numeral (base n : Nat) : List Nat := if n = 0 then [48] else ((Nat.digits base n).reverse).map digitChar

/-- The numeral of an integer. -/
def numeralInt (base : Nat) (v : Int) : List Nat := if v < 0 then 45 :: numeral base v.natAbs else numeral base v.natAbs

end Spec
open Spec

/-! ### parsing -/

theorem castU_nat (w n : Nat) (h : n < 2 ^ w) : castU w (n : Int) = n := by
  unfold castU
  have : ((n : Int) % 2 ^ w) = ((n % 2 ^ w : Nat) : Int) := by push_cast; rfl
  rw [this, Int.toNat_natCast, Nat.mod_eq_of_lt h]

set_option maxRecDepth 4000 in
theorem digitFromByte_spec : ∀ c, c < 256 → digitFromByte[c]? = some ((digitVal c).getD 255) := by decide

theorem digitFromChar_spec (c : Nat) (hc : c < 256) : digitFromChar c = .ok ((digitVal c).getD 255) := by
  unfold digitFromChar rdc; rw [digitFromByte_spec c hc]

theorem isDigit_iff (base c : Nat) (hb : base ≤ 36) : isDigit base c = decide ((digitVal c).getD 255 < base) := by
  unfold isDigit
  cases digitVal c with
  | none => simp; omega
  | some d => rfl

/-- folding the digits of `s` onto `v` -/
def fv (base v : Nat) (s : List Nat) : Nat := s.foldl (fun acc c => acc * base + (digitVal c).getD 0) v

theorem fv_ge (base v : Nat) (hb : 2 ≤ base) (s : List Nat) : v ≤ fv base v s := by
  induction s generalizing v with
  | nil => exact Nat.le_refl _
  | cons c s ih => exact Nat.le_trans (by nlinarith) (ih _)

theorem fromLoop_spec (w base L : Nat) (hb : 2 ≤ base) (hb36 : base ≤ 36) (hL : L < 2 ^ w) (xs : List Nat)
    (hx : ∀ c ∈ xs, c < 256) (n : Nat) : ∀ next v over, n = xs.length - next → next ≤ xs.length →
    (over = false → v ≤ L) →
    ∃ v' o', fromLoop w base (L / base) (L % base) xs next v over =
        .ok (next + ((xs.drop next).takeWhile (isDigit base)).length, v', o') ∧
      (over = true → o' = true) ∧
      (over = false → (fv base v ((xs.drop next).takeWhile (isDigit base)) ≤ L → o' = false ∧
          v' = fv base v ((xs.drop next).takeWhile (isDigit base))) ∧
        (L < fv base v ((xs.drop next).takeWhile (isDigit base)) → o' = true)) := by
  induction n with
  | zero =>
    intro next v over hn hle hv
    have : next = xs.length := by omega
    unfold fromLoop
    rw [dif_neg (by omega), List.drop_eq_nil_of_le (by omega)]
    refine ⟨v, over, by simp, fun h => h, fun h => ⟨fun _ => ⟨h, rfl⟩, fun h' => ?_⟩⟩
    have := hv h
    simp [fv] at h'; omega
  | succ n ih =>
    intro next v over hn hle hv
    have hi : next < xs.length := by omega
    have hc := hx xs[next] (List.getElem_mem hi)
    unfold fromLoop
    have e1 : rdc xs next = .ok xs[next] := by simp [rdc, hi]
    rw [dif_pos hi, e1, R.ok_bind, digitFromChar_spec _ hc, R.ok_bind, List.drop_eq_getElem_cons hi, List.takeWhile_cons,
      isDigit_iff _ _ hb36]
    by_cases hd : (digitVal xs[next]).getD 255 < base
    · rw [if_neg (by omega), decide_eq_true hd]
      simp only [if_true, List.length_cons]
      have hgd : (digitVal xs[next]).getD 0 = (digitVal xs[next]).getD 255 := by
        cases h : digitVal xs[next] with
        | none => rw [h] at hd; simp at hd; omega
        | some d => rfl
      set d := (digitVal xs[next]).getD 255
      have hdm := Nat.div_add_mod L base
      have hml := Nat.mod_lt L (by omega : base > 0)
      have key : v * base + d ≤ L ↔ (v < L / base ∨ (v = L / base ∧ d ≤ L % base)) := by
        constructor
        · intro h
          rcases Nat.lt_trichotomy v (L / base) with h1 | h1 | h1
          · exact Or.inl h1
          · right; refine ⟨h1, ?_⟩; subst h1; rw [Nat.mul_comm] at h; omega
          · exfalso
            have : base * (L / base + 1) ≤ base * v := Nat.mul_le_mul_left _ h1
            rw [Nat.mul_add] at this
            rw [Nat.mul_comm] at h
            omega
        · rintro (h | ⟨h, h'⟩)
          · have : base * (v + 1) ≤ base * (L / base) := Nat.mul_le_mul_left _ h
            rw [Nat.mul_add, Nat.mul_comm] at this
            omega
          · subst h; rw [Nat.mul_comm]; omega
      have efv : fv base v (xs[next] :: (xs.drop (next + 1)).takeWhile (isDigit base)) =
          fv base (v * base + d) ((xs.drop (next + 1)).takeWhile (isDigit base)) := by
        show fv base (v * base + (digitVal xs[next]).getD 0) _ = _
        rw [hgd]
      rw [efv]
      by_cases hk : v < L / base ∨ (v = L / base ∧ d ≤ L % base)
      · rw [if_pos hk, castU_nat _ _ (Nat.lt_of_le_of_lt (key.2 hk) hL)]
        obtain ⟨v', o', h1, h2, h3⟩ := ih (next + 1) (v * base + d) over (by omega) (by omega) (fun _ => key.2 hk)
        exact ⟨v', o', by rw [h1, Nat.add_assoc, Nat.add_comm 1], h2, h3⟩
      · rw [if_neg hk]
        obtain ⟨v', o', h1, h2, h3⟩ := ih (next + 1) v true (by omega) (by omega) (by simp)
        refine ⟨v', o', by rw [h1, Nat.add_assoc, Nat.add_comm 1], fun _ => h2 rfl, fun _ => ⟨fun h => ?_, fun _ => h2 rfl⟩⟩
        exact absurd (key.1 (Nat.le_trans (fv_ge base _ hb _) h)) hk
    · rw [if_pos (by omega), decide_eq_false hd]
      refine ⟨v, over, by simp, fun h => h, fun h => ⟨fun _ => ⟨h, by simp [fv]⟩, fun h' => ?_⟩⟩
      have := hv h
      simp [fv] at h'; omega

theorem castU_neg_one (w : Nat) : castU w (-1) = 2 ^ w - 1 := by
  unfold castU
  have hp : 0 < 2 ^ w := Nat.two_pow_pos w
  have : ((-1 : Int) % 2 ^ w) = ((2 ^ w - 1 : Nat) : Int) := by
    have e : (-1 : Int) = ((2 ^ w - 1 : Nat) : Int) + 2 ^ w * (-1) := by
      rw [Nat.cast_sub (Nat.one_le_two_pow (n := w))]; push_cast; ring
    rw [e, Int.add_mul_emod_self_left, Int.emod_eq_of_lt (by omega)]
    have : ((2 ^ w - 1 : Nat) : Int) < ((2 ^ w : Nat) : Int) := by exact_mod_cast (by omega)
    simpa using this
  rw [this, Int.toNat_natCast]

theorem castU_zero_sub (w n : Nat) (h : n < 2 ^ w) : castU w (0 - (n : Int)) = if n = 0 then 0 else 2 ^ w - n := by
  unfold castU
  by_cases hn : n = 0
  · subst hn; simp
  · rw [if_neg hn]
    have : ((0 - (n : Int)) % 2 ^ w) = ((2 ^ w - n : Nat) : Int) := by
      have e : (0 - (n : Int)) = ((2 ^ w - n : Nat) : Int) + 2 ^ w * (-1) := by
        rw [Nat.cast_sub (Nat.le_of_lt h)]; push_cast; ring
      rw [e, Int.add_mul_emod_self_left, Int.emod_eq_of_lt (by omega)]
      have : ((2 ^ w - n : Nat) : Int) < ((2 ^ w : Nat) : Int) := by exact_mod_cast (by omega)
      simpa using this
    rw [this, Int.toNat_natCast]

/-- **C10.** `from_chars` on any byte sequence, any base 2..36, any width of at least 8 bits, signed or unsigned, equals the
specification: it never reads outside the range, consumes exactly the longest numeral, stores exactly the denoted value when
representable, reports `result_out_of_range` exactly when not representable (consuming the whole digit run and storing
nothing), and `invalid_argument` exactly when there are no digits. -/
theorem C10_from_chars (signed : Bool) (w base : Nat) (hw : 8 ≤ w) (hb : 2 ≤ base) (hb36 : base ≤ 36) (s : List Nat)
    (hs : ∀ c ∈ s, c < 256) : Charconv.fromChars signed w base s = .ok (Spec.fromChars signed w base s) := by
  have hp1 : 2 ^ (w - 1) * 2 = 2 ^ w := by rw [← Nat.pow_succ]; congr 1; omega
  have hpos : 0 < 2 ^ (w - 1) := Nat.two_pow_pos _
  have hpi : (2 ^ w : Int) = ((2 ^ w : Nat) : Int) := by push_cast; rfl
  have hpi1 : (2 ^ (w - 1) : Int) = ((2 ^ (w - 1) : Nat) : Int) := by push_cast; rfl
  have hmin : (if signed && decide (0 < s.length) then do
      let c ← rdc s 0
      .ok (c == 45)
    else .ok false : R Bool) = .ok (signed && s.head? == some 45) := by
    cases signed with
    | false => rfl
    | true =>
      cases s with
      | nil => rfl
      | cons c s => simp [rdc, bind, Except.bind]
  unfold Charconv.fromChars
  rw [hmin, R.ok_bind]
  simp only [castU_neg_one, Nat.shiftRight_eq_div_pow, Nat.pow_one]
  have e1 : (2 ^ w - 1) / 2 = 2 ^ (w - 1) - 1 := by omega
  have e2 : castU w ((2 ^ (w - 1) - 1 + 1 : Nat) : Int) = 2 ^ (w - 1) := by rw [castU_nat _ _ (by omega)]; omega
  rw [e1, e2]
  obtain ⟨neg, hneg⟩ : ∃ neg, neg = (signed && s.head? == some 45) := ⟨_, rfl⟩
  rw [← hneg]
  obtain ⟨L, hLdef⟩ : ∃ L, L = (if signed then (if neg then 2 ^ (w - 1) else 2 ^ (w - 1) - 1) else 2 ^ w - 1) := ⟨_, rfl⟩
  rw [← hLdef]
  have hL : L < 2 ^ w := by rw [hLdef]; split <;> (try split) <;> omega
  rw [castU_nat w (L / base) (Nat.lt_of_le_of_lt (Nat.div_le_self _ _) hL),
    castU_nat w (L % base) (Nat.lt_of_le_of_lt (Nat.mod_le _ _) hL)]
  have hst : (if neg then 1 else 0) ≤ s.length := by
    cases hn : neg with
    | false => simp
    | true =>
      cases s with
      | nil => rw [hneg] at hn; simp at hn
      | cons => simp
  have hdrop : s.drop (if neg then 1 else 0) = if neg then s.tail else s := by
    cases neg <;> simp
  obtain ⟨v', o', h1, h2, h3⟩ := fromLoop_spec w base L hb hb36 hL s hs _ (if neg then 1 else 0) 0 false rfl hst (by omega)
  rw [hdrop] at h1 h3
  simp only [h1, R.ok_bind]
  unfold Spec.fromChars
  simp only [← hneg]
  generalize (if neg then s.tail else s).takeWhile (isDigit base) = ds at h1 h3 ⊢
  by_cases hds : ds = []
  · rw [if_pos (by rw [hds]; rfl), if_pos hds]
  · have hl : ds.length ≠ 0 := fun h => hds (List.length_eq_zero_iff.1 h)
    rw [if_neg (by omega), if_neg hds]
    have h3 := h3 rfl
    have hfv : fv base 0 ds = numVal base ds := rfl
    rw [hfv] at h3
    by_cases hle : numVal base ds ≤ L
    · obtain ⟨rfl, rfl⟩ := h3.1 hle
      simp only [Bool.false_eq_true, if_false]
      cases hsg : signed with
      | false =>
        have hn : neg = false := by rw [hneg, hsg]; rfl
        simp only [hn, hsg, InRange, castRaw, Bool.false_and, Bool.false_eq_true, if_false] at hle hLdef ⊢
        rw [if_pos]
        · refine ⟨by omega, ?_⟩
          rw [hpi]; exact_mod_cast (by omega : numVal base ds < 2 ^ w)
      | true =>
        simp only [hsg, if_true] at hLdef
        cases hn : neg with
        | false =>
          simp only [hn, InRange, castRaw, Bool.true_and, Bool.false_eq_true, if_false, if_true] at hLdef ⊢
          rw [if_pos (by omega), if_pos]
          refine ⟨by rw [hpi1]; omega, ?_⟩
          rw [hpi1]; exact_mod_cast (by omega : numVal base ds < 2 ^ (w - 1))
        | true =>
          simp only [hn, InRange, castRaw, Bool.true_and, if_true] at hLdef ⊢
          rw [castU_zero_sub _ _ (by omega)]
          have hr : -(2 ^ (w - 1) : Int) ≤ -(numVal base ds : Int) ∧ -(numVal base ds : Int) < 2 ^ (w - 1) := by
            rw [hpi1]; omega
          rw [if_pos hr]
          by_cases hz : numVal base ds = 0
          · rw [if_pos hz, if_pos hpos, hz]; rfl
          · rw [if_neg hz, if_neg (by omega), hpi]
            congr 4
            omega
    · have ho : o' = true := h3.2 (by omega)
      subst ho
      have hnr : ¬ InRange signed w (if neg then -(numVal base ds : Int) else numVal base ds) := by
        cases hsg : signed with
        | false =>
          have hn : neg = false := by rw [hneg, hsg]; rfl
          simp only [hn, hsg, InRange, Bool.false_eq_true, if_false] at hle hLdef ⊢
          rw [hpi]; omega
        | true =>
          simp only [hsg, if_true] at hLdef
          cases hn : neg with
          | false =>
            simp only [hn, InRange, Bool.false_eq_true, if_false, if_true] at hLdef ⊢
            rw [hpi1]; omega
          | true =>
            simp only [hn, InRange, if_true] at hLdef ⊢
            rw [hpi1]; omega
      rw [if_pos rfl, if_neg hnr]

end STL.Charconv
