import Verif.BigInt.Model
import Verif.Int128.Knuth

/-! # Big integers: comparison, shift, addition, multiplication by a word -/

namespace STL.BigInt
open STL Digits

/-- The value represented (specification). -/
def Big.value (x : Big) : Nat := val (2 ^ 32) x.f 0 x.used

/-- The words in use are 32-bit words and fit in the object. -/
def WF (x : Big) : Prop := x.used ≤ cap ∧ ∀ i, i < x.used → x.f i < 2 ^ 32

/-- A well-formed object without leading zero words, as all operations expect and produce. -/
def Ok (x : Big) : Prop := WF x ∧ (x.used ≠ 0 → x.f (x.used - 1) ≠ 0)

theorem cap_eq : cap = 115 := rfl

theorem ldB {x : Big} {i : Nat} (h : i < x.used) : x.ld i = .ok (x.f i) := by simp [Big.ld, h]
theorem stB {x : Big} {i v : Nat} (h : i < cap) : x.st i v = .ok ⟨x.used, fun k => if k = i then v else x.f k⟩ := by simp [Big.st, h]

theorem powB (n : Nat) : (2 ^ 32) ^ n = 2 ^ (32 * n) := by rw [pow_mul]
theorem powB_pos (n : Nat) : 0 < (2 ^ 32) ^ n := Nat.pow_pos (by norm_num)
theorem powB_mono {a b : Nat} (h : a ≤ b) : (2 ^ 32) ^ a ≤ (2 ^ 32) ^ b := Nat.pow_le_pow_right (by norm_num) h

theorem WF.lt {x : Big} (h : WF x) : x.value < (2 ^ 32) ^ x.used := val_lt fun i _ h2 => h.2 i (by omega)

theorem WF.lt_cap {x : Big} (h : WF x) : x.value < (2 ^ 32) ^ cap := lt_of_lt_of_le h.lt (powB_mono h.1)

theorem val_top {f : Nat → Nat} {n : Nat} (h : f (n - 1) ≠ 0) (hn : n ≠ 0) : (2 ^ 32) ^ (n - 1) ≤ val (2 ^ 32) f 0 n := by
  obtain ⟨m, rfl⟩ : ∃ m, n = m + 1 := ⟨n - 1, by omega⟩
  rw [Nat.add_sub_cancel] at h ⊢
  rw [val_succ, Nat.zero_add]
  have : 1 * (2 ^ 32) ^ m ≤ f m * (2 ^ 32) ^ m := Nat.mul_le_mul_right _ (by omega)
  omega

theorem Ok.ge {x : Big} (h : Ok x) (h0 : x.used ≠ 0) : (2 ^ 32) ^ (x.used - 1) ≤ x.value := val_top (h.2 h0) h0

theorem Ok.of_ge {x : Big} (h : WF x) (h0 : x.used ≠ 0 → (2 ^ 32) ^ (x.used - 1) ≤ x.value) : Ok x := by
  refine ⟨h, fun hu hz => ?_⟩
  have h1 := h0 hu
  unfold Big.value at h1
  obtain ⟨m, hm⟩ : ∃ m, x.used = m + 1 := ⟨x.used - 1, by omega⟩
  rw [hm, Nat.add_sub_cancel] at h1 hz
  rw [val_succ, Nat.zero_add, hz, Nat.zero_mul, Nat.add_zero] at h1
  have h2 : val (2 ^ 32) x.f 0 m < (2 ^ 32) ^ m := val_lt fun i _ h2 => h.2 i (by omega)
  omega

theorem Ok.used_zero {x : Big} (h : Ok x) : x.used = 0 ↔ x.value = 0 := by
  constructor
  · intro h0; unfold Big.value; rw [h0]; rfl
  · intro h0
    by_contra hc
    have := h.ge hc
    have := powB_pos (x.used - 1)
    omega

theorem Ok.used_le {x : Big} (h : Ok x) {n : Nat} (hv : x.value < (2 ^ 32) ^ n) : x.used ≤ n := by
  by_contra hc
  have h1 := h.ge (by omega)
  have h2 : (2 ^ 32) ^ n ≤ (2 ^ 32) ^ (x.used - 1) := powB_mono (by omega)
  omega

theorem Ok.zero (f : Nat → Nat) : Ok ⟨0, f⟩ := ⟨⟨Nat.zero_le _, fun i h => absurd h (Nat.not_lt_zero _)⟩, fun h => absurd rfl h⟩

theorem value_zero (f : Nat → Nat) : (Big.mk 0 f).value = 0 := rfl

theorem one_ok : Ok one ∧ one.value = 1 := by
  refine ⟨⟨⟨by decide, fun i _ => by show 1 < 2 ^ 32; norm_num⟩, fun _ => by show 1 ≠ 0; omega⟩, ?_⟩
  simp [Big.value, one, val]

/-! ## Comparison -/

theorem ltLoop_ok {x y : Big} (hx : WF x) (hy : WF y) : ∀ n, n ≤ x.used → n ≤ y.used → ltLoop x y n = .ok (decide (val (2 ^ 32) x.f 0 n < val (2 ^ 32) y.f 0 n)) := by
  intro n
  induction n with
  | zero => intro _ _; rfl
  | succ n ih =>
    intro h1 h2
    unfold ltLoop
    rw [ldB (by omega), R.ok_bind, ldB (by omega), R.ok_bind]
    rw [val_succ, val_succ, Nat.zero_add]
    have l1 : val (2 ^ 32) x.f 0 n < (2 ^ 32) ^ n := val_lt fun i _ h => hx.2 i (by omega)
    have l2 : val (2 ^ 32) y.f 0 n < (2 ^ 32) ^ n := val_lt fun i _ h => hy.2 i (by omega)
    generalize (2 ^ 32) ^ n = P at *
    by_cases he : x.f n = y.f n
    · rw [if_neg (by simpa using he), ih (by omega) (by omega), he]
      congr 1
      rw [decide_eq_decide]
      omega
    · rw [if_pos he]
      congr 1
      rw [decide_eq_decide]
      generalize x.f n = a at *
      generalize y.f n = b at *
      constructor
      · intro h
        have : (a + 1) * P ≤ b * P := Nat.mul_le_mul_right _ h
        rw [Nat.add_mul] at this
        omega
      · intro h
        by_contra hc
        have : (b + 1) * P ≤ a * P := Nat.mul_le_mul_right _ (by omega)
        rw [Nat.add_mul] at this
        omega

theorem lt_ok {x y : Big} (hx : Ok x) (hy : Ok y) : lt x y = .ok (decide (x.value < y.value)) := by
  unfold lt
  by_cases h : x.used = y.used
  · rw [if_neg (by simpa using h), ltLoop_ok hx.1 hy.1 _ (le_refl _) (by omega)]
    unfold Big.value; rw [h]
  · rw [if_pos h]
    congr 1
    rw [decide_eq_decide]
    have lx := hx.1.lt; have ly := hy.1.lt
    constructor
    · intro h'
      have := hy.ge (by omega)
      have := powB_mono (a := x.used) (b := y.used - 1) (by omega)
      omega
    · intro h'
      by_contra hc
      have := hx.ge (by omega)
      have := powB_mono (a := y.used) (b := x.used - 1) (by omega)
      omega

/-! ## Bit scan -/

theorem size_eq {v s : Nat} (h1 : 2 ^ s ≤ v) (h2 : v < 2 ^ (s + 1)) : Nat.size v = s + 1 :=
  le_antisymm (Nat.size_le.2 h2) (Nat.lt_size.2 h1)

theorem top_bounds {x : Big} (h : Ok x) (h0 : x.used ≠ 0) : 2 ^ (Nat.size (x.f (x.used - 1)) - 1 + 32 * (x.used - 1)) ≤ x.value ∧
    x.value < 2 ^ (Nat.size (x.f (x.used - 1)) + 32 * (x.used - 1)) ∧ 0 < Nat.size (x.f (x.used - 1)) ∧ Nat.size (x.f (x.used - 1)) ≤ 32 := by
  obtain ⟨m, hm⟩ : ∃ m, x.used = m + 1 := ⟨x.used - 1, by omega⟩
  have ht := h.2 h0
  have hw := h.1.2 (x.used - 1) (by omega)
  have hv : x.value = val (2 ^ 32) x.f 0 m + x.f m * (2 ^ 32) ^ m := by unfold Big.value; rw [hm, val_succ, Nat.zero_add]
  have hl : val (2 ^ 32) x.f 0 m < (2 ^ 32) ^ m := val_lt fun i _ h2 => h.1.2 i (by omega)
  rw [hm, Nat.add_sub_cancel] at ht hw ⊢
  have hs : 0 < Nat.size (x.f m) := Nat.size_pos.2 (by omega)
  have a1 : 2 ^ (Nat.size (x.f m) - 1) ≤ x.f m := Nat.lt_size.1 (by omega)
  have a2 : x.f m + 1 ≤ 2 ^ Nat.size (x.f m) := Nat.lt_size_self _
  have b1 := Nat.mul_le_mul_right ((2 ^ 32) ^ m) a1
  have b2 := Nat.mul_le_mul_right ((2 ^ 32) ^ m) a2
  rw [Nat.add_mul] at b2
  rw [pow_add, pow_add, ← powB]
  refine ⟨by omega, by omega, hs, Nat.size_le.2 hw⟩

theorem bitScan_ok {x : Big} (h : Ok x) : bitScan x = .ok (Nat.size x.value) := by
  unfold bitScan
  by_cases h0 : x.used = 0
  · rw [if_pos h0]; unfold Big.value; rw [h0]; simp [val]
  · rw [if_neg h0]
    dsimp only
    rw [ldB (by omega), R.ok_bind, if_neg (h.2 h0)]
    obtain ⟨t1, t2, t3, _⟩ := top_bounds h h0
    congr 1
    rw [size_eq t1 (by rw [show Nat.size (x.f (x.used - 1)) - 1 + 32 * (x.used - 1) + 1 = Nat.size (x.f (x.used - 1)) + 32 * (x.used - 1) by omega]; exact t2)]
    omega

/-! ## Shift -/

/-- The word written by `_Shift_left`. -/
def comb (e : Nat → Nat) (msb j : Nat) : Nat := (e j % 2 ^ (32 - msb)) * 2 ^ msb + (if j = 0 then 0 else e (j - 1) / 2 ^ (32 - msb))

theorem comb_word {u l msb : Nat} (h0 : 0 < msb) (h : msb < 32) (hu : u < 2 ^ 32) (hl : l < 2 ^ 32) :
    ((u &&& (2 ^ (32 - msb) - 1)) <<< msb % 2 ^ 32 ||| (l &&& (2 ^ 32 - 1 - (2 ^ (32 - msb) - 1))) >>> (32 - msb)) = (u % 2 ^ (32 - msb)) * 2 ^ msb + l / 2 ^ (32 - msb) := by
  have hp : 2 ^ (32 - msb) * 2 ^ msb = 2 ^ 32 := by rw [← pow_add]; congr 1; omega
  have h1 : (u &&& (2 ^ (32 - msb) - 1)) = u % 2 ^ (32 - msb) := Nat.and_two_pow_sub_one_eq_mod u _
  have h2 : (l &&& (2 ^ 32 - 1 - (2 ^ (32 - msb) - 1))) >>> (32 - msb) = l / 2 ^ (32 - msb) := by
    rw [Nat.shiftRight_and_distrib, Nat.shiftRight_eq_div_pow, Nat.shiftRight_eq_div_pow]
    have : (2 ^ 32 - 1 - (2 ^ (32 - msb) - 1)) / 2 ^ (32 - msb) = 2 ^ msb - 1 := by
      have e : 2 ^ 32 - 1 - (2 ^ (32 - msb) - 1) = (2 ^ msb - 1) * 2 ^ (32 - msb) := by
        rw [Nat.sub_mul, Nat.one_mul, Nat.mul_comm, hp]
        have := Nat.two_pow_pos (32 - msb)
        omega
      rw [e, Nat.mul_div_cancel _ (Nat.two_pow_pos _)]
    rw [this, Nat.and_two_pow_sub_one_eq_mod, Nat.mod_eq_of_lt]
    rw [Nat.div_lt_iff_lt_mul (Nat.two_pow_pos _), Nat.mul_comm, hp]; exact hl
  rw [h1, h2]
  have h3 : (u % 2 ^ (32 - msb)) <<< msb = u % 2 ^ (32 - msb) * 2 ^ msb := Nat.shiftLeft_eq _ _
  have h4 : u % 2 ^ (32 - msb) * 2 ^ msb < 2 ^ 32 := by
    rw [← hp]; exact Nat.mul_lt_mul_of_pos_right (Nat.mod_lt _ (Nat.two_pow_pos _)) (Nat.two_pow_pos _)
  rw [Nat.mod_eq_of_lt (by rw [h3]; exact h4), shl_or]
  rw [Nat.div_lt_iff_lt_mul (Nat.two_pow_pos _), Nat.mul_comm, hp]; exact hl

theorem shlLoop_ok {used unit msb : Nat} (h0 : 0 < msb) (h : msb < 32) (e : Nat → Nat) (he : ∀ i, e i < 2 ^ 32) (hez : ∀ i, used ≤ i → e i = 0) (hu32 : used < 2 ^ 31) :
    ∀ (k : Nat) (x : Big), k ≤ used + 1 → unit + k ≤ cap → x.used = used → (∀ i, i < k → i < used → x.f i = e i) →
      ∃ y, shlLoop used unit msb k x = .ok y ∧ y.used = used ∧ ∀ i, y.f i = if unit ≤ i ∧ i < unit + k then comb e msb (i - unit) else x.f i := by
  intro k
  induction k with
  | zero => intro x _ _ hu _; exact ⟨x, rfl, hu, fun i => by rw [if_neg (by omega)]⟩
  | succ k ih =>
    intro x hk hc hu hx
    unfold shlLoop
    dsimp only
    rw [Nat.add_sub_cancel_left]
    have e1 : (if k < used then x.ld k else .ok 0 : R Nat) = .ok (e k) := by
      split
      · rename_i hh; rw [ldB (by omega), hx k (by omega) hh]
      · rw [hez k (by omega)]
    have e2 : (if (k + 2 ^ 32 - 1) % 2 ^ 32 < used then x.ld ((k + 2 ^ 32 - 1) % 2 ^ 32) else .ok 0 : R Nat) = .ok (if k = 0 then 0 else e (k - 1)) := by
      by_cases hk0 : k = 0
      · rw [if_neg (by omega), if_pos hk0]
      · have : (k + 2 ^ 32 - 1) % 2 ^ 32 = k - 1 := by omega
        rw [this, if_neg hk0]
        split
        · rename_i hh; rw [ldB (by omega), hx (k - 1) (by omega) hh]
        · omega
    rw [e1, R.ok_bind, e2, R.ok_bind, stB (by omega), R.ok_bind]
    obtain ⟨y, ey, hyu, hyf⟩ := ih ⟨x.used, fun i => if i = unit + k then
        ((e k &&& (2 ^ (32 - msb) - 1)) <<< msb % 2 ^ 32 ||| ((if k = 0 then 0 else e (k - 1)) &&& (2 ^ 32 - 1 - (2 ^ (32 - msb) - 1))) >>> (32 - msb)) else x.f i⟩
      (by omega) (by omega) hu (fun i h1 h2 => by
        show (if i = unit + k then _ else x.f i) = e i
        rw [if_neg (by omega)]; exact hx i (by omega) h2)
    refine ⟨y, ey, hyu, fun i => ?_⟩
    have hyi := hyf i
    dsimp only at hyi
    rw [hyi]
    clear hyi
    by_cases hi : i = unit + k
    · subst hi
      have c1 : ¬ (unit ≤ unit + k ∧ unit + k < unit + k) := by omega
      have c2 : unit ≤ unit + k ∧ unit + k < unit + (k + 1) := by omega
      have c3 : (if k = 0 then 0 else e (k - 1)) < 2 ^ 32 := by
        split
        · norm_num
        · exact he _
      rw [if_neg c1, if_pos c2, if_pos rfl, comb_word h0 h (he _) c3, Nat.add_sub_cancel_left]
      unfold comb
      congr 1
      split <;> simp
    · by_cases hr : unit ≤ i ∧ i < unit + k
      · have c2 : unit ≤ i ∧ i < unit + (k + 1) := by omega
        rw [if_pos hr, if_pos c2]
      · have c2 : ¬ (unit ≤ i ∧ i < unit + (k + 1)) := by omega
        rw [if_neg hr, if_neg c2, if_neg hi]

theorem comb_val {e : Nat → Nat} {msb : Nat} (h : msb < 32) (m : Nat) :
    val (2 ^ 32) (comb e msb) 0 m + (if m = 0 then 0 else e (m - 1) / 2 ^ (32 - msb)) * (2 ^ 32) ^ m = val (2 ^ 32) e 0 m * 2 ^ msb := by
  have hp : 2 ^ (32 - msb) * 2 ^ msb = 2 ^ 32 := by rw [← pow_add]; congr 1; omega
  induction m with
  | zero => simp [val]
  | succ m ih =>
    rw [val_succ, val_succ, Nat.zero_add, Nat.add_mul, ← ih, if_neg (by omega), Nat.add_sub_cancel, comb]
    generalize (if m = 0 then 0 else e (m - 1) / 2 ^ (32 - msb)) = c
    have hd := Nat.div_add_mod (e m) (2 ^ (32 - msb))
    generalize e m / 2 ^ (32 - msb) = q at *
    generalize e m % 2 ^ (32 - msb) = r at *
    rw [← hd, show m + 1 = m + 1 from rfl]
    generalize hB : (2 ^ 32 : Nat) = b at *
    rw [pow_succ, ← hp]
    ring

theorem comb_lt {e : Nat → Nat} {msb : Nat} (h : msb < 32) (he : ∀ i, e i < 2 ^ 32) (j : Nat) : comb e msb j < 2 ^ 32 := by
  have hp : 2 ^ (32 - msb) * 2 ^ msb = 2 ^ 32 := by rw [← pow_add]; congr 1; omega
  unfold comb
  have h1 : (e j % 2 ^ (32 - msb) + 1) * 2 ^ msb ≤ 2 ^ (32 - msb) * 2 ^ msb := Nat.mul_le_mul_right _ (Nat.mod_lt _ (Nat.two_pow_pos _))
  rw [hp, Nat.add_mul] at h1
  have h2 : (if j = 0 then 0 else e (j - 1) / 2 ^ (32 - msb)) < 2 ^ msb := by
    split
    · exact Nat.two_pow_pos _
    · rw [Nat.div_lt_iff_lt_mul (Nat.two_pow_pos _), Nat.mul_comm, hp]; exact he _
  omega

theorem val_zeroes {f : Nat → Nat} : ∀ n, (∀ i, i < n → f i = 0) → val (2 ^ 32) f 0 n = 0 := by
  intro n
  induction n with
  | zero => intro _; rfl
  | succ n ih => intro h; rw [val_succ, ih fun i hi => h i (by omega), Nat.zero_add, Nat.zero_add, h n (by omega), Nat.zero_mul]

theorem val_shift (f g : Nat → Nat) (b j : Nat) : ∀ n, (∀ i, i < n → f (j + i) = g i) → val b f j n = val b g 0 n := by
  intro n
  induction n with
  | zero => intro _; rfl
  | succ n ih => intro h; rw [val_succ, val_succ, ih fun i hi => h i (by omega), Nat.zero_add, h n (by omega)]

theorem zeroLow_ok {x : Big} {n : Nat} (h : n ≤ cap) : zeroLow x n = .ok ⟨x.used, fun i => if i < n then 0 else x.f i⟩ := by unfold zeroLow; rw [if_pos h]

/-- Words `unit, unit + 1, …` set to `g`, the lower ones zeroed. -/
theorem shifted_value {f g : Nat → Nat} {unit m : Nat} (hz : ∀ i, i < unit → f i = 0) (h : ∀ i, i < m → f (unit + i) = g i) :
    val (2 ^ 32) f 0 (unit + m) = val (2 ^ 32) g 0 m * (2 ^ 32) ^ unit := by
  rw [val_add, val_zeroes _ hz, Nat.zero_add, Nat.zero_add, val_shift f g _ _ m h, Nat.mul_comm]

theorem pow_n {n : Nat} : 2 ^ n = 2 ^ (n % 32) * (2 ^ 32) ^ (n / 32) := by rw [powB, ← pow_add]; congr 1; omega

/-- What an operation that may overflow returns for the exact result `v`. -/
def Res (v : Nat) (r : R (Big × Bool)) : Prop :=
  (∃ y, r = .ok (y, true) ∧ Ok y ∧ y.value = v) ∨ (∃ y, r = .ok (y, false) ∧ y.used = 0 ∧ (2 ^ 32) ^ cap ≤ v)

theorem shiftLeft_ok {x : Big} (h : Ok x) (n : Nat) : Res (x.value * 2 ^ n) (shiftLeft x n) := by
  unfold shiftLeft
  by_cases h0 : x.used = 0
  · rw [if_pos h0]
    exact .inl ⟨x, rfl, h, by rw [h.used_zero.1 h0, Nat.zero_mul]⟩
  rw [if_neg h0]
  dsimp only
  have hge := h.ge h0
  have hlt := h.1.lt
  have hcap := h.1.1
  have hb32 : n % 32 < 32 := Nat.mod_lt _ (by norm_num)
  rw [pow_n (n := n)]
  generalize n / 32 = unit at *
  generalize n % 32 = bit at *
  have hPu := powB_pos unit
  have hPb := Nat.two_pow_pos bit
  have hscale : x.value * (2 ^ bit * (2 ^ 32) ^ unit) = x.value * 2 ^ bit * (2 ^ 32) ^ unit := by ring
  rw [hscale]
  by_cases h1 : x.used + unit > cap
  · rw [if_pos h1]
    refine .inr ⟨_, rfl, rfl, ?_⟩
    calc (2 ^ 32) ^ cap ≤ (2 ^ 32) ^ (x.used - 1 + unit) := powB_mono (by omega)
      _ = (2 ^ 32) ^ (x.used - 1) * (2 ^ 32) ^ unit := pow_add _ _ _
      _ ≤ x.value * (2 ^ 32) ^ unit := Nat.mul_le_mul_right _ hge
      _ ≤ x.value * 2 ^ bit * (2 ^ 32) ^ unit := Nat.mul_le_mul_right _ (Nat.le_mul_of_pos_right _ hPb)
  rw [if_neg h1]
  -- the shape of a successful result
  have fin : ∀ (f g : Nat → Nat) (m : Nat), (∀ i, i < unit → f i = 0) → (∀ i, i < m → f (unit + i) = g i) → (∀ i, i < m → g i < 2 ^ 32) → m ≠ 0 → unit + m ≤ cap →
      val (2 ^ 32) g 0 m = x.value * 2 ^ bit → (2 ^ 32) ^ (m - 1) ≤ x.value * 2 ^ bit →
      Ok ⟨unit + m, f⟩ ∧ (Big.mk (unit + m) f).value = x.value * 2 ^ bit * (2 ^ 32) ^ unit := by
    intro f g m hz hg hgl hm hc hv hge'
    have hval : (Big.mk (unit + m) f).value = x.value * 2 ^ bit * (2 ^ 32) ^ unit := by
      show val (2 ^ 32) f 0 (unit + m) = _
      rw [shifted_value hz hg, hv]
    refine ⟨Ok.of_ge ⟨hc, fun i hi => ?_⟩ fun _ => ?_, hval⟩
    · show f i < _
      by_cases hiu : i < unit
      · rw [hz i hiu]; norm_num
      · have := hg (i - unit) (by have : i < unit + m := hi; omega)
        rw [Nat.add_sub_cancel' (by omega)] at this
        rw [this]; exact hgl _ (by have : i < unit + m := hi; omega)
    · rw [hval]
      show (2 ^ 32) ^ (unit + m - 1) ≤ _
      rw [show unit + m - 1 = (m - 1) + unit by omega, pow_add]
      exact Nat.mul_le_mul_right _ hge'
  by_cases hb0 : bit = 0
  · subst hb0
    rw [if_pos rfl, zeroLow_ok (by omega), R.ok_bind]
    refine .inl ⟨_, rfl, ?_⟩
    rw [Nat.add_comm x.used unit]
    apply fin _ x.f x.used
    · intro i hi; show (if i < unit then 0 else _) = 0; rw [if_pos hi]
    · intro i hi
      show (if unit + i < unit then 0 else if unit ≤ unit + i ∧ unit + i < unit + x.used then x.f (unit + i - unit) else x.f (unit + i)) = _
      rw [if_neg (by omega), if_pos (by omega), Nat.add_sub_cancel_left]
    · exact h.1.2
    · exact h0
    · omega
    · rw [pow_zero, Nat.mul_one]; rfl
    · rw [pow_zero, Nat.mul_one]; exact hge
  rw [if_neg hb0, ldB (by omega), R.ok_bind]
  obtain ⟨t1, t2, t3, t4⟩ := top_bounds h h0
  have htop := Nat.lt_size_self (x.f (x.used - 1))
  unfold bsr
  generalize hs : Nat.size (x.f (x.used - 1)) = s at *
  -- the words, extended by zeroes
  let e : Nat → Nat := fun i => if i < x.used then x.f i else 0
  have he : ∀ i, e i < 2 ^ 32 := by
    intro i; show (if i < x.used then x.f i else 0) < _
    split
    · rename_i hh; exact h.1.2 i hh
    · norm_num
  have hez : ∀ i, x.used ≤ i → e i = 0 := fun i hi => if_neg (by omega)
  have hev : val (2 ^ 32) e 0 x.used = x.value := val_congr fun i _ hi => if_pos (by omega)
  have go : ∀ m, x.used ≤ m → m ≤ x.used + 1 → unit + m ≤ cap → (if m = 0 then 0 else e (m - 1) / 2 ^ (32 - bit)) = 0 → (2 ^ 32) ^ (m - 1) ≤ x.value * 2 ^ bit →
      ∃ y, shlLoop x.used unit bit (unit + m - unit) x = .ok y ∧ Ok ⟨unit + m, fun i => if i < unit then 0 else y.f i⟩ ∧
        (Big.mk (unit + m) fun i => if i < unit then 0 else y.f i).value = x.value * 2 ^ bit * (2 ^ 32) ^ unit := by
    intro m hm1 hm2 hmc hc0 hge'
    obtain ⟨y, ey, hyu, hyf⟩ := shlLoop_ok (used := x.used) (unit := unit) (msb := bit) (by omega) hb32 e he hez (by rw [cap_eq] at hcap; omega) (unit + m - unit) x (by omega) (by omega) rfl
      (fun i _ hi => (if_pos hi).symm)
    refine ⟨y, ey, ?_⟩
    apply fin _ (comb e bit) m
    · intro i hi; show (if i < unit then 0 else _) = 0; rw [if_pos hi]
    · intro i hi
      show (if unit + i < unit then 0 else y.f (unit + i)) = _
      rw [if_neg (by omega), hyf, if_pos (by omega), Nat.add_sub_cancel_left]
    · intro i _; exact comb_lt hb32 he i
    · omega
    · exact hmc
    · have hcv := comb_val (e := e) hb32 m
      rw [hc0, Nat.zero_mul, Nat.add_zero] at hcv
      rw [hcv]
      congr 1
      rcases (by omega : m = x.used ∨ m = x.used + 1) with rfl | rfl
      · exact hev
      · rw [val_succ, hev, Nat.zero_add, hez _ (le_refl _), Nat.zero_mul, Nat.add_zero]
    · exact hge'
  by_cases hi : bit > 32 - s
  · simp only [hi, decide_true, if_true]
    -- the top word overflows into the next
    have hbig : (2 ^ 32) ^ x.used ≤ x.value * 2 ^ bit := by
      calc (2 ^ 32) ^ x.used = 2 ^ (32 * x.used) := powB _
        _ ≤ 2 ^ (s - 1 + 32 * (x.used - 1) + bit) := Nat.pow_le_pow_right (by norm_num) (by omega)
        _ = 2 ^ (s - 1 + 32 * (x.used - 1)) * 2 ^ bit := pow_add _ _ _
        _ ≤ x.value * 2 ^ bit := Nat.mul_le_mul_right _ t1
    by_cases hc : x.used + unit + 1 > cap
    · rw [if_pos hc]
      refine .inr ⟨_, rfl, rfl, ?_⟩
      calc (2 ^ 32) ^ cap ≤ (2 ^ 32) ^ (x.used + unit) := powB_mono (by omega)
        _ = (2 ^ 32) ^ x.used * (2 ^ 32) ^ unit := pow_add _ _ _
        _ ≤ _ := Nat.mul_le_mul_right _ hbig
    · rw [if_neg hc]
      obtain ⟨y, ey, hy⟩ := go (x.used + 1) (by omega) (le_refl _) (by omega) (by rw [if_neg (by omega), Nat.add_sub_cancel, hez _ (le_refl _), Nat.zero_div])
        (by rw [Nat.add_sub_cancel]; exact hbig)
      rw [show x.used + unit + 1 = unit + (x.used + 1) by omega, ey, R.ok_bind, zeroLow_ok (by omega), R.ok_bind]
      exact .inl ⟨_, rfl, hy⟩
  · simp only [hi, decide_false, Bool.false_eq_true, if_false, Nat.add_zero]
    rw [if_neg h1]
    obtain ⟨y, ey, hy⟩ := go x.used (le_refl _) (by omega) (by omega) (by
        rw [if_neg h0]
        apply Nat.div_eq_of_lt
        show (if x.used - 1 < x.used then x.f (x.used - 1) else 0) < _
        rw [if_pos (by omega)]
        exact lt_of_lt_of_le htop (Nat.pow_le_pow_right (by norm_num) (by omega)))
      (le_trans hge (Nat.le_mul_of_pos_right _ hPb))
    rw [show x.used + unit = unit + x.used by omega, ey, R.ok_bind, zeroLow_ok (by omega), R.ok_bind]
    exact .inl ⟨_, rfl, hy⟩

end STL.BigInt
