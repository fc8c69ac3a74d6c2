import Verif.Engines.SwcSeed

/-! # C51: mersenne_twister_engine (proofs) -/

namespace STL.Engines

/-- The `static_assert` on the template arguments. -/
structure MtP.Ok {D : Nat} (p : MtP D) : Prop where
  hm : 0 < p.m
  hmn : p.m ≤ p.n
  hw : 2 < p.w
  hr : p.r ≤ p.w
  hu : p.u ≤ p.w
  hs : p.s ≤ p.w
  ht : p.t ≤ p.w
  hl : p.l ≤ p.w
  hwD : p.w ≤ D
  ha : p.a.toNat < 2 ^ p.w
  hb : p.b.toNat < 2 ^ p.w
  hc : p.c.toNat < 2 ^ p.w
  hd : p.d.toNat < 2 ^ p.w
  hf : p.f.toNat < 2 ^ p.w

/-- Specification, N4950 [rand.eng.mers]/2: the state is `X_{i-n}, …, X_{i-1}`. `Y` is the upper `w - r` bits of
`X_{i-n}` and the lower `r` bits of `X_{i+1-n}` (indices of the state are modulo `n`), and the new word is
`X_{i+m-n} xor (Y >> 1) xor (a if Y is odd)`. -/
def mtRecur {D : Nat} (p : MtP D) (h : List Nat) : Nat :=
  let y := h.getD 0 0 / 2 ^ p.r * 2 ^ p.r + h.getD (1 % p.n) 0 % 2 ^ p.r
  h.getD (p.m % p.n) 0 ^^^ (y / 2 ^^^ (if y % 2 = 1 then p.a.toNat else 0))

/-- Specification: the oldest word leaves the state and the new word enters. -/
def mtStep {D : Nat} (p : MtP D) (h : List Nat) : List Nat := h.tail ++ [mtRecur p h]

/-- Specification, N4950 [rand.eng.mers]/3: the tempering, in `w`-bit arithmetic. -/
def mtTemper {D : Nat} (p : MtP D) (x : Nat) : Nat :=
  let z1 := x ^^^ ((x / 2 ^ p.u) &&& p.d.toNat)
  let z2 := z1 ^^^ ((z1 * 2 ^ p.s % 2 ^ p.w) &&& p.b.toNat)
  let z3 := z2 ^^^ ((z2 * 2 ^ p.t % 2 ^ p.w) &&& p.c.toNat)
  z3 ^^^ (z3 / 2 ^ p.l)

/-- The generator's value: the tempered newest word. -/
def mtOut {D : Nat} (p : MtP D) (h : List Nat) : Nat := mtTemper p (h.getLastD 0)

/-- The state an engine writes to a stream, as numbers. -/
def MtP.view {D : Nat} (p : MtP D) (e : Circ D) : Option (List Nat) := (e.save p.n).map (List.map BitVec.toNat)

section masks
variable {D : Nat} {p : MtP D}

theorem wmsk_bit (hp : p.Ok) (i : Nat) : p.wmsk.getLsbD i = (decide (i < p.w)) := by
  unfold MtP.wmsk
  have h1 := hp.hw
  have h2 := hp.hwD
  rw [← BitVec.shiftLeft_add, show p.w - 1 + 1 = p.w by omega]
  simp only [BitVec.getLsbD_not, BitVec.getLsbD_shiftLeft, BitVec.getLsbD_zero]
  by_cases hi : i < p.w
  · simp [hi]; omega
  · by_cases hd : i < D
    · simp [hi, hd]; omega
    · simp [hd]; omega

theorem hmsk_bit (hp : p.Ok) (i : Nat) : p.hmsk.getLsbD i = (decide (i < p.w) && decide (p.r ≤ i)) := by
  unfold MtP.hmsk
  have h1 := hp.hw
  have h2 := hp.hwD
  rw [BitVec.getLsbD_and, BitVec.getLsbD_shiftLeft, wmsk_bit hp, wmsk_bit hp]
  by_cases hi : i < p.w
  · by_cases hr : p.r ≤ i
    · simp [hi, hr]; omega
    · simp [hr]
  · simp [hi]

theorem lmsk_bit (hp : p.Ok) (i : Nat) : p.lmsk.getLsbD i = decide (i < p.r) := by
  unfold MtP.lmsk
  have h1 := hp.hw
  have h2 := hp.hwD
  have h3 := hp.hr
  rw [BitVec.getLsbD_and, BitVec.getLsbD_not, hmsk_bit hp, wmsk_bit hp]
  by_cases hi : i < p.w
  · by_cases hr : i < p.r
    · simp [hi, hr]; omega
    · simp [hi, hr]; omega
  · simp [hi]; omega

theorem and_wmsk (hp : p.Ok) (v : BitVec D) : (v &&& p.wmsk).toNat = v.toNat % 2 ^ p.w := by
  apply Nat.eq_of_testBit_eq
  intro i
  rw [← BitVec.getLsbD, BitVec.getLsbD_and, wmsk_bit hp, Nat.testBit_mod_two_pow, Bool.and_comm]
  rfl

theorem and_hmsk (hp : p.Ok) (v : BitVec D) (hv : v.toNat < 2 ^ p.w) :
    (v &&& p.hmsk).toNat = 2 ^ p.r * (v.toNat / 2 ^ p.r) := by
  apply Nat.eq_of_testBit_eq
  intro i
  rw [← BitVec.getLsbD, BitVec.getLsbD_and, hmsk_bit hp, Nat.testBit_two_pow_mul, Nat.testBit_div_two_pow]
  by_cases hr : p.r ≤ i
  · rw [show i - p.r + p.r = i by omega]
    by_cases hw : i < p.w
    · simp [hr, hw, BitVec.getLsbD]
    · have : v.toNat.testBit i = false :=
        Nat.testBit_lt_two_pow (Nat.lt_of_lt_of_le hv (Nat.pow_le_pow_right (by decide) (by omega)))
      simp [BitVec.getLsbD, this]
  · simp [hr]

theorem and_lmsk (hp : p.Ok) (v : BitVec D) : (v &&& p.lmsk).toNat = v.toNat % 2 ^ p.r := by
  apply Nat.eq_of_testBit_eq
  intro i
  rw [← BitVec.getLsbD, BitVec.getLsbD_and, lmsk_bit hp, Nat.testBit_mod_two_pow, Bool.and_comm]
  rfl

theorem fill_arith (hp : p.Ok) (v0 v1 vm : BitVec D) (h0 : v0.toNat < 2 ^ p.w) :
    let tmp := (v0 &&& p.hmsk) ||| (v1 &&& p.lmsk)
    ((tmp >>> 1) ^^^ (if tmp &&& 1#D ≠ 0#D then p.a else 0#D) ^^^ vm).toNat =
      vm.toNat ^^^ ((v0.toNat / 2 ^ p.r * 2 ^ p.r + v1.toNat % 2 ^ p.r) / 2 ^^^
        (if (v0.toNat / 2 ^ p.r * 2 ^ p.r + v1.toNat % 2 ^ p.r) % 2 = 1 then p.a.toNat else 0)) := by
  intro tmp
  have ht : tmp.toNat = v0.toNat / 2 ^ p.r * 2 ^ p.r + v1.toNat % 2 ^ p.r := by
    show ((v0 &&& p.hmsk) ||| (v1 &&& p.lmsk)).toNat = _
    rw [BitVec.toNat_or, and_hmsk hp _ h0, and_lmsk hp,
      ← Nat.two_pow_add_eq_or_of_lt (Nat.mod_lt _ (Nat.pow_pos (by decide))), Nat.mul_comm]
  rw [← ht]
  have hD : 1 < 2 ^ D := Nat.one_lt_two_pow (by have := hp.hw; have := hp.hwD; omega)
  have hodd : (tmp &&& 1#D ≠ 0#D) ↔ tmp.toNat % 2 = 1 := by
    have e : (tmp &&& 1#D).toNat = tmp.toNat % 2 := by
      rw [BitVec.toNat_and, BitVec.toNat_ofNat, Nat.mod_eq_of_lt hD, Nat.and_one_is_mod]
    constructor
    · intro h
      by_contra hne
      apply h
      apply BitVec.eq_of_toNat_eq
      rw [e]
      simp
      omega
    · intro h hz
      rw [hz] at e
      simp at e
      omega
  rw [BitVec.toNat_xor, BitVec.toNat_xor, BitVec.toNat_ushiftRight, Nat.shiftRight_eq_div_pow, Nat.pow_one,
    Nat.xor_comm]
  congr 2
  by_cases h : tmp.toNat % 2 = 1
  · rw [if_pos h, if_pos (hodd.2 h)]
  · rw [if_neg h, if_neg (fun hn => h (hodd.1 hn))]
    simp

theorem and_mod_pow {y b w E : Nat} (hb : b < 2 ^ w) (hwE : w ≤ E) : (y % 2 ^ E) &&& b = (y % 2 ^ w) &&& b := by
  apply Nat.eq_of_testBit_eq
  intro i
  rw [Nat.testBit_and, Nat.testBit_and, Nat.testBit_mod_two_pow, Nat.testBit_mod_two_pow]
  by_cases hi : i < w
  · simp [hi, show i < E by omega]
  · have : b.testBit i = false :=
      Nat.testBit_lt_two_pow (Nat.lt_of_lt_of_le hb (Nat.pow_le_pow_right (by decide) (by omega)))
    simp [this]

theorem temper_eq (hp : p.Ok) (x : BitVec D) (hx : x.toNat < 2 ^ p.w) : (p.temper x).toNat = mtTemper p x.toNat := by
  unfold MtP.temper mtTemper
  simp only [BitVec.toNat_xor, BitVec.toNat_and, BitVec.toNat_shiftLeft, BitVec.toNat_ushiftRight, and_wmsk hp,
    Nat.shiftRight_eq_div_pow, Nat.shiftLeft_eq]
  simp only [Nat.mod_eq_of_lt hx, and_mod_pow hp.hb hp.hwD, and_mod_pow hp.hc hp.hwD]
  have l1 : x.toNat ^^^ (x.toNat / 2 ^ p.u &&& p.d.toNat) < 2 ^ p.w :=
    Nat.xor_lt_two_pow hx (Nat.and_lt_two_pow _ hp.hd)
  generalize x.toNat ^^^ (x.toNat / 2 ^ p.u &&& p.d.toNat) = z1 at l1 ⊢
  have l2 : z1 ^^^ (z1 * 2 ^ p.s % 2 ^ p.w &&& p.b.toNat) < 2 ^ p.w :=
    Nat.xor_lt_two_pow l1 (Nat.and_lt_two_pow _ hp.hb)
  generalize z1 ^^^ (z1 * 2 ^ p.s % 2 ^ p.w &&& p.b.toNat) = z2 at l2 ⊢
  have l3 : z2 ^^^ (z2 * 2 ^ p.t % 2 ^ p.w &&& p.c.toNat) < 2 ^ p.w :=
    Nat.xor_lt_two_pow l2 (Nat.and_lt_two_pow _ hp.hc)
  generalize z2 ^^^ (z2 * 2 ^ p.t % 2 ^ p.w &&& p.c.toNat) = z3 at l3 ⊢
  rw [Nat.mod_eq_of_lt l3]

end masks

/-! ## The words of the whole sequence -/

/-- The infinite sequence of words that starts with the state `h`. -/
def mtX {D : Nat} (p : MtP D) (h : List Nat) (i : Nat) : Nat := ((mtStep p)^[i] h).getD 0 0

section seq
variable {D : Nat} {p : MtP D} {h : List Nat}

theorem mtStep_len (hh : h.length = p.n) (hn : 0 < p.n) : (mtStep p h).length = p.n := by
  unfold mtStep
  simp
  omega

theorem mtIter_len (hh : h.length = p.n) (hn : 0 < p.n) (i : Nat) : ((mtStep p)^[i] h).length = p.n := by
  induction i generalizing h with
  | zero => exact hh
  | succ i ih => rw [Function.iterate_succ_apply]; exact ih (mtStep_len hh hn)

theorem mtStep_getD (hh : h.length = p.n) (j : Nat) (hj : j + 1 < p.n) : (mtStep p h).getD j 0 = h.getD (j + 1) 0 := by
  unfold mtStep
  rw [List.getD_eq_getElem?_getD, List.getElem?_append_left (by simp; omega), List.getElem?_tail,
    List.getD_eq_getElem?_getD]

theorem mtStep_last (hh : h.length = p.n) (hn : 0 < p.n) : (mtStep p h).getD (p.n - 1) 0 = mtRecur p h := by
  unfold mtStep
  rw [List.getD_eq_getElem?_getD, List.getElem?_append_right (by simp; omega)]
  simp [hh]

theorem mtIter_getD (hh : h.length = p.n) (hn : 0 < p.n) : ∀ (j i : Nat), j < p.n →
    ((mtStep p)^[i] h).getD j 0 = mtX p h (i + j) := by
  intro j
  induction j with
  | zero => intro i _; rfl
  | succ j ih =>
    intro i hj
    have := ih (i + 1) (by omega)
    rw [Function.iterate_succ_apply', mtStep_getD (mtIter_len hh hn i) j hj] at this
    rw [this]
    congr 1
    omega

theorem mtX_rec (hh : h.length = p.n) (hn : 0 < p.n) (i : Nat) :
    mtX p h (i + p.n) = mtX p h (i + p.m % p.n) ^^^
      ((mtX p h i / 2 ^ p.r * 2 ^ p.r + mtX p h (i + 1 % p.n) % 2 ^ p.r) / 2 ^^^
        (if (mtX p h i / 2 ^ p.r * 2 ^ p.r + mtX p h (i + 1 % p.n) % 2 ^ p.r) % 2 = 1 then p.a.toNat else 0)) := by
  have h1 := mtIter_getD (p := p) hh hn (p.n - 1) (i + 1) (by omega)
  rw [show i + 1 + (p.n - 1) = i + p.n by omega, Function.iterate_succ_apply',
    mtStep_last (mtIter_len hh hn i) hn] at h1
  rw [← h1]
  unfold mtRecur
  rw [mtIter_getD hh hn 0 i hn, mtIter_getD hh hn _ i (Nat.mod_lt _ hn), mtIter_getD hh hn _ i (Nat.mod_lt _ hn)]
  rfl

theorem mtX_lt (hp : p.Ok) (hh : h.length = p.n) (hlt : ∀ v ∈ h, v < 2 ^ p.w) (i : Nat) : mtX p h i < 2 ^ p.w := by
  have hn : 0 < p.n := by have := hp.hm; have := hp.hmn; omega
  induction i using Nat.strongRecOn with
  | ind i ih =>
    by_cases hi : i < p.n
    · have := mtIter_getD (p := p) hh hn i 0 hi
      rw [Nat.zero_add] at this
      rw [← this, Function.iterate_zero, id, List.getD_eq_getElem?_getD, List.getElem?_eq_getElem (by omega)]
      exact hlt _ (List.getElem_mem _)
    · obtain ⟨k, rfl⟩ : ∃ k, i = k + p.n := ⟨i - p.n, by omega⟩
      have hm1 := Nat.mod_lt p.m hn
      have hm2 := Nat.mod_lt 1 hn
      rw [mtX_rec hh hn]
      have hr := hp.hr
      have hX0 := ih k (by omega)
      have hX1 := ih (k + 1 % p.n) (by omega)
      have hY : mtX p h k / 2 ^ p.r * 2 ^ p.r + mtX p h (k + 1 % p.n) % 2 ^ p.r < 2 ^ p.w := by
        rw [Nat.mul_comm, Nat.two_pow_add_eq_or_of_lt (Nat.mod_lt _ (Nat.pow_pos (by decide)))]
        apply Nat.or_lt_two_pow
        · exact Nat.lt_of_le_of_lt (Nat.mul_div_le _ _) hX0
        · exact Nat.lt_of_le_of_lt (Nat.mod_le _ _) hX1
      apply Nat.xor_lt_two_pow (ih _ (by omega))
      apply Nat.xor_lt_two_pow
      · exact Nat.lt_of_le_of_lt (Nat.div_le_self _ _) hY
      · split
        · exact hp.ha
        · exact Nat.pow_pos (by decide)

end seq

/-! ## The history array -/

/-- The number held at an index of the array. -/
def vl {D : Nat} (a : List (BitVec D)) (i : Nat) : Option Nat := (a[i]?).map BitVec.toNat

theorem vl_set_self {D : Nat} {a : List (BitVec D)} {i : Nat} {v : BitVec D} (h : i < a.length) :
    vl (a.set i v) i = some v.toNat := by
  unfold vl; rw [List.getElem?_set_self h]; rfl

theorem vl_set_ne {D : Nat} {a : List (BitVec D)} {i j : Nat} {v : BitVec D} (h : i ≠ j) :
    vl (a.set i v) j = vl a j := by
  unfold vl; rw [List.getElem?_set_ne h]

section mt
variable {D : Nat} {p : MtP D} {X : Nat → Nat}

/-- `X` is a sequence the engine's recurrence produces. -/
structure MtSeq (p : MtP D) (X : Nat → Nat) : Prop where
  lt : ∀ i, X i < 2 ^ p.w
  recur : ∀ i, X (i + p.n) = X (i + p.m % p.n) ^^^
      ((X i / 2 ^ p.r * 2 ^ p.r + X (i + 1 % p.n) % 2 ^ p.r) / 2 ^^^
        (if (X i / 2 ^ p.r * 2 ^ p.r + X (i + 1 % p.n) % 2 ^ p.r) % 2 = 1 then p.a.toNat else 0))

theorem fill_some (hp : p.Ok) (hX : MtSeq p X) {ax : List (BitVec D)} {dst i0 i1 im t : Nat}
    (h0 : vl ax i0 = some (X t)) (h1 : vl ax i1 = some (X (t + p.one))) (hm : vl ax im = some (X (t + p.mm)))
    (hd : dst < ax.length) :
    ∃ v, p.fill dst i0 i1 im ax = some (ax.set dst v) ∧ v.toNat = X (t + p.n) := by
  unfold vl at h0 h1 hm
  rw [Option.map_eq_some_iff] at h0 h1 hm
  obtain ⟨v0, e0, f0⟩ := h0
  obtain ⟨v1, e1, f1⟩ := h1
  obtain ⟨vm, em, fm⟩ := hm
  refine ⟨_, ?_, (fill_arith hp v0 v1 vm (by rw [f0]; exact hX.lt _)).trans ?_⟩
  · unfold MtP.fill
    simp only [e0, e1, em, Option.bind_some]
    exact wr_some _ hd
  · rw [f0, f1, fm, hX.recur]
    rfl

theorem refillUpper_some (hp : p.Ok) (hX : MtSeq p X) {ax : List (BitVec D)} {q : Nat} (hl : ax.length = 2 * p.n)
    (hlow : ∀ j, j < p.n → vl ax j = some (X (q + j))) :
    ∃ a, p.refillUpper ax = some a ∧ a.length = 2 * p.n ∧ ∀ j, j < 2 * p.n → vl a j = some (X (q + j)) := by
  have hn : 0 < p.n := by have := hp.hm; have := hp.hmn; omega
  have hm1 : p.mm < p.n := Nat.mod_lt _ hn
  have hm2 : p.one < p.n := Nat.mod_lt _ hn
  obtain ⟨a, h1, h2, h3⟩ := forUp_inv
    (body := fun ix (ax : List (BitVec D)) => p.fill ix (ix - p.n) (ix - p.n + p.one) (ix - p.n + p.mm) ax)
    (fun i a => a.length = 2 * p.n ∧ ∀ j, j < i → vl a j = some (X (q + j))) p.n p.n ax
    (by
      rintro i a hi1 hi2 ⟨h1, h3⟩
      obtain ⟨v, hv, hvx⟩ := fill_some hp hX (ax := a) (dst := i) (t := q + (i - p.n)) (h3 _ (by omega))
        ((h3 (i - p.n + p.one) (by omega)).trans (by rw [Nat.add_assoc]))
        ((h3 (i - p.n + p.mm) (by omega)).trans (by rw [Nat.add_assoc])) (by omega)
      refine ⟨_, hv, by simpa using h1, ?_⟩
      intro j hj
      by_cases hji : j = i
      · subst hji
        rw [vl_set_self (by omega), hvx]
        congr 2
        omega
      · rw [vl_set_ne (by omega)]
        exact h3 j (by omega))
    ⟨hl, hlow⟩
  exact ⟨a, h1, h2, fun j hj => h3 j (by omega)⟩

/-- What holds while the lower half is refilled up to `i`. -/
def LowInv (p : MtP D) (X : Nat → Nat) (q i : Nat) (a : List (BitVec D)) : Prop :=
  a.length = 2 * p.n ∧ (∀ j, j < p.n → vl a (p.n + j) = some (X (q + j))) ∧
    ∀ j, j < i → vl a j = some (X (q + p.n + j))

theorem low_step (hp : p.Ok) (hX : MtSeq p X) {a : List (BitVec D)} {q i i1 im : Nat} (hi : i < p.n)
    (h1 : vl a i1 = some (X (q + i + p.one))) (hm : vl a im = some (X (q + i + p.mm))) (ha : LowInv p X q i a) :
    ∃ a', p.fill i (i + p.n) i1 im a = some a' ∧ LowInv p X q (i + 1) a' := by
  obtain ⟨hl, hu, hlo⟩ := ha
  obtain ⟨v, hv, hvx⟩ := fill_some hp hX (ax := a) (dst := i) (i0 := i + p.n) (t := q + i) (by rw [Nat.add_comm i]; exact hu i hi) h1 hm
    (by omega)
  refine ⟨_, hv, by simpa using hl, ?_, ?_⟩
  · intro j hj
    rw [vl_set_ne (by omega)]
    exact hu j hj
  · intro j hj
    by_cases hji : j = i
    · subst hji
      rw [vl_set_self (by omega), hvx]
      congr 2
      omega
    · rw [vl_set_ne (by omega)]
      exact hlo j (by omega)

theorem low_hi {a : List (BitVec D)} {q i k : Nat} (ha : LowInv p X q i a) (h : i + k < p.n) :
    vl a (i + p.n + k) = some (X (q + i + k)) := by
  rw [show i + p.n + k = p.n + (i + k) by omega, ha.2.1 _ h]
  congr 2
  omega

theorem low_lo {a : List (BitVec D)} {q i k : Nat} (ha : LowInv p X q i a) (h : p.n ≤ i + k) (hk : k < p.n) :
    vl a (i + k - p.n) = some (X (q + i + k)) := by
  rw [ha.2.2 _ (by omega)]
  congr 2
  omega

theorem refillLower_some (hp : p.Ok) (hX : MtSeq p X) {ax : List (BitVec D)} {q : Nat} (hl : ax.length = 2 * p.n)
    (hup : ∀ j, j < p.n → vl ax (p.n + j) = some (X (q + j))) :
    ∃ a, p.refillLower ax = some a ∧ LowInv p X q p.n a := by
  have hn : 0 < p.n := by have := hp.hm; have := hp.hmn; omega
  have hm1 : p.mm < p.n := Nat.mod_lt _ hn
  have hm2 : p.one < p.n := Nat.mod_lt _ hn
  have hone : p.one = 0 ∧ p.n = 1 ∨ p.one = 1 := by
    unfold MtP.one
    by_cases h1 : p.n = 1
    · left; rw [h1]; exact ⟨rfl, rfl⟩
    · right; exact Nat.mod_eq_of_lt (by omega)
  have start : LowInv p X q 0 ax := ⟨hl, hup, fun j hj => absurd hj (by omega)⟩
  unfold MtP.refillLower
  simp only []
  by_cases hmz : p.mm = 0
  · rw [if_pos hmz]
    obtain ⟨a, e1, i1⟩ := forUp_inv
      (body := fun ix (ax : List (BitVec D)) => p.fill ix (ix + p.n) (ix + p.n + p.one) (ix + p.n + p.mm) ax)
      (LowInv p X q) (p.n - p.one) 0 ax
      (fun i a _ hi ha => low_step hp hX (by omega) (low_hi ha (by omega)) (low_hi ha (by omega)) ha) start
    rw [e1]
    simp only [Option.bind_some]
    rw [Nat.zero_add] at i1
    rcases hone with ⟨ho, hn1⟩ | ho
    · rw [if_neg (by omega)]
      refine ⟨a, rfl, ?_⟩
      rw [ho] at i1
      exact i1
    · rw [if_pos ho]
      obtain ⟨a', e2, i2⟩ := low_step hp hX (i := p.n - p.one) (by omega)
        (low_lo (k := p.one) i1 (by omega) (by omega)) (low_hi (k := p.mm) i1 (by omega)) i1
      refine ⟨a', e2, ?_⟩
      rw [show p.n = p.n - p.one + 1 by omega]
      rw [show p.n - p.one + 1 = p.n by omega] at i2 ⊢
      exact i2
  · rw [if_neg hmz]
    have ho : p.one = 1 := by
      rcases hone with ⟨_, hn1⟩ | ho
      · omega
      · exact ho
    obtain ⟨a, e1, i1⟩ := forUp_inv
      (body := fun ix (ax : List (BitVec D)) => p.fill ix (ix + p.n) (ix + p.n + p.one) (ix + p.n + p.mm) ax)
      (LowInv p X q) (p.n - p.mm) 0 ax
      (fun i a _ hi ha => low_step hp hX (by omega) (low_hi ha (by omega)) (low_hi ha (by omega)) ha) start
    rw [e1]
    simp only [Option.bind_some]
    rw [Nat.zero_add] at i1
    obtain ⟨b, e2, i2⟩ := forUp_inv
      (body := fun ix (ax : List (BitVec D)) => p.fill ix (ix + p.n) (ix + p.n + p.one) (ix + p.mm - p.n) ax)
      (LowInv p X q) (p.n - p.one - (p.n - p.mm)) (p.n - p.mm) a
      (fun i a h1 hi ha => low_step hp hX (by omega) (low_hi ha (by omega)) (low_lo ha (by omega) (by omega)) ha) i1
    rw [e2]
    simp only [Option.bind_some]
    rw [if_pos ho]
    rw [show p.n - p.mm + (p.n - p.one - (p.n - p.mm)) = p.n - p.one by omega] at i2
    obtain ⟨a', e3, i3⟩ := low_step hp hX (i := p.n - p.one) (by omega)
      (low_lo (k := p.one) i2 (by omega) (by omega)) (low_lo (k := p.mm) i2 (by omega) (by omega)) i2
    refine ⟨a', e3, ?_⟩
    rw [show p.n - p.one + 1 = p.n by omega] at i3
    exact i3

/-- The array and the index after `t` words of `X` have left the state. -/
inductive MtInv (p : MtP D) (X : Nat → Nat) : Nat → Circ D → Prop
  | fresh (t : Nat) (a : List (BitVec D)) (hl : a.length = 2 * p.n) (h : ∀ j, j < p.n → vl a j = some (X (t + j))) :
      MtInv p X t ⟨p.n, a⟩
  | upper (q k : Nat) (a : List (BitVec D)) (hl : a.length = 2 * p.n) (h1 : 1 ≤ k) (h2 : k ≤ p.n)
      (h : ∀ j, j < 2 * p.n → vl a j = some (X (q + j))) : MtInv p X (q + k) ⟨p.n + k, a⟩
  | lower (q k : Nat) (a : List (BitVec D)) (h1 : 1 ≤ k) (h2 : k < p.n) (h : LowInv p X q p.n a) :
      MtInv p X (q + k) ⟨k, a⟩

theorem MtInv.ok (hn : 0 < p.n) {t : Nat} {e : Circ D} (h : MtInv p X t e) :
    CircOk p.n e ∧ ∀ j, j < p.n → (e.at p.n j).map BitVec.toNat = some (X (t + j)) := by
  cases h with
  | fresh _ a hl h =>
    refine ⟨⟨hn, hl, hn, by show p.n ≤ 2 * p.n; omega⟩, fun j hj => ?_⟩
    rw [filled_at]
    exact h j hj
  | upper q k a hl h1 h2 h =>
    refine ⟨⟨hn, hl, by show 1 ≤ p.n + k; omega, by show p.n + k ≤ 2 * p.n; omega⟩, fun j hj => ?_⟩
    have hb : Circ.base p.n (⟨p.n + k, a⟩ : Circ D) j = k + j := by
      unfold Circ.base
      simp only []
      rw [if_neg (by omega)]
      omega
    unfold Circ.at
    rw [hb]
    refine (h (k + j) (by omega)).trans ?_
    congr 2
    omega
  | lower q k a h1 h2 h =>
    refine ⟨⟨hn, h.1, h1, by show k ≤ 2 * p.n; omega⟩, fun j hj => ?_⟩
    unfold Circ.at Circ.base
    simp only []
    split
    · rw [show j + k + p.n = p.n + (k + j) by omega]
      refine (h.2.1 (k + j) (by omega)).trans ?_
      congr 2
      omega
    · refine (h.2.2 (j + k - p.n) (by omega)).trans ?_
      congr 2
      omega

theorem mt_next (hp : p.Ok) (hX : MtSeq p X) {t : Nat} {e : Circ D} (h : MtInv p X t e) :
    ∃ x e', p.next e = some (x, e') ∧ MtInv p X (t + 1) e' ∧ x.toNat = mtTemper p (X (t + p.n)) := by
  have hn : 0 < p.n := by have := hp.hm; have := hp.hmn; omega
  have out : ∀ {a : List (BitVec D)} {i : Nat}, vl a i = some (X (t + p.n)) →
      ∃ x, a[i]? = some x ∧ (p.temper x).toNat = mtTemper p (X (t + p.n)) := by
    intro a i hv
    unfold vl at hv
    rw [Option.map_eq_some_iff] at hv
    obtain ⟨v, e1, e2⟩ := hv
    exact ⟨v, e1, by rw [temper_eq hp v (by rw [e2]; exact hX.lt _), e2]⟩
  unfold MtP.next
  cases h with
  | fresh _ a hl h =>
    obtain ⟨b, e1, l1, v1⟩ := refillUpper_some hp hX hl h
    obtain ⟨x, hx, hxt⟩ := out (v1 p.n (by omega))
    refine ⟨p.temper x, ⟨p.n + 1, b⟩, ?_, MtInv.upper t 1 b l1 (by omega) (by omega) v1, hxt⟩
    simp [e1, hx]
  | upper q k a hl h1 h2 h =>
    by_cases hk : k = p.n
    · obtain ⟨b, e1, l1⟩ := refillLower_some hp hX (q := q + p.n) hl
        (fun j hj => (h (p.n + j) (by omega)).trans (by rw [Nat.add_assoc]))
      obtain ⟨x, hx, hxt⟩ := out (a := b) (i := 0) ((l1.2.2 0 hn).trans (by rw [hk]; rfl))
      refine ⟨p.temper x, ⟨0 + 1, b⟩, ?_, ?_, hxt⟩
      · simp only [show ¬ (p.n + k = p.n) by omega, if_false, show 2 * p.n ≤ p.n + k by omega, if_true, e1,
          Option.map_some, Option.bind_some, hx]
      · rw [hk]
        by_cases hn1 : p.n = 1
        · have := MtInv.fresh (p := p) (X := X) (q + p.n + 1) b l1.1 (fun j hj => by
            have := l1.2.2 j hj
            rw [this]
            congr 2
            omega)
          rw [hn1] at this ⊢
          exact this
        · exact MtInv.lower (q + p.n) 1 b (by omega) (by omega) l1
    · obtain ⟨x, hx, hxt⟩ := out (a := a) (i := p.n + k) ((h (p.n + k) (by omega)).trans (by congr 2; omega))
      refine ⟨p.temper x, ⟨p.n + k + 1, a⟩, ?_, MtInv.upper q (k + 1) a hl (by omega) (by omega) h, hxt⟩
      simp only [show ¬ (p.n + k = p.n) by omega, if_false, show ¬ (2 * p.n ≤ p.n + k) by omega, 
          Option.map_some, Option.bind_some, hx]
  | lower q k a h1 h2 h =>
    obtain ⟨x, hx, hxt⟩ := out (a := a) (i := k) ((h.2.2 k (by omega)).trans (by congr 2; omega))
    refine ⟨p.temper x, ⟨k + 1, a⟩, ?_, ?_, hxt⟩
    · simp only [show ¬ (k = p.n) by omega, if_false, show ¬ (2 * p.n ≤ k) by omega,
          Option.map_some, Option.bind_some, hx]
    · by_cases hk : k + 1 = p.n
      · have := MtInv.fresh (p := p) (X := X) (q + k + 1) a h.1 (fun j hj => by
            have := h.2.2 j hj
            rw [this]
            congr 2
            omega)
        rw [← hk] at this
        exact this
      · exact MtInv.lower q (k + 1) a (by omega) (by omega) h

theorem mt_run (hp : p.Ok) (hX : MtSeq p X) (k : Nat) : ∀ {t : Nat} {e : Circ D}, MtInv p X t e →
    ∃ outs e', p.run k e = some (outs, e') ∧ MtInv p X (t + k) e' ∧
      outs.map BitVec.toNat = (List.range k).map fun i => mtTemper p (X (t + i + p.n)) := by
  induction k with
  | zero => intro t e h; exact ⟨[], e, rfl, h, rfl⟩
  | succ k ih =>
    intro t e h
    obtain ⟨x, e1, hn, h1, hx⟩ := mt_next hp hX h
    obtain ⟨outs, e2, hr, h2, ho⟩ := ih h1
    refine ⟨x :: outs, e2, ?_, ?_, ?_⟩
    · rw [MtP.run, hn]
      simp only [Option.bind_some]
      rw [hr]
      rfl
    · rw [show t + (k + 1) = t + 1 + k by omega]; exact h2
    · rw [List.map_cons, ho, hx, List.range_succ_eq_map, List.map_cons, List.map_map]
      congr 1
      apply List.map_congr_left
      intro i _
      show mtTemper p (X (t + 1 + i + p.n)) = mtTemper p (X (t + (i + 1) + p.n))
      congr 2
      omega

/-- The words of an engine started from the state `h`. -/
theorem mtSeq_mtX (hp : p.Ok) {h : List Nat} (hh : h.length = p.n) (hlt : ∀ v ∈ h, v < 2 ^ p.w) : MtSeq p (mtX p h) :=
  ⟨mtX_lt hp hh hlt, mtX_rec hh (by have := hp.hm; have := hp.hmn; omega)⟩

theorem mt_view (hp : p.Ok) {h : List Nat} (hh : h.length = p.n) {t : Nat} {e : Circ D} (hi : MtInv p (mtX p h) t e) :
    p.view e = some ((mtStep p)^[t] h) := by
  have hn : 0 < p.n := by have := hp.hm; have := hp.hmn; omega
  obtain ⟨hok, hat⟩ := hi.ok hn
  obtain ⟨l, s1, s2, s3⟩ := hok.save_some
  unfold MtP.view
  rw [s1, Option.map_some]
  congr 1
  apply List.ext_getElem?
  intro j
  by_cases hj : j < p.n
  · rw [List.getElem?_map, s3 j hj, hat j hj, ← mtIter_getD hh hn j t hj, List.getD_eq_getElem?_getD,
      List.getElem?_eq_getElem (by rw [mtIter_len hh hn]; exact hj)]
    rfl
  · rw [List.getElem?_eq_none (by simp; omega), List.getElem?_eq_none (by rw [mtIter_len hh hn]; omega)]

theorem mtOut_iter (hp : p.Ok) {h : List Nat} (hh : h.length = p.n) (i : Nat) :
    mtOut p ((mtStep p)^[i + 1] h) = mtTemper p (mtX p h (i + p.n)) := by
  have hn : 0 < p.n := by have := hp.hm; have := hp.hmn; omega
  unfold mtOut
  have h1 := mtIter_getD (p := p) hh hn (p.n - 1) (i + 1) (by omega)
  rw [show i + 1 + (p.n - 1) = i + p.n by omega] at h1
  rw [← h1]
  congr 1
  rw [List.getD_eq_getElem?_getD, List.getLastD_eq_getLast?, List.getLast?_eq_getElem?, mtIter_len hh hn]

end mt

end STL.Engines
