import Verif.Engines.Mt

/-! # C51: seeding, saving and restoring mersenne_twister_engine (proofs) -/

namespace STL.Engines

/-- Specification, N4950 [rand.eng.mers]/6: `X_0 = value mod 2^w` and
`X_i = (f (X_{i-1} xor (X_{i-1} >> (w - 2))) + i mod n) mod 2^w` (numbering the initial state from 0). -/
def mtSeedX {D : Nat} (p : MtP D) (value : Nat) : Nat → Nat
  | 0 => value % 2 ^ p.w
  | i + 1 =>
    (p.f.toNat * (mtSeedX p value i ^^^ (mtSeedX p value i / 2 ^ (p.w - 2))) + (i + 1) % p.n) % 2 ^ p.w

/-- Specification, N4950 [rand.eng.mers]/7: the state packed from the seed sequence's words, and the exception for a
state all of whose significant bits are zero. -/
def mtSeedSeqX {D : Nat} (p : MtP D) (z : Nat → Nat) (i : Nat) : Nat :=
  if i = 0 ∧ packSpec p.w z 0 / 2 ^ p.r = 0 ∧ ∀ j, j < p.n → 0 < j → packSpec p.w z j = 0 then 2 ^ (p.w - 1)
  else packSpec p.w z i

section
variable {D : Nat} {p : MtP D}

theorem Ok.npos (hp : p.Ok) : 0 < p.n := by have := hp.hm; have := hp.hmn; omega

/-- An array whose lower half holds `x 0, x 1, …` starts the sequence of that state. -/
theorem fresh_of (hp : p.Ok) {a : List (BitVec D)} (hl : a.length = 2 * p.n) (x : Nat → Nat)
    (hx : ∀ j, j < p.n → vl a j = some (x j)) : MtInv p (mtX p ((List.range p.n).map x)) 0 ⟨p.n, a⟩ := by
  refine MtInv.fresh 0 a hl fun j hj => ?_
  rw [hx j hj]
  congr 1
  have := mtIter_getD (p := p) (h := (List.range p.n).map x) (by simp) (Ok.npos hp) j 0 hj
  rw [← this, Function.iterate_zero, id, List.getD_eq_getElem?_getD, List.getElem?_map, List.getElem?_range hj]
  rfl

theorem mt_load (hp : p.Ok) {vals : List (BitVec D)} {old : List (BitVec D)} (hvl : vals.length = p.n)
    (ho : old.length = 2 * p.n) :
    ∃ e, p.load vals old = some e ∧
      MtInv p (mtX p ((List.range p.n).map fun i => (vals.map fun v => v.toNat % 2 ^ p.w).getD i 0)) 0 e := by
  obtain ⟨a, h1, h2, h3⟩ := forUp_inv
    (body := fun ix (a : List (BitVec D)) => (vals[ix]?).bind fun v => wr a ix (v &&& p.wmsk))
    (fun i a => a.length = 2 * p.n ∧ ∀ j, j < i → vl a j = (vals[j]?).map fun v => v.toNat % 2 ^ p.w) p.n 0 old
    (by
      rintro i a1 _ hi ⟨h1, h3⟩
      have hi' : i < p.n := by omega
      refine ⟨a1.set i ((vals[i]'(by omega)) &&& p.wmsk), ?_, by simpa using h1, ?_⟩
      · simp only [List.getElem?_eq_getElem (show i < vals.length by omega), Option.bind_some]
        exact wr_some _ (by omega)
      · intro j hj
        by_cases hji : j = i
        · subst hji
          rw [vl_set_self (by omega), List.getElem?_eq_getElem (show j < vals.length by omega), and_wmsk hp]
          rfl
        · rw [vl_set_ne (by omega)]
          exact h3 j (by omega))
    ⟨ho, fun j hj => absurd hj (by omega)⟩
  rw [Nat.zero_add] at h3
  refine ⟨⟨p.n, a⟩, by unfold MtP.load; rw [h1]; rfl, fresh_of hp h2 _ fun j hj => ?_⟩
  rw [h3 j hj, List.getD_eq_getElem?_getD, List.getElem?_map, List.getElem?_eq_getElem (show j < vals.length by omega)]
  rfl

theorem seed_step (hp : p.Ok) (prev : BitVec D) (i : Nat) (hi : i < p.n) :
    ((BitVec.ofNat D i + p.f * (prev ^^^ (prev >>> (p.w - 2)))) &&& p.wmsk).toNat =
      (p.f.toNat * (prev.toNat ^^^ (prev.toNat / 2 ^ (p.w - 2))) + i % p.n) % 2 ^ p.w := by
  rw [and_wmsk hp, BitVec.toNat_add, BitVec.toNat_mul, BitVec.toNat_xor, BitVec.toNat_ushiftRight, BitVec.toNat_ofNat,
    Nat.shiftRight_eq_div_pow, mod_mod_pow hp.hwD, Nat.mod_eq_of_lt hi, Nat.add_comm, Nat.add_mod, mod_mod_pow hp.hwD,
    mod_mod_pow hp.hwD, ← Nat.add_mod]

theorem mtSeedX_lt (v i : Nat) : mtSeedX p v i < 2 ^ p.w := by
  cases i <;> exact Nat.mod_lt _ (Nat.pow_pos (by decide))

theorem mt_seed (hp : p.Ok) (value : BitVec D) {old : List (BitVec D)} (ho : old.length = 2 * p.n) :
    ∃ e, p.seed value old = some e ∧ MtInv p (mtX p ((List.range p.n).map (mtSeedX p value.toNat))) 0 e := by
  have hn := Ok.npos hp
  obtain ⟨s, h1, h2, _, h3⟩ := forUp_inv
    (body := fun ix (st : List (BitVec D) × BitVec D) =>
        let prev := (BitVec.ofNat D ix + p.f * (st.2 ^^^ (st.2 >>> (p.w - 2)))) &&& p.wmsk
        (wr st.1 ix prev).map fun a => (a, prev))
    (fun i st => st.1.length = 2 * p.n ∧ st.2.toNat = mtSeedX p value.toNat (i - 1) ∧
      ∀ j, j < i → vl st.1 j = some (mtSeedX p value.toNat j)) (p.n - 1) 1
    (old.set 0 (value &&& p.wmsk), value &&& p.wmsk)
    (by
      rintro i ⟨a, prev⟩ hi1 hi2 ⟨g1, g2, g3⟩
      simp only at g1 g2 g3 ⊢
      rw [wr_some _ (by omega)]
      have hst := seed_step hp prev i (by omega)
      have hv : ((BitVec.ofNat D i + p.f * (prev ^^^ (prev >>> (p.w - 2)))) &&& p.wmsk).toNat
          = mtSeedX p value.toNat i := by
        rw [hst, g2]
        obtain ⟨k, rfl⟩ : ∃ k, i = k + 1 := ⟨i - 1, by omega⟩
        rfl
      refine ⟨_, rfl, by simpa using g1, ?_, ?_⟩
      · rw [Nat.add_sub_cancel]; exact hv
      · intro j hj
        by_cases hji : j = i
        · subst hji
          rw [vl_set_self (by omega), hv]
        · rw [vl_set_ne (by omega)]
          exact g3 j (by omega))
    ⟨by simpa using ho, and_wmsk hp value, fun j hj => by
      have : j = 0 := by omega
      subst this
      rw [vl_set_self (by omega), and_wmsk hp]
      rfl⟩
  refine ⟨⟨p.n, s.1⟩, ?_, fresh_of hp h2 _ fun j hj => h3 j (by omega)⟩
  unfold MtP.seed
  simp only []
  rw [wr_some _ (by omega)]
  simp only [Option.bind_some]
  simp only [] at h1
  rw [h1]
  rfl

theorem or_eq_zero {a b : BitVec D} : a ||| b = 0#D ↔ a = 0#D ∧ b = 0#D := by
  constructor
  · intro h
    constructor
    · apply BitVec.eq_of_getLsbD_eq
      intro i hi
      have := congrArg (fun v => v.getLsbD i) h
      simp only [BitVec.getLsbD_or, BitVec.getLsbD_zero, Bool.or_eq_false_iff] at this
      simpa using this.1
    · apply BitVec.eq_of_getLsbD_eq
      intro i hi
      have := congrArg (fun v => v.getLsbD i) h
      simp only [BitVec.getLsbD_or, BitVec.getLsbD_zero, Bool.or_eq_false_iff] at this
      simpa using this.2
  · rintro ⟨rfl, rfl⟩
    simp

theorem eq_zero_iff {a : BitVec D} : a = 0#D ↔ a.toNat = 0 := by
  constructor
  · intro h; rw [h]; simp
  · intro h; exact BitVec.eq_of_toNat_eq (by simpa using h)

theorem mt_seedSeq (hp : p.Ok) (hD : D ≤ 64) (gen : Nat → List Nat)
    (hlen : ∀ n, (gen n).length = n) (hlt : ∀ n, ∀ z ∈ gen n, z < 2 ^ 32) {old : List (BitVec D)}
    (ho : old.length = 2 * p.n) :
    ∃ e, p.seedSeq gen old = some e ∧ MtInv p (mtX p ((List.range p.n).map
      (mtSeedSeqX p fun k => (gen (p.n * ((p.w + 31) / 32))).getD k 0))) 0 e := by
  have hn := Ok.npos hp
  have hw1 := hp.hw
  have hw2 := hp.hwD
  set kx := (p.w + 31) / 32 with hkx
  have hkc : kx = 1 ∨ (kx = 2 ∧ 33 ≤ D) := by omega
  set arr := gen (kx * p.n) with harr
  have hal : arr.length = kx * p.n := hlen _
  have hbnd : ∀ i, i < p.n → kx * i + kx ≤ arr.length := by
    intro i hi
    rw [hal, ← Nat.mul_succ]
    exact Nat.mul_le_mul_left _ hi
  have hpw : ∀ i, i < p.n → ∃ v, packWords D arr (kx * i) (kx - 1) 1 (BitVec.ofNat D (arr.getD (kx * i) 0)) = some v ∧
      v.toNat = ((List.range kx).map fun j => arr.getD (kx * i + j) 0 * 2 ^ (32 * j)).sum % 2 ^ D :=
    fun i hi => packWords_eq hkc (hbnd i hi) (hlt _)
  let f : Nat → BitVec D := fun i =>
    ((packWords D arr (kx * i) (kx - 1) 1 (BitVec.ofNat D (arr.getD (kx * i) 0))).getD 0#D) &&& p.wmsk
  let S : Nat → BitVec D := fun i => Nat.rec 0#D (fun i s => if i = 0 then f 0 >>> p.r else s ||| f i) i
  have hS : ∀ i, S (i + 1) = if i = 0 then f 0 >>> p.r else S i ||| f i := fun i => rfl
  obtain ⟨a, h1, h2, h3⟩ := forUp_fill (D := D)
    (body := fun ix (st : List (BitVec D) × Nat × BitVec D) =>
      (arr[st.2.1]?).bind fun z =>
        (packWords D arr st.2.1 (kx - 1) 1 (BitVec.ofNat D z)).bind fun v =>
          let v := v &&& p.wmsk
          let sum := if ix = 0 then v >>> p.r else st.2.2 ||| v
          (wr st.1 ix v).map fun a => (a, st.2.1 + kx, sum)) p.n (2 * p.n) (by omega) f
    (fun i => (kx * i, S i))
    (by
      intro i a hi ha _
      have hb := hbnd i hi
      have hpos : 0 < kx := by omega
      obtain ⟨v, hv, _⟩ := hpw i hi
      have hz : arr[kx * i]? = some (arr.getD (kx * i) 0) := by
        rw [List.getD_eq_getElem?_getD, List.getElem?_eq_getElem (show kx * i < arr.length by omega)]
        rfl
      have hfi : f i = v &&& p.wmsk := by
        show ((packWords D arr (kx * i) (kx - 1) 1 (BitVec.ofNat D (arr.getD (kx * i) 0))).getD 0#D) &&& p.wmsk = _
        rw [hv]
        rfl
      simp only [hz, Option.bind_some, hv]
      rw [wr_some _ (by omega)]
      simp only [Option.map_some]
      rw [hS, ← hfi, Nat.mul_succ]
      congr 3
      by_cases hi0 : i = 0
      · rw [if_pos hi0, if_pos hi0, hi0]
      · rw [if_neg hi0, if_neg hi0]) old ho
  set Z : Nat → Nat := fun k => (gen (p.n * kx)).getD k 0 with hZ
  have hf : ∀ i, i < p.n → (f i).toNat = packSpec p.w Z i := by
    intro i hi
    obtain ⟨v, hv, hvn⟩ := hpw i hi
    show (((packWords D arr (kx * i) (kx - 1) 1 (BitVec.ofNat D (arr.getD (kx * i) 0))).getD 0#D) &&& p.wmsk).toNat = _
    rw [hv, and_wmsk hp]
    show v.toNat % 2 ^ p.w = _
    rw [hvn, mod_mod_pow hp.hwD]
    unfold packSpec
    simp only [hZ, Nat.mul_comm p.n kx, ← harr, ← hkx]
  have hSz : ∀ i, 0 < i → (S i = 0#D ↔ f 0 >>> p.r = 0#D ∧ ∀ j, 0 < j → j < i → f j = 0#D) := by
    intro i
    induction i with
    | zero => intro h; exact absurd h (by omega)
    | succ i ih =>
      intro _
      rw [hS]
      by_cases hi0 : i = 0
      · subst hi0
        rw [if_pos rfl]
        exact ⟨fun h => ⟨h, fun j h1 h2 => absurd h2 (by omega)⟩, fun h => h.1⟩
      · rw [if_neg hi0, or_eq_zero, ih (by omega)]
        constructor
        · rintro ⟨⟨g1, g2⟩, g3⟩
          refine ⟨g1, fun j hj1 hj2 => ?_⟩
          by_cases hji : j = i
          · subst hji; exact g3
          · exact g2 j hj1 (by omega)
        · rintro ⟨g1, g2⟩
          exact ⟨⟨g1, fun j hj1 hj2 => g2 j hj1 (by omega)⟩, g2 i (by omega) (by omega)⟩
  have hcond : S p.n = 0#D ↔ packSpec p.w Z 0 / 2 ^ p.r = 0 ∧ ∀ j, j < p.n → 0 < j → packSpec p.w Z j = 0 := by
    rw [hSz p.n hn, eq_zero_iff, BitVec.toNat_ushiftRight, Nat.shiftRight_eq_div_pow, hf 0 hn]
    refine and_congr_right fun _ => ⟨fun h j hj hj0 => ?_, fun h j hj0 hj => ?_⟩
    · rw [← hf j hj, ← eq_zero_iff]; exact h j hj0 hj
    · rw [eq_zero_iff, hf j hj]; exact h j hj hj0
  unfold MtP.seedSeq
  simp only [← hkx, ← harr]
  rw [show kx * 0 = 0 from rfl, show S 0 = 0#D from rfl] at h1
  rw [h1]
  simp only [Option.bind_some]
  have hval : ∀ j, j < p.n → vl a j = some (packSpec p.w Z j) := by
    intro j hj
    unfold vl
    rw [h3 j hj, Option.map_some, hf j hj]
  rcases Classical.em (S p.n = 0#D) with hz | hz
  · rw [if_pos hz, wr_some _ (by omega)]
    refine ⟨⟨p.n, a.set 0 (1#D <<< (p.w - 1))⟩, rfl, fresh_of hp (by simpa using h2) _ fun j hj => ?_⟩
    unfold mtSeedSeqX
    by_cases hj0 : j = 0
    · subst hj0
      rw [if_pos ⟨rfl, hcond.1 hz⟩, vl_set_self (by omega)]
      have hD1 : 1 < 2 ^ D := Nat.one_lt_two_pow (by omega)
      rw [BitVec.toNat_shiftLeft, BitVec.toNat_ofNat, Nat.mod_eq_of_lt hD1, Nat.one_shiftLeft,
        Nat.mod_eq_of_lt (Nat.pow_lt_pow_right (by decide) (by omega))]
    · rw [if_neg (fun h => hj0 h.1), vl_set_ne (by omega)]
      exact hval j hj
  · rw [if_neg hz]
    refine ⟨⟨p.n, a⟩, rfl, fresh_of hp h2 _ fun j hj => ?_⟩
    unfold mtSeedSeqX
    rw [if_neg (fun h => hz (hcond.2 h.2))]
    exact hval j hj

theorem mtSeedSeqX_lt (hp : p.Ok) (z : Nat → Nat) (i : Nat) : mtSeedSeqX p z i < 2 ^ p.w := by
  unfold mtSeedSeqX
  split
  · exact Nat.pow_lt_pow_right (by decide) (by have := hp.hw; omega)
  · exact Nat.mod_lt _ (Nat.pow_pos (by decide))

end

end STL.Engines
