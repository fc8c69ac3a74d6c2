import Verif.Engines.Swc
import Mathlib.Tactic.IntervalCases

/-! # C51: seeding, saving and restoring subtract_with_carry_engine (proofs) -/

namespace STL.Engines

/-- An engine whose first half was just filled. -/
theorem filled_ok {D : Nat} {nw : Nat} (hn : 0 < nw) {a : List (BitVec D)} (hl : a.length = 2 * nw) :
    CircOk nw (⟨nw, a⟩ : Circ D) :=
  ⟨hn, hl, hn, by show nw ≤ 2 * nw; omega⟩

theorem filled_at {D : Nat} {nw : Nat} {a : List (BitVec D)} (j : Nat) :
    Circ.at nw (⟨nw, a⟩ : Circ D) j = a[j]? := by
  unfold Circ.at Circ.base
  simp only []
  rw [if_neg (by omega), Nat.add_sub_cancel]

/-- A loop that stores `f ix` at `ix`, for `ix` below `n`. -/
theorem forUp_fill {D : Nat} {σ : Type _} {body : Nat → List (BitVec D) × σ → Option (List (BitVec D) × σ)}
    (n len : Nat) (hn : n ≤ len) (f : Nat → BitVec D) (g : Nat → σ)
    (hbody : ∀ i a, i < n → a.length = len → (∀ j, j < i → a[j]? = some (f j)) →
      body i (a, g i) = some (a.set i (f i), g (i + 1)))
    (a : List (BitVec D)) (ha : a.length = len) :
    ∃ a', forUp body n 0 (a, g 0) = some (a', g n) ∧ a'.length = len ∧ ∀ j, j < n → a'[j]? = some (f j) := by
  obtain ⟨s, hs, h1, h2, h3⟩ := forUp_inv (body := body)
    (fun i s => s.1.length = len ∧ s.2 = g i ∧ ∀ j, j < i → s.1[j]? = some (f j)) n 0 (a, g 0)
    (by
      rintro i ⟨a1, x⟩ _ hi ⟨h1, h2, h3⟩
      simp only at h1 h2 h3
      subst h2
      refine ⟨_, hbody i a1 (by omega) h1 h3, by simpa using h1, rfl, ?_⟩
      intro j hj
      by_cases hji : j = i
      · subst hji
        exact List.getElem?_set_self (by omega)
      · rw [List.getElem?_set_ne (by omega)]
        exact h3 j (by omega))
    ⟨ha, rfl, fun j hj => absurd hj (by omega)⟩
  rw [Nat.zero_add] at h2 h3
  refine ⟨s.1, ?_, h1, h3⟩
  rw [hs]
  congr 1
  exact Prod.ext rfl h2

theorem swc_load {D : Nat} {p : SwcP} (hp : p.Ok D) {vals : List (BitVec D)} {c : Nat} {old : List (BitVec D)}
    (hvl : vals.length = p.r) (hv : ∀ v ∈ vals, v.toNat < 2 ^ p.w) (hc : c ≤ 1) (ho : old.length = 2 * p.r) :
    ∃ e, Swc.load p vals c old = some e ∧ SwcOk p e ∧ e.save p = some (vals, c) := by
  obtain ⟨a, h1, h2, h3⟩ := forUp_inv
    (body := fun ix (a : List (BitVec D)) => (vals[ix]?).bind fun v => wr a ix v)
    (fun i a => a.length = 2 * p.r ∧ ∀ j, j < i → a[j]? = vals[j]?) p.r 0 old
    (by
      rintro i a1 _ hi ⟨h1, h3⟩
      have hi' : i < p.r := by omega
      refine ⟨a1.set i (vals[i]'(by omega)), ?_, by simpa using h1, ?_⟩
      · simp only [List.getElem?_eq_getElem (show i < vals.length by omega), Option.bind_some]
        exact wr_some _ (by omega)
      · intro j hj
        by_cases hji : j = i
        · subst hji
          rw [List.getElem?_set_self (by omega), List.getElem?_eq_getElem (show j < vals.length by omega)]
        · rw [List.getElem?_set_ne (by omega)]
          exact h3 j (by omega))
    ⟨ho, fun j hj => absurd hj (by omega)⟩
  rw [Nat.zero_add] at h3
  have hok := filled_ok (nw := p.r) (a := a) (by have := hp.hsr; omega) h2
  refine ⟨⟨⟨p.r, a⟩, c⟩, by unfold Swc.load; rw [h1]; rfl, ⟨hok, ?_, hc⟩, ?_⟩
  · intro j hj v hjv
    rw [filled_at, h3 j hj] at hjv
    exact hv v (List.mem_of_getElem? hjv)
  · obtain ⟨l, s1, s2, s3⟩ := hok.save_some
    unfold Swc.save
    simp only [s1, Option.map_some]
    congr 2
    apply List.ext_getElem?
    intro j
    by_cases hj : j < p.r
    · rw [s3 j hj, filled_at, h3 j hj]
    · rw [List.getElem?_eq_none (by omega), List.getElem?_eq_none (by omega)]

/-- Specification, N4950 [rand.eng.sub]/7: the successive values `z` of
`linear_congruential_engine<uint_least32_t, 40014, 0, 2147483563>` seeded with `value == 0 ? default_seed : value`. -/
def swcZ (value k : Nat) : Nat :=
  let s := (if value = 0 then 19780503 else value % 2147483563) % 2147483563
  (lcgSpec 32 40014 0 2147483563)^[k + 1] (if s = 0 then 1 else s)

/-- Specification: `(z_0 + z_1 2^32 + …) mod 2^w` with `⌈w / 32⌉` words starting at word `i ⌈w / 32⌉`. -/
def packSpec (w : Nat) (z : Nat → Nat) (i : Nat) : Nat :=
  let n := (w + 31) / 32
  ((List.range n).map fun j => z (n * i + j) * 2 ^ (32 * j)).sum % 2 ^ w

/-- Specification: the carry is 1 exactly if the newest word is 0. -/
def swcInit (r : Nat) (h : List Nat) : List Nat × Nat := (h, if h.getD (r - 1) 0 = 0 then 1 else 0)

theorem swc_reduce {D : Nat} {p : SwcP} (hp : p.Ok D) {a : List (BitVec D)} (ha : a.length = 2 * p.r) :
    ∃ e : Swc D, ((p.reduce a).map fun a => (⟨⟨p.r, a.1⟩, a.2⟩ : Swc D)) = some e ∧ SwcOk p e ∧
      e.view p = some (swcInit p.r ((a.take p.r).map fun v => v.toNat % 2 ^ p.w)) := by
  have hr : 0 < p.r := by have := hp.hsr; omega
  -- the array after the loop
  have hloop : ∃ b : List (BitVec D),
      (if p.mx D ≠ 0#D then forUp (fun ix a => (a[ix]?).bind fun v => wr a ix (v % p.mx D)) p.r 0 a else some a) = some b ∧
      b.length = 2 * p.r ∧ ∀ j, j < p.r → (b[j]?).map BitVec.toNat = (a[j]?).map fun v => v.toNat % 2 ^ p.w := by
    by_cases hmx : p.mx D ≠ 0#D
    · rw [if_pos hmx]
      have hm : (p.mx D).toNat = 2 ^ p.w := by
        rw [mx_toNat hp]
        split
        · next h =>
          exfalso
          apply hmx
          apply BitVec.eq_of_toNat_eq
          rw [mx_toNat hp, if_pos h]
          simp
        · rfl
      obtain ⟨b, h1, h2, h3, _⟩ := forUp_inv
        (body := fun ix (a : List (BitVec D)) => (a[ix]?).bind fun v => wr a ix (v % p.mx D))
        (fun i b => b.length = 2 * p.r ∧ (∀ j, j < i → (b[j]?).map BitVec.toNat = (a[j]?).map fun v => v.toNat % 2 ^ p.w) ∧
          ∀ j, i ≤ j → b[j]? = a[j]?) p.r 0 a
        (by
          rintro i b _ hi ⟨h1, h3, h4⟩
          have hg : b[i]? = some (b[i]'(by omega)) := List.getElem?_eq_getElem (by omega)
          refine ⟨b.set i (b[i]'(by omega) % p.mx D), ?_, by simpa using h1, ?_, ?_⟩
          · simp only [hg, Option.bind_some]
            exact wr_some _ (by omega)
          · intro j hj
            by_cases hji : j = i
            · subst hji
              rw [List.getElem?_set_self (by omega), ← h4 j (Nat.le_refl _), hg]
              simp [hm]
            · rw [List.getElem?_set_ne (by omega)]
              exact h3 j (by omega)
          · intro j hj
            rw [List.getElem?_set_ne (by omega)]
            exact h4 j (by omega))
        ⟨ha, fun j hj => absurd hj (by omega), fun j _ => rfl⟩
      rw [Nat.zero_add] at h3
      exact ⟨b, h1, h2, h3⟩
    · rw [if_neg hmx]
      have hw : p.w = D := by
        by_contra hne
        have := mx_toNat hp
        rw [if_neg hne, not_not.1 hmx] at this
        have h2 : 0 < 2 ^ p.w := Nat.pow_pos (by decide)
        simp at this
        omega
      refine ⟨a, rfl, ha, fun j hj => ?_⟩
      congr 1
      funext v
      rw [hw]
      exact (Nat.mod_eq_of_lt v.isLt).symm
  obtain ⟨b, hb1, hb2, hb3⟩ := hloop
  have hok := filled_ok (nw := p.r) (a := b) hr hb2
  have hlast : b[p.r - 1]? = some (b[p.r - 1]'(by omega)) := List.getElem?_eq_getElem (by omega)
  have hok2 : SwcOk p (⟨⟨p.r, b⟩, if b[p.r - 1]'(by omega) = 0#D then 1 else 0⟩ : Swc D) := by
    refine ⟨hok, ?_, by show (if _ then 1 else 0) ≤ 1; split <;> omega⟩
    intro j hj v hjv
    rw [filled_at] at hjv
    have := hb3 j hj
    rw [hjv, List.getElem?_eq_getElem (show j < a.length by omega)] at this
    simp only [Option.map_some, Option.some.injEq] at this
    rw [this]
    exact Nat.mod_lt _ (Nat.pow_pos (by decide))
  refine ⟨_, ?_, hok2, ?_⟩
  · unfold SwcP.reduce
    rw [hb1]
    simp only [Option.bind_some, hlast, Option.map_some]
  · obtain ⟨h', hvs', hlen', hat'⟩ := view_some hok2
    rw [hvs']
    have hh : h' = (a.take p.r).map fun v => v.toNat % 2 ^ p.w := by
      apply List.ext_getElem?
      intro j
      by_cases hj : j < p.r
      · rw [hat' j hj]
        show Option.map _ (Circ.at p.r (⟨p.r, b⟩ : Circ D) j) = _
        rw [filled_at, hb3 j hj, List.getElem?_map, List.getElem?_take, if_pos hj]
      · rw [List.getElem?_eq_none (by omega), List.getElem?_eq_none (by simp; omega)]
    rw [hh]
    unfold swcInit
    congr 2
    have e1 : ((a.take p.r).map fun v => v.toNat % 2 ^ p.w).getD (p.r - 1) 0 = (b[p.r - 1]'(by omega)).toNat := by
      rw [← hh, List.getD_eq_getElem?_getD, hat' _ (by omega)]
      show (Option.map _ (Circ.at p.r (⟨p.r, b⟩ : Circ D) (p.r - 1))).getD 0 = _
      rw [filled_at, hlast]
      rfl
    rw [e1]
    by_cases hz : b[p.r - 1]'(by omega) = 0#D
    · rw [if_pos hz, if_pos (by rw [hz]; simp)]
    · rw [if_neg hz, if_neg (fun hn => hz (BitVec.eq_of_toNat_eq (by simpa using hn)))]

theorem wc_eq {p : SwcP} {D : Nat} (hp : p.Ok D) : p.wc D = (p.w + 31) / 32 := by
  obtain ⟨_, _, hw, hwD, hD⟩ := hp
  unfold SwcP.wc
  by_cases h : p.w = D
  · rw [if_pos, h]
    apply BitVec.eq_of_toNat_eq
    rw [mx_toNat ⟨‹_›, ‹_›, hw, hwD, hD⟩, if_pos h]
    simp
  · have hm : (p.mx D).toNat = 2 ^ p.w := by
      rw [mx_toNat ⟨‹_›, ‹_›, hw, hwD, hD⟩, if_neg h]
    rw [if_neg, hm]
    · by_cases h32 : 32 < p.w
      · rw [if_pos (Nat.pow_lt_pow_right (by decide) h32)]
        omega
      · rw [if_neg (Nat.not_lt.2 (Nat.pow_le_pow_right (by decide) (by omega)))]
        omega
    · intro h0
      rw [h0] at hm
      have : 0 < 2 ^ p.w := Nat.pow_pos (by decide)
      simp at hm
      omega

theorem pack_two {D : Nat} (z0 z1 : Nat) (h0 : z0 < 2 ^ 32) (hD : 33 ≤ D) :
    (BitVec.ofNat D z0 ||| (BitVec.ofNat D z1 <<< 32)).toNat = (z0 + z1 * 2 ^ 32) % 2 ^ D := by
  have hp : 2 ^ D = 2 ^ 32 * 2 ^ (D - 32) := by rw [← Nat.pow_add]; congr 1; omega
  have hz0 : z0 % 2 ^ D = z0 := Nat.mod_eq_of_lt (Nat.lt_of_lt_of_le h0 (Nat.pow_le_pow_right (by decide) (by omega)))
  rw [BitVec.toNat_or, BitVec.toNat_shiftLeft, BitVec.toNat_ofNat, BitVec.toNat_ofNat, hz0, Nat.shiftLeft_eq,
    Nat.mod_mul_mod]
  rw [Nat.or_comm]
  have e1 : z1 * 2 ^ 32 % 2 ^ D = 2 ^ 32 * (z1 % 2 ^ (D - 32)) := by
    rw [hp, Nat.mul_comm z1, Nat.mul_mod_mul_left]
  rw [e1, ← Nat.two_pow_add_eq_or_of_lt h0]
  have e2 : z1 * 2 ^ 32 = 2 ^ 32 * z1 := Nat.mul_comm _ _
  rw [e2, hp]
  rw [Nat.mod_mul]
  have e3 : (z0 + 2 ^ 32 * z1) % 2 ^ 32 = z0 := by omega
  have e4 : (z0 + 2 ^ 32 * z1) / 2 ^ 32 = z1 := by omega
  rw [e3, e4]
  omega

theorem sum_two (g : Nat → Nat) : ((List.range 2).map g).sum = g 0 + g 1 := by
  simp [List.range_succ]

theorem mod_mod_pow {a D w : Nat} (h : w ≤ D) : a % 2 ^ D % 2 ^ w = a % 2 ^ w :=
  Nat.mod_mod_of_dvd _ (Nat.pow_dvd_pow 2 h)

theorem zOk : LcgOk 32 40014 0 2147483563 :=
  ⟨by decide, by decide, by decide, by decide, Or.inr ⟨by decide, by decide⟩⟩

theorem z_iter_lt (k x : Nat) (hx : x < 2147483563) : (lcgSpec 32 40014 0 2147483563)^[k] x < 2147483563 := by
  induction k generalizing x with
  | zero => exact hx
  | succ k ih =>
    rw [Function.iterate_succ_apply]
    exact ih _ (lcgSpec_lt (D := 32) (A := 40014) (C := 0) (M := 2147483563))

/-- Packing with an abstract generator `N` in place of the linear congruential one. -/
theorem swcPack_one {D : Nat} (lc : Nat) (v : BitVec D) : swcPack lc 0 1 v = (v, lc) := rfl

theorem swcPack_two {D : Nat} (lc z : Nat) (v : BitVec D) (h : lcgNext 32 40014 0 2147483563 lc = z) :
    swcPack lc 1 1 v = (v ||| (BitVec.ofNat D z <<< 32), z) := by
  simp only [swcPack, h, Nat.mul_one]

theorem swc_seed_aux {D : Nat} {p : SwcP} (hp : p.Ok D) {old : List (BitVec D)} (ho : old.length = 2 * p.r)
    (F : Nat → Nat) (lc0 : Nat) (Z : Nat → Nat) (hZ : ∀ k, Z k = F^[k + 1] lc0)
    (hstep : ∀ k, lcgNext 32 40014 0 2147483563 (F^[k] lc0) = Z k) (hzlt : ∀ k, Z k < 2 ^ 32) :
    ∃ e, ((forUp (fun ix (st : List (BitVec D) × Nat) =>
      let lc' := lcgNext 32 40014 0 2147483563 st.2
      let v := swcPack lc' (p.wc D - 1) 1 (BitVec.ofNat D lc')
      (wr st.1 ix v.1).map fun a => (a, v.2)) p.r 0 (old, lc0)).bind fun st =>
        (p.reduce st.1).map fun a => (⟨⟨p.r, a.1⟩, a.2⟩ : Swc D)) = some e ∧ SwcOk p e ∧
      e.view p = some (swcInit p.r ((List.range p.r).map (packSpec p.w Z))) := by
  have hw := wc_eq hp
  have hn : p.wc D = 1 ∨ (p.wc D = 2 ∧ 33 ≤ p.w) := by
    rw [hw]
    have := hp.hw; have := hp.hwD; have := hp.hD
    omega
  have hstepZ : ∀ k, lcgNext 32 40014 0 2147483563 (Z k) = Z (k + 1) := by
    intro k
    rw [hZ k]
    exact hstep (k + 1)
  -- the packed words
  let f : Nat → BitVec D := fun i => (swcPack (Z (p.wc D * i)) (p.wc D - 1) 1 (BitVec.ofNat D (Z (p.wc D * i)))).1
  obtain ⟨a, h1, h2, h3⟩ := forUp_fill (D := D)
    (body := fun ix (st : List (BitVec D) × Nat) =>
      let lc' := lcgNext 32 40014 0 2147483563 st.2
      let v := swcPack lc' (p.wc D - 1) 1 (BitVec.ofNat D lc')
      (wr st.1 ix v.1).map fun a => (a, v.2)) p.r (2 * p.r) (by omega) f
    (fun i => F^[p.wc D * i] lc0)
    (by
      intro i a hi ha _
      simp only [hstep]
      rw [wr_some _ (by omega)]
      have h2nd : (swcPack (Z (p.wc D * i)) (p.wc D - 1) 1 (BitVec.ofNat D (Z (p.wc D * i)))).2 = F^[p.wc D * (i + 1)] lc0 := by
        rcases hn with hn | ⟨hn, _⟩
        · rw [hn, Nat.sub_self, swcPack_one]
          show Z (1 * i) = _
          rw [hZ, Nat.mul_succ]
        · rw [hn, show 2 - 1 = 1 from rfl, swcPack_two _ _ _ (hstepZ _)]
          show Z (2 * i + 1) = _
          rw [hZ, Nat.mul_succ]
      rw [← h2nd]
      simp only [Option.map_some]
      rfl) old ho
  have hf : ∀ i, (f i).toNat % 2 ^ p.w = packSpec p.w Z i := by
    intro i
    show (swcPack (Z (p.wc D * i)) (p.wc D - 1) 1 (BitVec.ofNat D (Z (p.wc D * i)))).1.toNat % 2 ^ p.w = _
    unfold packSpec
    rw [← hw]
    rcases hn with hn | ⟨hn, h33⟩
    · rw [hn, Nat.sub_self, swcPack_one]
      simp only [BitVec.toNat_ofNat]
      rw [mod_mod_pow hp.hwD]
      simp
    · rw [hn, show 2 - 1 = 1 from rfl, swcPack_two _ _ _ (hstepZ _)]
      have hpk := pack_two (D := D) (Z (2 * i)) (Z (2 * i + 1)) (hzlt _) (by have := hp.hwD; omega)
      have hlhs : ((BitVec.ofNat D (Z (2 * i)) ||| BitVec.ofNat D (Z (2 * i + 1)) <<< 32, Z (2 * i + 1)) : BitVec D × Nat).1.toNat
          = (Z (2 * i) + Z (2 * i + 1) * 2 ^ 32) % 2 ^ D := hpk
      rw [hlhs, mod_mod_pow hp.hwD]
      simp only []
      have hi0 : 2 * i + 0 = 2 * i := Nat.add_zero _
      rw [sum_two, hi0, Nat.mul_zero, Nat.mul_one, Nat.pow_zero, Nat.mul_one]
  obtain ⟨e, he1, he2, he3⟩ := swc_reduce hp h2
  refine ⟨e, ?_, he2, ?_⟩
  · rw [show p.wc D * 0 = 0 from rfl] at h1
    simp only [Function.iterate_zero, id] at h1
    rw [h1]
    exact he1
  · rw [he3]
    congr 2
    apply List.ext_getElem?
    intro j
    by_cases hj : j < p.r
    · rw [List.getElem?_map, List.getElem?_take, if_pos hj, h3 j hj, List.getElem?_map, List.getElem?_range hj]
      simp only [Option.map_some, hf]
    · rw [List.getElem?_eq_none (by simp; omega), List.getElem?_eq_none (by simp; omega)]

theorem swc_seed {D : Nat} {p : SwcP} (hp : p.Ok D) (value : BitVec D) {old : List (BitVec D)}
    (ho : old.length = 2 * p.r) :
    ∃ e, Swc.seed p value old = some e ∧ SwcOk p e ∧
      e.view p = some (swcInit p.r ((List.range p.r).map (packSpec p.w (swcZ value.toNat)))) := by
  have hseed : lcgSeed 0 2147483563 (if value = 0#D then 19780503 else value.toNat % 2147483563 % 2 ^ 32) =
      (if (if value.toNat = 0 then 19780503 else value.toNat % 2147483563) % 2147483563 = 0 then 1
        else (if value.toNat = 0 then 19780503 else value.toNat % 2147483563) % 2147483563) := by
    have hv : (value = 0#D) ↔ value.toNat = 0 := by
      constructor
      · intro h; rw [h]; simp
      · intro h; exact BitVec.eq_of_toNat_eq (by simpa using h)
    have hm : value.toNat % 2147483563 % 2 ^ 32 = value.toNat % 2147483563 :=
      Nat.mod_eq_of_lt (Nat.lt_trans (Nat.mod_lt _ (by decide)) (by decide))
    unfold lcgSeed
    simp only [hv, hm, ne_eq, OfNat.ofNat_ne_zero, not_false_eq_true, if_true]
  unfold Swc.seed
  simp only [hseed]
  have hzdef : ∀ k, swcZ value.toNat k = (lcgSpec 32 40014 0 2147483563)^[k + 1]
      (if (if value.toNat = 0 then 19780503 else value.toNat % 2147483563) % 2147483563 = 0 then 1
        else (if value.toNat = 0 then 19780503 else value.toNat % 2147483563) % 2147483563) := fun k => rfl
  have hlt : (if (if value.toNat = 0 then 19780503 else value.toNat % 2147483563) % 2147483563 = 0 then 1
        else (if value.toNat = 0 then 19780503 else value.toNat % 2147483563) % 2147483563) < 2147483563 := by
    have hm := Nat.mod_lt (if value.toNat = 0 then 19780503 else value.toNat % 2147483563) (show 0 < 2147483563 by decide)
    generalize (if value.toNat = 0 then 19780503 else value.toNat % 2147483563) % 2147483563 = t at hm ⊢
    by_cases ht : t = 0
    · rw [if_pos ht]; decide
    · rw [if_neg ht]; exact hm
  generalize (if (if value.toNat = 0 then 19780503 else value.toNat % 2147483563) % 2147483563 = 0 then 1
        else (if value.toNat = 0 then 19780503 else value.toNat % 2147483563) % 2147483563) = lc0 at hzdef hlt ⊢
  refine swc_seed_aux hp ho (lcgSpec 32 40014 0 2147483563) lc0 (swcZ value.toNat) hzdef ?_ ?_
  · intro k
    rw [lcgNext_eq zOk (z_iter_lt _ _ hlt), hzdef, Function.iterate_succ_apply']
  · intro k
    rw [hzdef]
    exact Nat.lt_trans (z_iter_lt (k + 1) _ hlt) (by decide)

theorem packWords_eq {D : Nat} {arr : List Nat} {i0 kx : Nat} (hk : kx = 1 ∨ (kx = 2 ∧ 33 ≤ D))
    (hlen : i0 + kx ≤ arr.length) (hlt : ∀ z ∈ arr, z < 2 ^ 32) :
    ∃ v, packWords D arr i0 (kx - 1) 1 (BitVec.ofNat D (arr.getD i0 0)) = some v ∧
      v.toNat = ((List.range kx).map fun j => arr.getD (i0 + j) 0 * 2 ^ (32 * j)).sum % 2 ^ D := by
  have hg : ∀ i, i < arr.length → arr.getD i 0 < 2 ^ 32 := by
    intro i hi
    rw [List.getD_eq_getElem?_getD, List.getElem?_eq_getElem hi]
    exact hlt _ (List.getElem_mem hi)
  rcases hk with rfl | ⟨rfl, hD⟩
  · refine ⟨_, rfl, ?_⟩
    simp
  · have hi00 : i0 + 0 = i0 := Nat.add_zero _
    refine ⟨BitVec.ofNat D (arr.getD i0 0) ||| (BitVec.ofNat D (arr.getD (i0 + 1) 0) <<< 32), ?_, ?_⟩
    · show packWords D arr i0 1 1 _ = _
      simp only [packWords]
      rw [List.getD_eq_getElem?_getD (i := i0 + 1), List.getElem?_eq_getElem (show i0 + 1 < arr.length by omega)]
      rfl
    · rw [pack_two _ _ (hg _ (by omega)) hD, sum_two, hi00, Nat.mul_zero, Nat.mul_one, Nat.pow_zero, Nat.mul_one]

theorem swc_seedSeq {D : Nat} {p : SwcP} (hp : p.Ok D) (hk : (p.w + 31) / 32 = (D + 31) / 32) (gen : Nat → List Nat)
    (hlen : ∀ n, (gen n).length = n) (hlt : ∀ n, ∀ z ∈ gen n, z < 2 ^ 32) {old : List (BitVec D)}
    (ho : old.length = 2 * p.r) :
    ∃ e, Swc.seedSeq p gen old = some e ∧ SwcOk p e ∧
      e.view p = some (swcInit p.r ((List.range p.r).map
        (packSpec p.w fun k => (gen (p.r * ((p.w + 31) / 32))).getD k 0))) := by
  have hw1 := hp.hw
  have hw2 := hp.hwD
  have hw3 := hp.hD
  set kx := (D + 31) / 32 with hkx
  have hkc : kx = 1 ∨ (kx = 2 ∧ 33 ≤ D) := by omega
  set arr := gen (kx * p.r) with harr
  have hal : arr.length = kx * p.r := hlen _
  have hbnd : ∀ i, i < p.r → kx * i + kx ≤ arr.length := by
    intro i hi
    rw [hal, ← Nat.mul_succ]
    exact Nat.mul_le_mul_left _ hi
  have hpw : ∀ i, i < p.r → ∃ v, packWords D arr (kx * i) (kx - 1) 1 (BitVec.ofNat D (arr.getD (kx * i) 0)) = some v ∧
      v.toNat = ((List.range kx).map fun j => arr.getD (kx * i + j) 0 * 2 ^ (32 * j)).sum % 2 ^ D :=
    fun i hi => packWords_eq hkc (hbnd i hi) (hlt _)
  let g : Nat → BitVec D := fun i =>
    (packWords D arr (kx * i) (kx - 1) 1 (BitVec.ofNat D (arr.getD (kx * i) 0))).getD 0#D
  let f : Nat → BitVec D := fun i => if p.mx D ≠ 0#D then g i % p.mx D else g i
  obtain ⟨a, h1, h2, h3⟩ := forUp_fill (D := D)
    (body := fun ix (st : List (BitVec D) × Nat) =>
      (arr[st.2]?).bind fun z =>
        (packWords D arr st.2 (kx - 1) 1 (BitVec.ofNat D z)).bind fun v =>
          (wr st.1 ix (if p.mx D ≠ 0#D then v % p.mx D else v)).map fun a => (a, st.2 + kx)) p.r (2 * p.r) (by omega) f
    (fun i => kx * i)
    (by
      intro i a hi ha _
      have hb := hbnd i hi
      have hpos : 0 < kx := by omega
      obtain ⟨v, hv, _⟩ := hpw i hi
      have hz : arr[kx * i]? = some (arr.getD (kx * i) 0) := by
        rw [List.getD_eq_getElem?_getD, List.getElem?_eq_getElem (show kx * i < arr.length by omega)]
        rfl
      simp only [hz, Option.bind_some, hv]
      rw [wr_some _ (by omega)]
      simp only [Option.map_some]
      have hgi : g i = v := by
        show (packWords D arr (kx * i) (kx - 1) 1 (BitVec.ofNat D (arr.getD (kx * i) 0))).getD 0#D = v
        rw [hv]
        rfl
      show some (a.set i (if p.mx D ≠ 0#D then v % p.mx D else v), _) = some (a.set i (if p.mx D ≠ 0#D then g i % p.mx D else g i), _)
      rw [hgi, Nat.mul_succ]) old ho
  have hf : ∀ i, i < p.r → (f i).toNat % 2 ^ p.w = packSpec p.w (fun k => (gen (p.r * ((p.w + 31) / 32))).getD k 0) i := by
    intro i hi
    obtain ⟨v, hv, hvn⟩ := hpw i hi
    have hgi : g i = v := by
      show (packWords D arr (kx * i) (kx - 1) 1 (BitVec.ofNat D (arr.getD (kx * i) 0))).getD 0#D = v
      rw [hv]
      rfl
    have hfi : (f i).toNat % 2 ^ p.w = v.toNat % 2 ^ p.w := by
      show (if p.mx D ≠ 0#D then g i % p.mx D else g i).toNat % 2 ^ p.w = _
      rw [hgi]
      split
      · next hmx =>
        have hm : (p.mx D).toNat = 2 ^ p.w := by
          rw [mx_toNat hp]
          split
          · next h =>
            exfalso
            apply hmx
            apply BitVec.eq_of_toNat_eq
            rw [mx_toNat hp, if_pos h]
            simp
          · rfl
        rw [BitVec.toNat_umod, hm, Nat.mod_mod]
      · rfl
    rw [hfi, hvn, mod_mod_pow hp.hwD]
    unfold packSpec
    simp only [hk, Nat.mul_comm p.r kx, ← harr]
  obtain ⟨e, he1, he2, he3⟩ := swc_reduce hp h2
  refine ⟨e, ?_, he2, ?_⟩
  · unfold Swc.seedSeq
    simp only [← hkx, ← harr]
    rw [show kx * 0 = 0 from rfl] at h1
    rw [h1]
    exact he1
  · rw [he3]
    congr 2
    apply List.ext_getElem?
    intro j
    by_cases hj : j < p.r
    · rw [List.getElem?_map, List.getElem?_take, if_pos hj, h3 j hj, List.getElem?_map, List.getElem?_range hj]
      simp only [Option.map_some, hf j hj]
    · rw [List.getElem?_eq_none (by simp; omega), List.getElem?_eq_none (by simp; omega)]

end STL.Engines
