import Verif.Engines.MtSeed

/-!
# C51: random number engines produce exactly the sequences the standard defines

The specifications are `lcgSpec` (Lcg.lean), `swcStep`, `swcOut` (Swc.lean), `swcZ`, `packSpec`, `swcInit`
(SwcSeed.lean), `mtStep`, `mtOut` (Mt.lean), `mtSeedX` and `mtSeedSeqX` (MtSeed.lean): the transition and generation
algorithms of N4950 [rand.eng], on plain numbers.
-/

namespace STL.Engines

/-! ## linear_congruential_engine -/

/-- **C51.** A call replaces the state `x` by `(a x + c) mod m` and returns it, for every template argument the class
accepts, whichever intermediate type the code chooses; the new state is again less than the modulus. -/
theorem C51_lcg_next {D A C M x : Nat} (h : LcgOk D A C M) (hx : x < lcgModulus D M) :
    lcgNext D A C M x = (A * x + C) % lcgModulus D M ∧ lcgNext D A C M x < lcgModulus D M := by
  rw [lcgNext_eq h hx]
  exact ⟨rfl, lcgSpec_lt⟩

/-- **C51.** `discard(n)` leaves the engine in the state that `n` calls leave it in; in particular the fast
exponentiation used for `minstd_rand` and `minstd_rand0` does. -/
theorem C51_lcg_discard {D A C M x : Nat} (h : LcgOk D A C M) (hx : x < lcgModulus D M) (n : Nat) :
    lcgDiscard D A C M n x = (lcgNext D A C M)^[n] x ∧
      lcgDiscard D A C M n x = (fun y => (A * y + C) % lcgModulus D M)^[n] x := by
  have h1 := lcgDiscard_eq h n x hx
  refine ⟨?_, h1⟩
  rw [h1]
  clear h1
  induction n generalizing x with
  | zero => rfl
  | succ n ih =>
    rw [Function.iterate_succ_apply, Function.iterate_succ_apply, lcgNext_eq h hx]
    exact ih lcgSpec_lt

/-- **C51.** Seeding with `s`: the state is `s mod m`, except 1 where that is 0 and `c mod m = 0`. -/
theorem C51_lcg_seed {D A C M s : Nat} (h : LcgOk D A C M) (hs : s < 2 ^ D) :
    lcgSeed C M s =
      if C % lcgModulus D M = 0 ∧ s % lcgModulus D M = 0 then 1 else s % lcgModulus D M := by
  have hmod : (if M ≠ 0 then s % M else s) = s % lcgModulus D M := by
    unfold lcgModulus
    by_cases hM : M = 0
    · rw [if_neg (not_not.2 hM), if_pos hM, Nat.mod_eq_of_lt hs]
    · rw [if_pos hM, if_neg hM]
  have hC : C % lcgModulus D M = C := by
    apply Nat.mod_eq_of_lt
    unfold lcgModulus
    split
    · exact h.hC
    · next hM =>
      rcases h.hp with hp | hp
      · exact absurd hp hM
      · exact hp.2
  unfold lcgSeed
  simp only [hmod, hC]
  by_cases h1 : C = 0
  · by_cases h2 : s % lcgModulus D M = 0
    · rw [if_pos h1, if_pos h2, if_pos ⟨h1, h2⟩]
    · rw [if_pos h1, if_neg h2, if_neg (fun hh => h2 hh.2)]
  · rw [if_neg h1, if_neg (fun hh => h1 hh.1)]

/-- **C51.** Seeding from a seed sequence: `S = (a_3 + a_4 2^32 + …) mod m` over `k = ⌈log₂ m / 32⌉` words of `k + 3`
generated ones, and 1 where that is 0 and `c mod m = 0`. (For `m = 2^32` held in a 64-bit type the code asks for five
words where the standard says four; that modulus is excluded.) -/
theorem C51_lcg_seed_seq {D A C M : Nat} (h : LcgOk D A C M) (hM : M ≠ 2 ^ 32) (gen : Nat → List Nat)
    (hlen : ∀ n, (gen n).length = n) (hlt : ∀ n, ∀ z ∈ gen n, z < 2 ^ 32) :
    let m := lcgModulus D M
    let k := if m ≤ 2 ^ 32 then 1 else 2
    let S := ((List.range k).map fun j => (gen (k + 3)).getD (j + 3) 0 * 2 ^ (32 * j)).sum % m
    lcgSeedSeq D C M gen = if C % m = 0 ∧ S = 0 then 1 else S := by
  intro m k S
  have hD := h.hD
  have hP : 2 ^ D ≤ 2 ^ 64 := Nat.pow_le_pow_right (by decide) hD
  have hSlt : S < 2 ^ D := Nat.lt_of_lt_of_le (Nat.mod_lt _ (lcgModulus_pos D M)) (lcgModulus_le h)
  have hget : ∀ n i, i < n → (gen n).getD i 0 < 2 ^ 32 := by
    intro n i hi
    rw [List.getD_eq_getElem?_getD, List.getElem?_eq_getElem (by rw [hlen]; exact hi)]
    exact hlt n _ (List.getElem_mem _)
  have hull : ((gen 5).getD 4 0 * 2 ^ 32 % 2 ^ 64) ||| (gen 5).getD 3 0 = (gen 5).getD 3 0 + (gen 5).getD 4 0 * 2 ^ 32 := by
    have h3 := hget 5 3 (by decide)
    have h4 := hget 5 4 (by decide)
    rw [Nat.mod_eq_of_lt (by omega), Nat.mul_comm, ← Nat.two_pow_add_eq_or_of_lt h3, Nat.add_comm]
  have hk1 : m ≤ 2 ^ 32 → S = (gen 4).getD 3 0 % m := by
    intro hm
    have hk : k = 1 := if_pos hm
    show ((List.range k).map fun j => (gen (k + 3)).getD (j + 3) 0 * 2 ^ (32 * j)).sum % m = _
    rw [hk]
    simp
  have hk2 : ¬ m ≤ 2 ^ 32 → S = ((gen 5).getD 3 0 + (gen 5).getD 4 0 * 2 ^ 32) % m := by
    intro hm
    have hk : k = 2 := if_neg hm
    show ((List.range k).map fun j => (gen (k + 3)).getD (j + 3) 0 * 2 ^ (32 * j)).sum % m = _
    rw [hk, sum_two, Nat.mul_zero, Nat.pow_zero, Nat.mul_one, Nat.mul_one]
  have hs : (if M = 0 then (if D ≤ 32 then (gen 4).getD 3 0 % 2 ^ D
        else (((gen 5).getD 4 0 * 2 ^ 32 % 2 ^ 64) ||| (gen 5).getD 3 0) % 2 ^ D)
      else if M ≤ 2 ^ 32 - 1 then ((gen 4).getD 3 0 % M) % 2 ^ D
      else ((((gen 5).getD 4 0 * 2 ^ 32 % 2 ^ 64) ||| (gen 5).getD 3 0) % M) % 2 ^ D) = S := by
    rw [hull]
    by_cases hM0 : M = 0
    · have hm : m = 2 ^ D := if_pos hM0
      rw [if_pos hM0]
      by_cases h32 : D ≤ 32
      · rw [if_pos h32, hk1 (by rw [hm]; exact Nat.pow_le_pow_right (by decide) h32), hm]
      · rw [if_neg h32, hk2 (by rw [hm]; exact Nat.not_le.2 (Nat.pow_lt_pow_right (by decide) (by omega))), hm]
    · have hm : m = M := if_neg hM0
      have hmm : ∀ y, y % M % 2 ^ D = y % M := fun y =>
        Nat.mod_eq_of_lt (Nat.lt_trans (Nat.mod_lt _ (by omega)) h.hM)
      rw [if_neg hM0, hmm, hmm]
      by_cases h32 : M ≤ 2 ^ 32 - 1
      · rw [if_pos h32, hk1 (by rw [hm]; omega), hm]
      · rw [if_neg h32, hk2 (by rw [hm]; omega), hm]
  have hSm : S % m = S := Nat.mod_mod _ _
  have := C51_lcg_seed h hSlt
  unfold lcgSeedSeq
  simp only [hs]
  rw [this]
  show (if C % m = 0 ∧ S % m = 0 then 1 else S % m) = _
  rw [hSm]

/-- **C51.** Every value returned lies between `min()` and `max()`, provided `c ≠ 0` or the multiplier is coprime to
the modulus (otherwise the recurrence itself may reach 0, below `min()`). -/
theorem C51_lcg_range {D A C M x : Nat} (h : LcgOk D A C M) (hx : x < lcgModulus D M) (hx0 : lcgMin C ≤ x)
    (hco : C ≠ 0 ∨ Nat.Coprime A (lcgModulus D M)) :
    lcgMin C ≤ lcgNext D A C M x ∧ lcgNext D A C M x ≤ lcgMax D M := by
  have hmax : lcgMax D M = lcgModulus D M - 1 := by
    unfold lcgMax lcgModulus
    have := h.hM
    have hpos : 0 < 2 ^ D := Nat.pow_pos (by decide)
    by_cases hM : M = 0
    · rw [if_pos hM, hM, Nat.zero_add]
      exact Nat.mod_eq_of_lt (by omega)
    · rw [if_neg hM, show M + 2 ^ D - 1 = M - 1 + 2 ^ D by omega, Nat.add_mod_right]
      exact Nat.mod_eq_of_lt (by omega)
  obtain ⟨e, hlt⟩ := C51_lcg_next h hx
  refine ⟨?_, by rw [hmax]; omega⟩
  unfold lcgMin at hx0 ⊢
  by_cases hC : C = 0
  · rw [if_pos hC] at hx0 ⊢
    rw [e]
    by_contra hlt0
    have hz : (A * x + C) % lcgModulus D M = 0 := by omega
    rw [hC, Nat.add_zero] at hz
    have hd := Nat.dvd_of_mod_eq_zero hz
    have hco' : Nat.Coprime A (lcgModulus D M) := by
      rcases hco with h1 | h1
      · exact absurd hC h1
      · exact h1
    have := Nat.le_of_dvd (by omega) (hco'.symm.dvd_of_dvd_mul_left hd)
    omega
  · rw [if_neg hC]
    exact Nat.zero_le _

/-! ## subtract_with_carry_engine -/

/-- The engine states a program can reach: seeding, restoring a valid state, and calls. -/
inductive SwcReach {D : Nat} (p : SwcP) : Swc D → Prop
  | seed (v : BitVec D) (old : List (BitVec D)) (e : Swc D) : old.length = 2 * p.r → Swc.seed p v old = some e →
      SwcReach p e
  | seedSeq (gen : Nat → List Nat) (old : List (BitVec D)) (e : Swc D) : (p.w + 31) / 32 = (D + 31) / 32 →
      (∀ n, (gen n).length = n) → (∀ n, ∀ z ∈ gen n, z < 2 ^ 32) → old.length = 2 * p.r →
      Swc.seedSeq p gen old = some e → SwcReach p e
  | load (vals : List (BitVec D)) (c : Nat) (old : List (BitVec D)) (e : Swc D) : vals.length = p.r →
      (∀ v ∈ vals, v.toNat < 2 ^ p.w) → c ≤ 1 → old.length = 2 * p.r → Swc.load p vals c old = some e → SwcReach p e
  | next (e e' : Swc D) (x : BitVec D) : SwcReach p e → e.next p = some (x, e') → SwcReach p e'

theorem SwcReach.ok {D : Nat} {p : SwcP} (hp : p.Ok D) {e : Swc D} (h : SwcReach p e) : SwcOk p e := by
  induction h with
  | seed v old e ho he =>
    obtain ⟨e', h1, h2, _⟩ := swc_seed hp v ho
    rw [he] at h1
    exact Option.some.inj h1 ▸ h2
  | seedSeq gen old e hk hl hlt ho he =>
    obtain ⟨e', h1, h2, _⟩ := swc_seedSeq hp hk gen hl hlt ho
    rw [he] at h1
    exact Option.some.inj h1 ▸ h2
  | load vals c old e hl hv hc ho he =>
    obtain ⟨e', h1, h2, _⟩ := swc_load hp hl hv hc ho
    rw [he] at h1
    exact Option.some.inj h1 ▸ h2
  | next e e' x _ hn ih =>
    obtain ⟨h, hv, _⟩ := view_some ih
    obtain ⟨x', e2, h1, h2, _⟩ := swc_next hp ih hv
    rw [hn] at h1
    exact (Prod.mk.inj (Option.some.inj h1)).2 ▸ h2

/-- **C51.** A `subtract_with_carry_engine` seeded with a number returns, call after call, the words of the standard's
recurrence started from the standard's initial state, and its saved state is the recurrence's state. -/
theorem C51_swc {D : Nat} {p : SwcP} (hp : p.Ok D) (value : BitVec D) (old : List (BitVec D))
    (ho : old.length = 2 * p.r) (k : Nat) :
    let st0 := swcInit p.r ((List.range p.r).map (packSpec p.w (swcZ value.toNat)))
    ∃ e0 outs e, Swc.seed p value old = some e0 ∧ e0.run p k = some (outs, e) ∧
      outs.map BitVec.toNat = (List.range k).map (fun i => swcOut ((swcStep p)^[i + 1] st0)) ∧
      e.view p = some ((swcStep p)^[k] st0) := by
  intro st0
  obtain ⟨e0, h1, h2, h3⟩ := swc_seed hp value ho
  obtain ⟨outs, e, g1, _, g3, g4⟩ := swc_run hp k h2 h3
  exact ⟨e0, outs, e, h1, g1, g4, g3⟩

/-- **C51.** The same when seeding from a seed sequence, provided the word type needs as many 32-bit words as the word
size does. (With a wider type, for example `w = 24` in a 64-bit type, the code draws more words than the standard says;
those instances are excluded.) -/
theorem C51_swc_seed_seq {D : Nat} {p : SwcP} (hp : p.Ok D) (hk : (p.w + 31) / 32 = (D + 31) / 32)
    (gen : Nat → List Nat) (hlen : ∀ n, (gen n).length = n) (hlt : ∀ n, ∀ z ∈ gen n, z < 2 ^ 32)
    (old : List (BitVec D)) (ho : old.length = 2 * p.r) (k : Nat) :
    let st0 := swcInit p.r ((List.range p.r).map (packSpec p.w fun i => (gen (p.r * ((p.w + 31) / 32))).getD i 0))
    ∃ e0 outs e, Swc.seedSeq p gen old = some e0 ∧ e0.run p k = some (outs, e) ∧
      outs.map BitVec.toNat = (List.range k).map (fun i => swcOut ((swcStep p)^[i + 1] st0)) ∧
      e.view p = some ((swcStep p)^[k] st0) := by
  intro st0
  obtain ⟨e0, h1, h2, h3⟩ := swc_seedSeq hp hk gen hlen hlt ho
  obtain ⟨outs, e, g1, _, g3, g4⟩ := swc_run hp k h2 h3
  exact ⟨e0, outs, e, h1, g1, g4, g3⟩

/-- **C51.** From any reachable state a call succeeds, returns a value of at most `2^w - 1`, and takes the saved state
one step along the standard's recurrence. -/
theorem C51_swc_next {D : Nat} {p : SwcP} (hp : p.Ok D) {e : Swc D} (he : SwcReach p e) :
    ∃ st x e', e.view p = some st ∧ e.next p = some (x, e') ∧ e'.view p = some (swcStep p st) ∧
      x.toNat = swcOut (swcStep p st) ∧ x.toNat < 2 ^ p.w := by
  obtain ⟨h, hv, _⟩ := view_some (he.ok hp)
  obtain ⟨x, e', h1, h2, h3, h4⟩ := swc_next hp (he.ok hp) hv
  refine ⟨_, x, e', hv, h1, h3, h4, ?_⟩
  rw [h4]
  unfold swcOut swcStep
  rw [List.getLastD_concat]
  have hpos : 0 < 2 ^ p.w := Nat.pow_pos (by decide)
  have hcast : (2 ^ p.w : Int) = ((2 ^ p.w : Nat) : Int) := by push_cast; rfl
  rw [hcast]
  have g1 := Int.emod_lt_of_pos (swcY p (h, e.carry)) (b := ((2 ^ p.w : Nat) : Int)) (by omega)
  have g2 := Int.emod_nonneg (swcY p (h, e.carry)) (b := ((2 ^ p.w : Nat) : Int)) (by omega)
  omega

/-- **C51.** Saving and restoring: an engine that reads what another reachable engine wrote compares equal to it and
returns the same values from then on. -/
theorem C51_swc_restore {D : Nat} {p : SwcP} (hp : p.Ok D) {e : Swc D} (he : SwcReach p e) (old : List (BitVec D))
    (ho : old.length = 2 * p.r) :
    ∃ s e', e.save p = some s ∧ Swc.load p s.1 s.2 old = some e' ∧ e.eq p e' = some true ∧
      ∀ k, ∃ outs f f', e.run p k = some (outs, f) ∧ e'.run p k = some (outs, f') := by
  have hok := he.ok hp
  obtain ⟨l, s1, s2, s3⟩ := hok.buf.save_some
  have hsave : e.save p = some (l, e.carry) := by unfold Swc.save; rw [s1]; rfl
  obtain ⟨e', l1, l2, l3⟩ := swc_load hp (vals := l) (c := e.carry) s2 (by
    intro v hv
    obtain ⟨j, hj, rfl⟩ := List.getElem_of_mem hv
    exact hok.val j (by omega) _ ((s3 j (by omega)).symm.trans (List.getElem?_eq_getElem hj))) hok.carry ho
  refine ⟨_, e', hsave, l1, ?_, ?_⟩
  · obtain ⟨q, q1, q2⟩ := equals_spec hok.buf l2.buf
    have hsv : e.save p = e'.save p := by rw [hsave, l3]
    have hbuf : e.buf.save p.r = e'.buf.save p.r ∧ e.carry = e'.carry := by
      obtain ⟨l', t1, _, _⟩ := l2.buf.save_some
      unfold Swc.save at hsv
      rw [s1, t1] at hsv
      simp only [Option.map_some, Option.some.injEq, Prod.mk.injEq] at hsv
      rw [s1, t1, hsv.1]
      exact ⟨rfl, hsv.2⟩
    unfold Swc.eq
    rw [q1, q2.2 hbuf.1, Option.map_some, hbuf.2]
    simp
  · intro k
    have hv1 : e.view p = some (l.map BitVec.toNat, e.carry) := by unfold Swc.view; rw [hsave]; rfl
    have hv2 : e'.view p = some (l.map BitVec.toNat, e.carry) := by unfold Swc.view; rw [l3]; rfl
    obtain ⟨o1, f1, r1, _, _, t1⟩ := swc_run hp k hok hv1
    obtain ⟨o2, f2, r2, _, _, t2⟩ := swc_run hp k l2 hv2
    have : o1 = o2 := by
      have hinj : Function.Injective (List.map (BitVec.toNat (w := D))) :=
        List.map_injective_iff.2 (fun a b hab => BitVec.eq_of_toNat_eq hab)
      exact hinj (t1.trans t2.symm)
    subst this
    exact ⟨o1, f1, f2, r1, r2⟩

/-- **C51.** `==` on two reachable engines, wherever each is in its circular buffer, is true exactly if they would save
the same state. -/
theorem C51_swc_equal {D : Nat} {p : SwcP} (hp : p.Ok D) {e f : Swc D} (he : SwcReach p e) (hf : SwcReach p f) :
    ∃ q, e.eq p f = some q ∧ (q = true ↔ e.save p = f.save p) := by
  obtain ⟨q, q1, q2⟩ := equals_spec (he.ok hp).buf (hf.ok hp).buf
  refine ⟨q && decide (e.carry = f.carry), ?_, ?_⟩
  · unfold Swc.eq; rw [q1]; rfl
  · obtain ⟨l1, s1, _⟩ := (he.ok hp).buf.save_some
    obtain ⟨l2, s2, _⟩ := (hf.ok hp).buf.save_some
    rw [Bool.and_eq_true, q2, decide_eq_true_eq]
    unfold Swc.save
    rw [s1, s2]
    simp

/-! ## mersenne_twister_engine -/

/-- The engine states a program can reach: seeding, restoring, and calls. -/
inductive MtReach {D : Nat} (p : MtP D) : Circ D → Prop
  | seed (v : BitVec D) (old : List (BitVec D)) (e : Circ D) : old.length = 2 * p.n → p.seed v old = some e →
      MtReach p e
  | seedSeq (gen : Nat → List Nat) (old : List (BitVec D)) (e : Circ D) : D ≤ 64 →
      (∀ n, (gen n).length = n) → (∀ n, ∀ z ∈ gen n, z < 2 ^ 32) → old.length = 2 * p.n →
      p.seedSeq gen old = some e → MtReach p e
  | load (vals : List (BitVec D)) (old : List (BitVec D)) (e : Circ D) : vals.length = p.n →
      old.length = 2 * p.n → p.load vals old = some e → MtReach p e
  | next (e e' : Circ D) (x : BitVec D) : MtReach p e → p.next e = some (x, e') → MtReach p e'

theorem MtReach.inv {D : Nat} {p : MtP D} (hp : p.Ok) {e : Circ D} (h : MtReach p e) :
    ∃ h0 t, h0.length = p.n ∧ (∀ v ∈ h0, v < 2 ^ p.w) ∧ MtInv p (mtX p h0) t e := by
  have hpos : 0 < 2 ^ p.w := Nat.pow_pos (by decide)
  induction h with
  | seed v old e ho he =>
    obtain ⟨e', h1, h2⟩ := mt_seed hp v ho
    rw [he] at h1
    refine ⟨_, 0, ?_, ?_, Option.some.inj h1 ▸ h2⟩
    · simp
    · intro x hx
      obtain ⟨i, _, rfl⟩ := List.mem_map.1 hx
      exact mtSeedX_lt _ _
  | seedSeq gen old e hD hl hlt ho he =>
    obtain ⟨e', h1, h2⟩ := mt_seedSeq hp hD gen hl hlt ho
    rw [he] at h1
    refine ⟨_, 0, ?_, ?_, Option.some.inj h1 ▸ h2⟩
    · simp
    · intro x hx
      obtain ⟨i, _, rfl⟩ := List.mem_map.1 hx
      exact mtSeedSeqX_lt hp _ _
  | load vals old e hl ho he =>
    obtain ⟨e', h1, h2⟩ := mt_load hp hl ho
    rw [he] at h1
    refine ⟨_, 0, ?_, ?_, Option.some.inj h1 ▸ h2⟩
    · simp
    · intro x hx
      obtain ⟨i, _, rfl⟩ := List.mem_map.1 hx
      rw [List.getD_eq_getElem?_getD, List.getElem?_map]
      cases hv : vals[i]? with
      | none => exact hpos
      | some v => exact Nat.mod_lt _ hpos
  | next e e' x _ hn ih =>
    obtain ⟨h0, t, g1, g2, g3⟩ := ih
    obtain ⟨x', e2, r1, r2, _⟩ := mt_next hp (mtSeq_mtX hp g1 g2) g3
    rw [hn] at r1
    exact ⟨h0, t + 1, g1, g2, (Prod.mk.inj (Option.some.inj r1)).2 ▸ r2⟩

theorem mt_run_spec {D : Nat} {p : MtP D} (hp : p.Ok) {h : List Nat} (hh : h.length = p.n) (hlt : ∀ v ∈ h, v < 2 ^ p.w)
    {e0 : Circ D} (hi : MtInv p (mtX p h) 0 e0) (k : Nat) :
    ∃ outs e, p.run k e0 = some (outs, e) ∧
      outs.map BitVec.toNat = (List.range k).map (fun i => mtOut p ((mtStep p)^[i + 1] h)) ∧
      p.view e = some ((mtStep p)^[k] h) := by
  obtain ⟨outs, e, r1, r2, r3⟩ := mt_run hp (mtSeq_mtX hp hh hlt) k hi
  rw [Nat.zero_add] at r2
  refine ⟨outs, e, r1, ?_, mt_view hp hh r2⟩
  rw [r3]
  apply List.map_congr_left
  intro i _
  rw [mtOut_iter hp hh, Nat.zero_add]

/-- **C51.** A `mersenne_twister_engine` seeded with a number returns, call after call, the tempered words of the
standard's recurrence started from the standard's initial state, and its saved state is the recurrence's state. The
parameters are any the class accepts, including `n = 1` and `m = n`. -/
theorem C51_mt {D : Nat} {p : MtP D} (hp : p.Ok) (value : BitVec D) (old : List (BitVec D)) (ho : old.length = 2 * p.n)
    (k : Nat) :
    let h0 := (List.range p.n).map (mtSeedX p value.toNat)
    ∃ e0 outs e, p.seed value old = some e0 ∧ p.run k e0 = some (outs, e) ∧
      outs.map BitVec.toNat = (List.range k).map (fun i => mtOut p ((mtStep p)^[i + 1] h0)) ∧
      p.view e = some ((mtStep p)^[k] h0) := by
  intro h0
  obtain ⟨e0, h1, h2⟩ := mt_seed hp value ho
  obtain ⟨outs, e, r1, r2, r3⟩ := mt_run_spec hp (h := h0) (by simp [h0]) (by
    intro x hx
    obtain ⟨i, _, rfl⟩ := List.mem_map.1 hx
    exact mtSeedX_lt _ _) h2 k
  exact ⟨e0, outs, e, h1, r1, r2, r3⟩

/-- **C51.** The same when seeding from a seed sequence. -/
theorem C51_mt_seed_seq {D : Nat} {p : MtP D} (hp : p.Ok) (hD : D ≤ 64) (gen : Nat → List Nat)
    (hlen : ∀ n, (gen n).length = n) (hlt : ∀ n, ∀ z ∈ gen n, z < 2 ^ 32) (old : List (BitVec D))
    (ho : old.length = 2 * p.n) (k : Nat) :
    let h0 := (List.range p.n).map (mtSeedSeqX p fun i => (gen (p.n * ((p.w + 31) / 32))).getD i 0)
    ∃ e0 outs e, p.seedSeq gen old = some e0 ∧ p.run k e0 = some (outs, e) ∧
      outs.map BitVec.toNat = (List.range k).map (fun i => mtOut p ((mtStep p)^[i + 1] h0)) ∧
      p.view e = some ((mtStep p)^[k] h0) := by
  intro h0
  obtain ⟨e0, h1, h2⟩ := mt_seedSeq hp hD gen hlen hlt ho
  obtain ⟨outs, e, r1, r2, r3⟩ := mt_run_spec hp (h := h0) (by simp [h0]) (by
    intro x hx
    obtain ⟨i, _, rfl⟩ := List.mem_map.1 hx
    exact mtSeedSeqX_lt hp _ _) h2 k
  exact ⟨e0, outs, e, h1, r1, r2, r3⟩

/-- **C51.** From any reachable state a call succeeds and takes the saved state one step along the standard's
recurrence, returning the tempered new word. -/
theorem C51_mt_next {D : Nat} {p : MtP D} (hp : p.Ok) {e : Circ D} (he : MtReach p e) :
    ∃ h x e', p.view e = some h ∧ p.next e = some (x, e') ∧ p.view e' = some (mtStep p h) ∧
      x.toNat = mtOut p (mtStep p h) := by
  obtain ⟨h0, t, g1, g2, g3⟩ := he.inv hp
  obtain ⟨x, e', r1, r2, r3⟩ := mt_next hp (mtSeq_mtX hp g1 g2) g3
  refine ⟨_, x, e', mt_view hp g1 g3, r1, ?_, ?_⟩
  · rw [mt_view hp g1 r2, Function.iterate_succ_apply']
  · rw [r3, ← Function.iterate_succ_apply' (mtStep p), mtOut_iter hp g1]

/-- **C51.** Saving and restoring: an engine that reads what another reachable engine wrote compares equal to it and
returns the same values from then on. -/
theorem C51_mt_restore {D : Nat} {p : MtP D} (hp : p.Ok) {e : Circ D} (he : MtReach p e) (old : List (BitVec D))
    (ho : old.length = 2 * p.n) :
    ∃ s e', e.save p.n = some s ∧ p.load s old = some e' ∧ e.equals p.n e' = some true ∧
      ∀ k, ∃ outs f f', p.run k e = some (outs, f) ∧ p.run k e' = some (outs, f') := by
  have hn := Ok.npos hp
  obtain ⟨h0, t, g1, g2, g3⟩ := he.inv hp
  obtain ⟨hok, hat⟩ := g3.ok hn
  obtain ⟨l, s1, s2, s3⟩ := hok.save_some
  obtain ⟨e', l1, l2⟩ := mt_load hp (vals := l) s2 ho
  have hX := mtSeq_mtX hp g1 g2
  have hl : ∀ i, i < p.n → (l.map fun v => v.toNat % 2 ^ p.w).getD i 0 = mtX p h0 (t + i) := by
    intro i hi
    have h1 := hat i hi
    rw [← s3 i hi] at h1
    rw [Option.map_eq_some_iff] at h1
    obtain ⟨v, e1, e2⟩ := h1
    rw [List.getD_eq_getElem?_getD, List.getElem?_map, e1]
    show v.toNat % 2 ^ p.w = _
    rw [e2, Nat.mod_eq_of_lt (hX.lt _)]
  set h1 := (List.range p.n).map fun i => (l.map fun v => v.toNat % 2 ^ p.w).getD i 0 with hh1
  have h1eq : h1 = (mtStep p)^[t] h0 := by
    apply List.ext_getElem?
    intro j
    by_cases hj : j < p.n
    · rw [hh1, List.getElem?_map, List.getElem?_range hj, Option.map_some, hl j hj, ← mtIter_getD g1 hn j t hj,
        List.getD_eq_getElem?_getD, List.getElem?_eq_getElem (by rw [mtIter_len g1 hn]; exact hj)]
      rfl
    · rw [List.getElem?_eq_none (by simp [hh1]; omega), List.getElem?_eq_none (by rw [mtIter_len g1 hn]; omega)]
  have h1len : h1.length = p.n := by simp [hh1]
  have h1lt : ∀ v ∈ h1, v < 2 ^ p.w := by
    intro x hx
    obtain ⟨i, hi, rfl⟩ := List.mem_map.1 hx
    rw [hl i (List.mem_range.1 hi)]
    exact hX.lt _
  refine ⟨l, e', s1, l1, ?_, ?_⟩
  · obtain ⟨hok', _⟩ := l2.ok hn
    obtain ⟨q, q1, q2⟩ := equals_spec hok hok'
    rw [q1]
    congr 1
    apply q2.2
    have v1 := mt_view hp g1 g3
    have v2 := mt_view hp h1len l2
    rw [Function.iterate_zero, id, h1eq, ← v1] at v2
    obtain ⟨l', t1, _, _⟩ := hok'.save_some
    unfold MtP.view at v2
    rw [s1, t1] at v2 ⊢
    simp only [Option.map_some, Option.some.injEq] at v2
    have hinj : Function.Injective (List.map (BitVec.toNat (w := D))) :=
      List.map_injective_iff.2 (fun a b hab => BitVec.eq_of_toNat_eq hab)
    rw [hinj v2]
  · intro k
    obtain ⟨o1, f1, r1, _, t1⟩ := mt_run hp hX k g3
    obtain ⟨o2, f2, r2, _, t2⟩ := mt_run hp (mtSeq_mtX hp h1len h1lt) k l2
    have hx : ∀ i, mtX p h1 i = mtX p h0 (t + i) := by
      intro i
      unfold mtX
      rw [h1eq, ← Function.iterate_add_apply, Nat.add_comm]
    have : o1 = o2 := by
      have hinj : Function.Injective (List.map (BitVec.toNat (w := D))) :=
        List.map_injective_iff.2 (fun a b hab => BitVec.eq_of_toNat_eq hab)
      apply hinj
      rw [t1, t2]
      apply List.map_congr_left
      intro i _
      rw [hx]
      congr 2
      omega
    subst this
    exact ⟨o1, f1, f2, r1, r2⟩

/-- **C51.** `==` on two reachable engines, wherever each is in its circular buffer, is true exactly if they would save
the same state. -/
theorem C51_mt_equal {D : Nat} {p : MtP D} (hp : p.Ok) {e f : Circ D} (he : MtReach p e) (hf : MtReach p f) :
    ∃ q, e.equals p.n f = some q ∧ (q = true ↔ e.save p.n = f.save p.n) := by
  have hn := Ok.npos hp
  obtain ⟨_, _, _, _, g3⟩ := he.inv hp
  obtain ⟨_, _, _, _, k3⟩ := hf.inv hp
  exact equals_spec (g3.ok hn).1 (k3.ok hn).1

/-! ## Instances -/

/-- `minstd_rand0` and `minstd_rand`. -/
example : LcgOk 32 16807 0 2147483647 := ⟨by decide, by decide, by decide, by decide, Or.inr ⟨by decide, by decide⟩⟩
example : lcgNext 32 16807 0 2147483647 1 = 16807 := by decide
/-- The wrapping, 32-bit, 64-bit and 128-bit branches. -/
example : LcgOk 32 1664525 1013904223 0 := ⟨by decide, by decide, by decide, by decide, Or.inl rfl⟩
example : lcgNext 32 5 3 1000 999 = 998 ∧ lcgNext 64 6364136223846793005 1 9223372036854775808 9223372036854775807
    = (6364136223846793005 * 9223372036854775807 + 1) % 9223372036854775808 := by decide
/-- The value the standard requires of the 10000th call of `minstd_rand0`. -/
example : lcgDiscard 32 16807 0 2147483647 10000 1 = 1043618065 := by
  rw [lcgDiscard, if_pos ⟨rfl, rfl⟩, minstdSkip_eq _ _ _ (by decide) (by decide)]
  decide +kernel

/-- `ranlux24_base` and `ranlux48_base`. -/
example : SwcP.Ok ⟨24, 10, 24⟩ 32 ∧ SwcP.Ok ⟨48, 5, 12⟩ 64 ∧ SwcP.Ok ⟨32, 1, 2⟩ 32 :=
  ⟨⟨by decide, by decide, by decide, by decide, by decide⟩, ⟨by decide, by decide, by decide, by decide, by decide⟩,
    ⟨by decide, by decide, by decide, by decide, by decide⟩⟩

/-- `mt19937`. -/
def mt19937 : MtP 32 :=
  ⟨32, 624, 397, 31, 0x9908b0df#32, 11, 0xffffffff#32, 7, 0x9d2c5680#32, 15, 0xefc60000#32, 18, 1812433253#32⟩

example : mt19937.Ok :=
  ⟨by decide, by decide, by decide, by decide, by decide, by decide, by decide, by decide, by decide, by decide,
    by decide, by decide, by decide, by decide⟩

/-- A reachable state, and one more call from it. -/
example : ∃ e x e', MtReach mt19937 e ∧ mt19937.next e = some (x, e') := by
  obtain ⟨e, _, _, h, _⟩ := C51_mt (p := mt19937) ⟨by decide, by decide, by decide, by decide, by decide, by decide,
    by decide, by decide, by decide, by decide, by decide, by decide, by decide, by decide⟩ 5489#32
    (List.replicate 1248 0#32) (List.length_replicate) 0
  have hr : MtReach mt19937 e := .seed _ _ _ (List.length_replicate) h
  obtain ⟨_, x, e', _, hn, _⟩ := C51_mt_next ⟨by decide, by decide, by decide, by decide, by decide, by decide,
    by decide, by decide, by decide, by decide, by decide, by decide, by decide, by decide⟩ hr
  exact ⟨e, x, e', hr, hn⟩

end STL.Engines
