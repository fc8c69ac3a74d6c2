import Verif.Adaptors.SeedSeq
import Verif.Adaptors.Ibe
import Verif.Adaptors.Canon
import Mathlib.Algebra.BigOperators.Fin
import Mathlib.Order.Interval.Finset.Nat

/-!
# C52: seed sequences, engine adaptors and generate_canonical follow the standard

`Spec.lean` has the algorithms of the standard. `none` in the model stands for undefined behaviour, or for an engine
that gives no further values.
-/

namespace STL.Adaptors

/-! ## seed_seq -/

/-- **C52.** `seed_seq::generate` into a range of `n` elements of 32 or 64 bits writes exactly the words that the
standard defines, whatever the range held before, and does not leave the range. -/
theorem C52_seed_seq {V : Nat} (hV : V = 32 ∨ V = 64) {v : List Nat} (hv : v.length < 2 ^ 62)
    (hvs : ∀ z ∈ v, z < 2 ^ 32) {old : List Nat} (ho : old.length < 2 ^ 62) :
    ssGenerate V v old = some (stdGenerate v old.length) := generate_eq hV hv hvs ho

/-- **C52.** In particular as many words as asked for, each of 32 bits: what the engines rely on (C51). -/
theorem C52_seed_seq_words {V : Nat} (hV : V = 32 ∨ V = 64) {v : List Nat} (hv : v.length < 2 ^ 62)
    (hvs : ∀ z ∈ v, z < 2 ^ 32) {old : List Nat} (ho : old.length < 2 ^ 62) :
    ∃ a, ssGenerate V v old = some a ∧ a.length = old.length ∧ ∀ z ∈ a, z < 2 ^ 32 := by
  refine ⟨_, generate_eq hV hv hvs ho, ?_, ?_⟩
  · unfold stdGenerate
    simp
  · intro z hz
    unfold stdGenerate at hz
    obtain ⟨i, _, rfl⟩ := List.mem_map.1 hz
    exact BitVec.isLt _

/-- The example of the documentation: `seed_seq{1,2,3,4,5}` and ten words. -/
example : ssGenerate 32 [1, 2, 3, 4, 5] (List.replicate 10 0) = some [4204997637, 4246533866, 1856049002, 1129615051,
    690460811, 1075771511, 46783058, 3904109078, 1534123438, 1495905678] := by decide +kernel

example : stdGenerate [1, 2, 3, 4, 5] 10 = [4204997637, 4246533866, 1856049002, 1129615051,
    690460811, 1075771511, 46783058, 3904109078, 1534123438, 1495905678] := by decide +kernel

/-! ## discard_block_engine -/

section dbe
variable {σ α : Type _} (step : σ → α × σ)

/-- The state of the base engine after `i` calls. -/
def baseState (e : σ) (i : Nat) : σ := (fun s => (step s).2)^[i] e
/-- The `i`-th value of the base engine (from 0). -/
def baseOut (e : σ) (i : Nat) : α := (step (baseState step e i)).1

theorem baseState_succ (e : σ) (i : Nat) : (step (baseState step e i)).2 = baseState step e (i + 1) := by
  unfold baseState
  rw [Function.iterate_succ_apply']

theorem dbeSkip_eq {P : Nat} (hP : P ≠ 2147483647) (e0 : σ) : ∀ (m nx i : Nat), P - nx = m → nx ≤ P →
    dbeSkip step P nx (baseState step e0 i) = some (baseState step e0 (i + (P - nx)))
  | 0, nx, i, h, hn => by
    unfold dbeSkip
    rw [if_neg (by omega), if_neg (by omega), h, Nat.add_zero]
  | m + 1, nx, i, h, hn => by
    unfold dbeSkip
    rw [if_neg (by omega), if_pos (by omega), baseState_succ, dbeSkip_eq hP e0 m (nx + 1) (i + 1) (by omega) (by omega)]
    congr 2
    omega

/-- The number of calls of the base engine made by `k` calls of the adaptor. -/
def dbeCalls (P R k : Nat) : Nat := if k = 0 then 0 else (k - 1) / R * P + (k - 1) % R + 1

/-- The state after `k` calls. -/
def dbeAt (P R : Nat) (e0 : σ) (k : Nat) : Dbe σ :=
  ⟨baseState step e0 (dbeCalls P R k), if k = 0 then 0 else (k - 1) % R + 1⟩

theorem dbe_next {P R : Nat} (hR : 0 < R) (hRP : R ≤ P) (hP : P ≠ 2147483647) (e0 : σ) (k : Nat) :
    (dbeAt step P R e0 k).next step P R =
      some (baseOut step e0 (k / R * P + k % R), dbeAt step P R e0 (k + 1)) := by
  have hkey : ∃ d, (if R ≤ (dbeAt step P R e0 k).nx
        then (dbeSkip step P (dbeAt step P R e0 k).nx (dbeAt step P R e0 k).eng).map fun e => (⟨e, 0⟩ : Dbe σ)
        else some (dbeAt step P R e0 k)) = some d ∧
      d.eng = baseState step e0 (k / R * P + k % R) ∧ d.nx = k % R := by
    by_cases hk : k = 0
    · subst hk
      refine ⟨_, if_neg ?_, ?_, ?_⟩
      · simp [dbeAt]; omega
      · simp [dbeAt, dbeCalls]
      · simp [dbeAt]
    · have hm := Nat.mod_lt (k - 1) hR
      have hd := Nat.div_add_mod (k - 1) R
      have hnx : (dbeAt step P R e0 k).nx = (k - 1) % R + 1 := by simp [dbeAt, hk]
      have heng : (dbeAt step P R e0 k).eng = baseState step e0 ((k - 1) / R * P + (k - 1) % R + 1) := by
        simp [dbeAt, dbeCalls, hk]
      rw [hnx, heng]
      by_cases hfull : R ≤ (k - 1) % R + 1
      · have he : (k - 1) % R + 1 = R := by omega
        have hk2 : k = R * ((k - 1) / R + 1) := by
          rw [Nat.mul_add]
          omega
        have hkd : k / R = (k - 1) / R + 1 := by
          conv_lhs => rw [hk2]
          exact Nat.mul_div_cancel_left _ hR
        have hkm : k % R = 0 := by
          rw [hk2]
          exact Nat.mul_mod_right _ _
        rw [if_pos hfull, dbeSkip_eq step hP e0 _ _ _ rfl (by omega), Option.map_some]
        refine ⟨_, rfl, ?_, ?_⟩
        · rw [hkd, hkm]
          simp only []
          congr 1
          rw [Nat.add_mul]
          omega
        · rw [hkm]
      · rw [if_neg hfull]
        have hkd : k / R = (k - 1) / R ∧ k % R = (k - 1) % R + 1 := by
          have e : k = (k - 1) % R + 1 + R * ((k - 1) / R) := by omega
          constructor
          · conv_lhs => rw [e]
            rw [Nat.add_mul_div_left _ _ hR, Nat.div_eq_of_lt (by omega), Nat.zero_add]
          · conv_lhs => rw [e]
            rw [Nat.add_mul_mod_self_left, Nat.mod_eq_of_lt (by omega)]
        refine ⟨_, rfl, ?_, ?_⟩
        · rw [heng, hkd.1, hkd.2]
          rfl
        · rw [hnx, hkd.2]
  obtain ⟨d, h1, h2, h3⟩ := hkey
  unfold Dbe.next
  rw [h1, Option.map_some, h2, h3]
  congr 2
  unfold dbeAt dbeCalls
  simp [baseState_succ]

theorem dbe_run {P R : Nat} (hR : 0 < R) (hRP : R ≤ P) (hP : P ≠ 2147483647) (e0 : σ) : ∀ (k i : Nat),
    Dbe.run step P R k (dbeAt step P R e0 i) =
      some ((List.range' i k).map fun j => baseOut step e0 (j / R * P + j % R), dbeAt step P R e0 (i + k))
  | 0, i => rfl
  | k + 1, i => by
    unfold Dbe.run
    rw [dbe_next step hR hRP hP]
    simp only [Option.bind_some]
    rw [dbe_run hR hRP hP e0 k (i + 1), Option.map_some, List.range'_succ, List.map_cons]
    rw [show i + 1 + k = i + (k + 1) by omega]

/-- **C52.** `discard_block_engine<E, P, R>` gives the first `R` values of each block of `P` values of `E`, and has then
called `E` no further than that. (`P = INT_MAX` is left out: see below.) -/
theorem C52_discard_block {P R : Nat} (hR : 0 < R) (hRP : R ≤ P) (hP : P ≠ 2147483647) (e0 : σ) (k : Nat) :
    ∃ d, Dbe.run step P R k ⟨e0, 0⟩ = some ((List.range k).map fun j => baseOut step e0 (j / R * P + j % R), d) ∧
      d.eng = baseState step e0 (if k = 0 then 0 else (k - 1) / R * P + (k - 1) % R + 1) := by
  have := dbe_run step hR hRP hP e0 k 0
  rw [Nat.zero_add, ← List.range_eq_range'] at this
  exact ⟨_, this, rfl⟩

/-- For `P = INT_MAX` the counter, an `int`, is incremented past `INT_MAX` at the end of the first block. -/
theorem dbe_intmax (R : Nat) (hR : R ≤ 2147483647) (e : σ) :
    (⟨e, R⟩ : Dbe σ).next step 2147483647 R = none := by
  have h : ∀ (m nx : Nat) (e : σ), 2147483647 - nx = m → nx ≤ 2147483647 → dbeSkip step 2147483647 nx e = none := by
    intro m
    induction m with
    | zero =>
      intro nx e h1 h2
      unfold dbeSkip
      rw [if_pos (by omega)]
    | succ m ih =>
      intro nx e h1 h2
      unfold dbeSkip
      rw [if_neg (by omega), if_pos (by omega)]
      exact ih _ _ (by omega) (by omega)
  unfold Dbe.next
  simp only [Nat.le_refl, if_true]
  rw [h _ R e rfl hR]
  rfl

end dbe

/-- `discard_block_engine<E, 3, 2>` on an engine that counts. -/
example : (Dbe.run (fun n : Nat => (n, n + 1)) 3 2 5 ⟨0, 0⟩).map (·.1) = some [0, 1, 3, 4, 6] := by decide +kernel

/-! ## independent_bits_engine -/

/-- **C52.** `independent_bits_engine<E, w, UInt>` computes what the standard defines, for every base engine: `R` is the
number of values of the engine, `L` the values (minus the minimum) that it will give; both sides use up the same values.
`D` and `Eb` are the digits of `UInt` and of the engine's type. (`R = 3` with `w ≥ 3` is left out: see below.) -/
theorem C52_independent_bits {D Eb w R : Nat} (hD : 2 ≤ D) (hw : 0 < w) (hwD : w ≤ D) (hE : 0 < Eb) (hR : 2 ≤ R)
    (hR2 : R ≤ 2 ^ Eb) (h3 : R ≠ 3 ∨ w ≤ 2) (L : List Nat) :
    (ibeInit Eb w (R - 1)).next D L = stdIbits w R L := ibe_next_eq hD hw hwD hE hR hR2 h3 L

/-- **C52.** A result has `w` bits, and a call returns if the engine gives its minimum often enough: no engine makes it
wait for a value that does not exist. -/
theorem C52_independent_bits_range {D Eb w R : Nat} (hD : 2 ≤ D) (hw : 0 < w) (hwD : w ≤ D) (hE : 0 < Eb) (hR : 2 ≤ R)
    (hR2 : R ≤ 2 ^ Eb) (h3 : R ≠ 3 ∨ w ≤ 2) (L : List Nat) :
    (∀ x rest, (ibeInit Eb w (R - 1)).next D L = some (x, rest) → x < 2 ^ w) ∧
    (w + 1 ≤ L.count 0 → ∃ r, (ibeInit Eb w (R - 1)).next D L = some r) := by
  rw [ibe_next_eq hD hw hwD hE hR hR2 h3]
  constructor
  · intro x rest h
    exact ibits_lt hw hR h
  · intro h
    apply ibits_ends hw hR
    have h1 := w0_pos hw hR h3
    have h2 : stdN w R ≤ w := by
      by_contra hc
      rw [Nat.div_eq_of_lt (by omega)] at h1
      omega
    omega

/-- An engine with three values and three or more bits: the code shifts by `size_t(0) - 1`, for whatever values. The
standard defines the result (`w0 = 0`, one draw is thrown away). -/
theorem ibe_three {D E w : Nat} (hE : 2 ≤ E) (hw : 3 ≤ w) (L : List Nat) : (ibeInit E w 2).next D L = none :=
  ibe_ub hE hw L

example : (stdIbits 3 3 [2, 1, 0, 1]).map (·.1) = some 5 := by decide +kernel

/-- 48 bits of `minstd_rand`: two draws. -/
example : (ibeInit 32 48 (2 ^ 31 - 3)).next 64 [5, 2147483645, 6, 7] = some (5 * 2 ^ 24 + 6, [7]) := by decide +kernel
example : stdIbits 48 (2 ^ 31 - 2) [5, 2147483645, 6, 7] = some (5 * 2 ^ 24 + 6, [7]) := by decide +kernel

/-! ## generate_canonical -/

/-- **C52.** `generate_canonical<Real, bits>(g)` returns `n / 2^d` (exactly representable, as `n < 2^d` and
`d = min(digits, bits)`) where `n` is what the standard defines: with `R` the number of values of `g`, `k` the least
number with `2^d ≤ R^k` and `x = ⌊R^k / 2^d⌋`, the values are taken in groups of `k`, giving `S = Σ g_i R^i`; groups with
`S ≥ x * 2^d` are rejected, and the first other one gives `n = ⌊S / x⌋`. Both sides use up the same values. -/
theorem C52_canonical {digits bits R k : Nat} (hd : digits ≤ 64) (hR : 2 ≤ R) (hR2 : R ≤ 2 ^ 64) {L : List Nat}
    (hg : ∀ g ∈ L, g < R) (hk1 : 2 ^ min digits bits ≤ R ^ k) (hk2 : ∀ j, 2 ^ min digits bits ≤ R ^ j → k ≤ j)
    (n : Nat) (rest : List Nat) :
    let d := min digits bits
    let x := R ^ k / 2 ^ d
    let S := fun i => stdS R ((L.drop (i * k)).take k)
    generateCanonical digits bits (R - 1) L = some (n, rest) ↔
      ∃ j, (j + 1) * k ≤ L.length ∧ (∀ i, i < j → x * 2 ^ d ≤ S i) ∧ S j < x * 2 ^ d ∧ n = S j / x ∧
        rest = L.drop ((j + 1) * k) :=
  canonical_iff hd hR hR2 hg ⟨hk1, hk2⟩ n rest

/-- **C52.** The result is in `[0, 1)`. -/
theorem C52_canonical_range {digits bits R : Nat} (hd : digits ≤ 64) (hR : 2 ≤ R) (hR2 : R ≤ 2 ^ 64) {L : List Nat}
    (hg : ∀ g ∈ L, g < R) {n : Nat} {rest : List Nat}
    (h : generateCanonical digits bits (R - 1) L = some (n, rest)) : n < 2 ^ min digits bits := by
  have hex : ∃ k, 2 ^ min digits bits ≤ R ^ k := ⟨_, Nat.pow_le_pow_left hR _⟩
  classical
  have hk1 := Nat.find_spec hex
  have hk2 : ∀ j, 2 ^ min digits bits ≤ R ^ j → Nat.find hex ≤ j := fun j hj => Nat.find_min' hex hj
  obtain ⟨j, _, _, h3, h4, _⟩ := (canonical_iff hd hR hR2 hg ⟨hk1, hk2⟩ n rest).1 h
  rw [h4]
  exact Nat.div_lt_of_lt_mul h3

theorem stdS_ofFn {R : Nat} : ∀ {k : Nat} (t : Fin k → Fin R),
    stdS R (List.ofFn fun i => (t i).val) = ∑ i : Fin k, (t i).val * R ^ (i : Nat)
  | 0, t => by simp [stdS]
  | k + 1, t => by
    rw [List.ofFn_succ, Fin.sum_univ_succ]
    unfold stdS
    rw [stdS_ofFn (fun i => t i.succ), Finset.mul_sum]
    congr 1
    · simp
    · apply Finset.sum_congr rfl
      intro i _
      rw [Fin.val_succ, Nat.pow_succ]
      ring

/-- **C52.** No result is preferred: if all groups of `k` values of the generator are equally likely, so are all results,
because each `n < 2^d` comes from exactly `x` of the groups that are not rejected. -/
theorem C52_canonical_uniform {d R k n : Nat} (hge : 2 ^ d ≤ R ^ k) (hn : n < 2 ^ d) :
    let x := R ^ k / 2 ^ d
    let S := fun t : Fin k → Fin R => stdS R (List.ofFn fun i => (t i).val)
    (Finset.univ.filter fun t : Fin k → Fin R => S t < x * 2 ^ d ∧ S t / x = n).card = x := by
  intro x S
  have hx : 0 < x := Nat.div_pos hge (Nat.pow_pos (by decide))
  have hxd : x * 2 ^ d ≤ R ^ k := Nat.div_mul_le_self _ _
  have hS : ∀ t, S t = (finFunctionFinEquiv t : Fin (R ^ k)).val := by
    intro t
    rw [finFunctionFinEquiv_apply]
    exact stdS_ofFn t
  have hcard : (Finset.Ico (n * x) (n * x + x)).card = x := by
    rw [Nat.card_Ico]; omega
  refine Eq.trans ?_ hcard
  apply Finset.card_bij (fun t _ => S t)
  · intro t ht
    obtain ⟨_, h1, h2⟩ := Finset.mem_filter.1 ht
    rw [Finset.mem_Ico]
    have h3 := Nat.div_add_mod (S t) x
    have h4 := Nat.mod_lt (S t) hx
    rw [h2, Nat.mul_comm] at h3
    omega
  · intro a _ b _ hab
    simp only [hS] at hab
    exact finFunctionFinEquiv.injective (Fin.ext hab)
  · intro s hs
    rw [Finset.mem_Ico] at hs
    have hlt : s < x * 2 ^ d := by
      have : (n + 1) * x ≤ 2 ^ d * x := Nat.mul_le_mul_right _ hn
      rw [Nat.add_mul, Nat.one_mul, Nat.mul_comm (2 ^ d)] at this
      omega
    refine ⟨finFunctionFinEquiv.symm ⟨s, by omega⟩, ?_, ?_⟩
    · rw [Finset.mem_filter]
      refine ⟨Finset.mem_univ _, ?_⟩
      rw [hS, Equiv.apply_symm_apply]
      refine ⟨hlt, ?_⟩
      show s / x = n
      rw [Nat.div_eq_iff hx]
      omega
    · rw [hS, Equiv.apply_symm_apply]

/-- `double` from `mt19937`: two draws, no rejection; `double` from `minstd_rand`: two draws. -/
example : generateCanonical 53 53 (2 ^ 32 - 1) [5, 6, 7] = some (12582912, [7]) := by decide +kernel
example : (2 : Nat) ^ min 53 53 ≤ (2 ^ 32) ^ 2 ∧ ¬ (2 : Nat) ^ min 53 53 ≤ (2 ^ 32) ^ 1 := by decide
/-- A group that is rejected: `R = 3`, `d = 1`, so `k = 1`, `x = 1`, and 2 is rejected. -/
example : generateCanonical 24 1 2 [2, 2, 1, 0] = some (1, [0]) := by decide +kernel

end STL.Adaptors
