import Verif.VBool.Bits

/-!
The paths of `_Copy_vbool`.
-/

namespace STL.VBool

theorem copyWords_moved (n : Nat) : ∀ (cnt s d : Nat) (m : Mem), s + cnt ≤ n → d + cnt ≤ n →
    (d ≤ s ∨ s + cnt ≤ d) → ∃ m', copyWords n cnt s d m = some m' ∧ Moved m m' (32 * s) (32 * d) (32 * cnt) := by
  intro cnt
  induction cnt with
  | zero => intro s d m _ _ _; exact ⟨m, rfl, Moved.refl _ _ _⟩
  | succ cnt ih =>
    intro s d m hs hd h
    obtain ⟨m', h1, h2⟩ := ih (s + 1) (d + 1) (upd m d (rdw m s)) (by omega) (by omega) (by omega)
    refine ⟨m', ?_, ?_⟩
    · simp only [copyWords, ld_eq m (show s < n by omega), st_eq m _ (show d < n by omega), Option.bind_some, h1]
    · refine Moved.chain' (a := 32) (b := 32 * cnt) (m1 := upd m d (rdw m s)) ?_ h2 (by omega) (by omega) (by omega) (by omega)
      intro i
      rw [bit_upd]
      split
      · rw [word_bit]; simp; omega
      · rfl

/-- Copy paths with everything in bits. -/
theorem copyAligned_moved (n : Nat) (m : Mem) (F fo L lo D : Nat) (hfo : fo < 32) (hlo : lo < 32) (hFL : F < L)
    (hl : 32 * L + lo ≤ 32 * n) (hd : 32 * (D + (L - F)) + lo ≤ 32 * n)
    (ho : 32 * D + fo ≤ 32 * F + fo ∨ 32 * L + lo ≤ 32 * D + fo) (fdm lsm : Word)
    (hfdm : ∀ k, fdm.getLsbD k = decide (k < fo)) (hlsm : ∀ k, lsm.getLsbD k = decide (k < lo)) :
    ∃ m', copyAligned n m ⟨F, fo⟩ ⟨L, lo⟩ ⟨D, fo⟩ (ones <<< fo) fdm lsm (ones <<< lo) = some m' ∧
      Moved m m' (32 * F + fo) (32 * D + fo) (32 * (L - F) + lo - fo) := by
  obtain ⟨c, rfl⟩ : ∃ c, L = F + 1 + c := ⟨L - (F + 1), by omega⟩
  let m1 := upd m D ((rdw m D &&& fdm) ||| (rdw m F &&& (ones <<< fo)))
  have h1 : Moved m m1 (32 * F + fo) (32 * D + fo) (32 - fo) := by
    intro i
    simp only [m1, bit_upd, BitVec.getLsbD_or, BitVec.getLsbD_and, hfdm, shl_bit, ones_bit, word_bit]
    by_cases c1 : i < 32 * D + fo <;> by_cases c2 : i < 32 * D + 32 <;> by_cases c3 : i < 32 * D <;> bitfin
  obtain ⟨m2, e2, h2⟩ := copyWords_moved n c (F + 1) (D + 1) m1 (by omega) (by omega) (by omega)
  have h12 : Moved m m2 (32 * F + fo) (32 * D + fo) (32 * (c + 1) - fo) :=
    h1.chain' h2 (by omega) (by omega) (by omega) (by omega)
  simp only [copyAligned, ld_eq m (show F < n by omega), ld_eq m (show D < n by omega),
    st_eq m _ (show D < n by omega), sub_eq (show F + 1 ≤ F + 1 + c by omega), bind, Option.bind_some]
  rw [show F + 1 + c - (F + 1) = c by omega, show F + 1 + c - F = c + 1 by omega]
  have e2' : copyWords n c (F + 1) (D + 1) (upd m D (rdw m D &&& fdm ||| rdw m F &&& ones <<< fo)) = some m2 := e2
  rw [e2']
  simp only [Option.bind_some]
  by_cases hz : lo = 0
  · rw [if_neg (by omega)]
    refine ⟨m2, rfl, ?_⟩
    rw [hz]; exact h12
  · rw [if_pos hz, ld_eq _ (by omega), ld_eq _ (by omega), Option.bind_some, Option.bind_some, st_eq _ _ (by omega)]
    refine ⟨_, rfl, ?_⟩
    refine h12.chain' (s' := 32 * (F + 1 + c)) (d' := 32 * (D + 1 + c)) (b := lo) ?_ (by omega) (by omega) (by omega) (by omega)
    intro i
    simp only [bit_upd, BitVec.getLsbD_or, BitVec.getLsbD_and, hlsm, shl_bit, ones_bit, word_bit]
    by_cases c1 : i < 32 * (D + 1 + c) + lo <;> by_cases c2 : i < 32 * (D + 1 + c) + 32 <;>
      by_cases c3 : i < 32 * (D + 1 + c) <;> bitfin

set_option maxHeartbeats 2000000 in
theorem copyOne_moved (n : Nat) (m : Mem) (F fo lo D o E eo : Nat) (hlo : lo < 32) (hfl : fo < lo) (hdo : o < 32)
    (heo : eo < 32) (he : 32 * E + eo = 32 * D + o + (lo - fo)) (hl : F < n) (hd : 32 * E + eo ≤ 32 * n)
    (ho : 32 * D + o ≤ 32 * F + fo ∨ 32 * F + lo ≤ 32 * D + o) (fsm fdm lsm ldm : Word)
    (hfsm : ∀ k, fsm.getLsbD k = (decide (k < 32) && decide (fo ≤ k)))
    (hfdm : ∀ k, fdm.getLsbD k = decide (k < o)) (hlsm : ∀ k, lsm.getLsbD k = decide (k < lo))
    (hldm : ∀ k, ldm.getLsbD k = (decide (k < 32) && decide (eo ≤ k))) :
    ∃ m', copyOne n m ⟨F, fo⟩ ⟨F, lo⟩ ⟨D, o⟩ ⟨E, eo⟩ fsm fdm lsm ldm (decide (o < fo))
        (decide (D + (if eo = 0 then 1 else 0) = E)) = some m' ∧
      Moved m m' (32 * F + fo) (32 * D + o) (lo - fo) := by
  have hDn : D < n := by omega
  by_cases hs : D + (if eo = 0 then 1 else 0) = E
  · have hs' : (eo = 0 ∧ E = D + 1) ∨ (eo ≠ 0 ∧ E = D) := by split at hs <;> omega
    have hdm : ∀ k, (if eo = 0 then (0#32) else ldm).getLsbD k = (decide (k < 32) && decide (eo ≠ 0) && decide (eo ≤ k)) := by
      intro k
      split
      · next h => simp [h]
      · next h => simp [h, hldm]
    by_cases hr : o < fo
    · simp only [copyOne, hr, hs, decide_true, if_true, sub_eq (show o ≤ fo by omega), shr_eq _ (show fo - o < 32 by omega),
        ld_eq m hl, ld_eq m hDn, st_eq m _ hDn, bind, Option.bind_some]
      refine ⟨_, rfl, ?_⟩
      intro i
      bitsimp [hfsm, hfdm, hlsm, hdm]
      by_cases c1 : i < 32 * D + o <;> by_cases c2 : i < 32 * D + 32 <;> by_cases c3 : i < 32 * D <;>
        by_cases c4 : i < 32 * D + o + (lo - fo) <;> by_cases c5 : eo = 0 <;> bitfin
    · simp only [copyOne, hr, hs, decide_true, decide_false, if_true, Bool.false_eq_true, if_false,
        sub_eq (show fo ≤ o by omega), shl_eq _ (show o - fo < 32 by omega),
        ld_eq m hl, ld_eq m hDn, st_eq m _ hDn, bind, Option.bind_some]
      refine ⟨_, rfl, ?_⟩
      intro i
      bitsimp [hfsm, hfdm, hlsm, hdm]
      by_cases c1 : i < 32 * D + o <;> by_cases c2 : i < 32 * D + 32 <;> by_cases c3 : i < 32 * D <;>
        by_cases c7 : i < 32 * D + (o - fo) <;> by_cases c4 : i < 32 * D + o + (lo - fo) <;> by_cases c5 : eo = 0 <;> bitfin
  · have hs' : E = D + 1 ∧ 0 < eo := by split at hs <;> omega
    have hr : ¬ o < fo := by omega
    simp only [copyOne, hr, hs, decide_true, decide_false, if_true, Bool.false_eq_true, if_false,
      sub_eq (show fo ≤ o by omega), shl_eq _ (show o - fo < 32 by omega), sub_eq (show eo ≤ lo by omega),
      shr_eq _ (show lo - eo < 32 by omega),
      ld_eq _ hl, ld_eq _ hDn, st_eq _ _ hDn, ld_eq _ (show D + 1 < n by omega), st_eq _ _ (show D + 1 < n by omega),
      bind, Option.bind_some]
    refine ⟨_, rfl, ?_⟩
    intro i
    bitsimp [hfsm, hfdm, hlsm, hldm]
    by_cases c3 : i < 32 * D
    · bitfin
    · by_cases c2 : i < 32 * D + 32
      · by_cases c1 : i < 32 * D + o
        · by_cases c7 : i < 32 * D + (o - fo) <;> bitfin
        · bitfin
      · by_cases c4 : i < 32 * D + o + (lo - fo)
        · by_cases c6 : F = D <;> by_cases c8 : o - fo ≤ lo - eo + (i - 32 * (D + 1)) <;> bitfin
        · by_cases c5 : i < 32 * (D + 1) + 32
          · by_cases c6 : F = D <;> bitfin
          · bitfin

set_option maxHeartbeats 2000000 in
theorem copyToOne_moved (n : Nat) (m : Mem) (F fo L lo D o E eo : Nat) (hfo : fo < 32) (hlo : lo < 32) (hFL : F < L)
    (hdo : o < 32) (heo : eo < 32) (he : 32 * E + eo = 32 * D + o + (32 * L + lo - (32 * F + fo)))
    (hl : 32 * L + lo ≤ 32 * n) (hd : 32 * E + eo ≤ 32 * n) (hs : D + (if eo = 0 then 1 else 0) = E)
    (ho : 32 * D + o ≤ 32 * F + fo ∨ 32 * L + lo ≤ 32 * D + o) (fsm fdm lsm ldm : Word)
    (hfsm : ∀ k, fsm.getLsbD k = (decide (k < 32) && decide (fo ≤ k)))
    (hfdm : ∀ k, fdm.getLsbD k = decide (k < o)) (hlsm : ∀ k, lsm.getLsbD k = decide (k < lo))
    (hldm : ∀ k, ldm.getLsbD k = (decide (k < 32) && decide (eo ≤ k))) :
    ∃ m', copyToOne n m ⟨F, fo⟩ ⟨L, lo⟩ ⟨D, o⟩ ⟨E, eo⟩ fsm fdm lsm ldm (decide (o < fo)) = some m' ∧
      Moved m m' (32 * F + fo) (32 * D + o) (32 * L + lo - (32 * F + fo)) := by
  have hs' : (eo = 0 ∧ E = D + 1) ∨ (eo ≠ 0 ∧ E = D) := by split at hs <;> omega
  have hDn : D < n := by omega
  have hL1 : L = F + 1 := by omega
  subst hL1
  by_cases hr : o < fo <;> by_cases hz : lo = 0 <;> by_cases c5 : eo = 0
  all_goals
    run [copyToOne]
    refine ⟨_, rfl, ?_⟩
    intro i
    bitsimp [hfdm, hldm, hlsm, hfsm, BitVec.getLsbD_zero]
    by_cases c3 : i < 32 * D
    · bitfin
    · by_cases c2 : i < 32 * D + 32
      · by_cases c1 : i < 32 * D + o
        · by_cases c7 : i < 32 * D + (o - fo) <;> by_cases c8 : i < 32 * D + (eo - lo) <;> bitfin
        · by_cases c4 : i < 32 * E + eo <;> by_cases c6 : i + fo < 32 * D + 32 + o <;>
            by_cases c8 : i < 32 * D + (eo - lo) <;> bitfin
      · bitfin

end STL.VBool
