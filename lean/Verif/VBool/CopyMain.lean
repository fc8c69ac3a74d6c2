import Verif.VBool.Copy
import Verif.VBool.CopyShift
import Verif.VBool.CopyBytes

/-!
`_Copy_vbool` and `_Fill_vbool` on all ranges.
-/

namespace STL.VBool

theorem lowMask (o : Nat) (ho : o < 32) :
    ∃ w : Word, lowBits o = some w ∧ ∀ k, w.getLsbD k = decide (k < o) := by
  unfold lowBits
  by_cases h : o = 0
  · refine ⟨0#32, by simp [h], ?_⟩
    intro k; simp [h]
  · refine ⟨ones >>> (32 - o), ?_, ?_⟩
    · rw [if_neg h, sub_eq (by omega), Option.bind_some, shr_eq _ (by omega)]
    · intro k
      bitsimp []
      by_cases c : k < o <;> bitfin

theorem highMask (o : Nat) (k : Nat) : (ones <<< o).getLsbD k = (decide (k < 32) && decide (o ≤ k)) := by
  bitsimp []
  by_cases c : k < 32 <;> by_cases c2 : o ≤ k <;> bitfin

theorem diff_mk (L lo F fo : Nat) : It.diff ⟨L, lo⟩ ⟨F, fo⟩ = 32 * L + lo - (32 * F + fo) := rfl

theorem copyVb_moved (ce : Bool) (n : Nat) (m : Mem) (f l d : Nat) (hfl : f ≤ l) (hl : l ≤ 32 * n)
    (hd : d + (l - f) ≤ 32 * n) (ho : d ≤ f ∨ l ≤ d) :
    ∃ m', copyVb ce n m (It.at f) (It.at l) (It.at d) = some m' ∧ Moved m m' f d (l - f) := by
  obtain ⟨F, fo, hf, hfo⟩ : ∃ F fo, f = 32 * F + fo ∧ fo < 32 := ⟨f / 32, f % 32, by omega, by omega⟩
  obtain ⟨L, lo, hl', hlo⟩ : ∃ F fo, l = 32 * F + fo ∧ fo < 32 := ⟨l / 32, l % 32, by omega, by omega⟩
  obtain ⟨D, o, hd', hdo⟩ : ∃ F fo, d = 32 * F + fo ∧ fo < 32 := ⟨d / 32, d % 32, by omega, by omega⟩
  obtain ⟨E, eo, he', heo⟩ : ∃ F fo, d + (l - f) = 32 * F + fo ∧ fo < 32 :=
    ⟨(d + (l - f)) / 32, (d + (l - f)) % 32, by omega, by omega⟩
  subst hf hl' hd'
  rw [at_mk _ _ hfo, at_mk _ _ hlo, at_mk _ _ hdo]
  unfold copyVb
  by_cases hz : 32 * F + fo = 32 * L + lo
  · have : F = L ∧ fo = lo := by omega
    obtain ⟨rfl, rfl⟩ := this
    refine ⟨m, by simp, ?_⟩
    rw [Nat.sub_self]; exact Moved.refl _ _ _
  · rw [if_neg (by intro h; injection h with h1 h2; omega)]
    have he2 : It.add ⟨D, o⟩ (It.diff ⟨L, lo⟩ ⟨F, fo⟩) = ⟨E, eo⟩ := by
      rw [diff_mk]
      simp only [It.add]
      congr 1 <;> omega
    rw [he2]
    obtain ⟨fdm, e1, hfdm⟩ := lowMask o hdo
    obtain ⟨lsm, e2, hlsm⟩ := lowMask lo hlo
    simp only [e1, e2, shl_eq _ hfo, shl_eq _ heo, bind, Option.bind_some]
    have hfsm := highMask fo
    have hldm := highMask eo
    by_cases hFL : F = L
    · subst hFL
      rw [if_pos rfl]
      have := copyOne_moved n m F fo lo D o E eo hlo (by omega) hdo heo (by omega) (by omega) (by omega) (by omega)
        _ _ _ _ hfsm hfdm hlsm hldm
      rw [show 32 * F + lo - (32 * F + fo) = lo - fo by omega]
      exact this
    · rw [if_neg hFL]
      by_cases hs : D + (if eo = 0 then 1 else 0) = E
      · simp only [hs, decide_true, if_true]
        exact copyToOne_moved n m F fo L lo D o E eo hfo hlo (by omega) hdo heo (by omega) (by omega) (by omega) hs
          (by omega) _ _ _ _ hfsm hfdm hlsm hldm
      · simp only [hs, decide_false, Bool.false_eq_true, if_false]
        have hmulti : 32 * D + 32 < 32 * E + eo := by split at hs <;> omega
        by_cases ha : ce = true ∧ o = fo
        · rw [if_pos ha]
          obtain ⟨_, rfl⟩ := ha
          have heq : eo = lo := by omega
          subst heq
          have := copyAligned_moved n m F o L eo D hfo hlo (by omega) (by omega) (by omega) (by omega) _ _ hfdm hlsm
          rw [show 32 * L + eo - (32 * F + o) = 32 * (L - F) + eo - o by omega]
          exact this
        · rw [if_neg ha]
          by_cases hb : ce = false ∧ fo % 8 = o % 8
          · rw [if_pos hb]
            exact copyBytes_moved n m F fo L lo D o hfo hlo (by omega) hdo hb.2 (by omega) (by omega) (by omega)
          · rw [if_neg hb]
            have hne : o ≠ fo := by
              intro h
              subst h
              cases ce <;> simp at ha hb
            by_cases hr : o < fo
            · simp only [hr, decide_true, if_true]
              exact copyRight_moved n m F fo L lo D o E eo hfo hlo (by omega) hr heo (by omega) (by omega) (by omega) hmulti
                (by omega) _ _ _ _ hfsm hfdm hlsm hldm
            · simp only [hr, decide_false, Bool.false_eq_true, if_false]
              exact copyLeft_moved n m F fo L lo D o E eo hlo (by omega) (by omega) hdo heo (by omega) (by omega) (by omega)
                (by omega) _ _ _ _ hfsm hfdm hlsm hldm

/-- The bits from `a` to `b` have the value. -/
def Filled (m m' : Mem) (a b : Nat) (val : Bool) : Prop :=
  ∀ i, bit m' i = if a ≤ i ∧ i < b then val else bit m i

theorem fv_bit (val : Bool) (k : Nat) : (if val = true then ones else 0#32).getLsbD k = (decide (k < 32) && val) := by
  cases val <;> simp [ones_bit]

theorem setWords_filled (n : Nat) (val : Bool) : ∀ (cnt p : Nat) (m : Mem), p + cnt ≤ n →
    ∃ m', setWords n (if val = true then ones else 0#32) cnt p m = some m' ∧ Filled m m' (32 * p) (32 * (p + cnt)) val := by
  intro cnt
  induction cnt with
  | zero => intro p m _; exact ⟨m, rfl, fun i => by rw [if_neg (by omega)]⟩
  | succ cnt ih =>
    intro p m h
    obtain ⟨m', e, hm⟩ := ih (p + 1) (upd m p (if val = true then ones else 0#32)) (by omega)
    refine ⟨m', ?_, ?_⟩
    · rw [setWords, st_eq _ _ (by omega), Option.bind_some, e]
    · intro i
      rw [hm i, bit_upd, fv_bit]
      by_cases c1 : i < 32 * p
      · bitfin
      · by_cases c2 : i < 32 * p + 32
        · bitfin
        · by_cases c3 : i < 32 * (p + (cnt + 1)) <;> bitfin

theorem fillVb_filled (n : Nat) (m : Mem) (a b : Nat) (val : Bool) (hab : a ≤ b) (hb : b ≤ 32 * n) :
    ∃ m', fillVb n m (It.at a) (It.at b) val = some m' ∧ Filled m m' a b val := by
  obtain ⟨F, fo, hf, hfo⟩ : ∃ F fo, a = 32 * F + fo ∧ fo < 32 := ⟨a / 32, a % 32, by omega, by omega⟩
  obtain ⟨L, lo, hl', hlo⟩ : ∃ F fo, b = 32 * F + fo ∧ fo < 32 := ⟨b / 32, b % 32, by omega, by omega⟩
  subst hf hl'
  rw [at_mk _ _ hfo, at_mk _ _ hlo]
  unfold fillVb
  by_cases hz : 32 * F + fo = 32 * L + lo
  · have : F = L ∧ fo = lo := by omega
    obtain ⟨rfl, rfl⟩ := this
    exact ⟨m, by simp, fun i => by rw [if_neg (by omega)]⟩
  · rw [if_neg (by intro h; injection h with h1 h2; omega)]
    by_cases hFL : F = L
    · subst hFL
      run []
      refine ⟨_, rfl, ?_⟩
      intro i
      bitsimp [fv_bit]
      by_cases c1 : i < 32 * F
      · bitfin
      · by_cases c2 : i < 32 * F + fo
        · bitfin
        · by_cases c3 : i < 32 * F + lo
          · bitfin
          · by_cases c4 : i < 32 * F + 32 <;> bitfin
    · have h1 : Filled m (upd m F ((rdw m F &&& ~~~(ones <<< fo)) ||| ((if val = true then ones else 0#32) &&& (ones <<< fo))))
          (32 * F + fo) (32 * F + 32) val := by
        intro i
        bitsimp [fv_bit]
        by_cases c1 : i < 32 * F
        · bitfin
        · by_cases c2 : i < 32 * F + fo
          · bitfin
          · by_cases c4 : i < 32 * F + 32 <;> bitfin
      obtain ⟨m2, e2, h2⟩ := setWords_filled n val (L - (F + 1)) (F + 1)
        (upd m F ((rdw m F &&& ~~~(ones <<< fo)) ||| ((if val = true then ones else 0#32) &&& (ones <<< fo)))) (by omega)
      run []
      rw [e2]
      simp only [Option.bind_some]
      by_cases hlz : lo = 0
      · run []
        refine ⟨m2, rfl, ?_⟩
        intro i
        rw [h2 i, h1 i]
        by_cases c1 : i < 32 * F + fo
        · bitfin
        · by_cases c2 : i < 32 * F + 32
          · bitfin
          · by_cases c3 : i < 32 * L <;> bitfin
      · run []
        refine ⟨_, rfl, ?_⟩
        intro i
        bitsimp [fv_bit]
        simp only [h2 _, h1 _]
        by_cases c1 : i < 32 * F + fo
        · bitfin
        · by_cases c2 : i < 32 * F + 32
          · bitfin
          · by_cases c3 : i < 32 * L
            · bitfin
            · by_cases c4 : i < 32 * L + lo
              · bitfin
              · by_cases c5 : i < 32 * L + 32 <;> bitfin

end STL.VBool
