import Verif.VBool.Bits

/-!
The shifting paths of `_Copy_vbool`.
-/

namespace STL.VBool

theorem rightLoop_moved (n s : Nat) (hs : 1 ≤ s) (hs' : s < 32) (cm : Word)
    (hcm : ∀ j, cm.getLsbD j = decide (j < 32 - s)) :
    ∀ (cnt sp dp : Nat) (m : Mem), sp + cnt ≤ n → dp + cnt < n → (dp < sp ∨ sp + cnt ≤ dp) →
    ∃ m', rightLoop n s (32 - s) cm cnt sp dp m = some m' ∧
      Moved m m' (32 * sp) (32 * dp + (32 - s)) (32 * cnt) := by
  intro cnt
  induction cnt with
  | zero => intro sp dp m _ _ _; exact ⟨m, rfl, Moved.refl _ _ _⟩
  | succ cnt ih =>
    intro sp dp m h1 h2 h3
    run [rightLoop]
    obtain ⟨m', e, hm⟩ := ih (sp + 1) (dp + 1) _ (by omega) (by omega) (by omega)
    refine ⟨m', e, ?_⟩
    refine Moved.chain' (a := 32) ?_ hm (by omega) (by omega) (by omega) (by omega)
    intro i
    bitsimp [hcm]
    by_cases c1 : i < 32 * dp
    · bitfin
    · by_cases c2 : i < 32 * dp + (32 - s)
      · bitfin
      · by_cases c3 : i < 32 * dp + 32
        · bitfin
        · by_cases c4 : i < 32 * dp + 32 + (32 - s)
          · bitfin
          · by_cases c5 : i < 32 * dp + 64 <;> bitfin

set_option maxHeartbeats 2000000 in
theorem copyRight_moved (n : Nat) (m : Mem) (F fo L lo D o E eo : Nat) (hfo : fo < 32) (hlo : lo < 32) (hFL : F < L)
    (hdo : o < fo) (heo : eo < 32) (he : 32 * E + eo = 32 * D + o + (32 * L + lo - (32 * F + fo)))
    (hl : 32 * L + lo ≤ 32 * n) (hd : 32 * E + eo ≤ 32 * n) (hs : 32 * D + 32 < 32 * E + eo)
    (ho : 32 * D + o ≤ 32 * F + fo ∨ 32 * L + lo ≤ 32 * D + o) (fsm fdm lsm ldm : Word)
    (hfsm : ∀ k, fsm.getLsbD k = (decide (k < 32) && decide (fo ≤ k)))
    (hfdm : ∀ k, fdm.getLsbD k = decide (k < o)) (hlsm : ∀ k, lsm.getLsbD k = decide (k < lo))
    (hldm : ∀ k, ldm.getLsbD k = (decide (k < 32) && decide (eo ≤ k))) :
    ∃ m', copyRight n m ⟨F, fo⟩ ⟨L, lo⟩ ⟨D, o⟩ fsm fdm lsm ldm = some m' ∧
      Moved m m' (32 * F + fo) (32 * D + o) (32 * L + lo - (32 * F + fo)) := by
  obtain ⟨c, rfl⟩ : ∃ c, L = F + 1 + c := ⟨L - (F + 1), by omega⟩
  have hcm : ∀ j, (ones >>> (fo - o)).getLsbD j = decide (j < 32 - (fo - o)) := by
    intro j
    bitsimp []
    by_cases c1 : j < 32 - (fo - o) <;> bitfin
  have h1 : MovedG m (upd m D ((rdw m D &&& fdm) ||| (rdw m F &&& fsm) >>> (fo - o))) (32 * F + fo) (32 * D + o) (32 - fo)
      (fo - o) := by
    intro i hi
    bitsimp [hfsm, hfdm]
    by_cases c1 : i < 32 * D
    · bitfin
    · by_cases c2 : i < 32 * D + o
      · bitfin
      · by_cases c3 : i < 32 * D + o + (32 - fo) <;> by_cases c4 : i < 32 * D + 32 <;> bitfin
  obtain ⟨m2, e2, h2⟩ := rightLoop_moved n (fo - o) (by omega) (by omega) _ hcm c (F + 1) D
    (upd m D ((rdw m D &&& fdm) ||| (rdw m F &&& fsm) >>> (fo - o))) (by omega) (by omega) (by omega)
  have hlast : ∀ r, 32 * (c + 1) + lo - fo = (32 - fo) + r → fo - o ≤ r → ∀ m', 
      Moved (upd m D ((rdw m D &&& fdm) ||| (rdw m F &&& fsm) >>> (fo - o))) m' (32 * (F + 1)) (32 * D + (32 - (fo - o))) r →
      Moved m m' (32 * F + fo) (32 * D + o) (32 * (F + 1 + c) + lo - (32 * F + fo)) := by
    intro r hr hr2 m' h
    exact h1.chain' h hr2 (by omega) (by omega) (by omega) (by omega)
  run [copyRight]
  rw [show F + 1 + c - (F + 1) = c by omega, e2]
  simp only [Option.bind_some]
  by_cases hz : lo = 0
  · run []
    refine ⟨m2, rfl, hlast (32 * c) (by omega) (by omega) _ h2⟩
  · by_cases hs1 : fo - o ≤ lo
    · by_cases hs2 : lo = fo - o
      · run []
        refine ⟨_, rfl, hlast (32 * c + lo) (by omega) (by omega) _ ?_⟩
        refine h2.chain' (s' := 32 * (F + 1 + c)) (d' := 32 * (D + c) + (32 - (fo - o))) (b := lo) ?_ (by omega) (by omega)
          (by omega) (by omega)
        intro i
        bitsimp [hlsm]
        by_cases c1 : i < 32 * (D + c)
        · bitfin
        · by_cases c2 : i < 32 * (D + c) + (32 - (fo - o))
          · bitfin
          · by_cases c3 : i < 32 * (D + c) + 32 <;> bitfin
      · run []
        refine ⟨_, rfl, hlast (32 * c + lo) (by omega) (by omega) _ ?_⟩
        refine h2.chain' (s' := 32 * (F + 1 + c)) (d' := 32 * (D + c) + (32 - (fo - o))) (b := lo) ?_ (by omega) (by omega)
          (by omega) (by omega)
        intro i
        bitsimp [hlsm, hldm]
        by_cases c1 : i < 32 * (D + c)
        · bitfin
        · by_cases c2 : i < 32 * (D + c) + (32 - (fo - o))
          · bitfin
          · by_cases c3 : i < 32 * (D + c) + 32
            · bitfin
            · by_cases c4 : i < 32 * E + eo
              · by_cases c6 : F + 1 = D <;> bitfin
              · by_cases c5 : i < 32 * (D + c) + 64
                · by_cases c6 : F + 1 = D <;> bitfin
                · bitfin
    · run []
      refine ⟨_, rfl, hlast (32 * c + lo) (by omega) (by omega) _ ?_⟩
      refine h2.chain' (s' := 32 * (F + 1 + c)) (d' := 32 * (D + c) + (32 - (fo - o))) (b := lo) ?_ (by omega) (by omega)
        (by omega) (by omega)
      intro i
      bitsimp [hlsm, hldm]
      by_cases c1 : i < 32 * (D + c)
      · bitfin
      · by_cases c2 : i < 32 * (D + c) + (32 - (fo - o))
        · bitfin
        · by_cases c3 : i < 32 * E + eo
          · bitfin
          · by_cases c4 : i < 32 * (D + c) + 32 <;> bitfin

theorem leftLoop_moved (n s : Nat) (hs : 1 ≤ s) (hs' : s < 32) :
    ∀ (cnt sp dp : Nat) (cv : Word) (m : Mem), 1 ≤ sp → sp + cnt ≤ n → dp + cnt ≤ n → (dp < sp ∨ sp + cnt ≤ dp) →
    (∀ j, cv.getLsbD j = (decide (j < s) && bit m (32 * sp + j - s))) →
    ∃ m' cv', leftLoop n s (32 - s) cnt sp dp cv m = some (m', cv') ∧
      Moved m m' (32 * sp - s) (32 * dp) (32 * cnt) ∧
      (∀ j, cv'.getLsbD j = (decide (j < s) && bit m' (32 * (sp + cnt) + j - s))) := by
  intro cnt
  induction cnt with
  | zero => intro sp dp cv m _ _ _ _ hc; exact ⟨m, cv, rfl, Moved.refl _ _ _, hc⟩
  | succ cnt ih =>
    intro sp dp cv m h0 h1 h2 h3 hc
    run [leftLoop]
    obtain ⟨m', cv', e, hm, hc'⟩ := ih (sp + 1) (dp + 1) (rdw (upd m dp (cv ||| rdw m sp <<< s)) sp >>> (32 - s))
      (upd m dp (cv ||| rdw m sp <<< s)) (by omega) (by omega) (by omega) (by omega) (by
        intro j
        simp only [shr_bit, word_bit]
        by_cases c1 : j < s <;> bitfin)
    refine ⟨m', cv', e, ?_, ?_⟩
    · refine Moved.chain' (a := 32) ?_ hm (by omega) (by omega) (by omega) (by omega)
      intro i
      bitsimp [hc]
      by_cases c1 : i < 32 * dp
      · bitfin
      · by_cases c2 : i < 32 * dp + s
        · bitfin
        · by_cases c3 : i < 32 * dp + 32 <;> bitfin
    · intro j; rw [hc']; congr 2; omega

set_option maxHeartbeats 2000000 in
theorem copyLeft_moved (n : Nat) (m : Mem) (F fo L lo D o E eo : Nat) (hlo : lo < 32) (hFL : F < L)
    (hdo : fo < o) (ho32 : o < 32) (heo : eo < 32) (he : 32 * E + eo = 32 * D + o + (32 * L + lo - (32 * F + fo)))
    (hl : 32 * L + lo ≤ 32 * n) (hd : 32 * E + eo ≤ 32 * n)
    (ho : 32 * D + o ≤ 32 * F + fo ∨ 32 * L + lo ≤ 32 * D + o) (fsm fdm lsm ldm : Word)
    (hfsm : ∀ k, fsm.getLsbD k = (decide (k < 32) && decide (fo ≤ k)))
    (hfdm : ∀ k, fdm.getLsbD k = decide (k < o)) (hlsm : ∀ k, lsm.getLsbD k = decide (k < lo))
    (hldm : ∀ k, ldm.getLsbD k = (decide (k < 32) && decide (eo ≤ k))) :
    ∃ m', copyLeft n m ⟨F, fo⟩ ⟨L, lo⟩ ⟨D, o⟩ fsm fdm lsm ldm = some m' ∧
      Moved m m' (32 * F + fo) (32 * D + o) (32 * L + lo - (32 * F + fo)) := by
  obtain ⟨c, rfl⟩ : ∃ c, L = F + 1 + c := ⟨L - (F + 1), by omega⟩
  have h1 : Moved m (upd m D ((rdw m D &&& fdm) ||| (rdw m F &&& fsm) <<< (o - fo))) (32 * F + fo) (32 * D + o)
      (32 - o) := by
    intro i
    bitsimp [hfsm, hfdm]
    by_cases c1 : i < 32 * D
    · bitfin
    · by_cases c2 : i < 32 * D + o
      · by_cases c7 : i < 32 * D + (o - fo) <;> bitfin
      · by_cases c4 : i < 32 * D + 32 <;> bitfin
  generalize hm1 : upd m D ((rdw m D &&& fdm) ||| (rdw m F &&& fsm) <<< (o - fo)) = m1 at h1
  obtain ⟨m2, cv2, e2, h2, hc2⟩ := leftLoop_moved n (o - fo) (by omega) (by omega) c (F + 1) (D + 1)
    (rdw m1 F >>> (32 - (o - fo))) m1 (by omega) (by omega) (by omega) (by omega) (by
      intro j
      simp only [shr_bit, word_bit]
      by_cases c1 : j < o - fo <;> bitfin)
  have hlast : ∀ r, 32 * (c + 1) + lo - fo = (32 - o) + r → ∀ m', 
      Moved m1 m' (32 * (F + 1) - (o - fo)) (32 * (D + 1)) r →
      Moved m m' (32 * F + fo) (32 * D + o) (32 * (F + 1 + c) + lo - (32 * F + fo)) := by
    intro r hr m' h
    exact h1.chain' h (by omega) (by omega) (by omega) (by omega)
  run [copyLeft]
  rw [hm1, show F + 1 + c - (F + 1) = c by omega, e2]
  simp only [Option.bind_some]
  by_cases hz : 32 - (o - fo) ≤ lo
  · have h3 : Moved m2 (upd m2 (D + 1 + c) (cv2 ||| rdw m2 (F + 1 + c) <<< (o - fo))) (32 * (F + 1 + c) - (o - fo))
        (32 * (D + 1 + c)) 32 := by
      intro i
      bitsimp [hc2]
      by_cases c1 : i < 32 * (D + 1 + c)
      · bitfin
      · by_cases c2 : i < 32 * (D + 1 + c) + (o - fo)
        · bitfin
        · by_cases c3 : i < 32 * (D + 1 + c) + 32 <;> bitfin
    have h23 := h2.chain' h3 (c := 32 * c + 32) (by omega) (by omega) (by omega) (by omega)
    by_cases hz2 : lo = 32 - (o - fo)
    · run []
      exact ⟨_, rfl, hlast (32 * c + 32) (by omega) _ h23⟩
    · run []
      refine ⟨_, rfl, hlast (32 * c + (o - fo + lo)) (by omega) _ ?_⟩
      refine h23.chain' (b := lo - (32 - (o - fo))) (s' := 32 * (F + 1 + c) + (32 - (o - fo)))
        (d' := 32 * (D + 1 + c + 1)) ?_ (by omega) (by omega) (by omega) (by omega)
      generalize upd m2 (D + 1 + c) (cv2 ||| rdw m2 (F + 1 + c) <<< (o - fo)) = m3
      intro i
      bitsimp [hldm]
      by_cases c1 : i < 32 * (D + 1 + c + 1)
      · bitfin
      · by_cases c2 : i < 32 * E + eo
        · bitfin
        · by_cases c3 : i < 32 * (D + 1 + c + 1) + 32 <;> bitfin
  · by_cases hz2 : lo = 0
    · run []
      refine ⟨_, rfl, hlast (32 * c + (o - fo)) (by omega) _ ?_⟩
      refine h2.chain' (b := o - fo) (s' := 32 * (F + 1 + c) - (o - fo))
        (d' := 32 * (D + 1 + c)) ?_ (by omega) (by omega) (by omega) (by omega)
      intro i
      bitsimp [hldm, hc2]
      by_cases c1 : i < 32 * (D + 1 + c)
      · bitfin
      · by_cases c2 : i < 32 * E + eo
        · bitfin
        · by_cases c3 : i < 32 * (D + 1 + c) + 32 <;> bitfin
    · run []
      refine ⟨_, rfl, hlast (32 * c + (o - fo + lo)) (by omega) _ ?_⟩
      refine h2.chain' (b := o - fo + lo) (s' := 32 * (F + 1 + c) - (o - fo))
        (d' := 32 * (D + 1 + c)) ?_ (by omega) (by omega) (by omega) (by omega)
      intro i
      bitsimp [hldm, hc2, hlsm]
      by_cases c1 : i < 32 * (D + 1 + c)
      · bitfin
      · by_cases c4 : i < 32 * (D + 1 + c) + (o - fo)
        · bitfin
        · by_cases c2 : i < 32 * E + eo
          · bitfin
          · by_cases c3 : i < 32 * (D + 1 + c) + 32 <;> bitfin

end STL.VBool
