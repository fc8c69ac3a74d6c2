import Verif.Adaptors.Model
import Verif.Adaptors.Spec
import Mathlib.Data.List.Range
import Mathlib.Tactic.Ring

namespace STL.Adaptors

open STL.Engines (forUp wr)

/-- The list of the code holds the words of the standard's range. -/
structure Sim (n : Nat) (a : List Nat) (b : Nat → BitVec 32) : Prop where
  len : a.length = n
  val : ∀ i, i < n → a[i]? = some (b i).toNat

theorem ssMask_eq {V : Nat} (hV : V = 32 ∨ V = 64) : ssMask V = 2 ^ 32 - 1 := by
  rcases hV with rfl | rfl <;> decide

theorem and_mask {V : Nat} (hV : V = 32 ∨ V = 64) (x : Nat) : x &&& ssMask V = x % 2 ^ 32 := by
  rw [ssMask_eq hV, Nat.and_two_pow_sub_one_eq_mod]

theorem mod_mod_V {V : Nat} (hV : V = 32 ∨ V = 64) (x : Nat) : x % 2 ^ V % 2 ^ 32 = x % 2 ^ 32 := by
  apply Nat.mod_mod_of_dvd
  rcases hV with rfl | rfl
  · exact Nat.dvd_refl _
  · exact Nat.pow_dvd_pow 2 (by decide)

theorem Sim.put {n : Nat} {a : List Nat} {b : Nat → BitVec 32} (h : Sim n a b) {i : Nat} (hi : i < n) (x : BitVec 32)
    {z : Nat} (hz : z = x.toNat) : ∃ a', wr a i z = some a' ∧ Sim n a' (stdPut b i x) := by
  subst hz
  refine ⟨a.set i x.toNat, ?_, ?_, ?_⟩
  · unfold wr
    rw [if_pos (by rw [h.len]; exact hi)]
  · rw [List.length_set, h.len]
  · intro j hj
    unfold stdPut
    rw [List.getElem?_set]
    by_cases e : i = j
    · subst e
      rw [if_pos rfl, if_pos (by rw [h.len]; exact hj), if_pos rfl]
    · rw [if_neg e, if_neg (fun q => e q.symm)]
      exact h.val j hj

theorem stdT_eq (n : Nat) : stdT n = ssT n := rfl
theorem stdP_eq (n : Nat) : stdP n = ssP n := rfl
theorem stdQ_eq (n : Nat) : stdQ n = ssQ n := rfl

theorem ssQ_le {n : Nat} (hn : 0 < n) : ssP n ≤ n ∧ ssQ n ≤ n := by
  unfold ssQ ssP
  have : ssT n ≤ n := by
    unfold ssT
    split
    · omega
    · split
      · omega
      · split
        · omega
        · split <;> omega
  omega

theorem toNat_r {c : Nat} (hc : c < 2 ^ 32) (x : BitVec 32) :
    c * xor27 x.toNat % 2 ^ 32 = (BitVec.ofNat 32 c * stdX x).toNat := by
  unfold xor27 stdX
  rw [BitVec.toNat_mul, BitVec.toNat_xor, BitVec.toNat_ushiftRight, BitVec.toNat_ofNat, Nat.mod_eq_of_lt hc]

theorem mix1_sim {V n : Nat} (hV : V = 32 ∨ V = 64) (hn : 0 < n) (hn2 : n < 2 ^ 62) {v : List Nat} (hv : v.length < 2 ^ 62)
    (hvs : ∀ z ∈ v, z < 2 ^ 32) {k : Nat} (hk : k < 2 ^ 63) {a : List Nat} {b : Nat → BitVec 32} (h : Sim n a b)
    (hb : k = 0 → ∀ i j, b i = b j) :
    ∃ a', ssMix1 V n v k a = some a' ∧ Sim n a' (stdRound1 n v b k) := by
  obtain ⟨hP, hQ⟩ := ssQ_le hn
  have e1 : (k + ssP n) % 2 ^ 64 = k + ssP n := Nat.mod_eq_of_lt (by omega)
  have e2 : (k + ssQ n) % 2 ^ 64 = k + ssQ n := Nat.mod_eq_of_lt (by omega)
  have l0 := Nat.mod_lt k hn
  have l1 := Nat.mod_lt (k + ssP n) hn
  have l2 := Nat.mod_lt (k + ssQ n) hn
  have l3 := Nat.mod_lt ((k + 2 ^ 64 - 1) % 2 ^ 64) hn
  have e3 : b ((k + 2 ^ 64 - 1) % 2 ^ 64 % n) = b ((k + n - 1) % n) := by
    by_cases hk0 : k = 0
    · exact hb hk0 _ _
    · rw [show k + 2 ^ 64 - 1 = (k - 1) + 2 ^ 64 by omega, Nat.add_mod_right, Nat.mod_eq_of_lt (a := k - 1) (by omega),
        show k + n - 1 = (k - 1) + n by omega, Nat.add_mod_right]
  unfold ssMix1 stdRound1
  rw [e1, e2, stdP_eq, stdQ_eq]
  simp only []
  rw [h.val _ l0, h.val _ l1, h.val _ l3, e3]
  simp only [Option.bind_some]
  rw [show ((b (k % n)).toNat ^^^ (b ((k + ssP n) % n)).toNat ^^^ (b ((k + n - 1) % n)).toNat) % 2 ^ 32
      = (b (k % n) ^^^ b ((k + ssP n) % n) ^^^ b ((k + n - 1) % n)).toNat by
    rw [← BitVec.toNat_xor, ← BitVec.toNat_xor]; exact Nat.mod_eq_of_lt (BitVec.isLt _)]
  rw [toNat_r (by decide)]
  generalize BitVec.ofNat 32 1664525 * stdX (b (k % n) ^^^ b ((k + ssP n) % n) ^^^ b ((k + n - 1) % n)) = r1
  have hoff : ∃ off, (if k = 0 then some v.length
     else if k ≤ v.length then (v[k - 1]?).map fun z => (k % n + z) % 2 ^ 64
     else some (k % n)) = some off ∧
      off = (if k = 0 then v.length else if k ≤ v.length then k % n + v.getD (k - 1) 0 else k % n) := by
    split
    · exact ⟨_, rfl, rfl⟩
    · split
      · rename_i h1 h2
        have hl : k - 1 < v.length := by omega
        rw [List.getD_eq_getElem?_getD, List.getElem?_eq_getElem hl]
        refine ⟨_, rfl, ?_⟩
        have := hvs _ (List.getElem_mem hl)
        exact Nat.mod_eq_of_lt (by omega)
      · exact ⟨_, rfl, rfl⟩
  obtain ⟨off, ho, hoe⟩ := hoff
  rw [ho, ← hoe]
  clear ho hoe
  simp only [Option.bind_some]
  have hr2 : ((r1.toNat + off) % 2 ^ 64 &&& ssMask V) % 2 ^ 32 = (r1 + BitVec.ofNat 32 off).toNat := by
    rw [and_mask hV, Nat.mod_mod, Nat.mod_mod_of_dvd _ (Nat.pow_dvd_pow 2 (by decide)), BitVec.toNat_add,
      BitVec.toNat_ofNat, Nat.add_mod_mod]
  rw [hr2]
  generalize r1 + BitVec.ofNat 32 off = r2
  obtain ⟨a1, w1, s1⟩ := h.put l1 (b ((k + ssP n) % n) + r1)
    (z := ((b ((k + ssP n) % n)).toNat + r1.toNat) % 2 ^ V &&& ssMask V) (by
      rw [and_mask hV, mod_mod_V hV, BitVec.toNat_add])
  rw [w1]
  simp only [Option.bind_some]
  rw [s1.val _ l2]
  simp only [Option.bind_some]
  obtain ⟨a2, w2, s2⟩ := s1.put l2
    (stdPut b ((k + ssP n) % n) (b ((k + ssP n) % n) + r1) ((k + ssQ n) % n) + r2)
    (z := ((stdPut b ((k + ssP n) % n) (b ((k + ssP n) % n) + r1) ((k + ssQ n) % n)).toNat + r2.toNat) % 2 ^ V &&& ssMask V)
    (by rw [and_mask hV, mod_mod_V hV, BitVec.toNat_add])
  rw [w2]
  simp only [Option.bind_some]
  exact s2.put l0 r2 rfl

theorem mix2_sim {V n : Nat} (hV : V = 32 ∨ V = 64) (hn : 0 < n) (hn2 : n < 2 ^ 62) {k : Nat} (hk0 : 0 < k)
    (hk : k < 2 ^ 63) {a : List Nat} {b : Nat → BitVec 32} (h : Sim n a b) :
    ∃ a', ssMix2 V n k a = some a' ∧ Sim n a' (stdRound2 n b k) := by
  obtain ⟨hP, hQ⟩ := ssQ_le hn
  have e1 : (k + ssP n) % 2 ^ 64 = k + ssP n := Nat.mod_eq_of_lt (by omega)
  have e2 : (k + ssQ n) % 2 ^ 64 = k + ssQ n := Nat.mod_eq_of_lt (by omega)
  have l0 := Nat.mod_lt k hn
  have l1 := Nat.mod_lt (k + ssP n) hn
  have l2 := Nat.mod_lt (k + ssQ n) hn
  have l3 := Nat.mod_lt ((k + 2 ^ 64 - 1) % 2 ^ 64) hn
  have e3 : (k + 2 ^ 64 - 1) % 2 ^ 64 % n = (k + n - 1) % n := by
    rw [show k + 2 ^ 64 - 1 = (k - 1) + 2 ^ 64 by omega, Nat.add_mod_right, Nat.mod_eq_of_lt (a := k - 1) (by omega),
        show k + n - 1 = (k - 1) + n by omega, Nat.add_mod_right]
  rw [e3] at l3
  unfold ssMix2 stdRound2
  rw [e1, e2, e3, stdP_eq, stdQ_eq]
  simp only []
  rw [h.val _ l0, h.val _ l1, h.val _ l3]
  simp only [Option.bind_some]
  rw [show ((b (k % n)).toNat + (b ((k + ssP n) % n)).toNat + (b ((k + n - 1) % n)).toNat) % 2 ^ V % 2 ^ 32
      = (b (k % n) + b ((k + ssP n) % n) + b ((k + n - 1) % n)).toNat by
    rw [mod_mod_V hV, BitVec.toNat_add, BitVec.toNat_add, Nat.mod_add_mod]]
  rw [toNat_r (by decide)]
  generalize BitVec.ofNat 32 1566083941 * stdX (b (k % n) + b ((k + ssP n) % n) + b ((k + n - 1) % n)) = r3
  have hr4 : ((r3.toNat + 2 ^ 64 - k % n) % 2 ^ 64 &&& ssMask V) % 2 ^ 32 = (r3 - BitVec.ofNat 32 (k % n)).toNat := by
    rw [and_mask hV, Nat.mod_mod, Nat.mod_mod_of_dvd _ (Nat.pow_dvd_pow 2 (by decide)), BitVec.toNat_sub,
      BitVec.toNat_ofNat]
    have := r3.isLt
    generalize k % n = c at *
    have hc : c < 2 ^ 62 := by omega
    omega
  rw [hr4]
  generalize r3 - BitVec.ofNat 32 (k % n) = r4
  obtain ⟨a1, w1, s1⟩ := h.put l1 (b ((k + ssP n) % n) ^^^ r3)
    (z := ((b ((k + ssP n) % n)).toNat ^^^ r3.toNat) &&& ssMask V) (by
      rw [and_mask hV, ← BitVec.toNat_xor, Nat.mod_eq_of_lt (BitVec.isLt _)])
  rw [w1]
  simp only [Option.bind_some]
  rw [s1.val _ l2]
  simp only [Option.bind_some]
  obtain ⟨a2, w2, s2⟩ := s1.put l2
    (stdPut b ((k + ssP n) % n) (b ((k + ssP n) % n) ^^^ r3) ((k + ssQ n) % n) ^^^ r4)
    (z := ((stdPut b ((k + ssP n) % n) (b ((k + ssP n) % n) ^^^ r3) ((k + ssQ n) % n)).toNat ^^^ r4.toNat) &&& ssMask V)
    (by rw [and_mask hV, ← BitVec.toNat_xor, Nat.mod_eq_of_lt (BitVec.isLt _)])
  rw [w2]
  simp only [Option.bind_some]
  exact s2.put l0 r4 rfl

/-- A loop whose body simulates a step. -/
theorem forUp_sim {n : Nat} {body : Nat → List Nat → Option (List Nat)} {f : (Nat → BitVec 32) → Nat → (Nat → BitVec 32)} :
    ∀ (cnt lo : Nat) (a : List Nat) (b : Nat → BitVec 32) (_ : Sim n a b)
    (_ : ∀ k a b, lo ≤ k → k < lo + cnt → Sim n a b → (k = lo → ∀ i, b i = b i) →
      ∃ a', body k a = some a' ∧ Sim n a' (f b k)),
    ∃ a', forUp body cnt lo a = some a' ∧ Sim n a' ((List.range' lo cnt).foldl f b)
  | 0, lo, a, b, h, _ => ⟨a, rfl, h⟩
  | cnt + 1, lo, a, b, h, H => by
    obtain ⟨a1, h1, h2⟩ := H lo a b (Nat.le_refl _) (by omega) h (fun _ _ => rfl)
    obtain ⟨a2, h3, h4⟩ := forUp_sim cnt (lo + 1) a1 _ h2 (fun k a b q1 q2 q3 _ =>
      H k a b (by omega) (by omega) q3 (fun _ _ => rfl))
    refine ⟨a2, ?_, ?_⟩
    · unfold forUp
      rw [h1]
      exact h3
    · rw [List.range'_succ, List.foldl_cons]
      exact h4

theorem init_sim {n : Nat} : ∀ (cnt lo : Nat) (a : List Nat), a.length = n → lo + cnt = n →
    (∀ i, i < lo → a[i]? = some 0x8b8b8b8b) →
    ∃ a', forUp (fun k a => wr a k 0x8b8b8b8b) cnt lo a = some a' ∧ a'.length = n ∧ ∀ i, i < n → a'[i]? = some 0x8b8b8b8b
  | 0, lo, a, h, e, H => ⟨a, rfl, h, fun i hi => H i (by omega)⟩
  | cnt + 1, lo, a, h, e, H => by
    obtain ⟨a', h1, h2⟩ := init_sim cnt (lo + 1) (a.set lo 0x8b8b8b8b) (by rw [List.length_set, h]) (by omega) (by
      intro i hi
      rw [List.getElem?_set]
      by_cases e : lo = i
      · rw [if_pos e, if_pos (by omega)]
      · rw [if_neg e]
        exact H i (by omega))
    refine ⟨a', ?_, h2⟩
    unfold forUp
    rw [show wr a lo 0x8b8b8b8b = some (a.set lo 0x8b8b8b8b) by unfold wr; rw [if_pos (by omega)]]
    exact h1

theorem generate_eq {V : Nat} (hV : V = 32 ∨ V = 64) {v : List Nat} (hv : v.length < 2 ^ 62)
    (hvs : ∀ z ∈ v, z < 2 ^ 32) {old : List Nat} (ho : old.length < 2 ^ 62) :
    ssGenerate V v old = some (stdGenerate v old.length) := by
  unfold ssGenerate stdGenerate
  simp only []
  by_cases hn : 0 < old.length
  · rw [if_pos hn]
    generalize hnn : old.length = n at *
    have hM : ssM n v.length = max (v.length + 1) n := by unfold ssM; split <;> omega
    obtain ⟨a0, h0, h1, h2⟩ := init_sim n 0 old hnn (by omega) (by intro i hi; omega)
    rw [h0, hM]
    generalize hm : max (v.length + 1) n = m
    have hm1 : 0 < m ∧ m < 2 ^ 62 + 1 := by omega
    have s0 : Sim n a0 (fun _ => 0x8b8b8b8b#32) := ⟨h1, h2⟩
    obtain ⟨m', rfl⟩ : ∃ m', m = m' + 1 := ⟨m - 1, by omega⟩
    -- the first round by hand, because only there the range is constant
    obtain ⟨a1, g1, g2⟩ := mix1_sim hV hn ho hv hvs (k := 0) (by decide) s0 (fun _ _ _ => rfl)
    obtain ⟨a2, g3, g4⟩ := forUp_sim (body := ssMix1 V n v) (f := stdRound1 n v) m' 1 a1 _ g2 (fun k a b q1 q2 q3 _ =>
      mix1_sim hV hn ho hv hvs (by omega) q3 (by intro e; omega))
    obtain ⟨a3, g5, g6⟩ := forUp_sim (body := ssMix2 V n) (f := stdRound2 n) n (m' + 1) a2 _ g4 (fun k a b q1 q2 q3 _ =>
      mix2_sim hV hn ho (by omega) (by omega) q3)
    have hr : List.range (m' + 1) = 0 :: List.range' 1 m' := by rw [List.range_eq_range', List.range'_succ]
    rw [hr, List.foldl_cons]
    have hf1 : forUp (ssMix1 V n v) (m' + 1) 0 a0 = some a2 := by
      unfold forUp
      rw [g1]
      exact g3
    simp only [Option.bind_some]
    rw [hf1]
    simp only [Option.bind_some]
    rw [g5]
    congr 1
    apply List.ext_getElem?
    intro i
    by_cases hi : i < n
    · rw [g6.val i hi, List.getElem?_map, List.getElem?_range hi]
      rfl
    · rw [List.getElem?_eq_none (by rw [g6.len]; omega), List.getElem?_eq_none (by simp; omega)]
  · have : old = [] := List.length_eq_zero_iff.1 (by omega)
    subst this
    rfl

end STL.Adaptors
