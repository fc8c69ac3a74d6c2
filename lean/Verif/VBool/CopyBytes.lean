import Verif.VBool.Bits

/-!
The path of `_Copy_vbool` that moves bytes.
-/

namespace STL.VBool

def rdb (m : Mem) (b : Nat) : BitVec 8 := ((m (b / 4)) >>> (8 * (b % 4))).setWidth 8
def updb (m : Mem) (b : Nat) (v : BitVec 8) : Mem := fun q => if q = b / 4 then
      (m q &&& ~~~((0xFF#32) <<< (8 * (b % 4)))) ||| (v.setWidth 32 <<< (8 * (b % 4))) else m q

theorem ldByte_eq {n b : Nat} (m : Mem) (h : b < 4 * n) : ldByte n m b = some (rdb m b) := by
  simp [ldByte, rdb, show b / 4 < n by omega]
theorem stByte_eq {n b : Nat} (m : Mem) (v : BitVec 8) (h : b < 4 * n) : stByte n m b v = some (updb m b v) := by
  simp only [stByte, show b / 4 < n by omega, if_true]; rfl

theorem rdb_bit (m : Mem) (b k : Nat) : (rdb m b).getLsbD k = (decide (k < 8) && bit m (8 * b + k)) := by
  unfold rdb
  rw [BitVec.getLsbD_setWidth, shr_bit]
  by_cases h : k < 8
  · simp only [h, decide_true, Bool.true_and]
    have h1 : (8 * b + k) / 32 = b / 4 := by omega
    have h2 : (8 * b + k) % 32 = 8 * (b % 4) + k := by omega
    rw [bit, h1, h2]
  · simp [h]

theorem ff_bit (k : Nat) : (0xFF#32).getLsbD k = decide (k < 8) := by
  have : (0xFF#32) = (BitVec.allOnes 8).setWidth 32 := by decide
  rw [this, BitVec.getLsbD_setWidth, BitVec.getLsbD_allOnes]
  by_cases h : k < 8
  · simp [h]; omega
  · simp [h]

theorem bit_updb (m : Mem) (b : Nat) (v : BitVec 8) (i : Nat) :
    bit (updb m b v) i = if 8 * b ≤ i ∧ i < 8 * b + 8 then v.getLsbD (i - 8 * b) else bit m i := by
  unfold bit updb
  by_cases hq : i / 32 = b / 4
  · rw [if_pos hq]
    simp only [BitVec.getLsbD_or, BitVec.getLsbD_and, not_bit, shl_bit, ff_bit, BitVec.getLsbD_setWidth]
    by_cases h : 8 * b ≤ i ∧ i < 8 * b + 8
    · rw [if_pos h]
      have h2 : i % 32 - 8 * (b % 4) = i - 8 * b := by omega
      rw [h2]
      bitfin
    · rw [if_neg h]
      by_cases h3 : i < 8 * b
      · bitfin
      · have hv : v.getLsbD (i % 32 - 8 * (b % 4)) = false := by
          apply BitVec.getLsbD_of_ge; omega
        rw [hv]
        bitfin
  · rw [if_neg hq, if_neg (by omega)]

theorem b8shl (s k : Nat) : (BitVec.allOnes 8 <<< s).getLsbD k = (decide (k < 8) && decide (s ≤ k)) := by
  rw [BitVec.getLsbD_shiftLeft, BitVec.getLsbD_allOnes]
  by_cases h : k < 8 <;> by_cases h2 : s ≤ k
  · simp [h, h2, show ¬ k < s by omega]; omega
  · simp [h, h2, show k < s by omega]
  · simp [h]
  · simp [h]
theorem b8shr (s k : Nat) : (BitVec.allOnes 8 >>> (8 - s)).getLsbD k = decide (8 - s + k < 8) := by
  rw [BitVec.getLsbD_ushiftRight, BitVec.getLsbD_allOnes]

theorem memmove_bits (n : Nat) (m0 : Mem) : ∀ (cnt s d : Nat) (m : Mem), s + cnt ≤ 4 * n → d + cnt ≤ 4 * n →
    ∃ m', memmove n m0 cnt s d m = some m' ∧
      ∀ i, bit m' i = if 8 * d ≤ i ∧ i < 8 * d + 8 * cnt then bit m0 (8 * s + (i - 8 * d)) else bit m i := by
  intro cnt
  induction cnt with
  | zero => intro s d m _ _; exact ⟨m, rfl, fun i => by rw [if_neg (by omega)]⟩
  | succ cnt ih =>
    intro s d m h1 h2
    obtain ⟨m', e, h⟩ := ih (s + 1) (d + 1) (updb m d (rdb m0 s)) (by omega) (by omega)
    refine ⟨m', ?_, ?_⟩
    · simp only [memmove, ldByte_eq m0 (show s < 4 * n by omega), stByte_eq m _ (show d < 4 * n by omega),
        Option.bind_some, e]
    · intro i
      rw [h, bit_updb, rdb_bit]
      by_cases c1 : i < 8 * d
      · bitfin
      · by_cases c2 : i < 8 * d + 8
        · bitfin
        · by_cases c3 : i < 8 * d + 8 * (cnt + 1) <;> bitfin

set_option maxHeartbeats 1000000 in
theorem copyBytes_moved (n : Nat) (m : Mem) (F fo L lo D o : Nat) (hfo : fo < 32) (hlo : lo < 32) (hFL : F < L)
    (hdo : o < 32) (h8 : fo % 8 = o % 8)
    (hl : 32 * L + lo ≤ 32 * n) (hd : 32 * D + o + (32 * L + lo - (32 * F + fo)) ≤ 32 * n)
    (ho : 32 * D + o ≤ 32 * F + fo ∨ 32 * L + lo ≤ 32 * D + o) :
    ∃ m', copyBytes n m ⟨F, fo⟩ ⟨L, lo⟩ ⟨D, o⟩ = some m' ∧
      Moved m m' (32 * F + fo) (32 * D + o) (32 * L + lo - (32 * F + fo)) := by
  have hub : fo % 8 < 8 := Nat.mod_lt _ (by omega)
  have hul : lo % 8 < 8 := Nat.mod_lt _ (by omega)
  obtain ⟨u, hu⟩ : ∃ u, fo % 8 = u := ⟨_, rfl⟩
  obtain ⟨w, hw⟩ : ∃ w, lo % 8 = w := ⟨_, rfl⟩
  obtain ⟨bf, hbf⟩ : ∃ bf, 4 * F + (fo - u) / 8 = bf := ⟨_, rfl⟩
  obtain ⟨bl, hbl⟩ : ∃ bl, 4 * L + (lo - w) / 8 = bl := ⟨_, rfl⟩
  obtain ⟨bd, hbd⟩ : ∃ bd, 4 * D + (o - u) / 8 = bd := ⟨_, rfl⟩
  have hf : 32 * F + fo = 8 * bf + u := by omega
  have hll : 32 * L + lo = 8 * bl + w := by omega
  have hdd : 32 * D + o = 8 * bd + u := by omega
  have hlt : bf < bl := by omega
  have hu8 : u < 8 := by omega
  have hw8 : w < 8 := by omega
  unfold copyBytes
  simp only [hu, hw, hbf, hbl, hbd]
  have hn : 8 * bl + w ≤ 8 * (4 * n) := by omega
  have hn2 : 8 * bd + u + (8 * bl + w - (8 * bf + u)) ≤ 8 * (4 * n) := by omega
  have ho2 : 8 * bd + u ≤ 8 * bf + u ∨ 8 * bl + w ≤ 8 * bd + u := by omega
  rw [hf, hll, hdd]
  clear hbf hbl hbd hu hw hf hll hdd hl hd ho hub hul h8 hfo hlo hdo hFL
  -- after the first byte
  have main : ∀ (m1 : Mem) (bf' bd' a : Nat), Moved m m1 (8 * bf + u) (8 * bd + u) a → 8 * bf' = 8 * bf + u + a →
      8 * bd' = 8 * bd + u + a → bf' ≤ bl → 
      ∃ m', ((sub bl bf').bind fun c => (memmove n m1 c bf' bd' m1).bind fun m =>
        if w ≠ 0 then (ldByte n m (bd' + c)).bind fun y => (ldByte n m bl).bind fun x =>
          stByte n m (bd' + c) ((y &&& (BitVec.allOnes 8 <<< w)) ||| (x &&& (BitVec.allOnes 8 >>> (8 - w))))
        else some m) = some m' ∧ Moved m m' (8 * bf + u) (8 * bd + u) (8 * bl + w - (8 * bf + u)) := by
    intro m1 bf' bd' a h1 hb hb2 hle
    obtain ⟨c, hc⟩ : ∃ c, bl = bf' + c := ⟨bl - bf', by omega⟩
    subst hc
    obtain ⟨m2, e2, h2⟩ := memmove_bits n m1 c bf' bd' m1 (by omega) (by omega)
    have h12 : Moved m m2 (8 * bf + u) (8 * bd + u) (a + 8 * c) :=
      h1.chain' (s' := 8 * bf') (d' := 8 * bd') h2 (by omega) (by omega) (by omega) rfl
    rw [sub_eq (by omega), Option.bind_some, show bf' + c - bf' = c by omega, e2, Option.bind_some]
    by_cases hz : w = 0
    · rw [if_neg (by omega)]
      refine ⟨m2, rfl, ?_⟩
      rw [show 8 * (bf' + c) + w - (8 * bf + u) = a + 8 * c by omega]; exact h12
    · rw [if_pos hz, ldByte_eq _ (by omega), ldByte_eq _ (by omega), Option.bind_some, Option.bind_some,
        stByte_eq _ _ (by omega)]
      refine ⟨_, rfl, ?_⟩
      refine h12.chain' (s' := 8 * (bf' + c)) (d' := 8 * (bd' + c)) (b := w) ?_ (by omega) (by omega) (by omega) (by omega)
      intro i
      simp only [bit_updb, BitVec.getLsbD_or, BitVec.getLsbD_and, b8shl, b8shr, rdb_bit]
      by_cases c1 : i < 8 * (bd' + c)
      · bitfin
      · by_cases c2 : i < 8 * (bd' + c) + w
        · bitfin
        · by_cases c3 : i < 8 * (bd' + c) + 8 <;> bitfin
  by_cases hz : u = 0
  · simp only [hz, ne_eq, not_true, if_false, bind, Option.bind_some, pure]
    subst hz
    exact main m bf bd 0 (Moved.refl _ _ _) (by omega) (by omega) (by omega)
  · have h1 : Moved m (updb m bd ((rdb m bd &&& (BitVec.allOnes 8 >>> (8 - u))) ||| (rdb m bf &&& (BitVec.allOnes 8 <<< u))))
        (8 * bf + u) (8 * bd + u) (8 - u) := by
      intro i
      simp only [bit_updb, BitVec.getLsbD_or, BitVec.getLsbD_and, b8shl, b8shr, rdb_bit]
      by_cases c1 : i < 8 * bd
      · bitfin
      · by_cases c2 : i < 8 * bd + u
        · bitfin
        · by_cases c3 : i < 8 * bd + 8 <;> bitfin
    have := main _ (bf + 1) (bd + 1) (8 - u) h1 (by omega) (by omega) (by omega)
    simp only [hz, ne_eq, not_false_eq_true, if_true, bind, Option.bind_some, pure, ldByte_eq m (show bd < 4 * n by omega),
      ldByte_eq m (show bf < 4 * n by omega), stByte_eq m _ (show bd < 4 * n by omega)]
    exact this

end STL.VBool
