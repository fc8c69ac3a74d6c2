import Verif.Par.Partition
import Mathlib.Tactic.Ring
import Mathlib.Tactic.Linarith

/-! # C28: the chunks are consecutive, nonempty and cover the range -/

namespace STL.Par
open STL

namespace Spec
/-- `f` cuts `[0, n)` into `k` nonempty consecutive pieces `[f i, f (i + 1))`. -/
structure Cut (n k : Nat) (f : Nat → Nat) : Prop where
  first : f 0 = 0
  last : f k = n
  step : ∀ i, i < k → f i < f (i + 1)
end Spec
open Spec

/-- Where chunk `i` starts. -/
def off (n k i : Nat) : Nat := i * (n / k) + min i (n % k)

theorem off_succ (n k i : Nat) : off n k (i + 1) = off n k i + (n / k + if i < n % k then 1 else 0) := by
  unfold off
  rw [Nat.add_mul, Nat.one_mul]
  split <;> omega

theorem off_cut {n k : Nat} (hk : 1 ≤ k) (hn : k ≤ n) : Cut n k (off n k) := by
  have hd : 1 ≤ n / k := (Nat.one_le_div_iff (by omega)).2 hn
  refine ⟨by simp [off], ?_, fun i _ => ?_⟩
  · unfold off
    have h1 : n % k < k := Nat.mod_lt _ (by omega)
    have h2 := Nat.div_add_mod n k
    rw [Nat.min_eq_right (by omega)]
    exact h2
  · rw [off_succ]; omega

theorem Spec.Cut.mono {n k : Nat} {f : Nat → Nat} (C : Cut n k f) {i j : Nat} (hij : i ≤ j) (hj : j ≤ k) : f i ≤ f j := by
  induction j with
  | zero => rw [show i = 0 by omega]
  | succ j ih =>
    rcases Nat.lt_or_ge j i with h | h
    · rw [show i = j + 1 by omega]
    · have := ih h (by omega)
      have := C.step j (by omega)
      omega

theorem Spec.Cut.le {n k : Nat} {f : Nat → Nat} (C : Cut n k f) {j : Nat} (hj : j ≤ k) : f j ≤ n := by
  rw [← C.last]; exact C.mono hj (Nat.le_refl k)

/-- Every position is in exactly one piece. -/
theorem Spec.Cut.unique {n k : Nat} {f : Nat → Nat} (C : Cut n k f) {x : Nat} (hx : x < n) : ∃! i, i < k ∧ f i ≤ x ∧ x < f (i + 1) := by
  have hex : ∃ i, i < k ∧ f i ≤ x ∧ x < f (i + 1) := by
    by_contra h
    push Not at h
    have : ∀ i, i ≤ k → f i ≤ x := by
      intro i
      induction i with
      | zero => intro _; rw [C.first]; omega
      | succ i ih => intro hi; exact h i (by omega) (ih (by omega))
    have := this k (Nat.le_refl k)
    rw [C.last] at this
    omega
  obtain ⟨i, hi, h1, h2⟩ := hex
  refine ⟨i, ⟨hi, h1, h2⟩, ?_⟩
  rintro j ⟨hj, h3, h4⟩
  rcases Nat.lt_trichotomy j i with h | h | h
  · have := C.mono (show j + 1 ≤ i by omega) (by omega); omega
  · exact h
  · have := C.mono (show i + 1 ≤ j by omega) (by omega); omega

theorem toS_small {x : Nat} (h : x < 2 ^ 63) : toS 64 x = x := by
  unfold toS
  norm_num at h ⊢
  omega

theorem mkTeam_ok {n k : Nat} (hk : 1 ≤ k) (hn : k ≤ n) (hB : n < 2 ^ 63) :
    mkTeam n k = .ok ⟨k, n, ((n / k : Nat) : Int), ((n % k : Nat) : Int)⟩ := by
  unfold mkTeam
  rw [toS_small (by omega), if_neg (by omega)]
  rw [Int.ofNat_tdiv, Int.ofNat_tmod]

/-- The team of `n` elements in `k` chunks. -/
def team (n k : Nat) : Team := ⟨k, n, ((n / k : Nat) : Int), ((n % k : Nat) : Int)⟩

theorem chkN {x : Nat} (h : x < 2 ^ 63) : chkL (x : Int) = .ok (x : Int) := chkL_ok (by norm_num at h; omega)

theorem key_ok {n k i : Nat} (hk : 1 ≤ k) (hn : k ≤ n) (hB : n < 2 ^ 63) (hi : i < k) :
    getChunkKey (team n k) i = .ok ⟨i, off n k i, ((off n k (i + 1) - off n k i : Nat) : Int)⟩ ∧ getChunkOffset (team n k) i = .ok (off n k i) := by
  have C := off_cut hk hn
  have h1 := C.le (show i ≤ k by omega)
  have h2 := C.le (show i + 1 ≤ k by omega)
  have h3 := C.step i hi
  have hs := off_succ n k i
  have hm : i * (n / k) ≤ off n k i := by unfold off; omega
  have hoff : off n k i = i * (n / k) + min i (n % k) := rfl
  have e1 : chkL ((i : Int) * ((n / k : Nat) : Int)) = .ok ((i * (n / k) : Nat) : Int) := by
    rw [← Int.natCast_mul]; exact chkN (by omega)
  unfold getChunkKey getChunkOffset team
  dsimp only
  rw [toS_small (by omega), e1]
  simp only [R.ok_bind]
  constructor
  · by_cases hlt : i < n % k
    · rw [if_pos (by omega)]
      rw [if_pos hlt] at hs
      rw [show ((i * (n / k) : Nat) : Int) + (i : Int) = ((i * (n / k) + i : Nat) : Int) by omega, chkN (by omega)]
      rw [show ((n / k : Nat) : Int) + 1 = ((n / k + 1 : Nat) : Int) by omega, chkN (by omega)]
      simp only [R.ok_bind]
      rw [show i * (n / k) + i = off n k i by omega, show n / k + 1 = off n k (i + 1) - off n k i by omega]
    · rw [if_neg (by omega)]
      rw [if_neg hlt] at hs
      rw [show ((i * (n / k) : Nat) : Int) + ((n % k : Nat) : Int) = ((i * (n / k) + n % k : Nat) : Int) by omega, chkN (by omega)]
      simp only [R.ok_bind]
      rw [show i * (n / k) + n % k = off n k i by omega, show off n k (i + 1) - off n k i = n / k by omega]
  · rw [show ((i * (n / k) : Nat) : Int) + min (i : Int) ((n % k : Nat) : Int) = (off n k i : Nat) by omega]
    exact chkN (by omega)

/-- **C28**: the keys of a team of `n` elements and `k` chunks are consecutive nonempty pieces of `[0, n)`, and nothing overflows. -/
theorem C28_chunks {n k : Nat} (hk : 1 ≤ k) (hn : k ≤ n) (hB : n < 2 ^ 63) :
    ∃ T f, mkTeam n k = .ok T ∧ T.chunks = k ∧ Cut n k f ∧
      ∀ i, i < k → getChunkKey T i = .ok ⟨i, f i, ((f (i + 1) - f i : Nat) : Int)⟩ ∧ getChunkOffset T i = .ok (f i) :=
  ⟨team n k, off n k, mkTeam_ok hk hn hB, rfl, off_cut hk hn, fun _ hi => key_ok hk hn hB hi⟩

/-- **C28**: the number of chunks chosen for `hw` threads meets the requirements. -/
theorem C28_chunk_count {hw n : Nat} (hh : 1 ≤ hw) (hov : hw * 32 < 2 ^ 64) (hn : 2 ≤ n) : 1 ≤ chunkCount hw n ∧ chunkCount hw n ≤ n := by
  unfold chunkCount
  rw [Nat.mod_eq_of_lt hov]
  omega

/-! ## Ranges -/

theorem advance_ok {len p : Nat} {k : Int} (h1 : 0 ≤ (p : Int) + k) (h2 : (p : Int) + k ≤ len) : advance len p k = .ok ((p : Int) + k).toNat := by
  unfold advance; rw [if_pos ⟨h1, h2⟩]

theorem popLoop_ok (len : Nat) (kr : R Int) (k : Int) (g : Nat → Nat) : ∀ (m i : Nat) (pts : List Nat), (0 < m → kr = .ok k) → (∀ j, i ≤ j → j < i + m → (g (j + 1) : Int) = g j + k) →
    (∀ j, i ≤ j → j ≤ i + m → g j ≤ len) →
    popLoop len kr m (g i) pts = .ok (pts ++ (List.range m).map (fun j => g (i + 1 + j)), g (i + m)) := by
  intro m
  induction m with
  | zero => intro i pts _ _ _; simp [popLoop]
  | succ m ih =>
    intro i pts hk h1 h2
    have a1 := h1 i (Nat.le_refl i) (by omega)
    have a2 := h2 (i + 1) (by omega) (by omega)
    unfold popLoop
    rw [hk (by omega)]
    simp only [R.ok_bind]
    rw [advance_ok (by omega) (by omega), ← a1]
    simp only [R.ok_bind, Int.toNat_natCast]
    rw [← hk (by omega)]
    rw [ih (i + 1) _ (fun _ => hk (by omega)) (fun j u v => h1 j (by omega) (by omega)) (fun j u v => h2 j (by omega) (by omega))]
    rw [List.range_succ_eq_map, List.map_cons, List.map_map, List.append_assoc]
    have e : List.map (fun j => g (i + 1 + 1 + j)) (List.range m) = List.map ((fun j => g (i + 1 + j)) ∘ Nat.succ) (List.range m) := by
      apply List.map_congr_left
      intro j _
      show g (i + 1 + 1 + j) = g (i + 1 + (j + 1))
      congr 1; omega
    rw [e, show i + 1 + m = i + (m + 1) by omega]
    rfl

theorem points_eq (g : Nat → Nat) (a b : Nat) : ([g 0] ++ (List.range a).map (fun j => g (0 + 1 + j))) ++ (List.range b).map (fun j => g (a + 1 + j)) = (List.range (a + b + 1)).map g := by
  apply List.ext_getElem
  · simp
  · intro i h1 h2
    simp only [List.getElem_map, List.getElem_range]
    rw [List.getElem_append]
    split
    · rename_i h
      rw [List.getElem_append]
      split
      · rename_i h'
        simp only [List.length_cons, List.length_nil] at h'
        have : i = 0 := by omega
        subst this; rfl
      · rename_i h'
        simp only [List.length_cons, List.length_nil] at h'
        simp only [List.getElem_map, List.getElem_range, List.length_cons, List.length_nil]
        congr 1; omega
    · rename_i h
      simp only [List.length_append, List.length_cons, List.length_nil, List.length_map, List.length_range] at h
      simp only [List.getElem_map, List.getElem_range, List.length_append, List.length_cons, List.length_nil, List.length_map, List.length_range]
      congr 1; omega

theorem chunkOf_ok {k : Nat} (g : Nat → Nat) {key : Key} (hi : key.chunk < k) : chunkOf ((List.range (k + 1)).map g) key = some (g key.chunk, g (key.chunk + 1)) := by
  unfold chunkOf
  rw [List.getElem?_map, List.getElem?_map, List.getElem?_range (by omega), List.getElem?_range (by omega)]
  rfl

theorem team_rest {n k : Nat} (hk : 1 ≤ k) (hB : k < 2 ^ 63) : (toS 64 (team n k).chunks - (team n k).unchunked).toNat = k - n % k ∧ (team n k).unchunked.toNat = n % k ∧ n % k < k := by
  have := Nat.mod_lt n (show 0 < k by omega)
  unfold team
  dsimp only
  rw [toS_small hB]
  omega

/-- **C28**: forward iterators. The division points are the ends of the chunks, and `next(_First, _Count)` is returned. -/
theorem C28_forward {n k len first : Nat} (hk : 1 ≤ k) (hn : k ≤ n) (hB : n < 2 ^ 63) (hl : first + n ≤ len) :
    ∃ T f pts, mkTeam n k = .ok T ∧ Cut n k f ∧ populate len T first = .ok (pts, first + n) ∧
      ∀ i, i < k → ∀ key, getChunkKey T i = .ok key → chunkOf pts key = some (first + f i, first + f (i + 1)) := by
  have C := off_cut hk hn
  obtain ⟨r1, r2, r3⟩ := team_rest (n := n) hk (by omega)
  refine ⟨team n k, off n k, (List.range (k + 1)).map (fun i => first + off n k i), mkTeam_ok hk hn hB, C, ?_, ?_⟩
  · unfold populate
    have h1 : (team n k).chunkSize = ((n / k : Nat) : Int) := rfl
    have hlt : n % k ≠ 0 → n / k + 1 ≤ n := by
      intro h
      have h2 := Nat.div_add_mod n k
      have : 1 * (n / k) ≤ k * (n / k) := Nat.mul_le_mul_right _ hk
      omega
    have g0 : first = (fun i => first + off n k i) 0 := by simp [off]
    have hsucc := off_succ n k
    rw [r1, r2, h1]
    conv => lhs; rw [g0]
    rw [popLoop_ok len _ ((n / k + 1 : Nat) : Int) (fun i => first + off n k i) (n % k) 0 _ ?_ ?_ ?_]
    · simp only [R.ok_bind]
      rw [popLoop_ok len _ ((n / k : Nat) : Int) (fun i => first + off n k i) (k - n % k) (0 + n % k) _ (fun _ => rfl) ?_ ?_]
      · have hp := points_eq (fun i => first + off n k i) (n % k) (k - n % k)
        rw [show n % k + (k - n % k) + 1 = k + 1 by omega] at hp
        have e2 : 0 + n % k + (k - n % k) = k := by omega
        rw [e2]
        rw [Nat.zero_add (n % k)]
        rw [hp, C.last]
      · intro j u v
        have := hsucc j
        rw [if_neg (by omega)] at this
        omega
      · intro j u v
        have := C.le (show j ≤ k by omega)
        omega
    · intro hpos
      rw [show ((n / k : Nat) : Int) + 1 = ((n / k + 1 : Nat) : Int) by omega]
      exact chkN (by have := hlt (by omega); omega)
    · intro j u v
      have := hsucc j
      rw [if_pos (by omega)] at this
      omega
    · intro j u v
      have := C.le (show j ≤ k by omega)
      omega
  · intro i hi key hkey
    rw [(key_ok hk hn hB hi).1] at hkey
    simp only [Except.ok.injEq] at hkey
    subst hkey
    exact chunkOf_ok (fun i => first + off n k i) hi

theorem stepTo_ok (last : Nat) : ∀ (m p : Nat), p ≤ last → stepTo last m p = if p + m ≤ last then some (p + m) else none := by
  intro m
  induction m with
  | zero => intro p hp; simp [stepTo, hp]
  | succ m ih =>
    intro p hp
    unfold stepTo
    by_cases h : p = last
    · rw [if_pos h, if_neg (by omega)]
    · rw [if_neg h, ih (p + 1) (by omega)]
      rw [show p + 1 + m = p + (m + 1) by omega]

theorem popLoopTo_ok (last : Nat) (kr : R Int) (k : Nat) (g : Nat → Nat) : ∀ (m i : Nat) (pts : List Nat), (0 < m → kr = .ok (k : Int)) → (∀ j, i ≤ j → j < i + m → g (j + 1) = g j + k) → g i ≤ last →
    popLoopTo last kr m (g i) pts = .ok (if g (i + m) ≤ last then some (pts ++ (List.range m).map (fun j => g (i + 1 + j)), g (i + m)) else none) := by
  intro m
  induction m with
  | zero => intro i pts _ _ h; simp [popLoopTo, h]
  | succ m ih =>
    intro i pts hk h1 h2
    have a1 := h1 i (Nat.le_refl i) (by omega)
    have hmono : ∀ j, j ≤ m → g (i + 1) ≤ g (i + 1 + j) := by
      intro j
      induction j with
      | zero => intro _; exact Nat.le_refl _
      | succ j ihj =>
        intro hj
        have := h1 (i + 1 + j) (by omega) (by omega)
        have := ihj (by omega)
        rw [show i + 1 + (j + 1) = i + 1 + j + 1 by omega]
        omega
    unfold popLoopTo
    rw [hk (by omega)]
    simp only [R.ok_bind, Int.toNat_natCast]
    rw [stepTo_ok last k (g i) h2, ← a1]
    have e3 : i + 1 + m = i + (m + 1) := by omega
    by_cases hle : g (i + 1) ≤ last
    · rw [if_pos hle]
      dsimp only
      rw [← hk (by omega)]
      rw [ih (i + 1) _ (fun _ => hk (by omega)) (fun j u v => h1 j (by omega) (by omega)) hle]
      rw [List.range_succ_eq_map, List.map_cons, List.map_map, List.append_assoc]
      have e : List.map (fun j => g (i + 1 + 1 + j)) (List.range m) = List.map ((fun j => g (i + 1 + j)) ∘ Nat.succ) (List.range m) := by
        apply List.map_congr_left
        intro j _
        show g (i + 1 + 1 + j) = g (i + 1 + (j + 1))
        congr 1; omega
      rw [e, e3]
      rfl
    · rw [if_neg hle]
      have := hmono m (Nat.le_refl m)
      rw [e3] at this
      rw [if_neg (by omega)]

/-- **C28**: forward iterators with an end. Whether the range has exactly `n` elements is found out, and then the division points are the ends of the chunks. -/
theorem C28_forward_to {n k first last : Nat} (hk : 1 ≤ k) (hn : k ≤ n) (hB : n < 2 ^ 63) (hl : first ≤ last) :
    ∃ T f, mkTeam n k = .ok T ∧ Cut n k f ∧
      (last - first ≠ n → populateTo T first last = .ok none) ∧
      (last - first = n → ∃ pts, populateTo T first last = .ok (some pts) ∧
        ∀ i, i < k → ∀ key, getChunkKey T i = .ok key → chunkOf pts key = some (first + f i, first + f (i + 1))) := by
  have C := off_cut hk hn
  obtain ⟨r1, r2, r3⟩ := team_rest (n := n) hk (by omega)
  have h1 : (team n k).chunkSize = ((n / k : Nat) : Int) := rfl
  have hlt : n % k ≠ 0 → n / k + 1 ≤ n := by
    intro h
    have h2 := Nat.div_add_mod n k
    have : 1 * (n / k) ≤ k * (n / k) := Nat.mul_le_mul_right _ hk
    omega
  have g0 : first = (fun i => first + off n k i) 0 := by simp [off]
  have hsucc := off_succ n k
  have key : populateTo (team n k) first last = .ok (if first + n = last then some ((List.range (k + 1)).map (fun i => first + off n k i)) else none) := by
    unfold populateTo
    rw [r1, r2, h1]
    conv => lhs; rw [g0]
    rw [popLoopTo_ok last _ (n / k + 1) (fun i => first + off n k i) (n % k) 0 _ ?_ ?_ ?_]
    · simp only [R.ok_bind]
      have hm := C.mono (show n % k ≤ k by omega) (Nat.le_refl k)
      rw [C.last] at hm
      rw [Nat.zero_add (n % k)]
      by_cases hc : first + off n k (n % k) ≤ last
      · rw [if_pos hc]
        dsimp only
        rw [popLoopTo_ok last _ (n / k) (fun i => first + off n k i) (k - n % k) (n % k) _ (fun _ => rfl) ?_ hc]
        · have hp := points_eq (fun i => first + off n k i) (n % k) (k - n % k)
          rw [show n % k + (k - n % k) + 1 = k + 1 by omega] at hp
          have e2 : n % k + (k - n % k) = k := by omega
          rw [e2, hp]
          dsimp only [R.ok_bind]
          rw [C.last]
          by_cases h2 : first + n ≤ last
          · rw [if_pos h2]
          · rw [if_neg h2, if_neg (by omega)]
        · intro j u v
          have := hsucc j
          rw [if_neg (by omega)] at this
          omega
      · rw [if_neg hc, if_neg (by omega)]
    · intro hpos
      rw [show ((n / k : Nat) : Int) + 1 = ((n / k + 1 : Nat) : Int) by omega]
      exact chkN (by have := hlt (by omega); omega)
    · intro j u v
      have := hsucc j
      rw [if_pos (by omega)] at this
      omega
    · exact le_of_eq_of_le g0.symm hl
  refine ⟨team n k, off n k, mkTeam_ok hk hn hB, C, fun h => ?_, fun h => ⟨(List.range (k + 1)).map (fun i => first + off n k i), ?_, ?_⟩⟩
  · rw [key, if_neg (by omega)]
  · rw [key, if_pos (by omega)]
  · intro i hi kk hkey
    rw [(key_ok hk hn hB hi).1] at hkey
    simp only [Except.ok.injEq] at hkey
    subst hkey
    exact chunkOf_ok (fun i => first + off n k i) hi

/-- **C28**: random access iterators, forward and from the back. -/
theorem C28_random {n k len first last : Nat} (hk : 1 ≤ k) (hn : k ≤ n) (hB : n < 2 ^ 63) (hl : first + n ≤ len) (hb : n ≤ last) (hlast : last ≤ len) :
    ∃ T f, mkTeam n k = .ok T ∧ Cut n k f ∧ ∀ i, i < k → ∀ key, getChunkKey T i = .ok key →
      chunkRan len first key = .ok (first + f i, first + f (i + 1)) ∧ chunkRanBack len last key = .ok (last - f (i + 1), last - f i) := by
  have C := off_cut hk hn
  refine ⟨team n k, off n k, mkTeam_ok hk hn hB, C, fun i hi key hkey => ?_⟩
  rw [(key_ok hk hn hB hi).1] at hkey
  simp only [Except.ok.injEq] at hkey
  subst hkey
  have h1 := C.le (show i ≤ k by omega)
  have h2 := C.le (show i + 1 ≤ k by omega)
  have h3 := C.step i hi
  norm_num at hB
  constructor
  · unfold chunkRan
    dsimp only
    rw [advance_ok (by omega) (by omega)]
    simp only [R.ok_bind]
    rw [advance_ok (by omega) (by omega)]
    simp only [R.ok_bind, Except.ok.injEq, Prod.mk.injEq]
    omega
  · unfold chunkRanBack
    dsimp only
    rw [chkL_ok (by omega)]
    simp only [R.ok_bind]
    rw [advance_ok (by omega) (by omega)]
    simp only [R.ok_bind]
    rw [chkL_ok (by omega)]
    simp only [R.ok_bind]
    rw [advance_ok (by omega) (by omega)]
    simp only [R.ok_bind, Except.ok.injEq, Prod.mk.injEq]
    omega

/-- **C28**: bidirectional iterators from the back; chunk `i` is the range from the later point to the earlier one (`execution:1037`). -/
theorem C28_backward {n k len last : Nat} (hk : 1 ≤ k) (hn : k ≤ n) (hB : n < 2 ^ 63) (hb : n ≤ last) (hl : last ≤ len) :
    ∃ T f pts, mkTeam n k = .ok T ∧ Cut n k f ∧ populateBack len T last = .ok pts ∧
      ∀ i, i < k → ∀ key, getChunkKey T i = .ok key → chunkOf pts key = some (last - f i, last - f (i + 1)) := by
  have C := off_cut hk hn
  obtain ⟨r1, r2, r3⟩ := team_rest (n := n) hk (by omega)
  refine ⟨team n k, off n k, (List.range (k + 1)).map (fun i => last - off n k i), mkTeam_ok hk hn hB, C, ?_, ?_⟩
  · unfold populateBack
    have h1 : (team n k).chunkSize = ((n / k : Nat) : Int) := rfl
    have hdn : n / k ≤ n := Nat.div_le_self n k
    have hq0 : (0 : Int) ≤ (n : Int) / k := Int.ediv_nonneg (by omega) (by omega)
    have g0 : last = (fun i => last - off n k i) 0 := by simp [off]
    have hsucc := off_succ n k
    rw [r1, r2, h1, chkL_ok (by norm_num at hB; omega)]
    simp only [R.ok_bind]
    conv => lhs; rw [g0]
    rw [popLoop_ok len _ (-((n / k : Nat) : Int) - 1) (fun i => last - off n k i) (n % k) 0 _ ?_ ?_ ?_]
    · simp only [R.ok_bind]
      rw [popLoop_ok len _ (-((n / k : Nat) : Int)) (fun i => last - off n k i) (k - n % k) (0 + n % k) _ (fun _ => rfl) ?_ ?_]
      · have hp := points_eq (fun i => last - off n k i) (n % k) (k - n % k)
        rw [show n % k + (k - n % k) + 1 = k + 1 by omega] at hp
        have e2 : 0 + n % k + (k - n % k) = k := by omega
        rw [e2]
        rw [Nat.zero_add (n % k)]
        rw [hp]
        rfl
      · intro j u v
        have := hsucc j
        rw [if_neg (by omega)] at this
        have := C.le (show j + 1 ≤ k by omega)
        omega
      · intro j u v
        omega
    · intro hpos
      exact chkL_ok (by norm_num at hB; omega)
    · intro j u v
      have := hsucc j
      rw [if_pos (by omega)] at this
      have := C.le (show j + 1 ≤ k by omega)
      omega
    · intro j u v
      omega
  · intro i hi key hkey
    rw [(key_ok hk hn hB hi).1] at hkey
    simp only [Except.ok.injEq] at hkey
    subst hkey
    exact chunkOf_ok (fun i => last - off n k i) hi

end STL.Par
