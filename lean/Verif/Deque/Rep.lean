import Verif.Deque.Model
import Verif.Tac
import Mathlib.Data.Nat.ModEq

/-!
# The representation invariant of `deque`: how a map of blocks represents a sequence. Proofs only.
-/

namespace STL.Deque
open STL
variable {T : Type _}

/-- The content of cell `k` of the block at map index `j`. -/
def cellAt (d : Dq T) (j k : Nat) : Option T :=
  match d.map[j]? with
  | some (some b) => (d.blk b).bind (fun c => c k)
  | _ => none

/-- The content of the cell for position `p`. -/
def atp (B : Nat) (d : Dq T) (p : Nat) : Option T := cellAt d (p / B % d.map.length) (p % B)

structure Core (B maxsz : Nat) (d : Dq T) : Prop where
  pow : d.map.length = 0 ∨ ∃ k, d.map.length = 2 ^ (k + 3)
  maxM : d.map.length ≤ maxsz / B
  inj : ∀ (i j b : Nat), d.map[i]? = some (some b) → d.map[j]? = some (some b) → i = j
  alloc : ∀ b : Nat, (d.blk b).isSome ↔ some b ∈ d.map
  fresh : ∀ b : Nat, (d.blk b).isSome → b < d.next

/-- `d` represents the sequence `l`. -/
structure Rep (B maxsz : Nat) (d : Dq T) (l : List T) : Prop where
  core : Core B maxsz d
  size : d.size = l.length
  off0 : l = [] → d.off = 0
  span : d.off % B + d.size ≤ d.map.length * B
  sum : d.off + d.size ≤ (2 * d.map.length - 1) * B
  cells : ∀ i, i < d.map.length * B → atp B d (d.off + i) = l[i]?

/-! ## Positions modulo the number of cells -/

theorem idx_iff {B M p q : Nat} : (p / B % M = q / B % M ∧ p % B = q % B) ↔ p % (M * B) = q % (M * B) := by
  rw [Nat.mul_comm M B]
  constructor
  · rintro ⟨h1, h2⟩; rw [Nat.mod_mul, Nat.mod_mul, h1, h2]
  · intro h
    constructor
    · rw [← Nat.mod_mul_right_div_self, ← Nat.mod_mul_right_div_self, h]
    · rw [← Nat.mod_mul_right_mod p B M, ← Nat.mod_mul_right_mod q B M, h]

theorem atp_congr {B : Nat} {d : Dq T} {p q : Nat} (h : p % (d.map.length * B) = q % (d.map.length * B)) : atp B d p = atp B d q := by
  obtain ⟨h1, h2⟩ := idx_iff.2 h
  unfold atp; rw [h1, h2]

theorem window_inj {N o i j : Nat} (hi : i < N) (hj : j < N) (h : (o + i) % N = (o + j) % N) : i = j :=
  Nat.ModEq.eq_of_lt_of_lt (Nat.ModEq.add_left_cancel' o h) hi hj

/-- every cell is in the window -/
theorem window_surj {N o p : Nat} (hN : 0 < N) : ∃ i, i < N ∧ (o + i) % N = p % N := by
  refine ⟨(p + (N - o % N)) % N, Nat.mod_lt _ hN, ?_⟩
  have h1 := Nat.mod_lt o hN
  rw [Nat.add_mod, Nat.mod_mod, Nat.add_mod_mod, ← Nat.add_assoc, Nat.add_right_comm, Nat.add_assoc]
  rw [show o % N + (N - o % N + p) = p + N by omega]
  simp

theorem core_pos {B maxsz : Nat} {d : Dq T} (h : Core B maxsz d) (hM : 0 < d.map.length) : ∃ k, d.map.length = 2 ^ (k + 3) := by
  rcases h.pow with e | e
  · omega
  · exact e

theorem getblock_eq {B maxsz : Nat} {d : Dq T} (h : Core B maxsz d) (hM : 0 < d.map.length) (p : Nat) :
    getblock B d p = p / B % d.map.length := by
  obtain ⟨k, e⟩ := core_pos h hM
  unfold getblock; rw [e, Nat.and_two_pow_sub_one_eq_mod]

theorem getElem?_lt {l : List (Option Nat)} {j : Nat} (h : j < l.length) : l[j]? = some l[j] := List.getElem?_eq_getElem h

/-- an occupied cell has an address -/
theorem addr_of_atp {B maxsz : Nat} {d : Dq T} (h : Core B maxsz d) {p : Nat} {x : T} (hx : atp B d p = some x) :
    ∃ b c, addr B d p = .ok (b, p % B) ∧ d.map[p / B % d.map.length]? = some (some b) ∧ d.blk b = some c ∧ c (p % B) = some x := by
  unfold atp cellAt at hx
  split at hx
  · rename_i b hb
    have hM : 0 < d.map.length := by
      rcases Nat.eq_zero_or_pos d.map.length with h0 | h0
      · rw [List.length_eq_zero_iff] at h0; rw [h0] at hb; simp at hb
      · exact h0
    rw [Option.bind_eq_some_iff] at hx
    obtain ⟨c, hc, hck⟩ := hx
    exact ⟨b, c, by simp [addr, getblock_eq h hM, hb], hb, hc, hck⟩
  · cases hx

theorem load_of_atp {B maxsz : Nat} {d : Dq T} (h : Core B maxsz d) {p : Nat} {x : T} (hx : atp B d p = some x) :
    load B d p = .ok x := by
  obtain ⟨b, c, h1, _, h3, h4⟩ := addr_of_atp h hx
  simp [load, h1, R.ok_bind, h3, h4]

/-! ## Changing one cell -/

theorem core_setCell {B maxsz : Nat} {d : Dq T} (h : Core B maxsz d) (b k : Nat) (v : Option T) : Core B maxsz (setCell d b k v) := by
  have hs : ∀ b', ((setCell d b k v).blk b').isSome = (d.blk b').isSome := by
    intro b'; simp only [setCell]; split
    · rename_i e; subst e; simp
    · rfl
  exact ⟨h.pow, h.maxM, h.inj, fun b' => by rw [hs]; exact h.alloc b', fun b' hb => by rw [hs] at hb; exact h.fresh b' hb⟩

theorem atp_setCell {B maxsz : Nat} {d : Dq T} (h : Core B maxsz d) {p b : Nat} (hb : d.map[p / B % d.map.length]? = some (some b))
    (v : Option T) (q : Nat) :
    atp B (setCell d b (p % B) v) q = if q % (d.map.length * B) = p % (d.map.length * B) then v else atp B d q := by
  have hsome : (d.blk b).isSome := (h.alloc b).2 (List.mem_of_getElem? hb)
  obtain ⟨c, hc⟩ := Option.isSome_iff_exists.1 hsome
  have hcell : ∀ j k, cellAt (setCell d b (p % B) v) j k =
      if j = p / B % d.map.length ∧ k = p % B then v else cellAt d j k := by
    intro j k
    simp only [cellAt, setCell]
    cases hj : d.map[j]? with
    | none => rw [if_neg]; rintro ⟨rfl, _⟩; rw [hb] at hj; cases hj
    | some o =>
      cases o with
      | none => rw [if_neg]; rintro ⟨rfl, _⟩; rw [hb] at hj; cases hj
      | some b' =>
        simp only
        by_cases e : b' = b
        · subst e
          obtain rfl := h.inj _ _ _ hj hb
          simp only [if_true, hc, Option.map_some, Option.bind_some, true_and]
        · rw [if_neg e, if_neg]
          rintro ⟨rfl, _⟩
          rw [hb] at hj
          simp only [Option.some.injEq] at hj
          exact e hj.symm
  unfold atp
  rw [hcell]
  simp only [show (setCell d b (p % B) v).map = d.map from rfl, idx_iff]

/-- Effect of writing the cell of position `p`. -/
structure Wrote (B maxsz : Nat) (d d' : Dq T) (p : Nat) (v : Option T) : Prop where
  core : Core B maxsz d'
  map : d'.map = d.map
  off : d'.off = d.off
  size : d'.size = d.size
  cells : ∀ q, atp B d' q = if q % (d.map.length * B) = p % (d.map.length * B) then v else atp B d q

theorem assign_spec {B maxsz : Nat} {d : Dq T} (h : Core B maxsz d) {p : Nat} {x : T} (hx : atp B d p = some x) (y : T) :
    ∃ d', assign B d p y = .ok d' ∧ Wrote B maxsz d d' p (some y) := by
  obtain ⟨b, c, h1, h2, h3, h4⟩ := addr_of_atp h hx
  refine ⟨setCell d b (p % B) (some y), by simp [assign, h1, R.ok_bind, h3, h4], core_setCell h _ _ _, rfl, rfl, rfl, atp_setCell h h2 _⟩

theorem destroy_spec {B maxsz : Nat} {d : Dq T} (h : Core B maxsz d) {p : Nat} {x : T} (hx : atp B d p = some x) :
    ∃ d', destroy B d p = .ok d' ∧ Wrote B maxsz d d' p none := by
  obtain ⟨b, c, h1, h2, h3, h4⟩ := addr_of_atp h hx
  refine ⟨setCell d b (p % B) none, by simp [destroy, h1, R.ok_bind, h3, h4], core_setCell h _ _ _, rfl, rfl, rfl, atp_setCell h h2 _⟩

/-! ## Allocation -/

theorem core_alloc {B maxsz : Nat} {d : Dq T} (h : Core B maxsz d) {j : Nat} (hj : d.map[j]? = some none) :
    Core B maxsz (allocBlk d j) := by
  obtain ⟨hjl, hj'⟩ := List.getElem?_eq_some_iff.1 hj
  have hnew : ∀ i : Nat, d.map[i]? ≠ some (some d.next) := by
    intro i hi
    have := h.fresh d.next ((h.alloc _).2 (List.mem_of_getElem? hi)); omega
  have hget : ∀ i b : Nat, (allocBlk d j).map[i]? = some (some b) ↔ (i = j ∧ b = d.next) ∨ (i ≠ j ∧ d.map[i]? = some (some b)) := by
    intro i b
    simp only [allocBlk, List.getElem?_set]
    by_cases e : j = i
    · subst e; simp [hjl, eq_comm]
    · simp [e, Ne.symm e]
  refine ⟨by simpa [allocBlk] using h.pow, by simpa [allocBlk] using h.maxM, fun i i' b h1 h2 => ?_, fun b => ?_, fun b hb => ?_⟩
  · rcases (hget _ _).1 h1 with ⟨e, rfl⟩ | ⟨_, e⟩ <;> rcases (hget _ _).1 h2 with ⟨e', e3⟩ | ⟨_, e'⟩
    · omega
    · exact absurd e' (hnew _)
    · subst e3; exact absurd e (hnew _)
    · exact h.inj _ _ _ e e'
  · constructor
    · intro hb
      simp only [allocBlk] at hb
      split at hb
      · rename_i e; subst e
        exact List.mem_of_getElem? ((hget j _).2 (Or.inl ⟨rfl, rfl⟩))
      · obtain ⟨i, hi⟩ := List.mem_iff_getElem?.1 ((h.alloc b).1 hb)
        refine List.mem_of_getElem? ((hget i _).2 (Or.inr ⟨?_, hi⟩))
        rintro rfl; rw [hj] at hi; cases hi
    · intro hb
      obtain ⟨i, hi⟩ := List.mem_iff_getElem?.1 hb
      simp only [allocBlk]
      rcases (hget _ _).1 hi with ⟨_, rfl⟩ | ⟨_, e⟩
      · simp
      · split
        · rfl
        · exact (h.alloc b).2 (List.mem_of_getElem? e)
  · simp only [allocBlk] at hb ⊢
    split at hb
    · omega
    · have := h.fresh b hb; omega

theorem cellAt_alloc {B maxsz : Nat} {d : Dq T} (h : Core B maxsz d) {j : Nat} (hj : d.map[j]? = some none) (i k : Nat) :
    cellAt (allocBlk d j) i k = cellAt d i k := by
  obtain ⟨hjl, hj'⟩ := List.getElem?_eq_some_iff.1 hj
  simp only [cellAt, allocBlk, List.getElem?_set]
  by_cases e : j = i
  · subst e; simp [hjl, hj']
  · rw [if_neg e]
    cases hi : d.map[i]? with
    | none => rfl
    | some o =>
      cases o with
      | none => rfl
      | some b =>
        simp only
        have := h.fresh b ((h.alloc _).2 (List.mem_of_getElem? hi))
        rw [if_neg (by omega)]

/-- `place`: the element is constructed in the free cell of position `p`; nothing else changes, no block pointer is changed. -/
theorem place_spec {B maxsz : Nat} {d : Dq T} (h : Core B maxsz d) (hM : 0 < d.map.length) {p : Nat} (hp : atp B d p = none) (x : T) (f : Fail) :
    ∃ d' e, place B d p x f = .ok (d', e) ∧ Core B maxsz d' ∧ d'.map.length = d.map.length ∧ d'.off = d.off ∧ d'.size = d.size ∧
      (∀ j b : Nat, d.map[j]? = some (some b) → d'.map[j]? = some (some b)) ∧
      (∀ q, atp B d' q = if q % (d.map.length * B) = p % (d.map.length * B) ∧ e = none then some x else atp B d q) ∧
      (e ≠ none → f ≠ .no) ∧ e ≠ some .lengthError := by
  have hjl : p / B % d.map.length < d.map.length := Nat.mod_lt _ hM
  have hg := getblock_eq h hM p
  -- after the possible allocation
  have key : ∀ d1 : Dq T, Core B maxsz d1 → d1.map.length = d.map.length → d1.off = d.off → d1.size = d.size →
      (∀ j b : Nat, d.map[j]? = some (some b) → d1.map[j]? = some (some b)) → (∀ q, atp B d1 q = atp B d q) →
      (∃ b, d1.map[p / B % d.map.length]? = some (some b)) →
      ∃ d' e, (if f = .ctor then .ok (d1, some .user) else do
          let d' ← construct B d1 p x
          .ok (d', none) : R (Dq T × Option Exc)) = .ok (d', e) ∧ Core B maxsz d' ∧ d'.map.length = d.map.length ∧ d'.off = d.off ∧ d'.size = d.size ∧
      (∀ j b : Nat, d.map[j]? = some (some b) → d'.map[j]? = some (some b)) ∧
      (∀ q, atp B d' q = if q % (d.map.length * B) = p % (d.map.length * B) ∧ e = none then some x else atp B d q) ∧
      (e ≠ none → f ≠ .no) ∧ e ≠ some .lengthError := by
    intro d1 hc hl ho hs hmap hat ⟨b, hb⟩
    by_cases hf : f = .ctor
    · rw [if_pos hf]
      exact ⟨d1, some .user, rfl, hc, hl, ho, hs, hmap, fun q => by rw [if_neg (by simp)]; exact hat q, fun _ => by rw [hf]; simp, by simp⟩
    · rw [if_neg hf]
      have hb' : d1.map[p / B % d1.map.length]? = some (some b) := by rw [hl]; exact hb
      obtain ⟨c, hcb⟩ := Option.isSome_iff_exists.1 ((hc.alloc b).2 (List.mem_of_getElem? hb'))
      have hnone : c (p % B) = none := by
        have := hat p; rw [hp] at this
        unfold atp cellAt at this; rw [hb'] at this; simpa [hcb] using this
      have ha : addr B d1 p = .ok (b, p % B) := by simp [addr, getblock_eq hc (by omega) p, hb']
      refine ⟨setCell d1 b (p % B) (some x), none, by simp [construct, ha, R.ok_bind, hcb, hnone], core_setCell hc _ _ _, hl, ho, hs, hmap, ?_, by simp, by simp⟩
      intro q
      rw [atp_setCell hc hb', hl, hat q]
      simp
  unfold place
  rw [hg]
  cases hmj : d.map[p / B % d.map.length]? with
  | none => rw [List.getElem?_eq_none_iff] at hmj; omega
  | some o =>
    cases o with
    | some b =>
      simp only [R.ok_bind]
      exact key d h rfl rfl rfl (fun _ _ h => h) (fun _ => rfl) ⟨b, hmj⟩
    | none =>
      simp only
      by_cases hf : f = .blkAlloc
      · rw [if_pos hf]
        simp only [R.ok_bind]
        exact ⟨d, some .badAlloc, rfl, h, rfl, rfl, rfl, fun _ _ h => h, fun q => by rw [if_neg (by simp)], fun _ => by rw [hf]; simp, by simp⟩
      · rw [if_neg hf]
        simp only [R.ok_bind]
        refine key _ (core_alloc h hmj) (by simp [allocBlk]) rfl rfl ?_ ?_ ⟨d.next, ?_⟩
        · intro j b hj
          simp only [allocBlk, List.getElem?_set]
          rw [if_neg, hj]
          rintro rfl; rw [hj] at hmj; cases hmj
        · intro q; unfold atp; rw [cellAt_alloc h hmj]; simp [allocBlk]
        · simp [allocBlk, hjl]

end STL.Deque
