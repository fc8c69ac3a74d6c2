import Verif.Pmr.Model
import Verif.Tac
import Mathlib.Data.Nat.Bitwise
import Mathlib.Tactic.Ring
import Mathlib.Tactic.Positivity
import Mathlib.Tactic.NormNum
import Mathlib.Tactic.IntervalCases

/-! # `monotonic_buffer_resource`: invariant and proofs -/

namespace STL.Pmr
open STL

/-- `[a, a + n)` and `[b, b + m)` do not overlap. -/
def Disj (a n b m : Nat) : Prop := a + n ≤ b ∨ b + m ≤ a
/-- `[a, a + n)` lies in `[b, b + m)`. -/
def Inside (a n b m : Nat) : Prop := b ≤ a ∧ a + n ≤ b + m

/-- 32-bit or 64-bit target. -/
def WS (ws : Nat) : Prop := ws = 4 ∨ ws = 8

variable {ws : Nat}

theorem WS.pos (h : WS ws) : 0 < ws := by rcases h with rfl | rfl <;> omega

theorem lim_ge (h : WS ws) : 4294967296 ≤ 2 ^ (8 * ws) ∧ ws ≤ 8 ∧ 4 ≤ ws ∧ ws ∣ 2 ^ (8 * ws) := by
  rcases h with rfl | rfl <;> norm_num

theorem wrap_ok {v : Int} (h0 : 0 ≤ v) (h1 : v < ((2 ^ (8 * ws) : Nat) : Int)) : wrap ws v = v.toNat := by
  unfold wrap; rw [Int.emod_eq_of_lt h0 (by push_cast at h1; exact h1)]

theorem max_ok (h : WS ws) : maxAllocation ws = 2 ^ (8 * ws) - ws := by
  rcases h with rfl | rfl <;> simp [maxAllocation, wrap]

theorem and_mask (h : WS ws) {x : Nat} (hx : x < 2 ^ (8 * ws)) : x &&& (2 ^ (8 * ws) - ws) = x / ws * ws := by
  obtain ⟨k, hk, hk2⟩ : ∃ k, ws = 2 ^ k ∧ k < 8 * ws := by
    rcases h with rfl | rfl
    · exact ⟨2, by norm_num, by omega⟩
    · exact ⟨3, by norm_num, by omega⟩
  have e : 2 ^ (8 * ws) - ws = 2 ^ k * (2 ^ (8 * ws - k) - 1) := by
    rw [Nat.mul_sub, ← pow_add, show k + (8 * ws - k) = 8 * ws by omega, ← hk]; omega
  apply Nat.eq_of_testBit_eq
  intro i
  rw [e, Nat.testBit_and, Nat.testBit_two_pow_mul, Nat.testBit_two_pow_sub_one]
  rw [hk, ← hk, show x / ws * ws = 2 ^ k * (x / 2 ^ k) by rw [← hk]; ring, Nat.testBit_two_pow_mul, Nat.testBit_div_two_pow]
  by_cases hi : k ≤ i
  · rw [show i - k + k = i by omega]
    by_cases hj : i - k < 8 * ws - k
    · simp [hi, hj]
    · have : x.testBit i = false := Nat.testBit_lt_two_pow (lt_of_lt_of_le hx (Nat.pow_le_pow_right (by omega) (by omega)))
      simp [this]
  · simp [hi]

theorem div_mul_facts (h : WS ws) (x : Nat) : x / ws * ws % ws = 0 ∧ x / ws * ws ≤ x ∧ x < x / ws * ws + ws :=
  ⟨Nat.mul_mod_left _ _, Nat.div_mul_le_self _ _, by have := Nat.div_add_mod' x ws; have := Nat.mod_lt x h.pos; omega⟩

/-- A buffer size the resource may ask for. -/
def GoodSize (ws n : Nat) : Prop := n % ws = 0 ∧ minAllocation ws ≤ n ∧ n ≤ 2 ^ (8 * ws) - ws

theorem mod_lim (h : WS ws) : (2 ^ (8 * ws) - ws) % ws = 0 := by rcases h with rfl | rfl <;> norm_num

theorem round_good (h : WS ws) (n : Nat) : GoodSize ws (round ws n) := by
  obtain ⟨l1, l2, l3, l4⟩ := lim_ge h
  unfold GoodSize round minAllocation hdrSize
  rw [max_ok h]
  split
  · exact ⟨by rw [show 2 * (3 * ws) = 6 * ws by ring]; exact Nat.mul_mod_left _ _, le_refl _, by omega⟩
  · split
    · exact ⟨mod_lim h, by omega, le_refl _⟩
    · rename_i h1 h2
      rw [wrap_ok (by omega) (by omega), and_mask h (by omega)]
      obtain ⟨a, b, c⟩ := div_mul_facts h ((n : Int) + ws - 1).toNat
      refine ⟨a, by omega, ?_⟩
      obtain ⟨q, hq⟩ := l4
      have hlt : ((n : Int) + ws - 1).toNat / ws < q := by
        rw [Nat.div_lt_iff_lt_mul h.pos]; rw [Nat.mul_comm, ← hq]; omega
      have : ((n : Int) + ws - 1).toNat / ws * ws ≤ (q - 1) * ws := Nat.mul_le_mul_right _ (by omega)
      rw [hq]; rw [Nat.sub_mul] at this; rw [Nat.mul_comm ws q]; omega

theorem scale_good (h : WS ws) {n : Nat} (h0 : n ≠ 0) : scale ws n % ws = 0 ∧ scale ws n ≤ 2 ^ (8 * ws) - ws ∧
    (2 * scale ws n ≥ 3 * n ∨ scale ws n = 2 ^ (8 * ws) - ws) ∧ 0 < scale ws n := by
  unfold scale
  rw [max_ok h]
  simp only
  rcases h with rfl | rfl
  · norm_num [wrap]
    split
    · omega
    · rename_i hh
      rw [show ((((n : Int) + (n + 1) / 2 + 4 - 1) % 4294967296).toNat) = n + (n + 1) / 2 + 3 by omega]
      have := and_mask (ws := 4) (.inl rfl) (x := n + (n + 1) / 2 + 3) (by norm_num; omega)
      norm_num at this
      rw [this]; omega
  · norm_num [wrap]
    split
    · omega
    · rename_i hh
      rw [show ((((n : Int) + (n + 1) / 2 + 8 - 1) % 18446744073709551616).toNat) = n + (n + 1) / 2 + 7 by omega]
      have := and_mask (ws := 8) (.inr rfl) (x := n + (n + 1) / 2 + 7) (by norm_num; omega)
      norm_num at this
      rw [this]; omega

/-- A next-buffer size: a positive multiple of the alignment of the header. -/
def NextOk (ws n : Nat) : Prop := n % ws = 0 ∧ 0 < n ∧ n ≤ 2 ^ (8 * ws) - ws

theorem scale_next (h : WS ws) {n : Nat} (h0 : n ≠ 0) : NextOk ws (scale ws n) := ⟨(scale_good h h0).1, (scale_good h h0).2.2.2, (scale_good h h0).2.1⟩

theorem unscale_next (h : WS ws) {n : Nat} (hn : NextOk ws n) : NextOk ws (max (wrap ws (n / 3 * 2 + ws - 1) &&& maxAllocation ws) (minAllocation ws)) := by
  obtain ⟨l1, l2, l3, l4⟩ := lim_ge h
  obtain ⟨n1, n2, n3⟩ := hn
  rw [max_ok h, wrap_ok (by omega) (by omega), and_mask h (by omega)]
  obtain ⟨a, b, c⟩ := div_mul_facts h (((n : Int) / 3 * 2 + ws - 1).toNat)
  have hm : minAllocation ws % ws = 0 := by unfold minAllocation hdrSize; rw [show 2 * (3 * ws) = 6 * ws by ring]; exact Nat.mul_mod_left _ _
  have hm2 : minAllocation ws = 6 * ws := by unfold minAllocation hdrSize; ring
  unfold NextOk
  rcases le_total (((n : Int) / 3 * 2 + ws - 1).toNat / ws * ws) (minAllocation ws) with hle | hle
  · rw [max_eq_right hle]; exact ⟨hm, by omega, by omega⟩
  · rw [max_eq_left hle]; exact ⟨a, by omega, by omega⟩

/-- The linked list of headers at the ends of the outstanding blocks. -/
def Chain (ws : Nat) (mem : Words) : Nat → List Blk → Prop
  | p, [] => p = 0
  | p, b :: bs => p = b.addr + b.size - 3 * ws ∧ mem (p + ws) = b.size ∧ mem (p + 2 * ws) = b.align ∧ Chain ws mem (mem p) bs

/-- An outstanding upstream block. -/
structure GoodBlk (ws buf bsz : Nat) (b : Blk) : Prop where
  ne : b.addr ≠ 0
  al : b.addr % ws = 0
  sz : 3 * ws ≤ b.size
  szm : b.size % ws = 0
  lim : b.addr + b.size < 2 ^ (8 * ws)
  disj : Disj b.addr b.size buf bsz

/-- Invariant of the resource with an initial buffer `[buf, buf + bsz)`; `out` are the blocks handed out since the last release. -/
structure Inv (ws buf bsz : Nat) (h : Heap) (s : Mono) (out : List Blk) : Prop where
  ups_ok : ∀ b ∈ h.ups, GoodBlk ws buf bsz b
  ups_disj : h.ups.Pairwise fun a b => Disj a.addr a.size b.addr b.size
  chain : Chain ws h.mem s.head h.ups
  next : NextOk ws s.next
  cur : (s.cur = 0 ∧ s.space = 0) ∨ (s.cur ≠ 0 ∧ Inside s.cur s.space buf bsz) ∨
    (s.cur ≠ 0 ∧ ∃ b rest, h.ups = b :: rest ∧ Inside s.cur s.space b.addr (b.size - 3 * ws))
  out_ok : ∀ a ∈ out, a.addr ≠ 0 ∧ a.align ∣ a.addr ∧ (Inside a.addr a.size buf bsz ∨ ∃ b ∈ h.ups, Inside a.addr a.size b.addr (b.size - 3 * ws))
  out_cur : ∀ a ∈ out, s.cur = 0 ∨ Disj a.addr a.size s.cur s.space
  out_disj : out.Pairwise fun a b => Disj a.addr a.size b.addr b.size

/-- The upstream resource keeps its contract: a fresh, aligned block of the requested size which overlaps neither the outstanding blocks nor the initial
buffer. -/
def UpOk (ws buf bsz : Nat) (ups : List Blk) (up : Upstream) : Prop :=
  ∀ size al p, up size al = some p → p ≠ 0 ∧ al ∣ p ∧ p + size < 2 ^ (8 * ws) ∧ Disj p size buf bsz ∧ ∀ b ∈ ups, Disj p size b.addr b.size

/-- The initial buffer is a region of the address space. -/
def BufOk (ws buf bsz : Nat) : Prop := (buf = 0 → bsz = 0) ∧ buf + bsz < 2 ^ (8 * ws)

/-- A power of two that is a `size_t`. -/
def Pow2 (ws al : Nat) : Prop := ∃ k, al = 2 ^ k ∧ k < 8 * ws

theorem align_spec (hw : WS ws) {al size ptr space : Nat} (ha : Pow2 ws al) (hp : ptr + space < 2 ^ (8 * ws)) :
    match align ws al size ptr space with
    | some (p, sp) => ptr ≤ p ∧ p + sp = ptr + space ∧ size ≤ sp ∧ al ∣ p ∧ p ≠ 0
    | none => True := by
  obtain ⟨k, rfl, hk⟩ := ha
  have hpos : 0 < 2 ^ k := by positivity
  have hkl : 2 ^ k < 2 ^ (8 * ws) := Nat.pow_lt_pow_right (by omega) hk
  unfold align
  rw [wrap_ok (by omega) (by omega), show (((2 ^ k : Nat) : Int) - 1).toNat = 2 ^ k - 1 by omega, Nat.and_two_pow_sub_one_eq_mod]
  simp only
  have hml := Nat.mod_lt ptr hpos
  have hdm := Nat.div_add_mod ptr (2 ^ k)
  have hoff : ∃ off, (if ptr % 2 ^ k ≠ 0 then wrap ws (((2 ^ k : Nat) : Int) - (ptr % 2 ^ k : Nat)) else ptr % 2 ^ k) = off ∧ 2 ^ k ∣ ptr + off := by
    by_cases h0 : ptr % 2 ^ k = 0
    · rw [if_neg (by simpa using h0)]
      exact ⟨_, rfl, by rw [h0, Nat.add_zero]; exact Nat.dvd_of_mod_eq_zero h0⟩
    · rw [if_pos h0, wrap_ok (by omega) (by omega)]
      refine ⟨_, rfl, ⟨ptr / 2 ^ k + 1, ?_⟩⟩
      rw [Nat.mul_add, Nat.mul_one]; omega
  obtain ⟨off, h1, h2⟩ := hoff
  rw [h1]
  by_cases hs : space < off ∨ wrap ws ((space : Int) - off) < size
  · rw [if_pos hs]; trivial
  · rw [if_neg hs]
    by_cases hz : ptr + off = 0
    · rw [if_pos hz]; trivial
    · rw [if_neg hz]
      push Not at hs
      have hw2 : wrap ws ((space : Int) - off) = space - off := by rw [wrap_ok (by omega) (by omega)]; omega
      rw [hw2] at hs ⊢
      exact ⟨by omega, by omega, hs.2, h2, hz⟩

theorem chain_congr {mem mem' : Words} : ∀ {ups : List Blk} {p : Nat}, (∀ b ∈ ups, ∀ i, i < 3 → mem' (b.addr + b.size - 3 * ws + i * ws) = mem (b.addr + b.size - 3 * ws + i * ws)) →
    Chain ws mem p ups → Chain ws mem' p ups
  | [], _, _, h => h
  | b :: bs, p, hm, ⟨h1, h2, h3, h4⟩ => by
    have e0 := hm b (List.mem_cons_self) 0 (by omega)
    have e1 := hm b (List.mem_cons_self) 1 (by omega)
    have e2 := hm b (List.mem_cons_self) 2 (by omega)
    simp only [Nat.zero_mul, Nat.add_zero, Nat.one_mul] at e0 e1 e2
    subst h1
    exact ⟨rfl, by rw [e1]; exact h2, by rw [e2]; exact h3, by rw [e0]; exact chain_congr (fun b' hb' => hm b' (List.mem_cons_of_mem _ hb')) h4⟩

theorem owns_ok {h : Heap} {a : Nat} {b : Blk} (hb : b ∈ h.ups) (h1 : b.addr ≤ a) (h2 : a + ws ≤ b.addr + b.size) (hm : a % ws = 0) : h.owns ws a = true := by
  unfold Heap.owns
  rw [Bool.and_eq_true, List.any_eq_true]
  exact ⟨by simpa using hm, b, hb, by simp [h1, h2]⟩

theorem mod_add {a b : Nat} (ha : a % ws = 0) (hb : b % ws = 0) : (a + b) % ws = 0 := by
  rw [Nat.add_mod, ha, hb]; simp

theorem mod_sub {a b : Nat} (ha : a % ws = 0) (hb : b % ws = 0) : (a - b) % ws = 0 := (Nat.dvd_sub (Nat.dvd_of_mod_eq_zero ha) (Nat.dvd_of_mod_eq_zero hb)) |> Nat.mod_eq_zero_of_dvd

/-- What a successful refill does. -/
theorem increase_ok (hw : WS ws) {buf bsz : Nat} {h : Heap} {s : Mono} {out : List Blk} (hi : Inv ws buf bsz h s out) {bytes al : Nat} (ha : Pow2 ws al)
    (hby : bytes < 2 ^ (8 * ws)) {up : Upstream} (hu : UpOk ws buf bsz h.ups up) :
    (increaseCapacity ws h s bytes al up = .ok (h, .error .badAlloc) ∧ (bytes + 4 * ws > 2 ^ (8 * ws) ∨ ∃ size, bytes + 3 * ws ≤ size ∧ up size (max ws al) = none)) ∨
    ∃ b mem' next', increaseCapacity ws h s bytes al up = .ok (⟨mem', b :: h.ups⟩, .ok ⟨b.addr, b.size - 3 * ws, next', b.addr + b.size - 3 * ws⟩) ∧
      GoodBlk ws buf bsz b ∧ (∀ c ∈ h.ups, Disj b.addr b.size c.addr c.size) ∧ bytes ≤ b.size - 3 * ws ∧ al ∣ b.addr ∧ NextOk ws next' ∧
      (∀ x, (∀ i, i < 3 → x ≠ b.addr + b.size - 3 * ws + i * ws) → mem' x = h.mem x) ∧ Chain ws mem' (b.addr + b.size - 3 * ws) (b :: h.ups) ∧
      up b.size b.align = some b.addr ∧ s.next ≤ b.size ∧ (2 * next' ≥ 3 * b.size ∨ next' = 2 ^ (8 * ws) - ws) := by
  obtain ⟨l1, l2, l3, l4⟩ := lim_ge hw
  obtain ⟨n1, n2, n3⟩ := hi.next
  have hwp := hw.pos
  unfold increaseCapacity hdrSize
  rw [max_ok hw, wrap_ok (v := ((2 ^ (8 * ws) - ws : Nat) : Int) - (3 * ws : Nat)) (by omega) (by omega)]
  by_cases hb : bytes > (((2 ^ (8 * ws) - ws : Nat) : Int) - (3 * ws : Nat)).toNat
  · rw [if_pos hb]; left; exact ⟨rfl, .inl (by omega)⟩
  · rw [if_neg hb]
    have hb' : bytes + 4 * ws ≤ 2 ^ (8 * ws) := by omega
    simp only
    rw [wrap_ok (v := (bytes : Int) + (3 * ws : Nat)) (by omega) (by omega), wrap_ok (v := (bytes : Int) + (3 * ws : Nat) + ws - 1) (by omega) (by omega)]
    -- the size asked for
    obtain ⟨N, hN, hN1, hN2, hN3, hN4⟩ : ∃ N, (if s.next < ((bytes : Int) + (3 * ws : Nat)).toNat then ((bytes : Int) + (3 * ws : Nat) + ws - 1).toNat &&& (2 ^ (8 * ws) - ws) else s.next) = N ∧
        N % ws = 0 ∧ bytes + 3 * ws ≤ N ∧ N < 2 ^ (8 * ws) ∧ s.next ≤ N := by
      by_cases hlt : s.next < ((bytes : Int) + (3 * ws : Nat)).toNat
      · rw [if_pos hlt, and_mask hw (by omega)]
        obtain ⟨a, b, c⟩ := div_mul_facts hw ((bytes : Int) + (3 * ws : Nat) + ws - 1).toNat
        exact ⟨_, rfl, a, by omega, by omega, by omega⟩
      · rw [if_neg hlt]; exact ⟨_, rfl, n1, by omega, by omega, le_refl _⟩
    rw [hN]
    cases hup : up N (max ws al) with
    | none => left; exact ⟨rfl, .inr ⟨N, hN2, hup⟩⟩
    | some p =>
      right
      simp only
      obtain ⟨u1, u2, u3, u4, u5⟩ := hu _ _ _ hup
      rw [wrap_ok (v := (N : Int) - (3 * ws : Nat)) (by omega) (by omega), show ((N : Int) - (3 * ws : Nat)).toNat = N - 3 * ws by omega]
      have hal : al ∣ max ws al ∧ ws ∣ max ws al := by
        obtain ⟨k, rfl, _⟩ := ha
        obtain ⟨j, hj⟩ : ∃ j, ws = 2 ^ j := by rcases hw with rfl | rfl; exacts [⟨2, by norm_num⟩, ⟨3, by norm_num⟩]
        rw [hj]
        rcases le_total j k with hjk | hjk
        · have := Nat.pow_le_pow_right (n := 2) (by omega) hjk
          rw [max_eq_right this]; exact ⟨dvd_refl _, Nat.pow_dvd_pow 2 hjk⟩
        · have := Nat.pow_le_pow_right (n := 2) (by omega) hjk
          rw [max_eq_left this]; exact ⟨Nat.pow_dvd_pow 2 hjk, dvd_refl _⟩
      have hpm : p % ws = 0 := Nat.mod_eq_zero_of_dvd (dvd_trans hal.2 u2)
      have h3m : (3 * ws) % ws = 0 := Nat.mul_mod_left _ _
      have hhm : (p + (N - 3 * ws)) % ws = 0 := mod_add hpm (mod_sub hN1 h3m)
      have hmem : (⟨p, N, max ws al⟩ : Blk) ∈ (⟨p, N, max ws al⟩ :: h.ups) := List.mem_cons_self
      have o1 : ∀ m : Words, (⟨m, ⟨p, N, max ws al⟩ :: h.ups⟩ : Heap).owns ws (p + (N - 3 * ws) + ws) = true := fun m =>
        owns_ok hmem (by simp only; omega) (by simp only; omega) (mod_add hhm (Nat.mod_self _))
      have o2 : ∀ m : Words, (⟨m, ⟨p, N, max ws al⟩ :: h.ups⟩ : Heap).owns ws (p + (N - 3 * ws) + 2 * ws) = true := fun m =>
        owns_ok hmem (by simp only; omega) (by simp only; omega) (mod_add hhm (Nat.mul_mod_left _ _))
      have o3 : ∀ m : Words, (⟨m, ⟨p, N, max ws al⟩ :: h.ups⟩ : Heap).owns ws (p + (N - 3 * ws)) = true := fun m =>
        owns_ok hmem (by simp only; omega) (by simp only; omega) hhm
      unfold Heap.st
      rw [if_pos (o1 _)]; simp only [R.ok_bind]
      rw [if_pos (o2 _)]; simp only [R.ok_bind]
      rw [if_pos (o3 _)]; simp only [R.ok_bind]
      have he : p + (N - 3 * ws) = p + N - 3 * ws := by omega
      have hs := scale_good hw (n := N) (by omega)
      refine ⟨⟨p, N, max ws al⟩, _, scale ws N, by rw [he], ⟨u1, hpm, by simp only; omega, hN1, u3, u4⟩, u5, by simp only; omega, dvd_trans hal.1 u2,
        scale_next hw (by omega), ?_, ?_, hup, hN4, hs.2.2.1⟩
      · intro x hx
        have x0 := hx 0 (by omega)
        have x1 := hx 1 (by omega)
        have x2 := hx 2 (by omega)
        simp only [Nat.zero_mul, Nat.add_zero, Nat.one_mul] at x0 x1 x2
        rw [if_neg (by omega), if_neg (by omega), if_neg (by omega)]
      · refine ⟨rfl, ?_, ?_, ?_⟩
        · simp only
          rw [if_neg (by omega), if_neg (by omega), if_pos trivial]
        · simp only
          rw [if_neg (by omega), if_pos trivial]
        · simp only
          rw [if_pos trivial]
          refine chain_congr ?_ hi.chain
          intro b hb i hi3
          have hg := hi.ups_ok b hb
          have hd := u5 b hb
          have hsz := hg.sz
          have hlm : i * ws ≤ 2 * ws := Nat.mul_le_mul_right _ (by omega)
          unfold Disj at hd
          rw [if_neg (by omega), if_neg (by omega), if_neg (by omega)]

theorem inside_disj {a n b m c k d l : Nat} (h1 : Inside a n b m) (h2 : Inside c k d l) (h : Disj b m d l) : Disj a n c k := by
  unfold Inside Disj at *; omega

theorem disj_comm {a n b m : Nat} (h : Disj a n b m) : Disj b m a n := by unfold Disj at *; omega

/-- `do_allocate` keeps the invariant, hands out a good block, and changes no word of a block handed out before. -/
theorem alloc_ok (hw : WS ws) {buf bsz : Nat} (hbuf : BufOk ws buf bsz) {h : Heap} {s : Mono} {out : List Blk} (hi : Inv ws buf bsz h s out) {bytes al : Nat} (ha : Pow2 ws al)
    (hby : bytes < 2 ^ (8 * ws)) {up : Upstream} (hu : UpOk ws buf bsz h.ups up) :
    (doAllocate ws h s bytes al up = .ok (h, s, .error .badAlloc) ∧ (bytes + 4 * ws > 2 ^ (8 * ws) ∨ ∃ size, bytes + 3 * ws ≤ size ∧ up size (max ws al) = none)) ∨
    ∃ h' s' p, doAllocate ws h s bytes al up = .ok (h', s', .ok p) ∧ Inv ws buf bsz h' s' (⟨p, bytes, al⟩ :: out) ∧
      (∀ x, (∃ o ∈ out, ¬ Disj x ws o.addr o.size) ∨ ¬ Disj x ws buf bsz → h'.mem x = h.mem x) ∧ (h'.ups = h.ups ∨ ∃ b, h'.ups = b :: h.ups ∧ up b.size b.align = some b.addr) := by
  have hcl : s.cur + s.space < 2 ^ (8 * ws) := by
    rcases hi.cur with ⟨c1, c2⟩ | ⟨_, c⟩ | ⟨_, b, rest, hb, c⟩
    · have := Nat.two_pow_pos (8 * ws); omega
    · have := hbuf.2; unfold Inside at c; omega
    · have := (hi.ups_ok b (by rw [hb]; exact List.mem_cons_self)).lim; unfold Inside at c; omega
  have hsp := align_spec hw (size := bytes) ha hcl
  unfold doAllocate
  generalize align ws al bytes s.cur s.space = r at hsp ⊢
  cases r with
  | some r =>
    obtain ⟨p, sp⟩ := r
    right
    simp only at hsp ⊢
    obtain ⟨s1, s2, s3, s4, s5⟩ := hsp
    rw [wrap_ok (v := (sp : Int) - bytes) (by omega) (by omega), show ((sp : Int) - bytes).toNat = sp - bytes by omega]
    have hcur : s.cur ≠ 0 := by
      rcases hi.cur with ⟨c1, c2⟩ | ⟨c, _⟩ | ⟨c, _⟩
      · omega
      · exact c
      · exact c
    refine ⟨h, _, p, rfl, ⟨hi.ups_ok, hi.ups_disj, hi.chain, hi.next, ?_, ?_, ?_, ?_⟩, fun _ _ => rfl, .inl rfl⟩
    · simp only
      rcases hi.cur with ⟨c1, c2⟩ | ⟨_, c⟩ | ⟨_, b, rest, hb, c⟩
      · omega
      · right; left; unfold Inside at *; exact ⟨by omega, by omega, by omega⟩
      · right; right; unfold Inside at *; exact ⟨by omega, b, rest, hb, by omega, by omega⟩
    · intro a ha'
      rcases List.mem_cons.1 ha' with rfl | ha'
      · refine ⟨s5, s4, ?_⟩
        simp only
        rcases hi.cur with ⟨c1, c2⟩ | ⟨_, c⟩ | ⟨_, b, rest, hb, c⟩
        · omega
        · left; unfold Inside at *; omega
        · right; exact ⟨b, by rw [hb]; exact List.mem_cons_self, by unfold Inside at *; omega⟩
      · exact hi.out_ok a ha'
    · intro a ha'
      right
      rcases List.mem_cons.1 ha' with rfl | ha'
      · left; exact le_refl _
      · have := (hi.out_cur a ha').resolve_left hcur
        unfold Disj at *; simp only; omega
    · rw [List.pairwise_cons]
      refine ⟨fun a ha' => ?_, hi.out_disj⟩
      have := (hi.out_cur a ha').resolve_left hcur
      unfold Disj at *; simp only; omega
  | none =>
    simp only
    rcases increase_ok hw hi ha hby hu with ⟨he, hr⟩ | ⟨b, mem', next', he, hg, hd, hsz, hal, hn, hm, hch, hup, _, _⟩
    · left; rw [he]; exact ⟨rfl, hr⟩
    · right
      rw [he]; simp only [R.ok_bind]
      have hlim := hg.lim
      have hg3 := hg.sz
      rw [wrap_ok (v := ((b.size - 3 * ws : Nat) : Int) - bytes) (by omega) (by omega), show (((b.size - 3 * ws : Nat) : Int) - bytes).toNat = b.size - 3 * ws - bytes by omega]
      have hold : ∀ a ∈ out, Disj a.addr a.size b.addr b.size := by
        intro a ha'
        rcases (hi.out_ok a ha').2.2 with h1 | ⟨c, hc, h1⟩
        · have := hg.disj; unfold Inside Disj at *; omega
        · have := hd c hc; have := (hi.ups_ok c hc).sz; unfold Inside Disj at *; omega
      refine ⟨_, _, b.addr, rfl, ⟨?_, ?_, hch, hn, ?_, ?_, ?_, ?_⟩, ?_, .inr ⟨b, rfl, hup⟩⟩
      · intro c hc
        rcases List.mem_cons.1 hc with rfl | hc
        · exact hg
        · exact hi.ups_ok c hc
      · exact List.pairwise_cons.2 ⟨hd, hi.ups_disj⟩
      · right; right
        have := hg.ne
        exact ⟨by simp only; omega, b, h.ups, rfl, by simp only; unfold Inside; omega⟩
      · intro a ha'
        rcases List.mem_cons.1 ha' with rfl | ha'
        · exact ⟨hg.ne, hal, .inr ⟨b, List.mem_cons_self, by unfold Inside; simp only; omega⟩⟩
        · obtain ⟨o1, o2, o3⟩ := hi.out_ok a ha'
          exact ⟨o1, o2, o3.imp id fun ⟨c, hc, h1⟩ => ⟨c, List.mem_cons_of_mem _ hc, h1⟩⟩
      · intro a ha'
        right
        rcases List.mem_cons.1 ha' with rfl | ha'
        · left; exact le_refl _
        · have := hold a ha'; unfold Disj at *; simp only; omega
      · rw [List.pairwise_cons]
        refine ⟨fun a ha' => ?_, hi.out_disj⟩
        have := hold a ha'; unfold Disj at *; simp only; omega
      · intro x hx
        refine hm x fun i hi3 => ?_
        have hlm : i * ws ≤ 2 * ws := Nat.mul_le_mul_right _ (by omega)
        have hd' : ∀ o n, Disj o n b.addr b.size → ¬ Disj x ws o n → x ≠ b.addr + b.size - 3 * ws + i * ws := by
          intro o n h1 h2; unfold Disj at *; omega
        rcases hx with ⟨o, ho, h2⟩ | h2
        · exact hd' _ _ (hold o ho) h2
        · exact hd' _ _ (disj_comm hg.disj) h2

theorem releaseLoop_ok (hw : WS ws) {buf bsz : Nat} {mem : Words} : ∀ (ups : List Blk) (p : Nat) (f : Nat), ups.length < f → Chain ws mem p ups →
    (∀ b ∈ ups, GoodBlk ws buf bsz b) → releaseLoop ws f ⟨mem, ups⟩ p = .ok ⟨mem, []⟩
  | [], p, f, hf, hc, _ => by
    obtain ⟨f, rfl⟩ : ∃ g, f = g + 1 := ⟨f - 1, by simp at hf; omega⟩
    have hc : p = 0 := hc
    unfold releaseLoop; rw [if_pos hc]
  | b :: bs, p, f, hf, hc, hg => by
    obtain ⟨f, rfl⟩ : ∃ g, f = g + 1 := ⟨f - 1, by simp at hf; omega⟩
    obtain ⟨rfl, h2, h3, h4⟩ := hc
    have gb := hg b List.mem_cons_self
    have hsz := gb.sz
    have hne := gb.ne
    have hlim := gb.lim
    have hwp := hw.pos
    unfold releaseLoop Heap.ld hdrSize
    have h3m : (3 * ws) % ws = 0 := Nat.mul_mod_left _ _
    have hhm : (b.addr + b.size - 3 * ws) % ws = 0 := mod_sub (mod_add gb.al gb.szm) h3m
    have o0 : (⟨mem, b :: bs⟩ : Heap).owns ws (b.addr + b.size - 3 * ws) = true := owns_ok List.mem_cons_self (by omega) (by omega) hhm
    have o1 : (⟨mem, b :: bs⟩ : Heap).owns ws (b.addr + b.size - 3 * ws + ws) = true := owns_ok List.mem_cons_self (by omega) (by omega) (mod_add hhm (Nat.mod_self _))
    have o2 : (⟨mem, b :: bs⟩ : Heap).owns ws (b.addr + b.size - 3 * ws + 2 * ws) = true :=
      owns_ok List.mem_cons_self (by omega) (by omega) (mod_add hhm (Nat.mul_mod_left _ _))
    rw [if_neg (by omega), if_pos o0]; simp only [R.ok_bind]
    rw [if_pos o1]; simp only [R.ok_bind]
    rw [if_pos o2]; simp only [R.ok_bind]
    rw [h2, h3]
    have hadr : wrap ws (((b.addr + b.size - 3 * ws : Nat) : Int) + (3 * ws : Nat) - b.size) = b.addr := by
      rw [wrap_ok (by omega) (by omega)]; omega
    rw [hadr]
    unfold Heap.dealloc
    rw [if_pos (by exact List.mem_cons_self)]
    simp only [R.ok_bind]
    rw [List.erase_cons_head]
    exact releaseLoop_ok hw bs _ f (by simp at hf; omega) h4 fun c hc => hg c (List.mem_cons_of_mem _ hc)

theorem release_ok (hw : WS ws) {buf bsz : Nat} {h : Heap} {s : Mono} {out : List Blk} (hi : Inv ws buf bsz h s out) :
    ∃ s', release ws h s = .ok (⟨h.mem, []⟩, s') ∧ Inv ws buf bsz ⟨h.mem, []⟩ s' [] := by
  obtain ⟨mem, ups⟩ := h
  unfold release
  by_cases h0 : s.head = 0
  · have hups : ups = [] := by
      cases ups with
      | nil => rfl
      | cons b bs =>
        obtain ⟨h1, _⟩ := hi.chain
        have := hi.ups_ok b List.mem_cons_self
        have := this.ne; have := (hi.ups_ok b List.mem_cons_self).sz
        omega
    subst hups
    rw [if_pos h0]
    refine ⟨s, rfl, ⟨hi.ups_ok, hi.ups_disj, hi.chain, hi.next, hi.cur, ?_, ?_, List.Pairwise.nil⟩⟩
    · intro a ha; cases ha
    · intro a ha; cases ha
  · rw [if_neg h0]
    rw [releaseLoop_ok hw ups _ _ (Nat.lt_succ_self _) hi.chain hi.ups_ok]
    simp only [R.ok_bind]
    refine ⟨_, rfl, ⟨?_, List.Pairwise.nil, rfl, unscale_next hw hi.next, .inl ⟨rfl, rfl⟩, ?_, ?_, List.Pairwise.nil⟩⟩
    · intro a ha; cases ha
    · intro a ha; cases ha
    · intro a ha; cases ha

end STL.Pmr
