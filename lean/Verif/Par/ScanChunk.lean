import Verif.Par.Scan
import Verif.Par.ForEachProps

/-! # C40: the work on one chunk of a scan -/

namespace STL.Par.Scan
open STL STL.Conc

namespace Spec
variable {α : Type}

/-- The sequential inclusive scan of `v`, with or without an initial value. -/
def inclusive (op : α → α → α) (init : Option α) (v : Nat → α) : Nat → α
  | 0 => match init with
    | some i => op i (v 0)
    | none => v 0
  | x + 1 => op (inclusive op init v x) (v (x + 1))

/-- The sequential exclusive scan of `v`. -/
def exclusive (op : α → α → α) (i : α) (v : Nat → α) : Nat → α
  | 0 => i
  | x + 1 => op (exclusive op i v x) (v x)

end Spec
open Spec

variable {α : Type} {op : α → α → α}

/-- What the algorithm has to store at `x`. -/
def fin (A : Alg α) (op : α → α → α) (v : Nat → α) (x : Nat) : α :=
  match A with
  | .excl i => exclusive op i v x
  | .incl o => inclusive op o v x

/-- `v a, …, v (a + m)`, from the left. -/
def sum1 (op : α → α → α) (v : Nat → α) (a : Nat) : Nat → α
  | 0 => v a
  | m + 1 => op (sum1 op v a m) (v (a + m + 1))

def fold (op : α → α → α) (v : Nat → α) (val : α) (x : Nat) : Nat → α
  | 0 => val
  | j + 1 => op (fold op v val x j) (v (x + j))

theorem fold_shift (v : Nat → α) (val : α) (x : Nat) : ∀ j, fold op v (op val (v x)) (x + 1) j = fold op v val x (j + 1) := by
  intro j
  induction j with
  | zero => rfl
  | succ j ih =>
    show op (fold op v (op val (v x)) (x + 1) j) (v (x + 1 + j)) = op (fold op v val x (j + 1)) (v (x + (j + 1)))
    rw [ih, show x + 1 + j = x + (j + 1) by omega]

theorem fold_sum1 (v : Nat → α) (a : Nat) : ∀ j, fold op v (v a) (a + 1) j = sum1 op v a j := by
  intro j
  induction j with
  | zero => rfl
  | succ j ih =>
    show op (fold op v (v a) (a + 1) j) (v (a + 1 + j)) = op (sum1 op v a j) (v (a + j + 1))
    rw [ih, show a + 1 + j = a + j + 1 by omega]

theorem fold_incl (o : Option α) (v : Nat → α) (a : Nat) : ∀ j, fold op v (inclusive op o v a) (a + 1) j = inclusive op o v (a + j) := by
  intro j
  induction j with
  | zero => rfl
  | succ j ih =>
    show op (fold op v (inclusive op o v a) (a + 1) j) (v (a + 1 + j)) = op (inclusive op o v (a + j)) (v (a + j + 1))
    rw [ih, show a + 1 + j = a + j + 1 by omega]

theorem incl_split (assoc : ∀ x y z, op (op x y) z = op x (op y z)) (o : Option α) (v : Nat → α) (a : Nat) :
    ∀ m, inclusive op o v (a + 1 + m) = op (inclusive op o v a) (sum1 op v (a + 1) m) := by
  intro m
  induction m with
  | zero => rfl
  | succ m ih =>
    show op (inclusive op o v (a + 1 + m)) (v (a + 1 + m + 1)) = op (inclusive op o v a) (op (sum1 op v (a + 1) m) (v (a + 1 + m + 1)))
    rw [ih, assoc]

theorem sum1_split (assoc : ∀ x y z, op (op x y) z = op x (op y z)) (v : Nat → α) (a m : Nat) :
    ∀ m', op (sum1 op v a m) (sum1 op v (a + m + 1) m') = sum1 op v a (m + 1 + m') := by
  intro m'
  induction m' with
  | zero => rfl
  | succ m' ih =>
    show op (sum1 op v a m) (op (sum1 op v (a + m + 1) m') (v (a + m + 1 + m' + 1))) = op (sum1 op v a (m + 1 + m')) (v (a + (m + 1 + m') + 1))
    rw [← assoc, ih, show a + m + 1 + m' + 1 = a + (m + 1 + m') + 1 by omega]

theorem excl_incl (i : α) (v : Nat → α) : ∀ x, exclusive op i v (x + 1) = inclusive op (some i) v x := by
  intro x
  induction x with
  | zero => rfl
  | succ x ih =>
    show op (exclusive op i v (x + 1)) (v (x + 1)) = op (inclusive op (some i) v x) (v (x + 1))
    rw [ih]

theorem rd_congr (I : Src α) {out out' : Nat → α} {x : Nat} (h : out x = out' x) : I.rd out x = I.rd out' x := by
  cases I with
  | separate v => rfl
  | inplace f => show f (out x) = f (out' x); rw [h]

theorem set_self (out : Nat → α) (x : Nat) (val : α) : set out x val x = val := by simp [set]
theorem set_ne (out : Nat → α) {x y : Nat} (val : α) (h : y ≠ x) : set out x val y = out y := by simp [set, h]

theorem exclRest_spec (I : Src α) (v : Nat → α) : ∀ (m x : Nat) (val : α) (out : Nat → α), (∀ y, x ≤ y → y < x + m → I.rd out y = v y) →
    (exclRest I op m x val out).2 = fold op v val x m ∧ (∀ y, x ≤ y → y < x + m → (exclRest I op m x val out).1 y = fold op v val x (y - x)) ∧
    ∀ y, ¬ (x ≤ y ∧ y < x + m) → (exclRest I op m x val out).1 y = out y := by
  intro m
  induction m with
  | zero => intro x val out _; exact ⟨rfl, fun y h1 h2 => by omega, fun y _ => rfl⟩
  | succ m ih =>
    intro x val out h
    unfold exclRest
    rw [h x (Nat.le_refl x) (by omega)]
    obtain ⟨i1, i2, i3⟩ := ih (x + 1) (op val (v x)) (set out x val) (fun y h1 h2 => by
      rw [rd_congr I (set_ne out val (show y ≠ x by omega))]
      exact h y (by omega) (by omega))
    refine ⟨by rw [i1, fold_shift], fun y h1 h2 => ?_, fun y hy => ?_⟩
    · by_cases hx : y = x
      · subst hx
        rw [i3 y (by omega), set_self, Nat.sub_self]
        rfl
      · rw [i2 y (by omega) (by omega), fold_shift, show y - (x + 1) + 1 = y - x by omega]
    · rw [i3 y (by omega), set_ne _ _ (by omega)]

theorem inclLoop_spec (I : Src α) (v : Nat → α) : ∀ (m x : Nat) (val : α) (out : Nat → α), (∀ y, x < y → y ≤ x + m → I.rd out y = v y) →
    (inclLoop I op m x val out).2 = fold op v val (x + 1) m ∧ (∀ y, x ≤ y → y ≤ x + m → (inclLoop I op m x val out).1 y = fold op v val (x + 1) (y - x)) ∧
    ∀ y, ¬ (x ≤ y ∧ y ≤ x + m) → (inclLoop I op m x val out).1 y = out y := by
  intro m
  induction m with
  | zero =>
    intro x val out _
    refine ⟨rfl, fun y h1 h2 => ?_, fun y hy => ?_⟩
    · rw [show y = x by omega, Nat.sub_self]
      exact set_self out x val
    · exact set_ne out val (by omega)
  | succ m ih =>
    intro x val out h
    unfold inclLoop
    rw [rd_congr I (set_ne out val (show x + 1 ≠ x by omega)), h (x + 1) (by omega) (by omega)]
    obtain ⟨i1, i2, i3⟩ := ih (x + 1) (op val (v (x + 1))) (set out x val) (fun y h1 h2 => by
      rw [rd_congr I (set_ne out val (show y ≠ x by omega))]
      exact h y (by omega) (by omega))
    refine ⟨by rw [i1, fold_shift], fun y h1 h2 => ?_, fun y hy => ?_⟩
    · by_cases hx : y = x
      · subst hx
        rw [i3 y (by omega), set_self, Nat.sub_self]
        rfl
      · rw [i2 y (by omega) (by omega), fold_shift, show y - (x + 1) + 1 = y - x by omega]
    · rw [i3 y (by omega), set_ne _ _ (by omega)]

theorem applyLoop_spec (pre : α) : ∀ (m x : Nat) (out : Nat → α),
    (∀ y, x ≤ y → y < x + m → applyLoop op pre m x out y = op pre (out y)) ∧ ∀ y, ¬ (x ≤ y ∧ y < x + m) → applyLoop op pre m x out y = out y := by
  intro m
  induction m with
  | zero => intro x out; exact ⟨fun y h1 h2 => by omega, fun y _ => rfl⟩
  | succ m ih =>
    intro x out
    unfold applyLoop
    obtain ⟨i1, i2⟩ := ih (x + 1) (set out x (op pre (out x)))
    refine ⟨fun y h1 h2 => ?_, fun y hy => ?_⟩
    · by_cases hx : y = x
      · subst hx
        rw [i2 y (by omega), set_self]
      · rw [i1 y (by omega) (by omega), set_ne _ _ (by omega)]
    · rw [i2 y (by omega), set_ne _ _ (by omega)]

/-! ## Chunks -/

/-- What a local scan leaves at `[a, b)`. -/
def LocalOk (A : Alg α) (op : α → α → α) (v : Nat → α) (a b : Nat) (out : Nat → α) : Prop :=
  match A with
  | .excl _ => ∀ y, a < y → y < b → out y = sum1 op v a (y - a - 1)
  | .incl _ => ∀ y, a ≤ y → y < b → out y = sum1 op v a (y - a)

/-- Sum of everything up to `x`. -/
def inc (A : Alg α) (op : α → α → α) (v : Nat → α) (x : Nat) : α := inclusive op A.init v x

theorem full_ok (A : Alg α) (I : Src α) {v : Nat → α} {a b : Nat} {pre : Option α} {out : Nat → α} (hab : a < b)
    (hv : ∀ y, a ≤ y → y < b → I.rd out y = v y) (h0 : a = 0 → pre = A.init) (h1 : 0 < a → pre = some (inc A op v (a - 1))) :
    ∃ r, full A I op a b pre out = some r ∧ r.2 = inc A op v (b - 1) ∧ (∀ y, a ≤ y → y < b → r.1 y = fin A op v y) ∧ ∀ y, ¬ (a ≤ y ∧ y < b) → r.1 y = out y := by
  -- the value after the first element
  have hfirst : ∀ p, pre = some p → op p (v a) = inc A op v a := by
    intro p hp
    by_cases h : a = 0
    · have e := h0 h
      subst h
      unfold inc
      rw [← e, hp]
      rfl
    · have e := h1 (by omega)
      rw [hp] at e
      simp only [Option.some.injEq] at e
      rw [e]
      unfold inc
      conv => rhs; rw [show a = a - 1 + 1 by omega]
      show _ = op _ (v (a - 1 + 1))
      rw [show a - 1 + 1 = a by omega]
  cases A with
  | excl i =>
    have hpre : ∃ p, pre = some p := by
      by_cases h : a = 0
      · exact ⟨i, h0 h⟩
      · exact ⟨_, h1 (by omega)⟩
    obtain ⟨p, rfl⟩ := hpre
    have hf := hfirst p rfl
    have hp : p = exclusive op i v a := by
      by_cases h : a = 0
      · have e := h0 h
        simp only [Alg.init, Option.some.injEq] at e
        rw [h, e]; rfl
      · have e := h1 (by omega)
        simp only [Option.some.injEq] at e
        rw [e]
        conv => rhs; rw [show a = a - 1 + 1 by omega]
        rw [excl_incl]
        rfl
    obtain ⟨e1, e2, e3⟩ := exclRest_spec (op := op) I v (b - a - 1) (a + 1) (op p (v a)) (set out a p) (fun y u w => by
      rw [rd_congr I (set_ne out p (show y ≠ a by omega))]
      exact hv y (by omega) (by omega))
    refine ⟨exclComplete I op a b p out, rfl, ?_, fun y u w => ?_, fun y hy => ?_⟩
    · unfold exclComplete
      rw [hv a (Nat.le_refl a) hab, e1, hf]
      unfold inc
      rw [fold_incl, show a + (b - a - 1) = b - 1 by omega]
    · unfold exclComplete
      rw [hv a (Nat.le_refl a) hab]
      by_cases hx : y = a
      · subst hx
        rw [e3 y (by omega), set_self]
        exact hp
      · rw [e2 y (by omega) (by omega), hf]
        unfold inc
        rw [fold_incl]
        show _ = exclusive op i v y
        conv => rhs; rw [show y = y - 1 + 1 by omega]
        rw [excl_incl, show a + (y - (a + 1)) = y - 1 by omega]
        rfl
    · unfold exclComplete
      rw [hv a (Nat.le_refl a) hab, e3 y (by omega), set_ne _ _ (by omega)]
  | incl o =>
    have hf : withPre op pre (I.rd out a) = inclusive op o v a := by
      rw [hv a (Nat.le_refl a) hab]
      cases hp : pre with
      | some p => exact hfirst p hp
      | none =>
        have ha : a = 0 := by
          by_contra h
          have := h1 (by omega)
          rw [hp] at this
          exact absurd this (by simp)
        have := h0 ha
        rw [hp] at this
        simp only [Alg.init] at this
        rw [← this, ha]
        rfl
    obtain ⟨e1, e2, e3⟩ := inclLoop_spec (op := op) I v (b - a - 1) a (inclusive op o v a) out (fun y u w => hv y (by omega) (by omega))
    refine ⟨inclChunk I op a b pre out, rfl, ?_, fun y u w => ?_, fun y hy => ?_⟩
    · unfold inclChunk
      rw [hf, e1, fold_incl, show a + (b - a - 1) = b - 1 by omega]
      rfl
    · unfold inclChunk
      rw [hf, e2 y (by omega) (by omega), fold_incl, show a + (y - a) = y by omega]
      rfl
    · unfold inclChunk
      rw [hf, e3 y (by omega)]

theorem local_ok (A : Alg α) (I : Src α) {v : Nat → α} {a b : Nat} {out : Nat → α} (hab : a < b) (hv : ∀ y, a ≤ y → y < b → I.rd out y = v y) :
    (localScan A I op a b out).2 = sum1 op v a (b - a - 1) ∧ LocalOk A op v a b (localScan A I op a b out).1 ∧ ∀ y, ¬ (a ≤ y ∧ y < b) → (localScan A I op a b out).1 y = out y := by
  cases A with
  | excl i =>
    obtain ⟨e1, e2, e3⟩ := exclRest_spec (op := op) I v (b - a - 1) (a + 1) (v a) out (fun y u w => hv y (by omega) (by omega))
    show (exclLocal I op a b out).2 = _ ∧ LocalOk (.excl i) op v a b (exclLocal I op a b out).1 ∧ ∀ y, _ → (exclLocal I op a b out).1 y = out y
    unfold exclLocal
    rw [hv a (Nat.le_refl a) hab]
    refine ⟨by rw [e1, fold_sum1], fun y u w => ?_, fun y hy => e3 y (by omega)⟩
    rw [e2 y (by omega) (by omega), fold_sum1, show y - (a + 1) = y - a - 1 by omega]
  | incl o =>
    obtain ⟨e1, e2, e3⟩ := inclLoop_spec (op := op) I v (b - a - 1) a (v a) out (fun y u w => hv y (by omega) (by omega))
    show (inclChunk I op a b none out).2 = _ ∧ LocalOk (.incl o) op v a b (inclChunk I op a b none out).1 ∧ ∀ y, _ → (inclChunk I op a b none out).1 y = out y
    unfold inclChunk
    rw [hv a (Nat.le_refl a) hab, show withPre op none (v a) = v a from rfl]
    refine ⟨by rw [e1, fold_sum1], fun y u w => ?_, fun y hy => e3 y (by omega)⟩
    rw [e2 y (by omega) (by omega), fold_sum1]

theorem apply_ok (assoc : ∀ x y z, op (op x y) z = op x (op y z)) (A : Alg α) {v : Nat → α} {a b : Nat} {out : Nat → α} (ha : 0 < a) (hab : a < b) (hl : LocalOk A op v a b out) :
    (∀ y, a ≤ y → y < b → applyPre A op a b (inc A op v (a - 1)) out y = fin A op v y) ∧ ∀ y, ¬ (a ≤ y ∧ y < b) → applyPre A op a b (inc A op v (a - 1)) out y = out y := by
  cases A with
  | excl i =>
    obtain ⟨e1, e2⟩ := applyLoop_spec (op := op) (inc (.excl i) op v (a - 1)) (b - a - 1) (a + 1) (set out a (inc (.excl i) op v (a - 1)))
    refine ⟨fun y u w => ?_, fun y hy => ?_⟩
    · show applyLoop op _ (b - a - 1) (a + 1) _ y = exclusive op i v y
      by_cases hx : y = a
      · subst hx
        rw [e2 y (by omega), set_self]
        conv => rhs; rw [show y = y - 1 + 1 by omega]
        rw [excl_incl]
        rfl
      · rw [e1 y (by omega) (by omega), set_ne _ _ hx, hl y (by omega) w]
        have := incl_split assoc (some i) v (a - 1) (y - a - 1)
        rw [show a - 1 + 1 = a by omega, show a + (y - a - 1) = y - 1 by omega] at this
        conv => rhs; rw [show y = y - 1 + 1 by omega]
        rw [excl_incl, this]
        rfl
    · show applyLoop op _ (b - a - 1) (a + 1) _ y = _
      rw [e2 y (by omega), set_ne _ _ (by omega)]
  | incl o =>
    obtain ⟨e1, e2⟩ := applyLoop_spec (op := op) (inc (.incl o) op v (a - 1)) (b - a) a out
    refine ⟨fun y u w => ?_, fun y hy => ?_⟩
    · show applyLoop op _ (b - a) a _ y = inclusive op o v y
      rw [e1 y (by omega) (by omega), hl y u w]
      have := incl_split assoc o v (a - 1) (y - a)
      rw [show a - 1 + 1 = a by omega, show a + (y - a) = y by omega] at this
      rw [this]
      rfl
    · exact e2 y (by omega)

end STL.Par.Scan
