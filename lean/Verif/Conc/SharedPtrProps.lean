import Verif.Conc.SharedPtr

/-!
# Property C17: reference counting is exact under every interleaving
-/

namespace STL.SharedPtr
open STL STL.Conc

variable {ι : Type} [Fintype ι] [DecidableEq ι]

namespace Spec

/-- Number of `shared_ptr` handles in existence. -/
def owners (σ : State ι) : Nat := ∑ t, (σ.l t).s
/-- Number of `weak_ptr` handles in existence. -/
def observers (σ : State ι) : Nat := ∑ t, (σ.l t).w

/-- States reached by any interleaving in which there are never 2^32 - 1 handles of a kind at the same time. -/
inductive Reach (t₀ : ι) : State ι → Prop
  | init : Reach t₀ (init t₀)
  | step {σ σ' t a} : Reach t₀ σ → step σ t a = some σ' → owners σ' < 2 ^ 32 - 1 → observers σ' < 2 ^ 32 - 1 → Reach t₀ σ'

/-- No operation is in progress. -/
def Quiescent (σ : State ι) : Prop := ∀ t, (σ.l t).pc = .idle

end Spec
open Spec

def fS (x : Loc) : Nat := x.s
def fW (x : Loc) : Nat := x.w
def fD (x : Loc) : Nat := if x.pc = .destroy then 1 else 0
def fQ (x : Loc) : Nat := if x.pc = .decw then 1 else 0
def fX (x : Loc) : Nat := if x.pc = .delete then 1 else 0

/-- The invariant, in terms of totals over threads. -/
structure Inv (b : Block) (S W D Q X : Nat) : Prop where
  bS : S < 2 ^ 32 - 1
  bW : W < 2 ^ 32 - 1
  uses : b.uses = S
  weaks : b.weaks = W + (if 0 < S then 1 else 0) + D + Q
  dead : 0 < S → D = 0 ∧ Q = 0
  one : D + Q ≤ 1
  destroyed : b.destroyed = if S = 0 ∧ D = 0 then 1 else 0
  del : X ≤ 1
  delw : 0 < X → b.weaks = 0
  freed : b.freed = if b.weaks = 0 ∧ X = 0 then 1 else 0
  bad : b.bad = false

def LockOk (l : ι → Loc) : Prop :=
  ∀ t, ((l t).pc = .lockLoad → 0 < (l t).w) ∧ (∀ c, (l t).pc = .lockCas c → 0 < (l t).w ∧ c ≠ 0)

def InvS (σ : State ι) : Prop := Inv σ.b (tot fS σ.l) (tot fW σ.l) (tot fD σ.l) (tot fQ σ.l) (tot fX σ.l) ∧ LockOk σ.l

theorem inv_init (t₀ : ι) : InvS (init t₀) := by
  have hz : ∀ f : Loc → Nat, (∀ t, f ((init t₀).l t) = 0) → tot f (init t₀).l = 0 := fun f h => tot_eq_zero h
  have hS : tot fS (init t₀).l = 1 := by simp [tot, fS, init]
  refine ⟨?_, fun t => ⟨fun h => by simp [init] at h, fun c h => by simp [init] at h⟩⟩
  rw [hS, hz fW (fun t => by simp [fW, init]), hz fD (fun t => by simp [fD, init]), hz fQ (fun t => by simp [fQ, init]),
    hz fX (fun t => by simp [fX, init])]
  constructor <;> simp [init]

theorem lockOk_upd {l : ι → Loc} (h : LockOk l) (t : ι) (x : Loc) (h1 : x.pc = .lockLoad → 0 < x.w)
    (h2 : ∀ c, x.pc = .lockCas c → 0 < x.w ∧ c ≠ 0) : LockOk (upd l t x) := by
  intro u
  by_cases hu : u = t
  · subst hu; rw [upd_self]; exact ⟨h1, h2⟩
  · rw [upd_ne _ _ hu]; exact h u

theorem touch_ok {b : Block} (h : b.freed = 0) (hb : b.bad = false) : b.touch = b := by
  cases b; simp at h hb; subst h hb; rfl

theorem inc_eq {x : Nat} (h : x < 2 ^ 32 - 1) : inc x = x + 1 := by unfold inc; omega
theorem dec_eq {x : Nat} (h : 0 < x) (h' : x < 2 ^ 32) : dec x = x - 1 := by unfold dec; omega

theorem inv_incref {b : Block} {S W D Q X : Nat} (h : Inv b S W D Q X) (hS : 0 < S) (hb : S + 1 < 2 ^ 32 - 1) :
    Inv b.incref (S + 1) W D Q X := by
  obtain ⟨i1, i2, i3, i4, i5, i6, i7, i8, i9, i10, i11⟩ := h
  have hw : b.weaks ≠ 0 := by rw [i4, if_pos hS]; omega
  have hf : b.freed = 0 := by rw [i10, if_neg (by omega)]
  have e : b.incref = { b with uses := b.uses + 1 } := by
    unfold Block.incref; rw [touch_ok hf i11, inc_eq (by omega)]
  rw [e]
  refine ⟨hb, i2, by simp [i3], by simp [i4, hS], by intro _; exact i5 hS, i6, ?_, i8, i9, i10, i11⟩
  simp only; rw [i7, if_neg (by omega), if_neg (by omega)]

theorem inv_incwref {b : Block} {S W D Q X : Nat} (h : Inv b S W D Q X) (hS : 0 < S ∨ 0 < W) (hb : W + 1 < 2 ^ 32 - 1) :
    Inv b.incwref S (W + 1) D Q X := by
  obtain ⟨i1, i2, i3, i4, i5, i6, i7, i8, i9, i10, i11⟩ := h
  have hw : b.weaks ≠ 0 := by rw [i4]; split <;> omega
  have hwb : b.weaks < 2 ^ 32 - 1 := by
    rw [i4]; split
    · have := i5 (by assumption); omega
    · omega
  have hf : b.freed = 0 := by rw [i10, if_neg (by omega)]
  have e : b.incwref = { b with weaks := b.weaks + 1 } := by
    unfold Block.incwref; rw [touch_ok hf i11, inc_eq hwb]
  rw [e]
  refine ⟨i1, hb, i3, by simp only; omega, i5, i6, i7, i8, fun hx => absurd (i9 hx) hw, ?_, i11⟩
  simp only; rw [hf, if_neg (by omega)]

/-- giving up one `shared_ptr` -/
theorem inv_decref {b : Block} {S W D Q X : Nat} (h : Inv b (S + 1) W D Q X) :
    (S = 0 → b.decref.2 = .destroy ∧ Inv b.decref.1 S W (D + 1) Q X) ∧ (S ≠ 0 → b.decref.2 = .idle ∧ Inv b.decref.1 S W D Q X) := by
  obtain ⟨i1, i2, i3, i4, i5, i6, i7, i8, i9, i10, i11⟩ := h
  have hw : b.weaks ≠ 0 := by rw [i4, if_pos (by omega)]; omega
  have hf : b.freed = 0 := by rw [i10, if_neg (by omega)]
  have hdq := i5 (by omega)
  have hde : dec b.uses = S := by rw [i3, dec_eq (by omega) (by omega)]; omega
  have e : b.decref.1 = { b with uses := S } := by unfold Block.decref; rw [touch_ok hf i11, hde]
  have e2 : b.decref.2 = if S = 0 then .destroy else .idle := by unfold Block.decref; rw [hde]
  rw [if_pos (by omega)] at i4
  rw [if_neg (by omega)] at i7
  constructor
  · intro h0
    refine ⟨by rw [e2, if_pos h0], ?_⟩
    rw [e]
    refine ⟨by omega, i2, rfl, by simp only; rw [if_neg (by omega)]; omega, fun hx => by omega, by omega, ?_, i8, i9, i10, i11⟩
    simp only; rw [i7, if_neg (by omega)]
  · intro h0
    refine ⟨by rw [e2, if_neg h0], ?_⟩
    rw [e]
    refine ⟨by omega, i2, rfl, by simp only; rw [if_pos (by omega)]; omega, fun hx => hdq, i6, ?_, i8, i9, i10, i11⟩
    simp only; rw [i7, if_neg (by omega)]

/-- giving up one `weak_ptr` -/
theorem inv_decwref {b : Block} {S W D Q X : Nat} (h : Inv b S (W + 1) D Q X) :
    (b.decwref.2 = .delete ∧ Inv b.decwref.1 S W D Q (X + 1)) ∨ (b.decwref.2 = .idle ∧ Inv b.decwref.1 S W D Q X) := by
  obtain ⟨i1, i2, i3, i4, i5, i6, i7, i8, i9, i10, i11⟩ := h
  have hw : b.weaks ≠ 0 := by rw [i4]; omega
  have hx0 : X = 0 := by by_contra hc; exact hw (i9 (by omega))
  have hf : b.freed = 0 := by rw [i10, if_neg (by omega)]
  have hwb : b.weaks < 2 ^ 32 := by
    rw [i4]; split
    · have := i5 (by assumption); omega
    · omega
  obtain ⟨V, hV⟩ : ∃ V, b.weaks = V + 1 := ⟨b.weaks - 1, by omega⟩
  have hde : dec b.weaks = V := by rw [dec_eq (by omega) hwb]; omega
  have e : b.decwref.1 = { b with weaks := V } := by unfold Block.decwref; rw [touch_ok hf i11, hde]
  have e2 : b.decwref.2 = if V = 0 then .delete else .idle := by unfold Block.decwref; rw [hde]
  by_cases h0 : V = 0
  · left
    refine ⟨by rw [e2, if_pos h0], ?_⟩
    rw [e]
    refine ⟨i1, by omega, i3, by simp only; omega, i5, i6, i7, by omega, fun _ => h0, ?_, i11⟩
    simp only; rw [hf, if_neg (by omega)]
  · right
    refine ⟨by rw [e2, if_neg h0], ?_⟩
    rw [e]
    refine ⟨i1, by omega, i3, by simp only; omega, i5, i6, i7, i8, fun hx => by omega, ?_, i11⟩
    simp only; rw [hf, if_neg (by omega)]

/-- the `_Decwref` at the end of `_Decref` -/
theorem inv_decw {b : Block} {S W D Q X : Nat} (h : Inv b S W D (Q + 1) X) :
    (b.decwref.2 = .delete ∧ Inv b.decwref.1 S W D Q (X + 1)) ∨ (b.decwref.2 = .idle ∧ Inv b.decwref.1 S W D Q X) := by
  obtain ⟨i1, i2, i3, i4, i5, i6, i7, i8, i9, i10, i11⟩ := h
  have hS : S = 0 := by by_contra hc; have := i5 (by omega); omega
  have hw : b.weaks ≠ 0 := by rw [i4]; omega
  have hx0 : X = 0 := by by_contra hc; exact hw (i9 (by omega))
  have hf : b.freed = 0 := by rw [i10, if_neg (by omega)]
  have hwb : b.weaks < 2 ^ 32 := by rw [i4]; rw [if_neg (by omega)]; omega
  obtain ⟨V, hV⟩ : ∃ V, b.weaks = V + 1 := ⟨b.weaks - 1, by omega⟩
  have hde : dec b.weaks = V := by rw [dec_eq (by omega) hwb]; omega
  have e : b.decwref.1 = { b with weaks := V } := by unfold Block.decwref; rw [touch_ok hf i11, hde]
  have e2 : b.decwref.2 = if V = 0 then .delete else .idle := by unfold Block.decwref; rw [hde]
  by_cases h0 : V = 0
  · left
    refine ⟨by rw [e2, if_pos h0], ?_⟩
    rw [e]
    refine ⟨i1, i2, i3, by simp only; omega, fun hx => by omega, by omega, i7, by omega, fun _ => h0, ?_, i11⟩
    simp only; rw [hf, if_neg (by omega)]
  · right
    refine ⟨by rw [e2, if_neg h0], ?_⟩
    rw [e]
    refine ⟨i1, i2, i3, by simp only; omega, fun hx => by omega, by omega, i7, i8, fun hx => by omega, ?_, i11⟩
    simp only; rw [hf, if_neg (by omega)]

theorem inv_destroy {b : Block} {S W D Q X : Nat} (h : Inv b S W (D + 1) Q X) : Inv b.destroyObj S W D (Q + 1) X := by
  obtain ⟨i1, i2, i3, i4, i5, i6, i7, i8, i9, i10, i11⟩ := h
  have hS : S = 0 := by by_contra hc; have := i5 (by omega); omega
  have hw : b.weaks ≠ 0 := by rw [i4]; omega
  have hf : b.freed = 0 := by rw [i10, if_neg (by omega)]
  have e : b.destroyObj = { b with destroyed := b.destroyed + 1 } := by unfold Block.destroyObj; rw [touch_ok hf i11]
  rw [e]
  refine ⟨i1, i2, i3, by simp only; omega, fun hx => by omega, by omega, ?_, i8, i9, i10, i11⟩
  simp only; rw [i7, if_neg (by omega), if_pos (by omega)]

theorem inv_delete {b : Block} {S W D Q X : Nat} (h : Inv b S W D Q (X + 1)) : Inv b.deleteThis S W D Q X := by
  obtain ⟨i1, i2, i3, i4, i5, i6, i7, i8, i9, i10, i11⟩ := h
  have hw := i9 (by omega)
  have hf : b.freed = 0 := by rw [i10, if_neg (by omega)]
  have e : b.deleteThis = { b with freed := b.freed + 1 } := by unfold Block.deleteThis; rw [touch_ok hf i11]
  rw [e]
  refine ⟨i1, i2, i3, i4, i5, i6, i7, by omega, fun _ => hw, ?_, i11⟩
  simp only; rw [hf, if_pos (by omega)]

theorem touch_of_weak {b : Block} {S W D Q X : Nat} (h : Inv b S W D Q X) (hW : 0 < W ∨ 0 < S) : b.touch = b := by
  obtain ⟨i1, i2, i3, i4, i5, i6, i7, i8, i9, i10, i11⟩ := h
  have hw : b.weaks ≠ 0 := by rw [i4]; split <;> omega
  exact touch_ok (by rw [i10, if_neg (by omega)]) i11

theorem lockOk_mono {l : ι → Loc} (h : LockOk l) (t : ι) (x : Loc) (h1 : x.pc = (l t).pc) (h2 : (l t).w ≤ x.w) : LockOk (upd l t x) :=
  lockOk_upd h t x (fun e => lt_of_lt_of_le ((h t).1 (h1 ▸ e)) h2)
    (fun c e => ⟨lt_of_lt_of_le ((h t).2 c (h1 ▸ e)).1 h2, ((h t).2 c (h1 ▸ e)).2⟩)

theorem inv_step {σ σ' : State ι} {t : ι} {a : Act ι} (hI : InvS σ) (hs : step σ t a = some σ')
    (hS' : tot fS σ'.l < 2 ^ 32 - 1) (hW' : tot fW σ'.l < 2 ^ 32 - 1) : InvS σ' := by
  obtain ⟨h, hl⟩ := hI
  have hl' := hl t
  obtain ⟨rS, eS, uS⟩ := split_tot fS σ.l t
  obtain ⟨rW, eW, uW⟩ := split_tot fW σ.l t
  obtain ⟨rD, eD, uD⟩ := split_tot fD σ.l t
  obtain ⟨rQ, eQ, uQ⟩ := split_tot fQ σ.l t
  obtain ⟨rX, eX, uX⟩ := split_tot fX σ.l t
  unfold step at hs
  cases hme : σ.l t with
  | mk ms mw mpc mres =>
  rw [hme] at hs hl' eS eW eD eQ eX
  rw [eS, eW, eD, eQ, eX] at h
  simp only at hs
  cases mpc with
  | idle =>
    simp only [fS, fW, fD, fQ, fX, reduceCtorEq, if_false, Nat.add_zero] at h eS eW
    cases a with
    | copyS u =>
      simp only [Option.ite_none_right_eq_some, Option.some.injEq] at hs
      obtain ⟨hu, rfl⟩ := hs
      have hu' : 0 < tot fS σ.l := lt_of_lt_of_le hu (le_tot fS σ.l u)
      simp only [uS, fS] at hS'
      refine ⟨?_, lockOk_upd hl t _ (by simp) (by simp)⟩
      simp only [uS, uW, uD, uQ, uX, fS, fW, fD, fQ, fX, reduceCtorEq, if_false, Nat.add_zero]
      have hi := inv_incref h (by omega) (by omega)
      exact hi
    | copyW u =>
      simp only [Option.ite_none_right_eq_some, Option.some.injEq] at hs
      obtain ⟨hu, rfl⟩ := hs
      have hu' : 0 < tot fW σ.l := lt_of_lt_of_le hu (le_tot fW σ.l u)
      simp only [uW, fW] at hW'
      refine ⟨?_, lockOk_upd hl t _ (by simp) (by simp)⟩
      simp only [uS, uW, uD, uQ, uX, fS, fW, fD, fQ, fX, reduceCtorEq, if_false, Nat.add_zero]
      have hi := inv_incwref h (by omega) (by omega)
      exact hi
    | weakFromS u =>
      simp only [Option.ite_none_right_eq_some, Option.some.injEq] at hs
      obtain ⟨hu, rfl⟩ := hs
      have hu' : 0 < tot fS σ.l := lt_of_lt_of_le hu (le_tot fS σ.l u)
      simp only [uW, fW] at hW'
      refine ⟨?_, lockOk_upd hl t _ (by simp) (by simp)⟩
      simp only [uS, uW, uD, uQ, uX, fS, fW, fD, fQ, fX, reduceCtorEq, if_false, Nat.add_zero]
      have hi := inv_incwref h (by omega) (by omega)
      exact hi
    | moveS u =>
      simp only [Option.ite_none_right_eq_some, Option.some.injEq] at hs
      obtain ⟨hu, rfl⟩ := hs
      have hl1 : LockOk (upd σ.l t ⟨ms - 1, mw, .idle, mres⟩) := lockOk_upd hl t _ (by simp) (by simp)
      generalize hl1e : upd σ.l t ⟨ms - 1, mw, .idle, mres⟩ = l1 at *
      refine ⟨?_, lockOk_mono hl1 u _ rfl (le_refl _)⟩
      obtain ⟨qS, fS1, gS⟩ := split_tot fS l1 u
      obtain ⟨qW, fW1, gW⟩ := split_tot fW l1 u
      obtain ⟨qD, fD1, gD⟩ := split_tot fD l1 u
      obtain ⟨qQ, fQ1, gQ⟩ := split_tot fQ l1 u
      obtain ⟨qX, fX1, gX⟩ := split_tot fX l1 u
      rw [← hl1e, uS, hl1e] at fS1; rw [← hl1e, uW, hl1e] at fW1; rw [← hl1e, uD, hl1e] at fD1; rw [← hl1e, uQ, hl1e] at fQ1
      rw [← hl1e, uX, hl1e] at fX1
      simp only [fS, fW, fD, fQ, fX, reduceCtorEq, if_false, Nat.add_zero] at fS1 fW1 fD1 fQ1 fX1
      simp only [gS, gW, gD, gQ, gX, fS, fW, fD, fQ, fX, reduceCtorEq, if_false, Nat.add_zero]
      rw [← fW1, ← fD1, ← fQ1, ← fX1, show qS + ((l1 u).s + 1) = rS + ms by omega]
      exact h
    | moveW u =>
      simp only [Option.ite_none_right_eq_some, Option.some.injEq] at hs
      obtain ⟨hu, rfl⟩ := hs
      have hl1 : LockOk (upd σ.l t ⟨ms, mw - 1, .idle, mres⟩) := lockOk_upd hl t _ (by simp) (by simp)
      generalize hl1e : upd σ.l t ⟨ms, mw - 1, .idle, mres⟩ = l1 at *
      refine ⟨?_, lockOk_mono hl1 u _ rfl (Nat.le_succ _)⟩
      obtain ⟨qS, fS1, gS⟩ := split_tot fS l1 u
      obtain ⟨qW, fW1, gW⟩ := split_tot fW l1 u
      obtain ⟨qD, fD1, gD⟩ := split_tot fD l1 u
      obtain ⟨qQ, fQ1, gQ⟩ := split_tot fQ l1 u
      obtain ⟨qX, fX1, gX⟩ := split_tot fX l1 u
      rw [← hl1e, uS, hl1e] at fS1; rw [← hl1e, uW, hl1e] at fW1; rw [← hl1e, uD, hl1e] at fD1; rw [← hl1e, uQ, hl1e] at fQ1
      rw [← hl1e, uX, hl1e] at fX1
      simp only [fS, fW, fD, fQ, fX, reduceCtorEq, if_false, Nat.add_zero] at fS1 fW1 fD1 fQ1 fX1
      simp only [gS, gW, gD, gQ, gX, fS, fW, fD, fQ, fX, reduceCtorEq, if_false, Nat.add_zero]
      rw [← fS1, ← fD1, ← fQ1, ← fX1, show qW + ((l1 u).w + 1) = rW + mw by omega]
      exact h
    | dropS =>
      simp only [Option.ite_none_right_eq_some, Option.some.injEq] at hs
      obtain ⟨hu, rfl⟩ := hs
      obtain ⟨k, rfl⟩ : ∃ k, ms = k + 1 := ⟨ms - 1, by omega⟩
      have hd := inv_decref (S := rS + k) h
      by_cases hz : rS + k = 0
      · obtain ⟨hp, hi⟩ := hd.1 hz
        refine ⟨?_, lockOk_upd hl t _ (by simp [hp]) (by simp [hp])⟩
        simp only [uS, uW, uD, uQ, uX, fS, fW, fD, fQ, fX, hp, reduceCtorEq, if_false, if_true, Nat.add_zero, Nat.add_sub_cancel]
        exact hi
      · obtain ⟨hp, hi⟩ := hd.2 hz
        refine ⟨?_, lockOk_upd hl t _ (by simp [hp]) (by simp [hp])⟩
        simp only [uS, uW, uD, uQ, uX, fS, fW, fD, fQ, fX, hp, reduceCtorEq, if_false, if_true, Nat.add_zero, Nat.add_sub_cancel]
        exact hi
    | dropW =>
      simp only [Option.ite_none_right_eq_some, Option.some.injEq] at hs
      obtain ⟨hu, rfl⟩ := hs
      obtain ⟨k, rfl⟩ : ∃ k, mw = k + 1 := ⟨mw - 1, by omega⟩
      rcases inv_decwref (W := rW + k) h with ⟨hp, hi⟩ | ⟨hp, hi⟩
      all_goals
        refine ⟨?_, lockOk_upd hl t _ (by simp [hp]) (by simp [hp])⟩
        simp only [uS, uW, uD, uQ, uX, fS, fW, fD, fQ, fX, hp, reduceCtorEq, if_false, if_true, Nat.add_zero, Nat.add_sub_cancel]
        exact hi
    | lock =>
      simp only [Option.ite_none_right_eq_some, Option.some.injEq] at hs
      obtain ⟨hu, rfl⟩ := hs
      refine ⟨?_, lockOk_upd hl t _ (fun _ => hu) (by simp)⟩
      simp only [uS, uW, uD, uQ, uX, fS, fW, fD, fQ, fX, reduceCtorEq, if_false, if_true, Nat.add_zero]
      exact h
    | use =>
      simp only [Option.ite_none_right_eq_some, Option.some.injEq] at hs
      obtain ⟨hu, rfl⟩ := hs
      refine ⟨?_, hl⟩
      simp only
      rw [eS, eW, eD, eQ, eX]
      simp only [fS, fW, fD, fQ, fX, reduceCtorEq, if_false, Nat.add_zero]
      have hd := h.destroyed
      rw [if_neg (by omega)] at hd
      have : σ.b.useObj = σ.b := by
        unfold Block.useObj; simp only [hd, Nat.lt_irrefl, decide_false, Bool.or_false]; rw [← hd]
      rw [this]; exact h
    | adv => simp at hs
  | lockLoad =>
    simp only [fS, fW, fD, fQ, fX, reduceCtorEq, if_false, Nat.add_zero] at h eS eW
    have hw : 0 < mw := hl'.1 rfl
    cases a with
    | adv =>
      simp only at hs
      rw [touch_of_weak h (.inl (by omega))] at hs
      split at hs
      · rename_i hne
        simp only [Option.some.injEq] at hs
        subst hs
        refine ⟨?_, lockOk_upd hl t _ (by simp) (fun c e => ⟨hw, by simp at e; rw [← e]; exact hne⟩)⟩
        simp only [uS, uW, uD, uQ, uX, fS, fW, fD, fQ, fX, reduceCtorEq, if_false, if_true, Nat.add_zero]
        exact h
      · simp only [Option.some.injEq] at hs
        subst hs
        refine ⟨?_, lockOk_upd hl t _ (by simp) (by simp)⟩
        simp only [uS, uW, uD, uQ, uX, fS, fW, fD, fQ, fX, reduceCtorEq, if_false, if_true, Nat.add_zero]
        exact h
    | _ => simp at hs
  | lockCas c =>
    simp only [fS, fW, fD, fQ, fX, reduceCtorEq, if_false, Nat.add_zero] at h eS eW
    obtain ⟨hw, hc⟩ : 0 < mw ∧ c ≠ 0 := hl'.2 c rfl
    cases a with
    | adv =>
      simp only at hs
      have htc := touch_of_weak h (.inl (by omega))
      rw [htc] at hs
      split at hs
      · rename_i heq
        simp only [Option.some.injEq] at hs
        have e : ({ σ.b with uses := inc c } : Block) = σ.b.incref := by unfold Block.incref; rw [htc, heq]
        rw [e] at hs
        subst hs
        simp only [uS, fS] at hS'
        refine ⟨?_, lockOk_upd hl t _ (by simp) (by simp)⟩
        simp only [uS, uW, uD, uQ, uX, fS, fW, fD, fQ, fX, reduceCtorEq, if_false, if_true, Nat.add_zero]
        have := h.uses
        have hi := inv_incref h (by omega) (by omega)
        exact hi
      · split at hs
        · rename_i hne
          simp only [Option.some.injEq] at hs
          subst hs
          refine ⟨?_, lockOk_upd hl t _ (by simp) (fun c e => ⟨hw, by simp at e; rw [← e]; exact hne⟩)⟩
          simp only [uS, uW, uD, uQ, uX, fS, fW, fD, fQ, fX, reduceCtorEq, if_false, if_true, Nat.add_zero]
          exact h
        · simp only [Option.some.injEq] at hs
          subst hs
          refine ⟨?_, lockOk_upd hl t _ (by simp) (by simp)⟩
          simp only [uS, uW, uD, uQ, uX, fS, fW, fD, fQ, fX, reduceCtorEq, if_false, if_true, Nat.add_zero]
          exact h
    | _ => simp at hs
  | destroy =>
    simp only [fS, fW, fD, fQ, fX, reduceCtorEq, if_false, if_true, Nat.add_zero] at h eS eW
    cases a with
    | adv =>
      simp only [Option.some.injEq] at hs
      subst hs
      refine ⟨?_, lockOk_upd hl t _ (by simp) (by simp)⟩
      simp only [uS, uW, uD, uQ, uX, fS, fW, fD, fQ, fX, reduceCtorEq, if_false, if_true, Nat.add_zero]
      exact inv_destroy h
    | _ => simp at hs
  | decw =>
    simp only [fS, fW, fD, fQ, fX, reduceCtorEq, if_false, if_true, Nat.add_zero] at h eS eW
    cases a with
    | adv =>
      simp only [Option.some.injEq] at hs
      subst hs
      rcases inv_decw h with ⟨hp, hi⟩ | ⟨hp, hi⟩
      all_goals
        refine ⟨?_, lockOk_upd hl t _ (by simp [hp]) (by simp [hp])⟩
        simp only [uS, uW, uD, uQ, uX, fS, fW, fD, fQ, fX, hp, reduceCtorEq, if_false, if_true, Nat.add_zero, Nat.add_sub_cancel]
        exact hi
    | _ => simp at hs
  | delete =>
    simp only [fS, fW, fD, fQ, fX, reduceCtorEq, if_false, if_true, Nat.add_zero] at h eS eW
    cases a with
    | adv =>
      simp only [Option.some.injEq] at hs
      subst hs
      refine ⟨?_, lockOk_upd hl t _ (by simp) (by simp)⟩
      simp only [uS, uW, uD, uQ, uX, fS, fW, fD, fQ, fX, reduceCtorEq, if_false, if_true, Nat.add_zero]
      exact inv_delete h
    | _ => simp at hs

theorem inv_reach {t₀ : ι} {σ : State ι} (h : Reach t₀ σ) : InvS σ := by
  induction h with
  | init => exact inv_init t₀
  | step _ hs h1 h2 ih => exact inv_step ih hs h1 h2

/-- **C17 (safety).** In every state of every interleaving: nothing was ever used after being destroyed or freed; the object
is destroyed at most once, and not while any `shared_ptr` owns it; the control block is freed at most once, only after the
object was destroyed, and not while any handle exists; while the block exists `use_count()` is the number of owners. -/
theorem C17_safety {t₀ : ι} {σ : State ι} (h : Reach t₀ σ) :
    σ.b.bad = false ∧ σ.b.destroyed ≤ 1 ∧ σ.b.freed ≤ 1 ∧
    (0 < owners σ → σ.b.destroyed = 0) ∧
    (0 < σ.b.freed → σ.b.destroyed = 1 ∧ owners σ = 0 ∧ observers σ = 0) ∧
    σ.b.uses = owners σ := by
  obtain ⟨⟨i1, i2, i3, i4, i5, i6, i7, i8, i9, i10, i11⟩, _⟩ := inv_reach h
  have eS : owners σ = tot fS σ.l := rfl
  have eW : observers σ = tot fW σ.l := rfl
  rw [eS, eW]
  refine ⟨i11, by rw [i7]; split <;> omega, by rw [i10]; split <;> omega, fun hp => by rw [i7, if_neg (by omega)], fun hf => ?_, i3⟩
  rw [i10] at hf
  split at hf
  · rename_i hc
    rw [i4] at hc
    have h0 : tot fS σ.l = 0 := by
      by_contra hne
      rw [if_pos (by omega)] at hc; omega
    rw [i7, if_pos (by constructor <;> omega)]
    omega
  · omega

/-- **C17 (no leak).** Once no operation is in progress: if no `shared_ptr` is left the object has been destroyed exactly
once, and if no `weak_ptr` is left either, the control block has been freed exactly once. -/
theorem C17_no_leak {t₀ : ι} {σ : State ι} (h : Reach t₀ σ) (hq : Quiescent σ) (h0 : owners σ = 0) :
    σ.b.destroyed = 1 ∧ (observers σ = 0 → σ.b.freed = 1) := by
  obtain ⟨⟨i1, i2, i3, i4, i5, i6, i7, i8, i9, i10, i11⟩, _⟩ := inv_reach h
  have eS : owners σ = tot fS σ.l := rfl
  have eW : observers σ = tot fW σ.l := rfl
  rw [eS] at h0
  rw [eW]
  have d0 : tot fD σ.l = 0 := tot_eq_zero (fun t => by simp [fD, hq t])
  have q0 : tot fQ σ.l = 0 := tot_eq_zero (fun t => by simp [fQ, hq t])
  have x0 : tot fX σ.l = 0 := tot_eq_zero (fun t => by simp [fX, hq t])
  refine ⟨by rw [i7, if_pos ⟨h0, d0⟩], fun hw => ?_⟩
  rw [i10, if_pos ⟨by rw [i4, if_neg (by omega)]; omega, x0⟩]

/-- **C17 (`lock`).** The transition at which `lock()` returns: it fails only if no `shared_ptr` owns the object at that
moment, and if it succeeds the object has not been destroyed and the caller owns one more `shared_ptr`. -/
theorem C17_lock {t₀ : ι} {σ σ' : State ι} {t : ι} (h : Reach t₀ σ) (hs : step σ t .adv = some σ')
    (hlk : (σ.l t).pc = .lockLoad ∨ ∃ c, (σ.l t).pc = .lockCas c) (hret : (σ'.l t).pc = .idle) :
    ((σ'.l t).res = some false ∧ owners σ = 0 ∧ (σ'.l t).s = (σ.l t).s) ∨
    ((σ'.l t).res = some true ∧ 0 < owners σ ∧ σ'.b.destroyed = 0 ∧ (σ'.l t).s = (σ.l t).s + 1) := by
  obtain ⟨⟨i1, i2, i3, i4, i5, i6, i7, i8, i9, i10, i11⟩, hl⟩ := inv_reach h
  have eS : owners σ = tot fS σ.l := rfl
  have hl' := hl t
  rw [eS, ← i3]
  unfold step at hs
  cases hme : σ.l t with
  | mk ms mw mpc mres =>
  rw [hme] at hs hlk hl'
  simp only at hs hlk
  rcases hlk with rfl | ⟨c, rfl⟩
  · simp only at hs
    split at hs
    · simp only [Option.some.injEq] at hs; subst hs; simp at hret
    · rename_i h0
      simp only [Option.some.injEq] at hs; subst hs
      left; exact ⟨by simp, by omega, by simp⟩
  · have hc := (hl'.2 c rfl).2
    simp only at hs
    split at hs
    · rename_i heq
      simp only [Option.some.injEq] at hs; subst hs
      right
      refine ⟨by simp, by omega, ?_, by simp⟩
      simp only [Block.touch]; rw [i7, if_neg (by omega)]
    · split at hs
      · simp only [Option.some.injEq] at hs; subst hs; simp at hret
      · simp only [Option.some.injEq] at hs; subst hs
        left; exact ⟨by simp, by omega, by simp⟩

/-! ### non-vacuity: two threads race, the weak handle outlives the owners -/

/-- Run a schedule. -/
def run {κ : Type} [DecidableEq κ] (σ : State κ) : List (κ × Act κ) → Option (State κ)
  | [] => some σ
  | (t, a) :: rest => (step σ t a).bind (fun σ' => run σ' rest)

def demo : List (Fin 2 × Act (Fin 2)) :=
  [(1, .weakFromS 0), (1, .lock), (1, .adv), (0, .copyS 0), (1, .adv), (1, .adv), (0, .dropS), (0, .dropS), (1, .use),
   (1, .dropS), (1, .adv), (1, .adv), (1, .lock), (1, .adv), (1, .dropW), (1, .adv)]

example : ((run (init (0 : Fin 2)) demo).map fun σ => (σ.b.destroyed, σ.b.freed, σ.b.bad, (σ.l 1).res)) =
    some (1, 1, false, some false) := by decide

end STL.SharedPtr
