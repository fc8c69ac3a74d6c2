import Verif.Par.Find
import Verif.Par.ForEachProps

/-! # C39: parallel searches give the sequential answer under every interleaving -/

namespace STL.Par
open STL STL.Conc Spec

namespace Spec
/-- `r` is the position of the first of the elements `[0, n)` that match, or `n` if none does. -/
structure FirstMatch (pred : Nat → Bool) (n r : Nat) : Prop where
  le : r ≤ n
  before : ∀ x, x < r → pred x = false
  hit : r < n → pred r = true
end Spec

theorem firstMatch_spec (pred : Nat → Bool) : ∀ (m a : Nat), a ≤ firstMatch pred a m ∧ firstMatch pred a m ≤ a + m ∧ (∀ x, a ≤ x → x < firstMatch pred a m → pred x = false) ∧
    (firstMatch pred a m < a + m → pred (firstMatch pred a m) = true) := by
  intro m
  induction m with
  | zero => intro a; simp only [firstMatch]; exact ⟨Nat.le_refl _, Nat.le_refl _, fun x h1 h2 => by omega, fun h => by omega⟩
  | succ m ih =>
    intro a
    unfold firstMatch
    by_cases hp : pred a = true
    · rw [if_pos hp]
      exact ⟨Nat.le_refl _, by omega, fun x h1 h2 => by omega, fun _ => hp⟩
    · rw [if_neg hp]
      obtain ⟨h1, h2, h3, h4⟩ := ih (a + 1)
      refine ⟨by omega, by omega, fun x u v => ?_, fun h => h4 (by omega)⟩
      by_cases hx : x = a
      · subst hx; simpa using hp
      · exact h3 x (by omega) v

variable {ι : Type} [DecidableEq ι] {L : Type}

theorem upd_all {l : ι → L} {t : ι} {p' : L} {P : L → Prop} (h1 : ∀ u, P (l u)) (h2 : P p') : ∀ u, P (upd l t p' u) := by
  intro u
  by_cases hu : u = t
  · subst hu; rwa [upd_self]
  · rw [upd_ne _ _ hu]; exact h1 u

theorem upd_ex {l : ι → L} {t : ι} {P : L → Prop} {Q : Prop} (p' : L) (h : ∃ u, P (l u)) (h2 : P (l t) → Q ∨ P p') : Q ∨ ∃ u, P (upd l t p' u) := by
  obtain ⟨u, hu⟩ := h
  by_cases e : u = t
  · subst e
    rcases h2 hu with h | h
    · exact Or.inl h
    · exact Or.inr ⟨u, by rwa [upd_self]⟩
  · exact Or.inr ⟨u, by rwa [upd_ne _ _ e]⟩

namespace Find.A
variable {ι : Type} [DecidableEq ι] [Fintype ι]

/-- What a thread that still matters for position `x` looks like. -/
def cov (x : Nat) : PC → Prop
  | .scan a b => a ≤ x ∧ x < b
  | .cas loc _ => loc ≤ x
  | _ => False

def isDone : PC → Nat
  | .done => 1
  | _ => 0

theorem isDone_le (p : PC) : isDone p ≤ 1 := by cases p <;> simp [isDone]

theorem tot_le_card {L : Type} {f : L → Nat} (hf : ∀ p, f p ≤ 1) (l : ι → L) : tot f l ≤ Fintype.card ι := by
  have : tot f l ≤ ∑ _t : ι, 1 := Finset.sum_le_sum fun t _ => hf (l t)
  simpa using this

/-- What each thread knows; `c` is the number of chunks that were given out. -/
def pcOk (n k : Nat) (pred : Nat → Bool) (s : Shared) : PC → Prop
  | .scan a b => ∃ c, c < min s.consumed k ∧ a = off n k c ∧ b = off n k (c + 1)
  | .cas loc exp => loc < off n k (min s.consumed k) ∧ pred loc = true ∧ loc < exp
  | .done => k ≤ s.consumed ∨ s.result ≠ n
  | .crash => False
  | _ => True

structure Inv (n k : Nat) (pred : Nat → Bool) (σ : State ι) : Prop where
  res : σ.s.result = n ∨ (σ.s.result < off n k (min σ.s.consumed k) ∧ pred σ.s.result = true)
  best : ∀ x, x < off n k (min σ.s.consumed k) → pred x = true → σ.s.result ≤ x ∨ ∃ t, cov x (σ.l t)
  pcs : ∀ t, pcOk n k pred σ.s (σ.l t)
  bound : σ.s.consumed ≤ k + tot isDone σ.l

theorem inv_init (n k : Nat) (pred : Nat → Bool) : Inv n k pred (init (ι := ι) n) := by
  refine ⟨Or.inl rfl, ?_, fun t => trivial, by simp [init]⟩
  intro x hx
  simp [init, off] at hx

set_option maxHeartbeats 1600000 in
theorem inv_step {n k : Nat} {pred : Nat → Bool} (hk : 1 ≤ k) (hn : k ≤ n) (hB : n < 2 ^ 63) (hT : k + Fintype.card ι < 2 ^ 64) {σ σ' : State ι} {t : ι} {a : Act}
    (I : Inv n k pred σ) (h : step (team n k) pred n σ t a = some σ') : Inv n k pred σ' := by
  have C := off_cut hk hn
  have hle := C.le (show min σ.s.consumed k ≤ k by omega)
  unfold step at h
  rw [Option.map_eq_some_iff] at h
  obtain ⟨⟨s', p'⟩, hs, rfl⟩ := h
  obtain ⟨rD, hD1, hD2⟩ := split_tot isDone σ.l t
  have res := I.res
  have best := I.best
  have pcs := I.pcs
  have bound := I.bound
  have pt := pcs t
  have ptc : ∀ x, cov x (σ.l t) → cov x (σ.l t) := fun _ h => h
  generalize hpc : σ.l t = pc at hs pt ptc hD1
  have fail : ∀ loc, pred loc = true → loc < off n k (min σ.s.consumed k) → (∀ x, cov x (σ.l t) → loc ≤ x) → isDone pc = 0 →
      Inv n k pred ⟨σ.s, upd σ.l t (failed σ.s loc)⟩ := by
    intro loc h2 h1 h3 h4
    unfold failed
    by_cases hg : σ.s.result > loc
    · rw [if_pos hg]
      refine ⟨res, fun x hx hp => ?_, upd_all pcs ⟨h1, h2, hg⟩, ?_⟩
      · rcases best x hx hp with hb | hb
        · exact Or.inl hb
        · exact upd_ex _ hb fun hc => Or.inr (h3 x hc)
      · dsimp only; rw [hD2]; rw [hD1] at bound
        have : isDone (PC.cas loc σ.s.result) = 0 := rfl
        omega
    · rw [if_neg hg]
      have : isDone PC.done = 1 := rfl
      refine ⟨res, fun x hx hp => ?_, upd_all pcs (Or.inr (by show σ.s.result ≠ n; omega)), ?_⟩
      · rcases best x hx hp with hb | hb
        · exact Or.inl hb
        · exact upd_ex _ hb fun hc => Or.inl (by have := h3 x hc; dsimp only; omega)
      · dsimp only; rw [hD2]; rw [hD1] at bound
        omega
  cases pc with
  | idle =>
    cases a with
    | spur => simp [stepL] at hs
    | adv =>
      simp only [stepL, Option.some.injEq, Prod.mk.injEq] at hs
      obtain ⟨rfl, rfl⟩ := hs
      refine ⟨res, fun x hx hp => ?_, upd_all pcs trivial, ?_⟩
      · rcases best x hx hp with hb | hb
        · exact Or.inl hb
        · exact upd_ex _ hb fun hc => by rw [hpc] at hc; exact hc.elim
      · dsimp only; rw [hD2]; rw [hD1] at bound; simpa [isDone] using bound
  | check =>
    cases a with
    | spur => simp [stepL] at hs
    | adv =>
      simp only [stepL, Option.some.injEq, Prod.mk.injEq] at hs
      obtain ⟨rfl, rfl⟩ := hs
      refine ⟨res, fun x hx hp => ?_, upd_all pcs ?_, ?_⟩
      · rcases best x hx hp with hb | hb
        · exact Or.inl hb
        · exact upd_ex _ hb fun hc => by rw [hpc] at hc; exact hc.elim
      · by_cases hr : σ.s.result ≠ n
        · rw [if_pos hr]; exact Or.inr hr
        · rw [if_neg hr]; trivial
      · dsimp only; rw [hD2]; rw [hD1] at bound
        have : isDone PC.check = 0 := rfl
        omega
  | take =>
    cases a with
    | spur => simp [stepL] at hs
    | adv =>
      simp only [stepL, nextChunk_ok hk hn hB, Option.some.injEq, Prod.mk.injEq] at hs
      obtain ⟨rfl, hp⟩ := hs
      have hlt : tot isDone σ.l + 1 ≤ Fintype.card ι := by
        have h1 : tot isDone (upd σ.l t .done) ≤ Fintype.card ι := tot_le_card isDone_le _
        rw [hD2] at h1
        rw [hD1]
        simpa [isDone] using h1
      have hc : (nextKey (team n k) σ.s.consumed).2 = σ.s.consumed + 1 := by
        show (σ.s.consumed + 1) % 2 ^ 64 = _
        exact Nat.mod_eq_of_lt (by omega)
      rw [hc]
      have hmono : off n k (min σ.s.consumed k) ≤ off n k (min (σ.s.consumed + 1) k) := C.mono (by omega) (by omega)
      have hpcs : ∀ u, pcOk n k pred ⟨σ.s.consumed + 1, σ.s.result⟩ (σ.l u) := by
        intro u
        have := pcs u
        generalize σ.l u = q at this
        cases q with
        | scan a b => obtain ⟨c, h1, h2⟩ := this; exact ⟨c, by dsimp only; omega, h2⟩
        | cas loc exp => exact ⟨by dsimp only; have := this.1; omega, this.2⟩
        | done => rcases this with h | h
                  · exact Or.inl (by dsimp only; omega)
                  · exact Or.inr h
        | crash => exact this
        | _ => trivial
      have hres : σ.s.result = n ∨ (σ.s.result < off n k (min (σ.s.consumed + 1) k) ∧ pred σ.s.result = true) := by
        rcases res with h | ⟨h, h'⟩
        · exact Or.inl h
        · exact Or.inr ⟨by omega, h'⟩
      by_cases hck : σ.s.consumed < k
      · rw [if_pos hck] at hp
        dsimp only at hp
        subst hp
        refine ⟨hres, fun x hx hp => ?_, upd_all hpcs ⟨σ.s.consumed, by dsimp only; omega, rfl, rfl⟩, ?_⟩
        · by_cases hx' : x < off n k (min σ.s.consumed k)
          · rcases best x hx' hp with hb | hb
            · exact Or.inl hb
            · exact upd_ex _ hb fun hc => by rw [hpc] at hc; exact hc.elim
          · refine Or.inr ⟨t, ?_⟩
            dsimp only at hx ⊢
            rw [upd_self]
            rw [show min σ.s.consumed k = σ.s.consumed by omega] at hx'
            rw [show min (σ.s.consumed + 1) k = σ.s.consumed + 1 by omega] at hx
            exact ⟨by omega, hx⟩
        · dsimp only; rw [hD2]; rw [hD1] at bound; simp only [isDone] at bound ⊢; omega
      · rw [if_neg hck] at hp
        dsimp only at hp
        subst hp
        refine ⟨hres, fun x hx hp => ?_, upd_all hpcs (Or.inl (by dsimp only; omega)), ?_⟩
        · dsimp only at hx
          rw [show min (σ.s.consumed + 1) k = min σ.s.consumed k by omega] at hx
          rcases best x hx hp with hb | hb
          · exact Or.inl hb
          · exact upd_ex _ hb fun hc => by rw [hpc] at hc; exact hc.elim
        · dsimp only; rw [hD2]; rw [hD1] at bound; simp only [isDone] at bound ⊢; omega
  | scan a' b =>
    cases a with
    | spur => simp [stepL] at hs
    | adv =>
      simp only [stepL, Option.some.injEq, Prod.mk.injEq] at hs
      obtain ⟨rfl, rfl⟩ := hs
      obtain ⟨c, hc, rfl, rfl⟩ := pt
      have hst := C.step c (by omega)
      have hmc := C.mono (show c + 1 ≤ min σ.s.consumed k by omega) (by omega)
      obtain ⟨f1, f2, f3, f4⟩ := firstMatch_spec pred (off n k (c + 1) - off n k c) (off n k c)
      generalize firstMatch pred (off n k c) (off n k (c + 1) - off n k c) = fm at f1 f2 f3 f4
      by_cases he : fm = off n k (c + 1)
      · rw [if_pos he]
        refine ⟨res, fun x hx hp => ?_, upd_all pcs trivial, ?_⟩
        · rcases best x hx hp with hb | hb
          · exact Or.inl hb
          · refine upd_ex _ hb fun hc => ?_
            rw [hpc] at hc
            have h2 : x < off n k (c + 1) := hc.2
            have := f3 x hc.1 (by omega)
            rw [this] at hp; exact absurd hp (by simp)
        · dsimp only; rw [hD2]; rw [hD1] at bound; simpa [isDone] using bound
      · rw [if_neg he]
        have q1 : fm < off n k (min σ.s.consumed k) := by omega
        refine ⟨res, fun x hx hp => ?_, upd_all pcs ⟨q1, f4 (by omega), by omega⟩, ?_⟩
        · rcases best x hx hp with hb | hb
          · exact Or.inl hb
          · refine upd_ex _ hb fun hc => Or.inr ?_
            rw [hpc] at hc
            show fm ≤ x
            by_contra hlt
            have := f3 x hc.1 (by omega)
            rw [this] at hp; exact absurd hp (by simp)
        · dsimp only; rw [hD2]; rw [hD1] at bound; simpa [isDone] using bound
  | cas loc exp =>
    obtain ⟨p1, p2, p3⟩ := pt
    have hcl : ∀ x, cov x (σ.l t) → loc ≤ x := by intro x hx; rw [hpc] at hx; exact hx
    cases a with
    | spur =>
      simp only [stepL, Option.some.injEq, Prod.mk.injEq] at hs
      obtain ⟨rfl, rfl⟩ := hs
      exact fail loc p2 p1 hcl rfl
    | adv =>
      unfold stepL at hs
      dsimp only at hs
      by_cases he : σ.s.result = exp
      · rw [if_pos he] at hs
        simp only [Option.some.injEq, Prod.mk.injEq] at hs
        obtain ⟨rfl, rfl⟩ := hs
        have hpcs : ∀ u, pcOk n k pred ⟨σ.s.consumed, loc⟩ (σ.l u) := by
          intro u
          have := pcs u
          generalize σ.l u = q at this
          cases q with
          | done => exact Or.inr (by dsimp only; omega)
          | crash => exact this
          | scan a b => exact this
          | cas l e => exact this
          | _ => trivial
        refine ⟨Or.inr ⟨p1, p2⟩, fun x hx hp => ?_, upd_all hpcs (Or.inr (by dsimp only; omega)), ?_⟩
        · rcases best x hx hp with hb | hb
          · exact Or.inl (by dsimp only; omega)
          · exact upd_ex _ hb fun hc => Or.inl (hcl x hc)
        · dsimp only; rw [hD2]; rw [hD1] at bound; simp only [isDone] at bound ⊢; omega
      · rw [if_neg he] at hs
        simp only [Option.some.injEq, Prod.mk.injEq] at hs
        obtain ⟨rfl, rfl⟩ := hs
        exact fail loc p2 p1 hcl rfl
  | done => cases a <;> simp [stepL] at hs
  | crash => cases a <;> simp [stepL] at hs

theorem inv {n k : Nat} {pred : Nat → Bool} (hk : 1 ≤ k) (hn : k ≤ n) (hB : n < 2 ^ 63) (hT : k + Fintype.card ι < 2 ^ 64) {σ : State ι} (h : Reach (team n k) pred n σ) : Inv n k pred σ := by
  induction h with
  | init => exact inv_init n k pred
  | step _ hs ih => exact inv_step hk hn hB hT ih hs

/-- **C39**: parallel `find`, `find_if` and `find_if_not` with iterators that fit an atomic: any number of threads, any interleaving, spurious failures of weak compare-exchanges included.
When the algorithm returns, its result is the first match; nothing undefined happens, and a thread that has not finished can always go on. -/
theorem C39_find_atomic {n k : Nat} {pred : Nat → Bool} (hk : 1 ≤ k) (hn : k ≤ n) (hB : n < 2 ^ 63) (hT : k + Fintype.card ι < 2 ^ 64) {T : Team} (hm : mkTeam n k = .ok T)
    {σ : State ι} (h : Reach T pred n σ) :
    (∀ caller, Finished caller σ → FirstMatch pred n σ.s.result) ∧ (∀ t, σ.l t ≠ .crash) ∧ ∀ t, σ.l t ≠ .done → ∃ σ', step T pred n σ t .adv = some σ' := by
  rw [mkTeam_ok hk hn hB] at hm
  simp only [Except.ok.injEq] at hm
  subst hm
  have I := inv hk hn hB hT h
  have C := off_cut hk hn
  have hle := C.le (show min σ.s.consumed k ≤ k by omega)
  have hnc : ∀ t, σ.l t ≠ .crash := fun t ht => by have := I.pcs t; rw [ht] at this; exact this
  refine ⟨?_, hnc, ?_⟩
  · rintro caller ⟨hc, hall⟩
    have hb : ∀ x, x < off n k (min σ.s.consumed k) → pred x = true → σ.s.result ≤ x := by
      intro x hx hp
      rcases I.best x hx hp with h | ⟨t, ht⟩
      · exact h
      · rcases hall t with h | h <;> rw [h] at ht <;> exact ht.elim
    have hd := I.pcs caller
    rw [hc] at hd
    have hres := I.res
    refine ⟨by rcases hres with h | h <;> omega, fun x hx => ?_, fun hlt => ?_⟩
    · cases hp : pred x with
      | false => rfl
      | true =>
        exfalso
        have hxo : x < off n k (min σ.s.consumed k) := by
          rcases hd with hd | hd
          · rw [show min σ.s.consumed k = k by omega, C.last]
            rcases hres with h | h <;> omega
          · rcases hres with h | h
            · exact absurd h hd
            · omega
        have := hb x hxo hp
        omega
    · rcases hres with h | h
      · omega
      · exact h.2
  · intro t ht
    have hc := hnc t
    unfold step
    cases hp : σ.l t with
    | cas loc exp =>
      unfold stepL
      dsimp only
      by_cases h : σ.s.result = exp
      · rw [if_pos h]; exact ⟨_, rfl⟩
      · rw [if_neg h]; exact ⟨_, rfl⟩
    | done => exact absurd hp ht
    | crash => exact absurd hp hc
    | _ => exact ⟨_, rfl⟩

end Find.A
end STL.Par
