import Verif.Par.ForEach

/-! # C28: every element is processed exactly once -/

namespace STL.Par
open STL STL.Conc Spec

theorem nextChunk_ok {n k : Nat} (hk : 1 ≤ k) (hn : k ≤ n) (hB : n < 2 ^ 63) (c : Nat) :
    nextChunk (team n k) c = .ok (if c < k then some (c, off n k c, off n k (c + 1)) else none) := by
  unfold nextChunk nextKey
  by_cases hc : c < k
  · have C := off_cut hk hn
    have h1 := C.le (show c ≤ k by omega)
    have h2 := C.le (show c + 1 ≤ k by omega)
    have h3 := C.step c hc
    have e : (team n k).count.toNat = n := by simp [team]
    dsimp only
    rw [show (team n k).chunks = k from rfl, if_pos hc, if_pos hc, (key_ok hk hn hB hc).1]
    simp only [R.ok_bind]
    unfold chunkRan
    dsimp only
    rw [e, advance_ok (by omega) (by omega)]
    simp only [R.ok_bind]
    rw [advance_ok (by omega) (by omega)]
    simp only [R.ok_bind, Except.ok.injEq, Option.some.injEq, Prod.mk.injEq, true_and]
    omega
  · dsimp only
    rw [show (team n k).chunks = k from rfl, if_neg hc, if_neg hc]
    rfl

namespace ForEach
variable {ι : Type} [DecidableEq ι] [Fintype ι]

/-- How many times a thread will still call the function on `x`, with what it holds. -/
def holds (x : Nat) : PC → Nat
  | .run a b => if a ≤ x ∧ x < b then 1 else 0
  | _ => 0

def isDone : PC → Nat
  | .done => 1
  | _ => 0

/-- Steps to come, beyond calls and takes. -/
def weight : PC → Nat
  | .idle => 1
  | .run _ _ => 1
  | _ => 0

structure Inv (n k : Nat) (m : Nat) (σ : State ι) : Prop where
  once : ∀ x, σ.s.calls.count x + tot (holds x) σ.l = if x < off n k (min σ.s.consumed k) then 1 else 0
  bound : σ.s.consumed ≤ k + tot isDone σ.l
  done : ∀ t, σ.l t = .done → k ≤ σ.s.consumed
  ok : ∀ t, σ.l t ≠ .crash
  rng : ∀ t a b, σ.l t = .run a b → a ≤ b
  calls : σ.s.calls.length ≤ n
  meas : m + (n - σ.s.calls.length) + 2 * (k + Fintype.card ι - σ.s.consumed) + tot weight σ.l ≤ n + 2 * (k + Fintype.card ι) + Fintype.card ι

theorem tot_le_card {f : PC → Nat} (hf : ∀ p, f p ≤ 1) (l : ι → PC) : tot f l ≤ Fintype.card ι := by
  have : tot f l ≤ ∑ _t : ι, 1 := Finset.sum_le_sum fun t _ => hf (l t)
  simpa using this

theorem isDone_le (p : PC) : isDone p ≤ 1 := by cases p <;> simp [isDone]

theorem nodup_length {l : List Nat} {n : Nat} (h : ∀ x, l.count x ≤ if x < n then 1 else 0) : l.length ≤ n := by
  have hn : l.Nodup := List.nodup_iff_count_le_one.2 fun x => by have := h x; split at this <;> omega
  have hs : l ⊆ List.range n := by
    intro x hx
    have := List.count_pos_iff.2 hx
    have := h x
    rw [List.mem_range]
    by_contra hc
    rw [if_neg hc] at this
    omega
  have := (hn.subperm hs).length_le
  rwa [List.length_range] at this

theorem inv_init (n k : Nat) : Inv n k 0 (init (ι := ι)) := by
  refine ⟨?_, ?_, ?_, ?_, ?_, ?_, ?_⟩
  · intro x
    have : tot (holds x) (init (ι := ι)).l = 0 := tot_eq_zero fun t => rfl
    rw [this]
    simp [init, off]
  · simp [init]
  · intro t h; simp [init] at h
  · intro t h; simp [init] at h
  · intro t a b h; simp [init] at h
  · simp [init]
  · have : tot weight (init (ι := ι)).l ≤ Fintype.card ι := tot_le_card (by intro p; cases p <;> simp [weight]) _
    simp only [init, List.length_nil] at this ⊢
    omega

theorem inv_step {n k m : Nat} (hk : 1 ≤ k) (hn : k ≤ n) (hB : n < 2 ^ 63) (hT : k + Fintype.card ι < 2 ^ 64) {σ σ' : State ι} {t : ι}
    (I : Inv n k m σ) (h : step (team n k) σ t = some σ') : Inv n k (m + 1) σ' := by
  have C := off_cut hk hn
  unfold step at h
  rw [Option.map_eq_some_iff] at h
  obtain ⟨⟨s', p'⟩, hs, rfl⟩ := h
  have hdc : tot isDone σ.l ≤ Fintype.card ι := tot_le_card isDone_le _
  obtain ⟨rD, hD1, hD2⟩ := split_tot isDone σ.l t
  obtain ⟨rW, hW1, hW2⟩ := split_tot weight σ.l t
  have hH : ∀ x, ∃ r, tot (holds x) σ.l = r + holds x (σ.l t) ∧ ∀ p, tot (holds x) (upd σ.l t p) = r + holds x p := fun x => split_tot (holds x) σ.l t
  have hupd : ∀ {P : PC → Prop}, (∀ u, P (σ.l u)) → P p' → ∀ u, P (upd σ.l t p' u) := by
    intro P h1 h2 u
    by_cases hu : u = t
    · subst hu; rwa [upd_self]
    · rw [upd_ne _ _ hu]; exact h1 u
  have once := I.once
  have bound := I.bound
  have meas := I.meas
  have calls := I.calls
  generalize hpc : σ.l t = pc at *
  cases pc with
  | idle =>
    simp only [stepL, Option.some.injEq, Prod.mk.injEq] at hs
    obtain ⟨rfl, rfl⟩ := hs
    refine ⟨fun x => ?_, ?_, ?_, ?_, ?_, calls, ?_⟩
    · obtain ⟨r, e1, e2⟩ := hH x
      have := once x
      rw [e1] at this
      dsimp only; rw [e2]; simpa [holds] using this
    · dsimp only; rw [hD2]; rw [hD1] at bound; simpa [isDone] using bound
    · exact hupd (P := fun p => p = .done → k ≤ σ.s.consumed) I.done (by simp)
    · exact hupd (P := fun p => p ≠ .crash) I.ok (by simp)
    · exact hupd (P := fun p => ∀ a b, p = .run a b → a ≤ b) I.rng (by simp)
    · dsimp only; rw [hW2]; rw [hW1] at meas; simp only [weight] at meas ⊢; omega
  | take =>
    simp only [stepL, nextChunk_ok hk hn hB, Option.some.injEq, Prod.mk.injEq] at hs
    obtain ⟨rfl, hp⟩ := hs
    have hDt : tot isDone (upd σ.l t .take) = tot isDone σ.l := by rw [hD2, hD1]
    -- the caller itself is not done
    have hlt : tot isDone σ.l + 1 ≤ Fintype.card ι := by
      have h1 : tot isDone (upd σ.l t .done) ≤ Fintype.card ι := tot_le_card isDone_le _
      rw [hD2] at h1
      rw [hD1]
      simpa [isDone] using h1
    have hc : (nextKey (team n k) σ.s.consumed).2 = σ.s.consumed + 1 := by
      show (σ.s.consumed + 1) % 2 ^ 64 = _
      exact Nat.mod_eq_of_lt (by omega)
    rw [hc]
    by_cases hck : σ.s.consumed < k
    · rw [if_pos hck] at hp
      dsimp only at hp
      subst hp
      have hst := C.step _ hck
      refine ⟨fun x => ?_, ?_, ?_, ?_, ?_, calls, ?_⟩
      · obtain ⟨r, e1, e2⟩ := hH x
        have := once x
        rw [e1] at this
        dsimp only; rw [e2]
        rw [show min (σ.s.consumed + 1) k = σ.s.consumed + 1 by omega]
        rw [show min σ.s.consumed k = σ.s.consumed by omega] at this
        simp only [holds] at this ⊢
        split_ifs at this ⊢ <;> omega
      · dsimp only; rw [hD2]; rw [hD1] at bound; simp only [isDone] at bound ⊢; omega
      · refine hupd (P := fun p => p = .done → k ≤ σ.s.consumed + 1) (fun u hu => ?_) (by simp)
        have := I.done u hu; omega
      · exact hupd (P := fun p => p ≠ .crash) I.ok (by simp)
      · refine hupd (P := fun p => ∀ a b, p = .run a b → a ≤ b) I.rng ?_
        rintro a b ⟨⟩; omega
      · dsimp only; rw [hW2]; rw [hW1] at meas; simp only [weight] at meas ⊢; omega
    · rw [if_neg hck] at hp
      dsimp only at hp
      subst hp
      refine ⟨fun x => ?_, ?_, ?_, ?_, ?_, calls, ?_⟩
      · obtain ⟨r, e1, e2⟩ := hH x
        have := once x
        rw [e1] at this
        dsimp only; rw [e2]
        rw [show min (σ.s.consumed + 1) k = min σ.s.consumed k by omega]
        simpa [holds] using this
      · dsimp only; rw [hD2]; rw [hD1] at bound; simp only [isDone] at bound ⊢; omega
      · refine hupd (P := fun p => p = .done → k ≤ σ.s.consumed + 1) (fun u hu => ?_) (fun _ => by omega)
        have := I.done u hu; omega
      · exact hupd (P := fun p => p ≠ .crash) I.ok (by simp)
      · exact hupd (P := fun p => ∀ a b, p = .run a b → a ≤ b) I.rng (by simp)
      · dsimp only; rw [hW2]; rw [hW1] at meas; simp only [weight] at meas ⊢; omega
  | run a b =>
    have hab := I.rng t a b hpc
    unfold stepL at hs
    dsimp only at hs
    by_cases he : a = b
    · rw [if_pos he] at hs
      simp only [Option.some.injEq, Prod.mk.injEq] at hs
      obtain ⟨rfl, rfl⟩ := hs
      refine ⟨fun x => ?_, ?_, ?_, ?_, ?_, calls, ?_⟩
      · obtain ⟨r, e1, e2⟩ := hH x
        have := once x
        rw [e1] at this
        dsimp only; rw [e2]
        simp only [holds] at this ⊢
        rw [if_neg (show ¬ (a ≤ x ∧ x < b) by omega)] at this
        exact this
      · dsimp only; rw [hD2]; rw [hD1] at bound; simpa [isDone] using bound
      · exact hupd (P := fun p => p = .done → k ≤ σ.s.consumed) I.done (by simp)
      · exact hupd (P := fun p => p ≠ .crash) I.ok (by simp)
      · exact hupd (P := fun p => ∀ a b, p = .run a b → a ≤ b) I.rng (by simp)
      · dsimp only; rw [hW2]; rw [hW1] at meas; simp only [weight] at meas ⊢; omega
    · rw [if_neg he] at hs
      simp only [Option.some.injEq, Prod.mk.injEq] at hs
      obtain ⟨rfl, rfl⟩ := hs
      have honce : ∀ x, (σ.s.calls ++ [a]).count x + tot (holds x) (upd σ.l t (.run (a + 1) b)) = if x < off n k (min σ.s.consumed k) then 1 else 0 := by
        intro x
        obtain ⟨r, e1, e2⟩ := hH x
        have := once x
        rw [e1] at this
        rw [e2, List.count_append, List.count_singleton]
        simp only [holds] at this ⊢
        by_cases hx : a = x
        · subst hx
          simp only [beq_self_eq_true, if_true]
          rw [if_pos (by omega)] at this
          rw [if_neg (show ¬ (a + 1 ≤ a ∧ a < b) by omega)]
          omega
        · rw [if_neg (by simpa using hx)]
          by_cases h1 : a ≤ x ∧ x < b
          · rw [if_pos h1] at this
            rw [if_pos (by omega)]
            omega
          · rw [if_neg h1] at this
            rw [if_neg (by omega)]
            omega
      have hlen : (σ.s.calls ++ [a]).length ≤ n := by
        apply nodup_length
        intro x
        have h1 := honce x
        have h2 := C.le (show min σ.s.consumed k ≤ k by omega)
        split_ifs at h1 ⊢ <;> omega
      refine ⟨honce, ?_, ?_, ?_, ?_, hlen, ?_⟩
      · dsimp only; rw [hD2]; rw [hD1] at bound; simpa [isDone] using bound
      · exact hupd (P := fun p => p = .done → k ≤ σ.s.consumed) I.done (by simp)
      · exact hupd (P := fun p => p ≠ .crash) I.ok (by simp)
      · refine hupd (P := fun p => ∀ a b, p = .run a b → a ≤ b) I.rng ?_
        rintro a' b' ⟨⟩; omega
      · rw [List.length_append, List.length_singleton] at hlen
        dsimp only; rw [hW2]; rw [hW1] at meas; simp only [weight, List.length_append, List.length_singleton] at meas ⊢; omega
  | done => simp [stepL] at hs
  | crash => simp [stepL] at hs

theorem inv {n k m : Nat} (hk : 1 ≤ k) (hn : k ≤ n) (hB : n < 2 ^ 63) (hT : k + Fintype.card ι < 2 ^ 64) {σ : State ι} (h : Reach (team n k) m σ) : Inv n k m σ := by
  induction h with
  | init => exact inv_init n k
  | step _ hs ih => exact inv_step hk hn hB hT ih hs

/-- **C28**: `n` elements in `k` chunks, any number of threads, any interleaving. At every time the function was called at most once for each element, and only for elements of the range;
when the algorithm returns, exactly once for each; nothing undefined happens. -/
theorem C28_for_each {n k m : Nat} (hk : 1 ≤ k) (hn : k ≤ n) (hB : n < 2 ^ 63) (hT : k + Fintype.card ι < 2 ^ 64) {T : Team} (hm : mkTeam n k = .ok T) {σ : State ι} (h : Reach T m σ) :
    σ.s.calls.Nodup ∧ (∀ x ∈ σ.s.calls, x < n) ∧ (∀ t, σ.l t ≠ .crash) ∧ ∀ caller, Finished caller σ → σ.s.calls.Perm (List.range n) := by
  rw [mkTeam_ok hk hn hB] at hm
  simp only [Except.ok.injEq] at hm
  subst hm
  have I := inv hk hn hB hT h
  have C := off_cut hk hn
  have hle := C.le (show min σ.s.consumed k ≤ k by omega)
  have hc : ∀ x, σ.s.calls.count x ≤ if x < n then 1 else 0 := by
    intro x
    have := I.once x
    split_ifs at this ⊢ <;> omega
  refine ⟨List.nodup_iff_count_le_one.2 fun x => by have := hc x; split at this <;> omega, ?_, I.ok, ?_⟩
  · intro x hx
    have := List.count_pos_iff.2 hx
    have := hc x
    by_contra h'
    rw [if_neg h'] at this
    omega
  · rintro caller ⟨hcd, hall⟩
    rw [List.perm_iff_count]
    intro x
    have h1 := I.once x
    have h2 : tot (holds x) σ.l = 0 := tot_eq_zero fun t => by rcases hall t with h | h <;> simp [h, holds]
    have h3 := I.done caller hcd
    rw [h2, show min σ.s.consumed k = k by omega, C.last] at h1
    rw [Nat.add_zero] at h1
    rw [h1]
    by_cases hx : x < n
    · rw [if_pos hx, List.count_eq_one_of_mem (List.nodup_range) (List.mem_range.2 hx)]
    · rw [if_neg hx, List.count_eq_zero.2 (by simpa using hx)]

/-- **C28**: it terminates: no execution is longer than this, and a thread that has started and not finished can always go on. -/
theorem C28_for_each_terminates {n k m : Nat} (hk : 1 ≤ k) (hn : k ≤ n) (hB : n < 2 ^ 63) (hT : k + Fintype.card ι < 2 ^ 64) {T : Team} (hm : mkTeam n k = .ok T) {σ : State ι} (h : Reach T m σ) :
    m ≤ n + 2 * k + 3 * Fintype.card ι ∧ ∀ t, σ.l t ≠ .done → ∃ σ', step T σ t = some σ' := by
  rw [mkTeam_ok hk hn hB] at hm
  simp only [Except.ok.injEq] at hm
  subst hm
  have I := inv hk hn hB hT h
  refine ⟨by have := I.meas; omega, fun t ht => ?_⟩
  have hc := I.ok t
  unfold step
  cases hp : σ.l t with
  | idle => exact ⟨_, rfl⟩
  | take => exact ⟨_, rfl⟩
  | run a b =>
    unfold stepL
    dsimp only
    by_cases h : a = b
    · rw [if_pos h]; exact ⟨_, rfl⟩
    · rw [if_neg h]; exact ⟨_, rfl⟩
  | done => exact absurd hp ht
  | crash => exact absurd hp hc

end ForEach
end STL.Par
