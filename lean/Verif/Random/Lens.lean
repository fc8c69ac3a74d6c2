import Verif.Random.Model
import Verif.Tac
import Mathlib.Data.Set.Card

/-! # Readers of engine output and uniformity. Proofs only. -/

namespace STL.Rnd
open STL

variable {β γ : Type}

abbrev Rdr (β : Type) := List Nat → Option (β × List Nat)

/-- The reader depends only on what it consumes. -/
def Reads (f : Rdr β) : Prop := ∀ l b r, f l = some (b, r) → ∃ p, l = p ++ r ∧ ∀ r', f (p ++ r') = some (b, r')

/-- consumes something -/
def Strict (f : Rdr β) : Prop := ∀ l b r, f l = some (b, r) → r.length < l.length

/-- For any two results in `S` there is a bijection between the inputs producing them. -/
def Unif (V : Nat → Prop) (f : Rdr β) (S : β → Prop) : Prop :=
  ∃ T : β → β → List Nat → List Nat, ∀ b b', S b → S b' → ∀ p, (∀ e ∈ p, V e) → f p = some (b, []) →
    (∀ e ∈ T b b' p, V e) ∧ (T b b' p).length = p.length ∧ f (T b b' p) = some (b', []) ∧ T b' b (T b b' p) = p

theorem Unif.ncard {V : Nat → Prop} {f : Rdr β} {S : β → Prop} (U : Unif V f S) {b b' : β} (hb : S b) (hb' : S b') (n : Nat) :
    Set.ncard {p : List Nat | p.length = n ∧ (∀ e ∈ p, V e) ∧ f p = some (b, [])} = Set.ncard {p : List Nat | p.length = n ∧ (∀ e ∈ p, V e) ∧ f p = some (b', [])} := by
  obtain ⟨T, hT⟩ := U
  refine Set.ncard_congr (fun p _ => T b b' p) ?_ ?_ ?_
  · rintro p ⟨h1, h2, h3⟩
    obtain ⟨a1, a2, a3, _⟩ := hT b b' hb hb' p h2 h3
    exact ⟨a2.trans h1, a1, a3⟩
  · rintro p q ⟨h1, h2, h3⟩ ⟨g1, g2, g3⟩ he
    have e1 := (hT b b' hb hb' p h2 h3).2.2.2
    have e2 := (hT b b' hb hb' q g2 g3).2.2.2
    rw [← e1, ← e2, he]
  · rintro p ⟨h1, h2, h3⟩
    obtain ⟨a1, a2, a3, a4⟩ := hT b' b hb' hb p h2 h3
    exact ⟨T b' b p, ⟨a2.trans h1, a1, a3⟩, a4⟩

theorem fin_lists (n lo hi : Nat) : Set.Finite {p : List Nat | p.length = n ∧ ∀ e ∈ p, lo ≤ e ∧ e ≤ hi} := by
  induction n with
  | zero =>
    refine (Set.finite_singleton []).subset ?_
    rintro p ⟨h, _⟩; exact List.length_eq_zero_iff.1 h
  | succ n ih =>
    refine (Set.Finite.image2 (fun e p => e :: p) (Set.finite_le_nat hi) ih).subset ?_
    rintro p ⟨h1, h2⟩
    cases p with
    | nil => cases h1
    | cons e p => exact ⟨e, (h2 e (by simp)).2, p, ⟨by simpa using h1, fun x hx => h2 x (by simp [hx])⟩, rfl⟩

/-- Renaming results: `h` maps results of `f`, and equivalent ones can be exchanged by `σ`. -/
theorem Unif.map {V : Nat → Prop} {f : Rdr β} {S : β → Prop} (U : Unif V f S) (h : β → γ) (S' : γ → Prop) (hS : ∀ l b r, (∀ e ∈ l, V e) → f l = some (b, r) → S b)
    (σ : γ → γ → β → β) (hσ : ∀ c c', S' c → S' c' → ∀ b, S b → h b = c → S (σ c c' b) ∧ h (σ c c' b) = c' ∧ σ c' c (σ c c' b) = b) :
    Unif V (fun l => (f l).map fun x => (h x.1, x.2)) S' := by
  obtain ⟨T, hT⟩ := U
  refine ⟨fun c c' p => match f p with | some (b, _) => T b (σ c c' b) p | none => p, ?_⟩
  intro c c' hc hc' p hp hf
  simp only at hf
  cases hfp : f p with
  | none => rw [hfp] at hf; cases hf
  | some x =>
    obtain ⟨b, r⟩ := x
    rw [hfp] at hf
    simp only [Option.map_some, Option.some.injEq, Prod.mk.injEq] at hf
    obtain ⟨e1, rfl⟩ := hf
    have hb := hS p b [] hp hfp
    obtain ⟨s1, s2, s3⟩ := hσ c c' hc hc' b hb e1
    obtain ⟨a1, a2, a3, a4⟩ := hT b (σ c c' b) hb s1 p hp hfp
    simp only [hfp]
    exact ⟨a1, a2, by rw [a3]; simp [s2], by rw [a3]; simp only; rw [s3]; exact a4⟩

/-- Repeat until the result is not rejected. -/
def untilR (f : Rdr β) (rej : β → Bool) : Nat → Rdr β
  | 0, _ => none
  | n + 1, l => match f l with
    | none => none
    | some (b, r) => if rej b then untilR f rej n r else some (b, r)

theorem untilR_reads {f : Rdr β} {rej : β → Bool} (hf : Reads f) : ∀ n l b r, untilR f rej n l = some (b, r) → ∃ p, l = p ++ r ∧ (∀ r', untilR f rej n (p ++ r') = some (b, r')) ∧ rej b = false
  | 0, l, b, r, h => by cases h
  | n + 1, l, b, r, h => by
    unfold untilR at h
    cases hfl : f l with
    | none => rw [hfl] at h; cases h
    | some x =>
      obtain ⟨b0, r0⟩ := x
      obtain ⟨p, e1, e2⟩ := hf l b0 r0 hfl
      rw [hfl] at h; simp only at h
      split at h
      · rename_i hr
        obtain ⟨q, e3, e4, e5⟩ := untilR_reads hf n r0 b r h
        refine ⟨p ++ q, by rw [List.append_assoc, ← e3, e1], ?_, e5⟩
        intro r'
        unfold untilR; rw [List.append_assoc, e2]; simp only [hr, if_true]; exact e4 r'
      · rename_i hr
        injection h with h; injection h with h1 h2; subst h1 h2
        refine ⟨p, e1, ?_, by simpa using hr⟩
        intro r'
        unfold untilR; rw [e2]; simp only [hr]; rfl

/-- The amount of fuel does not matter once there is enough. -/
theorem untilR_fuel {f : Rdr β} {rej : β → Bool} (hs : Strict f) : ∀ n m l, l.length < n → l.length < m → untilR f rej n l = untilR f rej m l
  | 0, _, _, h, _ => by omega
  | _, 0, _, _, h => by omega
  | n + 1, m + 1, l, h1, h2 => by
    unfold untilR
    cases hfl : f l with
    | none => rfl
    | some x =>
      obtain ⟨b0, r0⟩ := x
      have := hs l b0 r0 hfl
      simp only
      split
      · exact untilR_fuel hs n m r0 (by omega) (by omega)
      · rfl

/-- The transformation for `untilR`. -/
def untilT (f : Rdr β) (rej : β → Bool) (T : β → β → List Nat → List Nat) (b b' : β) : Nat → List Nat → List Nat
  | 0, l => l
  | n + 1, l => match f l with
    | none => l
    | some (b0, r) => if rej b0 then l.take (l.length - r.length) ++ untilT f rej T b b' n r else T b b' l

theorem until_unif {V : Nat → Prop} {f : Rdr β} {rej : β → Bool} {S : β → Prop} (U : Unif V f S) (hr : Reads f) (hs : Strict f) :
    Unif V (fun l => untilR f rej (l.length + 1) l) (fun b => S b ∧ rej b = false) := by
  obtain ⟨T, hT⟩ := U
  refine ⟨fun b b' p => untilT f rej T b b' (p.length + 1) p, ?_⟩
  rintro b b' ⟨hb, rb⟩ ⟨hb', rb'⟩
  -- both transformations with any sufficient fuel
  have key : ∀ n p, p.length < n → (∀ e ∈ p, V e) → untilR f rej n p = some (b, []) →
      (∀ e ∈ untilT f rej T b b' n p, V e) ∧ (untilT f rej T b b' n p).length = p.length ∧ untilR f rej n (untilT f rej T b b' n p) = some (b', []) ∧
      untilT f rej T b' b n (untilT f rej T b b' n p) = p := by
    intro n
    induction n with
    | zero => intro p h; omega
    | succ n ih =>
      intro p hn hp hf
      unfold untilR at hf
      cases hfp : f p with
      | none => rw [hfp] at hf; cases hf
      | some x =>
        obtain ⟨b0, r⟩ := x
        rw [hfp] at hf; simp only at hf
        have hlt := hs p b0 r hfp
        obtain ⟨q, e1, e2⟩ := hr p b0 r hfp
        have htk : p.take (p.length - r.length) = q := by rw [e1]; simp
        split at hf
        · rename_i hrej
          have hT' : untilT f rej T b b' (n + 1) p = q ++ untilT f rej T b b' n r := by
            conv_lhs => unfold untilT
            rw [hfp]; simp only [hrej, if_true]; rw [htk]
          obtain ⟨a1, a2, a3, a4⟩ := ih r (by omega) (fun e he => hp e (by rw [e1]; simp [he])) hf
          rw [hT']
          refine ⟨?_, ?_, ?_, ?_⟩
          · intro e he
            rcases List.mem_append.1 he with h | h
            · exact hp e (by rw [e1]; simp [h])
            · exact a1 e h
          · rw [List.length_append, a2, e1, List.length_append]
          · unfold untilR; rw [e2]; simp only [hrej, if_true]; exact a3
          · conv_lhs => unfold untilT
            rw [e2]; simp only [hrej, if_true]
            rw [a4, show (q ++ untilT f rej T b b' n r).take ((q ++ untilT f rej T b b' n r).length - (untilT f rej T b b' n r).length) = q by simp, ← e1]
        · rename_i hrej
          injection hf with hf; injection hf with h1 h2; subst h1 h2
          obtain ⟨a1, a2, a3, a4⟩ := hT b0 b' hb hb' p hp hfp
          have hT' : untilT f rej T b0 b' (n + 1) p = T b0 b' p := by
            conv_lhs => unfold untilT
            rw [hfp]; simp only [hrej]; rfl
          rw [hT']
          refine ⟨a1, a2, ?_, ?_⟩
          · unfold untilR; rw [a3]; simp only [rb']; rfl
          · conv_lhs => unfold untilT
            rw [a3]; simp only [rb']; exact a4
  intro p hp hf
  obtain ⟨a1, a2, a3, a4⟩ := key (p.length + 1) p (by omega) hp hf
  refine ⟨a1, a2, by simp only [a2]; exact a3, by simp only [a2]; exact a4⟩

/-- One reader after the other; the second may depend on nothing but the input. -/
def seqR (f : Rdr β) (g : Rdr γ) : Rdr (β × γ) := fun l => match f l with
  | none => none
  | some (b, r) => match g r with
    | none => none
    | some (c, r') => some ((b, c), r')

theorem seq_reads {f : Rdr β} {g : Rdr γ} (hf : Reads f) (hg : Reads g) : Reads (seqR f g) := by
  intro l b r h
  unfold seqR at h
  cases hfl : f l with
  | none => rw [hfl] at h; cases h
  | some x =>
    obtain ⟨b0, r0⟩ := x
    rw [hfl] at h; simp only at h
    cases hgr : g r0 with
    | none => rw [hgr] at h; cases h
    | some y =>
      obtain ⟨c0, r1⟩ := y
      rw [hgr] at h; simp only [Option.some.injEq, Prod.mk.injEq] at h
      obtain ⟨rfl, rfl⟩ := h
      obtain ⟨p, e1, e2⟩ := hf l b0 r0 hfl
      obtain ⟨q, e3, e4⟩ := hg r0 c0 r1 hgr
      refine ⟨p ++ q, by rw [List.append_assoc, ← e3, e1], fun r' => ?_⟩
      unfold seqR; rw [List.append_assoc, e2]; simp only; rw [e4]

theorem seq_unif {V : Nat → Prop} {f : Rdr β} {g : Rdr γ} {S : β → Prop} {S' : γ → Prop} (U : Unif V f S) (U' : Unif V g S') (hf : Reads f) :
    Unif V (seqR f g) (fun x => S x.1 ∧ S' x.2) := by
  obtain ⟨T, hT⟩ := U
  obtain ⟨T', hT'⟩ := U'
  refine ⟨fun x x' p => match f p with | none => p | some (_, r) => T x.1 x'.1 (p.take (p.length - r.length)) ++ T' x.2 x'.2 r, ?_⟩
  rintro ⟨b, c⟩ ⟨b', c'⟩ ⟨hb, hc⟩ ⟨hb', hc'⟩ p hp h
  unfold seqR at h
  cases hfl : f p with
  | none => rw [hfl] at h; cases h
  | some x =>
    obtain ⟨b0, r0⟩ := x
    rw [hfl] at h; simp only at h
    cases hgr : g r0 with
    | none => rw [hgr] at h; cases h
    | some y =>
      obtain ⟨c0, r1⟩ := y
      rw [hgr] at h; simp only [Option.some.injEq, Prod.mk.injEq] at h
      obtain ⟨⟨rfl, rfl⟩, rfl⟩ := h
      obtain ⟨q, e1, e2⟩ := hf p b0 r0 hfl
      have htk : p.take (p.length - r0.length) = q := by rw [e1]; simp
      have hq : f q = some (b0, []) := by simpa using e2 []
      obtain ⟨a1, a2, a3, a4⟩ := hT b0 b' hb hb' q (fun e he => hp e (by rw [e1]; simp [he])) hq
      obtain ⟨d1, d2, d3, d4⟩ := hT' c0 c' hc hc' r0 (fun e he => hp e (by rw [e1]; simp [he])) hgr
      simp only [hfl, htk]
      obtain ⟨q', f1, f2⟩ := hf _ _ _ a3
      rw [List.append_nil] at f1; rw [← f1] at f2
      refine ⟨?_, ?_, ?_, ?_⟩
      · intro e he
        rcases List.mem_append.1 he with h | h
        · exact a1 e h
        · exact d1 e h
      · rw [List.length_append, a2, d2, e1, List.length_append]
      · unfold seqR; rw [f2]; simp only; rw [d3]
      · rw [f2]; simp only
        rw [show (T b0 b' q ++ T' c0 c' r0).take ((T b0 b' q ++ T' c0 c' r0).length - (T' c0 c' r0).length) = T b0 b' q by simp, a4, d4, ← e1]

end STL.Rnd
