import Verif.Random.Gen

/-! # Bundled facts about readers, the full-range reader, sequences. Proofs only. -/

namespace STL.Rnd
open STL

variable {E : Eng} {β γ : Type}

structure Good (E : Eng) (f : Rdr β) (S : β → Prop) (K : Nat) : Prop where
  reads : Reads f
  unif : Unif E.V f S
  bound : ∀ l b r, (∀ e ∈ l, E.V e) → f l = some (b, r) → S b
  reach : ∀ b, S b → ∃ p, (∀ e ∈ p, E.V e) ∧ f p = some (b, [])
  finish : ∀ l, (∀ e ∈ l, E.V e) → f l = none → ∃ q b, q.length ≤ K ∧ (∀ e ∈ q, E.V e) ∧ f (l ++ q) = some (b, [])

theorem Good.mono {f : Rdr β} {S : β → Prop} {K K' : Nat} (g : Good E f S K) (h : K ≤ K') : Good E f S K' := by
  refine ⟨g.reads, g.unif, g.bound, g.reach, fun l hl hf => ?_⟩
  obtain ⟨q, b, h1, h2, h3⟩ := g.finish l hl hf
  exact ⟨q, b, by omega, h2, h3⟩

/-- Some short input finishes from the beginning. -/
theorem Good.start {f : Rdr β} {S : β → Prop} {K : Nat} (g : Good E f S K) : ∃ q b, q.length ≤ K ∧ (∀ e ∈ q, E.V e) ∧ f q = some (b, []) := by
  cases h : f [] with
  | none => obtain ⟨q, b, h1, h2, h3⟩ := g.finish [] (by simp) h; exact ⟨q, b, h1, h2, h3⟩
  | some x =>
    obtain ⟨b, r⟩ := x
    obtain ⟨p, e1, _⟩ := g.reads _ _ _ h
    have : r = [] := (List.append_eq_nil_iff.1 e1.symm).2
    exact ⟨[], b, by simp, by simp, by rw [h, this]⟩

theorem genR_good (o : E.Ok) {k s : Nat} (hk : 1 ≤ k) (hs : 1 ≤ s) (hsL : s ≤ 2 ^ min E.W (E.bits * k)) : Good E (genR E k s) (fun c => c < s) (2 * k) where
  reads := genR_reads k s hk
  unif := genR_unif o hk hs hsL
  bound := fun _ _ _ _ h => genR_bound o hs h
  reach := by
    intro c hc
    obtain ⟨Y, h1, h2, h3⟩ := accepted_exists (c := c) hs hsL hc
    obtain ⟨p, g1, g2, g3⟩ := getX_reach o (k := k) (Y := Y) (lt_of_lt_of_le h1 (Nat.pow_le_pow_right (by omega) (by omega)))
    refine ⟨p, g2, ?_⟩
    unfold genR untilR; rw [g3]; simp only [h2]; simp [h3]
  finish := fun l _ h => genR_finish o hk hs hsL l.length l (le_refl _) h

/-- `gen` is a good reader. -/
theorem gen_good (o : E.Ok) {s : Nat} (hs : 1 ≤ s) (hsW : s < 2 ^ E.W) : ∃ f : Rdr Nat, Good E f (fun c => c < s) (2 * E.W) ∧ ∀ l, (∀ e ∈ l, E.V e) → gen E s l = toG (f l) := by
  obtain ⟨k, h1, h2, h3, h4⟩ := gen_eq o hs hsW
  exact ⟨genR E k s, (genR_good o h1 hs h3).mono (by omega), h4⟩

theorem Good.seq {f : Rdr β} {g : Rdr γ} {S : β → Prop} {S' : γ → Prop} {K K' : Nat} (hf : Good E f S K) (hg : Good E g S' K') :
    Good E (seqR f g) (fun x => S x.1 ∧ S' x.2) (K + K') where
  reads := seq_reads hf.reads hg.reads
  unif := seq_unif hf.unif hg.unif hf.reads
  bound := by
    rintro l ⟨b, c⟩ r hV h
    unfold seqR at h
    cases h1 : f l with
    | none => rw [h1] at h; cases h
    | some x =>
      obtain ⟨b0, r0⟩ := x
      rw [h1] at h; simp only at h
      cases h2 : g r0 with
      | none => rw [h2] at h; cases h
      | some y =>
        obtain ⟨c0, r1⟩ := y
        rw [h2] at h; simp only [Option.some.injEq, Prod.mk.injEq] at h
        obtain ⟨⟨rfl, rfl⟩, rfl⟩ := h
        obtain ⟨p, e1, _⟩ := hf.reads _ _ _ h1
        exact ⟨hf.bound _ _ _ hV h1, hg.bound _ _ _ (fun e he => hV e (by rw [e1]; simp [he])) h2⟩
  reach := by
    rintro ⟨b, c⟩ ⟨hb, hc⟩
    obtain ⟨p, h1, h2⟩ := hf.reach b hb
    obtain ⟨q, h3, h4⟩ := hg.reach c hc
    obtain ⟨p0, e1, e2⟩ := hf.reads _ _ _ h2
    rw [List.append_nil] at e1
    refine ⟨p ++ q, fun e he => (List.mem_append.1 he).elim (h1 e) (h3 e), ?_⟩
    unfold seqR; rw [e1, e2 q]; simp only; rw [h4]
  finish := by
    intro l hV h
    unfold seqR at h
    cases h1 : f l with
    | none =>
      obtain ⟨q, b, g1, g2, g3⟩ := hf.finish l hV h1
      obtain ⟨q', c, g4, g5, g6⟩ := hg.start
      obtain ⟨p0, e1, e2⟩ := hf.reads _ _ _ g3
      rw [List.append_nil] at e1
      refine ⟨q ++ q', (b, c), by simp; omega, fun e he => (List.mem_append.1 he).elim (g2 e) (g5 e), ?_⟩
      unfold seqR; rw [← List.append_assoc, e1, e2 q']; simp only; rw [g6]
    | some x =>
      obtain ⟨b0, r0⟩ := x
      rw [h1] at h; simp only at h
      obtain ⟨p, e1, e2⟩ := hf.reads _ _ _ h1
      cases h2 : g r0 with
      | none =>
        obtain ⟨q, c, g1, g2, g3⟩ := hg.finish r0 (fun e he => hV e (by rw [e1]; simp [he])) h2
        refine ⟨q, (b0, c), by omega, g2, ?_⟩
        unfold seqR; rw [e1, List.append_assoc, e2]; simp only; rw [g3]
      | some y => rw [h2] at h; cases h

theorem Good.map {f : Rdr β} {S : β → Prop} {K : Nat} (g : Good E f S K) (h : β → γ) (S' : γ → Prop) (hb : ∀ b, S b → S' (h b)) (hsurj : ∀ c, S' c → ∃ b, S b ∧ h b = c)
    (σ : γ → γ → β → β) (hσ : ∀ c c', S' c → S' c' → ∀ b, S b → h b = c → S (σ c c' b) ∧ h (σ c c' b) = c' ∧ σ c' c (σ c c' b) = b) :
    Good E (fun l => (f l).map fun x => (h x.1, x.2)) S' K where
  reads := by
    intro l c r hl
    cases hf : f l with
    | none => simp only [hf] at hl; cases hl
    | some x =>
      obtain ⟨b, r0⟩ := x
      simp only [hf, Option.map_some, Option.some.injEq, Prod.mk.injEq] at hl
      obtain ⟨h1, rfl⟩ := hl
      obtain ⟨p, e1, e2⟩ := g.reads _ _ _ hf
      exact ⟨p, e1, fun r' => by simp [e2 r', h1]⟩
  unif := g.unif.map h S' g.bound σ hσ
  bound := by
    intro l c r hV hl
    cases hf : f l with
    | none => simp only [hf] at hl; cases hl
    | some x =>
      obtain ⟨b, r0⟩ := x
      simp only [hf, Option.map_some, Option.some.injEq, Prod.mk.injEq] at hl
      rw [← hl.1]; exact hb b (g.bound _ _ _ hV hf)
  reach := by
    intro c hc
    obtain ⟨b, h1, h2⟩ := hsurj c hc
    obtain ⟨p, h3, h4⟩ := g.reach b h1
    exact ⟨p, h3, by simp [h4, h2]⟩
  finish := by
    intro l hV hl
    cases hf : f l with
    | some x => simp only [hf] at hl; cases hl
    | none =>
      obtain ⟨q, b, h1, h2, h3⟩ := g.finish l hV hf
      exact ⟨q, h b, h1, h2, by simp [h3]⟩

/-- Renaming by an injective function onto `S'`. -/
theorem Good.map_inj {f : Rdr β} {S : β → Prop} {K : Nat} (g : Good E f S K) (h : β → γ) (S' : γ → Prop) (hb : ∀ b, S b → S' (h b)) (hsurj : ∀ c, S' c → ∃ b, S b ∧ h b = c)
    (hinj : ∀ b b', S b → S b' → h b = h b' → b = b') : Good E (fun l => (f l).map fun x => (h x.1, x.2)) S' K := by
  classical
  refine g.map h S' hb hsurj (fun _ c' b => if H : ∃ b', S b' ∧ h b' = c' then H.choose else b) ?_
  intro c c' hc hc' b hSb hbc
  have H := hsurj c' hc'
  have H' := hsurj c hc
  simp only [dif_pos H, dif_pos H']
  exact ⟨H.choose_spec.1, H.choose_spec.2, hinj _ _ H'.choose_spec.1 hSb (H'.choose_spec.2.trans hbc.symm)⟩

/-! ## All bits -/

theorem getX_good (o : E.Ok) (k : Nat) : Good E (getX E k 0) (fun X => X < 2 ^ (E.bits * k)) k where
  reads := getX_reads k 0
  unif := getX_unif o k
  bound := fun l b r _ h => by simpa using getX_bound o k 0 l b r h
  reach := fun Y hY => by
    obtain ⟨p, _, h2, h3⟩ := getX_reach o hY
    exact ⟨p, h2, h3⟩
  finish := fun l _ h => getX_finish o l k 0 h

theorem allIters_spec (o : E.Ok) : ∀ f num, E.W ≤ num + f → E.W ≤ num + E.bits * allIters E f num ∧ allIters E f num ≤ E.W - num
  | 0, num, h => by simp [allIters]; omega
  | f + 1, num, h => by
    have hb := o.bits_pos
    unfold allIters
    split
    · obtain ⟨h1, h2⟩ := allIters_spec o f (num + E.bits) (by omega)
      refine ⟨?_, by omega⟩
      have : E.bits * (allIters E f (num + E.bits) + 1) = E.bits * allIters E f (num + E.bits) + E.bits := by ring
      omega
    · simp; omega

/-- `_Get_all_bits`, taken modulo `2^w`. -/
theorem allBits_good (o : E.Ok) {w : Nat} (hw : w ≤ E.W) : ∃ f : Rdr Nat, Good E f (fun c => c < 2 ^ w) E.W ∧ ∀ l, (∀ e ∈ l, E.V e) →
    (do let r ← getAllBits E l; Except.ok (r.1 % 2 ^ w, r.2)) = toG (f l) := by
  have hB := o.bits_le
  have hb := o.bits_pos
  have hpw := Nat.two_pow_pos w
  have main : ∀ k, 1 ≤ k → k ≤ E.W → w ≤ E.bits * k → Good E (fun l => (getX E k 0 l).map fun x => (x.1 % 2 ^ w, x.2)) (fun c => c < 2 ^ w) E.W := by
    intro k hk hkW hwk
    have hpow : 2 ^ (E.bits * k) = 2 ^ w * 2 ^ (E.bits * k - w) := by rw [← Nat.pow_add]; congr 1; omega
    refine ((getX_good o k).mono hkW).map (γ := Nat) (fun X => X % 2 ^ w) (fun c => c < 2 ^ w) (fun b _ => Nat.mod_lt _ hpw)
      (fun c hc => ⟨c, lt_of_lt_of_le hc (Nat.pow_le_pow_right (by omega) hwk), Nat.mod_eq_of_lt hc⟩)
      (fun _ c' X => X / 2 ^ w * 2 ^ w + c') ?_
    intro c c' hc hc' X hX hXc
    have hmod : (X / 2 ^ w * 2 ^ w + c') % 2 ^ w = c' := by rw [Nat.mul_comm, Nat.mul_add_mod, Nat.mod_eq_of_lt hc']
    have hdiv : (X / 2 ^ w * 2 ^ w + c') / 2 ^ w = X / 2 ^ w := by
      rw [Nat.mul_comm, Nat.mul_add_div hpw, Nat.div_eq_of_lt hc']; omega
    refine ⟨?_, hmod, ?_⟩
    · have : X / 2 ^ w < 2 ^ (E.bits * k - w) := Nat.div_lt_of_lt_mul (by rw [← hpow]; exact hX)
      rw [hpow]
      calc _ < X / 2 ^ w * 2 ^ w + 2 ^ w := by omega
        _ = (X / 2 ^ w + 1) * 2 ^ w := by ring
        _ ≤ 2 ^ (E.bits * k - w) * 2 ^ w := Nat.mul_le_mul_right _ this
        _ = _ := Nat.mul_comm _ _
    · simp only [hdiv]
      have := Nat.div_add_mod X (2 ^ w)
      rw [Nat.mul_comm] at this
      omega
  by_cases hc : E.bits < E.W
  · obtain ⟨h1, h2⟩ := allIters_spec o E.W E.bits (by omega)
    refine ⟨_, main (allIters E E.W E.bits + 1) (by omega) (by omega) (by rw [Nat.mul_succ]; omega), fun l hV => ?_⟩
    have hch := chunks_eq o (allIters E E.W E.bits) l hV
    have hg : getAllBits E l = (do let r ← getBits E l; moreBits E (allIters E E.W E.bits) r.1 r.2) := by
      unfold getAllBits
      cases getBits E l with
      | error e => rfl
      | ok r => simp only [G.ok_bind]; rw [if_pos hc]
    rw [hg, hch]
    cases getX E (allIters E E.W E.bits + 1) 0 l with
    | none => rfl
    | some x =>
      show (Except.ok _ : G _) = Except.ok _
      simp only
      rw [Nat.mod_mod_of_dvd _ (Nat.pow_dvd_pow _ hw)]
  · have he : E.bits = E.W := by omega
    refine ⟨_, main 1 (le_refl _) o.W1 (by omega), fun l hV => ?_⟩
    have hg : getAllBits E l = getBits E l := by
      unfold getAllBits
      cases getBits E l with
      | error e => rfl
      | ok r => simp only [G.ok_bind]; rw [if_neg hc]
    rw [hg, getBits_eq o l hV]
    cases getX E 1 0 l with
    | none => rfl
    | some x => rfl

/-! ## `uniform_int_distribution` -/

/-- Smallest value of the result type. -/
def tyMin (signed : Bool) (w : Nat) : Int := if signed then -(2 ^ (w - 1)) else 0

theorem xor_top {w u : Nat} (hw : 1 ≤ w) (hu : u < 2 ^ w) : u ^^^ 2 ^ (w - 1) = (u + 2 ^ (w - 1)) % 2 ^ w := by
  obtain ⟨v, rfl⟩ : ∃ v, w = v + 1 := ⟨w - 1, by omega⟩
  simp only [Nat.add_sub_cancel]
  have hadd : ∀ x, x < 2 ^ v → x ^^^ 2 ^ v = x + 2 ^ v := by
    intro x hx
    rw [Nat.add_comm]
    all_goals
      apply Nat.eq_of_testBit_eq
      intro i
      rw [Nat.testBit_xor, Nat.testBit_two_pow]
      by_cases h : v = i
      · subst h
        rw [Nat.testBit_two_pow_add_eq]
        simp
      · simp only [h, decide_false, Bool.xor_false]
        rcases Nat.lt_or_ge i v with h' | h'
        · rw [Nat.testBit_two_pow_add_gt h']
        · have h1 : x.testBit i = false := Nat.testBit_lt_two_pow (lt_of_lt_of_le hx (Nat.pow_le_pow_right (by omega) h'))
          have h2 : (2 ^ v + x).testBit i = false := Nat.testBit_lt_two_pow (lt_of_lt_of_le (by omega : 2 ^ v + x < 2 ^ (v + 1)) (Nat.pow_le_pow_right (by omega) (by omega)))
          rw [h1, h2]
  have hp : 2 ^ (v + 1) = 2 ^ v + 2 ^ v := by rw [Nat.pow_succ]; ring
  rcases Nat.lt_or_ge u (2 ^ v) with h | h
  · rw [hadd u h, Nat.mod_eq_of_lt (by omega)]
  · have h1 := hadd (u - 2 ^ v) (by omega)
    rw [show u - 2 ^ v + 2 ^ v = u by omega] at h1
    conv_lhs => rw [← h1, Nat.xor_assoc, Nat.xor_self, Nat.xor_zero]
    rw [show u + 2 ^ v = (u - 2 ^ v) + 2 ^ (v + 1) by omega, Nat.add_mod_right, Nat.mod_eq_of_lt (by omega)]

theorem half_mask {w : Nat} (hw : 1 ≤ w) : ((2 ^ w - 1) >>> 1) + 1 = 2 ^ (w - 1) := by
  obtain ⟨v, rfl⟩ : ∃ v, w = v + 1 := ⟨w - 1, by omega⟩
  have := Nat.two_pow_pos v
  rw [Nat.shiftRight_one, Nat.pow_succ]; simp; omega

theorem two_pow_pred {w : Nat} (hw : 1 ≤ w) : (2 : Int) ^ w = 2 ^ (w - 1) + 2 ^ (w - 1) := by
  obtain ⟨v, rfl⟩ : ∃ v, w = v + 1 := ⟨w - 1, by omega⟩
  rw [pow_succ]; simp; ring

theorem adjust_toU {w : Nat} (sg : Bool) (hw : 1 ≤ w) {v : Int} (h1 : tyMin sg w ≤ v) (h2 : v < tyMin sg w + 2 ^ w) : ((adjust sg w (toU w v) : Nat) : Int) = v - tyMin sg w := by
  have hp : (0 : Int) < 2 ^ w := by positivity
  have hU : ((toU w v : Nat) : Int) = v % 2 ^ w := by unfold toU; rw [Int.toNat_of_nonneg (Int.emod_nonneg _ hp.ne')]
  have hUlt : toU w v < 2 ^ w := by
    have := Int.emod_lt_of_pos v hp
    zify; rw [hU]; exact_mod_cast this
  cases sg with
  | false =>
    simp only [tyMin, adjust] at *
    simp only [Bool.false_eq_true, if_false] at *
    rw [hU, Int.emod_eq_of_lt h1 (by omega)]; omega
  | true =>
    simp only [tyMin, adjust] at *
    simp only [if_true] at *
    rw [half_mask hw, xor_top hw hUlt]
    push_cast
    rw [hU, Int.emod_add_emod, Int.emod_eq_of_lt (by omega) (by omega)]; omega

theorem final_adjust {w u : Nat} (sg : Bool) (hw : 1 ≤ w) (hu : u < 2 ^ w) : (if sg then toS w (adjust sg w u) else ((adjust sg w u : Nat) : Int)) = u + tyMin sg w := by
  have hu' : (u : Int) < 2 ^ w := by exact_mod_cast hu
  have h2 := two_pow_pred hw
  cases sg with
  | false => simp [adjust, tyMin]
  | true =>
    simp only [if_true, adjust, tyMin]
    rw [half_mask hw, xor_top hw hu]
    unfold toS
    push_cast
    rw [Int.emod_add_emod, show (u : Int) + 2 ^ (w - 1) + 2 ^ (w - 1) = u + 2 ^ w by omega]
    simp only [Int.add_emod_right]
    rw [Int.emod_eq_of_lt (by omega) hu']; omega

theorem toU_natCast {w : Nat} {n : Nat} (h : n < 2 ^ w) : toU w (n : Int) = n := by
  unfold toU; rw [Int.emod_eq_of_lt (by omega) (by exact_mod_cast h)]; simp

theorem eval_good (o : E.Ok) {w : Nat} (hw1 : 1 ≤ w) (hw : w ≤ E.W) (sg : Bool) {mn mx : Int} (hmn : tyMin sg w ≤ mn) (hle : mn ≤ mx) (hmx : mx < tyMin sg w + 2 ^ w) :
    ∃ f : Rdr Int, Good E f (fun v => mn ≤ v ∧ v ≤ mx) (2 * E.W) ∧ ∀ l, (∀ e ∈ l, E.V e) → eval E sg w mn mx l = toG (f l) := by
  have e1 := adjust_toU sg hw1 hmn (by omega : mn < tyMin sg w + 2 ^ w)
  have e2 := adjust_toU sg hw1 (by omega : tyMin sg w ≤ mx) hmx
  have hpw := Nat.two_pow_pos w
  have hpz : ((2 ^ w : Nat) : Int) = 2 ^ w := by push_cast; rfl
  generalize hu : adjust sg w (toU w mn) = umin at *
  generalize hv : adjust sg w (toU w mx) = umax at *
  have hlt : umax < 2 ^ w := by zify; omega
  have hd : toU w ((umax : Int) - umin) = umax - umin := toU_sub (by omega) hlt
  -- the common last part
  have last : ∀ (f : Rdr Nat) (g : List Nat → G (Nat × List Nat)), Good E f (fun c => c < umax - umin + 1) (2 * E.W) → (∀ l, (∀ e ∈ l, E.V e) → (do let r ← g l; Except.ok (r.1 % 2 ^ w, r.2)) = toG (f l)) →
      (∀ l, eval E sg w mn mx l = do let r ← g l; .ok (if sg then toS w (adjust sg w ((r.1 % 2 ^ w + umin) % 2 ^ w)) else ((adjust sg w ((r.1 % 2 ^ w + umin) % 2 ^ w) : Nat) : Int), r.2)) →
      ∃ f : Rdr Int, Good E f (fun v => mn ≤ v ∧ v ≤ mx) (2 * E.W) ∧ ∀ l, (∀ e ∈ l, E.V e) → eval E sg w mn mx l = toG (f l) := by
    intro f g hf hfg hev
    refine ⟨fun l => (f l).map fun x => ((fun c : Nat => mn + (c : Int)) x.1, x.2), ?_, ?_⟩
    · refine hf.map_inj (fun c : Nat => mn + (c : Int)) _ ?_ ?_ ?_
      · intro c hc; show mn ≤ mn + (c : Int) ∧ mn + (c : Int) ≤ mx; omega
      · intro v hv; exact ⟨(v - mn).toNat, by omega, by show mn + _ = v; omega⟩
      · intro b b' _ _ h; have h : mn + (b : Int) = mn + (b' : Int) := h; omega
    · intro l hV
      have h1 := hfg l hV
      rw [hev]
      cases hg : g l with
      | error e =>
        rw [hg] at h1
        cases hfl : f l with
        | none => rw [hfl] at h1; rw [G.err_bind] at h1 ⊢; cases h1; simp only [hfl]; rfl
        | some x => rw [hfl] at h1; cases h1
      | ok r =>
        rw [hg] at h1
        cases hfl : f l with
        | none => rw [hfl] at h1; cases h1
        | some x =>
          obtain ⟨c, r0⟩ := x
          rw [hfl] at h1
          have hcb := hf.bound _ _ _ hV hfl
          injection h1 with h1
          injection h1 with h1 h2
          rw [G.ok_bind, h1, h2]
          simp only [hfl, Option.map_some, toG]
          have hsum : c + umin < 2 ^ w := by omega
          rw [Nat.mod_eq_of_lt hsum, final_adjust sg hw1 hsum]
          congr 2
          push_cast; omega
  by_cases hfull : umax - umin = 2 ^ w - 1
  · obtain ⟨f, hf, hfe⟩ := allBits_good o hw
    rw [show 2 ^ w = umax - umin + 1 by omega] at hf
    refine last f (getAllBits E) (hf.mono (by omega)) hfe (fun l => ?_)
    unfold eval
    simp only [hu, hv]
    rw [hd, if_pos hfull]
  · have hs1 : toU w ((umax : Int) - umin + 1) = umax - umin + 1 := by
      rw [show (umax : Int) - umin + 1 = ((umax - umin + 1 : Nat) : Int) by omega]
      exact toU_natCast (by omega)
    have hwW : 2 ^ w ≤ 2 ^ E.W := Nat.pow_le_pow_right (by omega) hw
    obtain ⟨f, hf, hfe⟩ := gen_good o (s := umax - umin + 1) (by omega) (by omega)
    refine last f (gen E (umax - umin + 1)) hf ?_ (fun l => ?_)
    · intro l hV
      rw [hfe l hV]
      cases hfl : f l with
      | none => rfl
      | some x =>
        have := hf.bound _ _ _ hV hfl
        show (Except.ok _ : G _) = Except.ok _
        rw [Nat.mod_eq_of_lt (by omega)]
    · unfold eval
      simp only [hu, hv]
      rw [hd, if_neg hfull, hs1]

end STL.Rnd
