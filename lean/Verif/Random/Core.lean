import Verif.Random.Lens

/-! # The generator reads chunks of bits. Proofs only. -/

namespace STL.Rnd
open STL

/-- What the template arguments satisfy: the engine's result type has at most `W` bits and `min() < max()`. -/
structure Eng.Ok (E : Eng) : Prop where
  W1 : 1 ≤ E.W
  W64 : E.W ≤ 64
  lh : E.lo < E.hi
  hW : E.hi < 2 ^ E.W

/-- an engine output -/
def Eng.V (E : Eng) (e : Nat) : Prop := E.lo ≤ e ∧ e ≤ E.hi

theorem toU_sub {W a b : Nat} (h : b ≤ a) (ha : a < 2 ^ W) : toU W ((a : Int) - b) = a - b := by
  unfold toU
  rw [show (a : Int) - b = ((a - b : Nat) : Int) by omega]
  have : ((a - b : Nat) : Int) % 2 ^ W = ((a - b : Nat) : Int) := Int.emod_eq_of_lt (by omega) (by exact_mod_cast (by omega : a - b < 2 ^ W))
  rw [this]; simp

theorem calcLoop_spec {range W : Nat} : ∀ {f b : Nat}, f = b → b ≤ W → calcLoop range f b (2 ^ b - 1) ≤ b ∧ 2 ^ calcLoop range f b (2 ^ b - 1) - 1 ≤ range ∧ (1 ≤ range → 1 ≤ b → 1 ≤ calcLoop range f b (2 ^ b - 1))
  | 0, b, h, _ => by subst h; simp [calcLoop]
  | f + 1, b, h, hb => by
    unfold calcLoop
    split
    · rename_i hr
      have e : (2 ^ b - 1) >>> 1 = 2 ^ (b - 1) - 1 := by
        rw [Nat.shiftRight_one, ← h, Nat.pow_succ]; simp; omega
      rw [e]
      obtain ⟨a1, a2, a3⟩ := calcLoop_spec (range := range) (W := W) (f := f) (b := b - 1) (by omega) (by omega)
      refine ⟨by omega, a2, fun h1 h2 => a3 h1 ?_⟩
      by_contra hc
      have : b = 1 := by omega
      subst this; simp at hr; omega
    · exact ⟨le_refl _, by omega, fun _ h => h⟩

variable {E : Eng}

theorem Eng.Ok.bits_le (o : E.Ok) : E.bits ≤ E.W := (calcLoop_spec rfl (le_refl _)).1
theorem Eng.Ok.bits_pos (o : E.Ok) : 1 ≤ E.bits := by
  have := o.lh; have := o.hW
  exact (calcLoop_spec rfl (le_refl _)).2.2 (by rw [toU_sub (by omega) o.hW]; omega) o.W1
theorem Eng.Ok.bits_range (o : E.Ok) : 2 ^ E.bits - 1 ≤ E.hi - E.lo := by
  have := (calcLoop_spec (range := toU E.W ((E.hi : Int) - E.lo)) (f := E.W) rfl (le_refl E.W)).2.1
  rw [toU_sub (by have := o.lh; omega) o.hW] at this
  unfold Eng.bits; rw [toU_sub (by have := o.lh; omega) o.hW]; exact this
theorem Eng.Ok.bmask (o : E.Ok) : E.bmask = 2 ^ E.bits - 1 := by
  unfold Eng.bmask
  have h := o.bits_le
  apply Nat.eq_of_testBit_eq
  intro i
  rw [Nat.testBit_shiftRight, Nat.testBit_two_pow_sub_one, Nat.testBit_two_pow_sub_one]
  congr 1; simp; omega

/-- Reads `k` accepted chunks and appends them to `acc`. -/
def getX (E : Eng) : Nat → Nat → Rdr Nat
  | 0, acc, l => some (acc, l)
  | _ + 1, _, [] => none
  | k + 1, acc, e :: l => if e - E.lo ≤ E.bmask then getX E k (acc * 2 ^ E.bits + (e - E.lo)) l else getX E (k + 1) acc l

/-- Replaces the accepted chunks by the digits of `Y`. -/
def setX (E : Eng) : Nat → Nat → List Nat → List Nat
  | 0, _, l => l
  | _ + 1, _, [] => []
  | k + 1, Y, e :: l => if e - E.lo ≤ E.bmask then (E.lo + Y / 2 ^ (E.bits * k) % 2 ^ E.bits) :: setX E k Y l else e :: setX E (k + 1) Y l

theorem getX_reads (k acc : Nat) : Reads (getX E k acc) := by
  intro l b r h
  induction l generalizing k acc with
  | nil =>
    cases k with
    | zero => simp only [getX, Option.some.injEq, Prod.mk.injEq] at h; obtain ⟨rfl, rfl⟩ := h; exact ⟨[], rfl, fun r' => by simp [getX]⟩
    | succ k => simp [getX] at h
  | cons e l ih =>
    cases k with
    | zero => simp only [getX, Option.some.injEq, Prod.mk.injEq] at h; obtain ⟨rfl, rfl⟩ := h; exact ⟨[], rfl, fun r' => by simp [getX]⟩
    | succ k =>
      unfold getX at h
      split at h
      · rename_i hc
        obtain ⟨p, e1, e2⟩ := ih _ _ h
        refine ⟨e :: p, by rw [e1]; rfl, fun r' => ?_⟩
        rw [List.cons_append]; unfold getX; rw [if_pos hc]; exact e2 r'
      · rename_i hc
        obtain ⟨p, e1, e2⟩ := ih _ _ h
        refine ⟨e :: p, by rw [e1]; rfl, fun r' => ?_⟩
        rw [List.cons_append]; unfold getX; rw [if_neg hc]; exact e2 r'

theorem getX_len (k acc : Nat) (l : List Nat) (b : Nat) (r : List Nat) (h : getX E k acc l = some (b, r)) : r.length + k ≤ l.length := by
  induction l generalizing k acc with
  | nil =>
    cases k with
    | zero => simp only [getX, Option.some.injEq, Prod.mk.injEq] at h; obtain ⟨rfl, rfl⟩ := h; simp
    | succ k => simp [getX] at h
  | cons e l ih =>
    cases k with
    | zero => simp only [getX, Option.some.injEq, Prod.mk.injEq] at h; obtain ⟨rfl, rfl⟩ := h; simp
    | succ k =>
      unfold getX at h
      split at h
      · have := ih _ _ h; simp; omega
      · have := ih _ _ h; simp; omega

theorem getX_strict (k : Nat) (hk : 1 ≤ k) : Strict (getX E k 0) := by
  intro l b r h
  have := getX_len k 0 l b r h
  omega

theorem getX_bound (o : E.Ok) (k acc : Nat) (l : List Nat) (b : Nat) (r : List Nat) (h : getX E k acc l = some (b, r)) : b < (acc + 1) * 2 ^ (E.bits * k) := by
  induction l generalizing k acc with
  | nil =>
    cases k with
    | zero => simp only [getX, Option.some.injEq, Prod.mk.injEq] at h; obtain ⟨rfl, rfl⟩ := h; simp
    | succ k => simp [getX] at h
  | cons e l ih =>
    cases k with
    | zero => simp only [getX, Option.some.injEq, Prod.mk.injEq] at h; obtain ⟨rfl, rfl⟩ := h; simp
    | succ k =>
      unfold getX at h
      split at h
      · rename_i hc
        have := ih _ _ h
        refine lt_of_lt_of_le this ?_
        rw [Nat.mul_succ, Nat.pow_add, Nat.mul_comm (2 ^ (E.bits * k)), ← Nat.mul_assoc]
        refine Nat.mul_le_mul_right _ ?_
        rw [o.bmask] at hc
        have := Nat.one_le_two_pow (n := E.bits)
        rw [Nat.add_mul]; omega
      · exact ih _ _ h

theorem getX_set (o : E.Ok) (k acc : Nat) (l : List Nat) (b : Nat) (r : List Nat) (h : getX E k acc l = some (b, r)) (acc' Y : Nat) :
    getX E k acc' (setX E k Y l) = some (acc' * 2 ^ (E.bits * k) + Y % 2 ^ (E.bits * k), r) := by
  induction l generalizing k acc acc' with
  | nil =>
    cases k with
    | zero => simp only [getX, Option.some.injEq, Prod.mk.injEq] at h; obtain ⟨rfl, rfl⟩ := h; simp [setX, getX, Nat.mod_one]
    | succ k => simp [getX] at h
  | cons e l ih =>
    cases k with
    | zero => simp only [getX, Option.some.injEq, Prod.mk.injEq] at h; obtain ⟨rfl, rfl⟩ := h; simp [setX, getX, Nat.mod_one]
    | succ k =>
      unfold getX at h
      have hp := Nat.two_pow_pos E.bits
      split at h
      · rename_i hc
        unfold setX; rw [if_pos hc]; unfold getX
        have h1 : E.lo + Y / 2 ^ (E.bits * k) % 2 ^ E.bits - E.lo = Y / 2 ^ (E.bits * k) % 2 ^ E.bits := by omega
        have h2 : Y / 2 ^ (E.bits * k) % 2 ^ E.bits < 2 ^ E.bits := Nat.mod_lt _ hp
        rw [h1, if_pos (by rw [o.bmask]; omega), ih _ _ h]
        congr 2
        rw [Nat.mul_succ, Nat.pow_add, Nat.mod_mul]; ring
      · rename_i hc
        unfold setX; rw [if_neg hc]; unfold getX; rw [if_neg hc]; exact ih _ _ h _

theorem setX_len (k Y : Nat) (l : List Nat) : (setX E k Y l).length = l.length := by
  induction l generalizing k with
  | nil => cases k <;> simp [setX]
  | cons e l ih =>
    cases k with
    | zero => simp [setX]
    | succ k => unfold setX; split <;> simp [ih]

theorem setX_V (o : E.Ok) (k Y : Nat) (l : List Nat) (h : ∀ e ∈ l, E.V e) : ∀ e ∈ setX E k Y l, E.V e := by
  induction l generalizing k with
  | nil => cases k <;> simp [setX]
  | cons e l ih =>
    cases k with
    | zero => simpa [setX] using h
    | succ k =>
      have hp := Nat.two_pow_pos E.bits
      have hb := o.bits_range
      have hlh := o.lh
      unfold setX
      split
      · intro x hx
        rcases List.mem_cons.1 hx with rfl | hx
        · have h2 : Y / 2 ^ (E.bits * k) % 2 ^ E.bits < 2 ^ E.bits := Nat.mod_lt _ hp
          unfold Eng.V; omega
        · exact ih _ (fun e he => h e (by simp [he])) x hx
      · intro x hx
        rcases List.mem_cons.1 hx with rfl | hx
        · exact h x (by simp)
        · exact ih _ (fun e he => h e (by simp [he])) x hx

/-- Restoring the original. -/
theorem setX_set (o : E.Ok) (k acc : Nat) (l : List Nat) (b : Nat) (r : List Nat) (hV : ∀ e ∈ l, E.V e) (h : getX E k acc l = some (b, r)) (Y Z : Nat) (hZ : Z % 2 ^ (E.bits * k) = b % 2 ^ (E.bits * k)) :
    setX E k Z (setX E k Y l) = l := by
  induction l generalizing k acc b with
  | nil => cases k <;> simp [setX]
  | cons e l ih =>
    cases k with
    | zero => simp [setX]
    | succ k =>
      have hp := Nat.two_pow_pos E.bits
      unfold getX at h
      split at h
      · rename_i hc
        have h2 : Y / 2 ^ (E.bits * k) % 2 ^ E.bits < 2 ^ E.bits := Nat.mod_lt _ hp
        have hq : b / 2 ^ (E.bits * k) = acc * 2 ^ E.bits + (e - E.lo) := by
          -- the digits read later do not reach this one
          have : ∀ (k acc : Nat) (l : List Nat) (b : Nat) (r : List Nat), getX E k acc l = some (b, r) → b / 2 ^ (E.bits * k) = acc := by
            intro k acc l b r h
            have h1 := getX_set o k acc l b r h acc b
            have h3 := getX_bound o k acc l b r h
            have h4 : acc * 2 ^ (E.bits * k) ≤ b := by
              clear h1 h3
              induction l generalizing k acc with
              | nil =>
                cases k with
                | zero => simp only [getX, Option.some.injEq, Prod.mk.injEq] at h; obtain ⟨rfl, rfl⟩ := h; simp
                | succ k => simp [getX] at h
              | cons e l ih =>
                cases k with
                | zero => simp only [getX, Option.some.injEq, Prod.mk.injEq] at h; obtain ⟨rfl, rfl⟩ := h; simp
                | succ k =>
                  unfold getX at h
                  split at h
                  · have := ih _ _ h
                    refine le_trans ?_ this
                    rw [Nat.mul_succ, Nat.pow_add, Nat.mul_comm (2 ^ (E.bits * k)), ← Nat.mul_assoc]
                    exact Nat.mul_le_mul_right _ (by omega)
                  · exact ih _ _ h
            exact Nat.div_eq_of_lt_le (by omega) (by omega)
          exact this _ _ _ _ _ h
        have hd : Z / 2 ^ (E.bits * k) % 2 ^ E.bits = e - E.lo := by
          have e1 : Z / 2 ^ (E.bits * k) % 2 ^ E.bits = b / 2 ^ (E.bits * k) % 2 ^ E.bits := by
            rw [← Nat.mod_mul_right_div_self, ← Nat.mod_mul_right_div_self, ← Nat.pow_add, ← Nat.mul_succ, hZ]
          rw [e1, hq, Nat.mul_comm, Nat.mul_add_mod]
          refine Nat.mod_eq_of_lt ?_
          rw [o.bmask] at hc; omega
        have hZ' : Z % 2 ^ (E.bits * k) = b % 2 ^ (E.bits * k) := by
          have d : 2 ^ (E.bits * k) ∣ 2 ^ (E.bits * (k + 1)) := Nat.pow_dvd_pow _ (Nat.mul_le_mul_left _ (by omega))
          rw [← Nat.mod_mod_of_dvd Z d, hZ, Nat.mod_mod_of_dvd b d]
        have hVe := hV e (by simp)
        unfold Eng.V at hVe
        conv_lhs => rw [setX.eq_3, if_pos hc]
        rw [setX.eq_3, if_pos (by rw [o.bmask]; omega), hd, ih _ _ _ (fun e he => hV e (by simp [he])) h hZ', show E.lo + (e - E.lo) = e by omega]
      · rename_i hc
        conv_lhs => rw [setX.eq_3, if_neg hc]
        rw [setX.eq_3, if_neg hc, ih _ _ _ (fun e he => hV e (by simp [he])) h hZ]

theorem getX_unif (o : E.Ok) (k : Nat) : Unif E.V (getX E k 0) (fun X => X < 2 ^ (E.bits * k)) := by
  refine ⟨fun _ Y p => setX E k Y p, ?_⟩
  intro b b' hb hb' p hp h
  refine ⟨setX_V o k b' p hp, setX_len k b' p, ?_, setX_set o k 0 p b [] hp h b' b rfl⟩
  rw [getX_set o k 0 p b [] h, Nat.mod_eq_of_lt hb']; simp

/-! ## The code reads with `getX` -/

/-- The outcome of a reader as the code reports it. -/
def toG {β : Type} : Option (β × List Nat) → G (β × List Nat)
  | some x => .ok x
  | none => .error .more

theorem G.ok_bind {β γ : Type} (x : β) (f : β → G γ) : ((Except.ok x : G β) >>= f) = f x := rfl
theorem G.err_bind {β γ : Type} (x : Stop) (f : β → G γ) : ((Except.error x : G β) >>= f) = .error x := rfl

theorem getBits_eq (o : E.Ok) (l : List Nat) (hV : ∀ e ∈ l, E.V e) : getBits E l = toG (getX E 1 0 l) := by
  induction l with
  | nil => simp [getBits, getX, toG]
  | cons e l ih =>
    have hVe := hV e (by simp)
    unfold Eng.V at hVe
    have := o.hW
    unfold getBits getX
    rw [toU_sub hVe.1 (by omega)]
    split
    · simp [getX, toG]
    · exact ih fun e he => hV e (by simp [he])

theorem getX_succ (k acc : Nat) (l : List Nat) : getX E (k + 1) acc l = match getX E 1 0 l with | none => none | some (v, r) => getX E k (acc * 2 ^ E.bits + v) r := by
  induction l with
  | nil => simp [getX]
  | cons e l ih =>
    rw [getX.eq_3]
    conv_rhs => rw [getX.eq_3]
    split
    · simp [getX]
    · exact ih

theorem shl_or {W a v : Nat} {B : Nat} (hv : v < 2 ^ B) (hB : B ≤ W) : (a <<< B) % 2 ^ W ||| v = (a * 2 ^ B + v) % 2 ^ W := by
  have h : v = v % 2 ^ W := (Nat.mod_eq_of_lt (lt_of_lt_of_le hv (Nat.pow_le_pow_right (by omega) hB))).symm
  rw [← Nat.shiftLeft_eq, Nat.shiftLeft_add_eq_or_of_lt hv]
  conv_lhs => rw [h]
  rw [← Nat.or_mod_two_pow]

theorem mod_shl (W a B v : Nat) : (a % 2 ^ W * 2 ^ B + v) % 2 ^ W = (a * 2 ^ B + v) % 2 ^ W := by
  rw [Nat.add_mod, Nat.mul_mod, Nat.mod_mod, ← Nat.mul_mod, ← Nat.add_mod]

theorem getX1_lt (o : E.Ok) {l : List Nat} {v : Nat} {r : List Nat} (h : getX E 1 0 l = some (v, r)) : v < 2 ^ E.bits := by
  have := getX_bound o 1 0 l v r h; simpa using this

theorem moreBits_eq (o : E.Ok) : ∀ (n X : Nat) (l : List Nat), (∀ e ∈ l, E.V e) → moreBits E n (X % 2 ^ E.W) l = toG ((getX E n X l).map fun x => (x.1 % 2 ^ E.W, x.2))
  | 0, X, l, _ => by simp [moreBits, getX, toG]
  | n + 1, X, l, hV => by
    unfold moreBits
    rw [getBits_eq o l hV, getX_succ n X l]
    cases hg : getX E 1 0 l with
    | none => simp [toG, G.err_bind]
    | some x =>
      obtain ⟨v, r⟩ := x
      obtain ⟨p, e1, _⟩ := getX_reads 1 0 l v r hg
      simp only [toG, G.ok_bind]
      rw [shl_or (getX1_lt o hg) o.bits_le, mod_shl, moreBits_eq o n _ r (fun e he => hV e (by rw [e1]; simp [he]))]
      rfl

/-- `k` chunks, combined modulo `2^W`. -/
theorem chunks_eq (o : E.Ok) (k : Nat) (l : List Nat) (hV : ∀ e ∈ l, E.V e) :
    (do let r ← getBits E l; moreBits E k r.1 r.2) = toG ((getX E (k + 1) 0 l).map fun x => (x.1 % 2 ^ E.W, x.2)) := by
  rw [getBits_eq o l hV, getX_succ k 0 l]
  cases hg : getX E 1 0 l with
  | none => simp [toG, G.err_bind]
  | some x =>
    obtain ⟨v, r⟩ := x
    obtain ⟨p, e1, _⟩ := getX_reads 1 0 l v r hg
    simp only [toG, G.ok_bind]
    have hv : v = v % 2 ^ E.W := (Nat.mod_eq_of_lt (lt_of_lt_of_le (getX1_lt o hg) (Nat.pow_le_pow_right (by omega) o.bits_le))).symm
    conv_lhs => rw [hv]
    rw [moreBits_eq o k v r (fun e he => hV e (by rw [e1]; simp [he])), Nat.zero_mul, Nat.zero_add]
    rfl

end STL.Rnd
