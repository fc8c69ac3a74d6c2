import Verif.Random.Shuffle

/-!
# C23: `uniform_int_distribution` and `shuffle` are unbiased

The engine is the sequence of values it returns; a *run* is the list of values consumed by one call. If the engine's outputs are independent
and uniform on `[min(), max()]`, then a run of length `n` has probability `(max - min + 1)^-n`. `Unbiased` says that for every length `n` each
possible result has the same number of runs of length `n`, hence all results have the same probability; and that from every point a bounded
number of further engine calls can finish the call, hence it ends with probability one.
-/

namespace STL.Rnd
open STL

/-- Every engine value is in `[min(), max()]`. -/
def Vals (E : Eng) (l : List Nat) : Prop := ∀ e ∈ l, E.lo ≤ e ∧ e ≤ E.hi

/-- The runs of length `n` with the result `b`. -/
def runsTo {β : Type} (E : Eng) (run : List Nat → G (β × List Nat)) (b : β) (n : Nat) : Set (List Nat) :=
  {p | p.length = n ∧ Vals E p ∧ run p = .ok (b, [])}

/-- `run` computes a result in `S`, each with the same probability. -/
structure Unbiased {β : Type} (E : Eng) (run : List Nat → G (β × List Nat)) (S : β → Prop) (K : Nat) : Prop where
  /-- On any engine output the call either ends with a result in `S`, which depends only on the values consumed, or it needs more values;
  in that case at most `K` more values can end it. Nothing else happens. -/
  safe : ∀ l, Vals E l → (∃ b p r, l = p ++ r ∧ S b ∧ ∀ r', Vals E r' → run (p ++ r') = .ok (b, r')) ∨
    (run l = .error .more ∧ ∃ q b, q.length ≤ K ∧ Vals E q ∧ run (l ++ q) = .ok (b, []))
  /-- Every value in `S` is possible. -/
  possible : ∀ b, S b → ∃ n, (runsTo E run b n).Nonempty
  /-- The number of runs of each length is finite and the same for all results. -/
  finite : ∀ b n, (runsTo E run b n).Finite
  equal : ∀ b b', S b → S b' → ∀ n, (runsTo E run b n).ncard = (runsTo E run b' n).ncard

theorem Good.unbiased {β : Type} {E : Eng} {f : Rdr β} {S : β → Prop} {K : Nat} {run : List Nat → G (β × List Nat)} (g : Good E f S K) (h : ∀ l, (∀ e ∈ l, E.V e) → run l = toG (f l)) :
    Unbiased E run S K := by
  have hok : ∀ l b r, (∀ e ∈ l, E.V e) → (run l = .ok (b, r) ↔ f l = some (b, r)) := by
    intro l b r hl
    rw [h l hl]
    cases f l with
    | none => simp [toG]
    | some x => simp [toG]
  have hset : ∀ b n, runsTo E run b n = {p | p.length = n ∧ (∀ e ∈ p, E.V e) ∧ f p = some (b, [])} := by
    intro b n
    ext p
    constructor
    · rintro ⟨h1, h2, h3⟩; exact ⟨h1, h2, (hok p b [] h2).1 h3⟩
    · rintro ⟨h1, h2, h3⟩; exact ⟨h1, h2, (hok p b [] h2).2 h3⟩
  refine ⟨?_, ?_, ?_, ?_⟩
  · intro l hl
    cases hf : f l with
    | some x =>
      obtain ⟨b, r⟩ := x
      obtain ⟨p, e1, e2⟩ := g.reads _ _ _ hf
      refine Or.inl ⟨b, p, r, e1, g.bound _ _ _ hl hf, fun r' hr' => ?_⟩
      refine (hok _ _ _ ?_).2 (e2 r')
      intro e he
      rcases List.mem_append.1 he with h | h
      · exact hl e (by rw [e1]; simp [h])
      · exact hr' e h
    | none =>
      obtain ⟨q, b, h1, h2, h3⟩ := g.finish l hl hf
      refine Or.inr ⟨by rw [h l hl, hf]; rfl, q, b, h1, h2, (hok _ _ _ ?_).2 h3⟩
      intro e he
      rcases List.mem_append.1 he with h | h
      · exact hl e h
      · exact h2 e h
  · intro b hb
    obtain ⟨p, h1, h2⟩ := g.reach b hb
    exact ⟨p.length, p, by rw [hset]; exact ⟨rfl, h1, h2⟩⟩
  · intro b n
    rw [hset]
    exact (fin_lists n E.lo E.hi).subset fun p hp => ⟨hp.1, hp.2.1⟩
  · intro b b' hb hb' n
    rw [hset, hset]
    exact g.unif.ncard hb hb' n

/-- **C23** (the integer generator used by `shuffle` and `sample`): for `1 ≤ s`, a call with argument `s` returns a value in `[0, s)`, each with
the same probability, for every engine. -/
theorem C23_generator (E : Eng) (o : E.Ok) (s : Nat) (hs : 1 ≤ s) (hsW : s < 2 ^ E.W) : Unbiased E (gen E s) (fun v => v < s) (2 * E.W) := by
  obtain ⟨f, h1, h2⟩ := gen_good o hs hsW
  exact h1.unbiased h2

/-- **C23** (`uniform_int_distribution<T>(mn, mx)`, `T` signed or unsigned with `w` bits): the result is in `[mn, mx]`, each value with the same
probability, for every engine and all `mn ≤ mx` of the type, including the full range. -/
theorem C23_uniform_int (E : Eng) (o : E.Ok) (w : Nat) (hw1 : 1 ≤ w) (hw : w ≤ E.W) (sg : Bool) (mn mx : Int)
    (hmn : (if sg then -(2 ^ (w - 1)) else 0 : Int) ≤ mn) (hle : mn ≤ mx) (hmx : mx ≤ (if sg then 2 ^ (w - 1) - 1 else 2 ^ w - 1 : Int)) :
    Unbiased E (eval E sg w mn mx) (fun v => mn ≤ v ∧ v ≤ mx) (2 * E.W) := by
  have h2 := two_pow_pred hw1
  obtain ⟨f, h1, h2⟩ := eval_good o hw1 hw sg (mn := mn) (mx := mx) hmn hle (by unfold tyMin; cases sg <;> simp only [if_true, if_false, Bool.false_eq_true] at * <;> omega)
  exact h1.unbiased h2

/-- **C23** (`shuffle`): the result is a rearrangement of the range, and all rearrangements have the same probability. -/
theorem C23_shuffle {α : Type} (E : Eng) (o : E.Ok) (a : List α) (hnd : a.Nodup) (hlen : a.length < 2 ^ E.W) :
    Unbiased E (shuffle E a) (fun b => b.Perm a) (a.length * (2 * E.W)) := by
  obtain ⟨f, h1, h2⟩ := shuffle_good o hnd hlen
  exact h1.unbiased h2

/-- **C23** (`shuffle` with equal elements): what happens depends on positions only, so the theorem for the positions `0, 1, …, n-1` describes
every range: the range is rearranged by the permutation that `shuffle` would apply to its positions. -/
theorem C23_shuffle_positions {α : Type} [Inhabited α] (E : Eng) (a : List α) (l : List Nat) :
    shuffle E a l = (shuffle E (List.range a.length) l).map fun x => (x.1.map fun i => a[i]!, x.2) := by
  rw [← shuffle_map]
  congr 1
  apply List.ext_getElem (by simp)
  intro i h1 h2
  simp [h1]

/-- A permutation of the positions rearranges the range. -/
theorem C23_shuffle_perm {α : Type} [Inhabited α] (E : Eng) (o : E.Ok) (a : List α) (hlen : a.length < 2 ^ E.W) (l : List Nat) (hl : Vals E l) :
    (∃ b r, shuffle E a l = .ok (b, r) ∧ b.Perm a) ∨ shuffle E a l = .error .more := by
  rw [C23_shuffle_positions]
  rcases (C23_shuffle E o (List.range a.length) List.nodup_range (by simpa using hlen)).safe l hl with ⟨b, p, r, e1, h1, h2⟩ | ⟨h1, _⟩
  · left
    have h3 := h2 r (fun e he => hl e (by rw [e1]; simp [he]))
    rw [← e1] at h3
    refine ⟨b.map fun i => a[i]!, r, by rw [h3]; rfl, ?_⟩
    refine (h1.map _).trans (List.Perm.of_eq ?_)
    apply List.ext_getElem (by simp)
    intro i g1 g2
    simp [g2]
  · right; rw [h1]; rfl

/-! ## Concrete cases -/

/-- `mt19937` with a 32-bit result type. -/
def mt : Eng := ⟨32, 0, 4294967295⟩
/-- `minstd_rand`: values 1 to 2147483646; 30 bits are used. -/
def minstd : Eng := ⟨32, 1, 2147483646⟩
/-- A die with ten faces as an engine, for an 8-bit type. -/
def die : Eng := ⟨8, 1, 10⟩

theorem mt_ok : mt.Ok := by constructor <;> simp [mt]
theorem minstd_ok : minstd.Ok := by constructor <;> simp [minstd]
theorem die_ok : die.Ok := by constructor <;> simp [die]

example : mt.bits = 32 ∧ minstd.bits = 30 ∧ die.bits = 3 := by decide
-- 20 values need two draws of 3 bits; 9 and 10 are ignored by `_Get_bits`; 2^6 % 20 = 4 and 0 * 20 % 64 = 0 < 4, so the first pair is rejected
example : gen die 20 [1, 10, 1, 5, 4, 7] = .ok (10, [7]) := by decide
example : gen die 20 [1, 10, 1, 5] = .error .more := by decide
example : eval die true 8 (-128) 127 [8, 8, 8] = .ok (127, []) := by decide
example : eval die true 8 (-3) 3 [1, 8] = .ok (3, []) := by decide
example : Unbiased minstd (eval minstd false 16 0 65535) (fun v => 0 ≤ v ∧ v ≤ 65535) 64 :=
  C23_uniform_int minstd minstd_ok 16 (by decide) (by decide) false 0 65535 (by norm_num) (by norm_num) (by norm_num)
example : shuffle die ['a', 'b', 'c'] [1, 1] = .error .more := by decide
example : shuffle die ['a', 'b', 'c'] [1, 2] = .ok (['c', 'a', 'b'], []) := by decide

end STL.Rnd
