import Verif.Vec.Spec

/-!
# No exception is invented and none is swallowed

`Eff m`: what `m` takes from the tapes contains a failure exactly if it throws the exception of that failure. Proofs only.
-/

namespace STL.Vec
open STL
variable {α β γ : Type}

/-- What was consumed, and how the outcome depends on it. -/
structure Took (w w' : W α) (e : Option Exc) (p : List Bool) (q : List (Option Nat)) : Prop where
  tape : w.tape = p ++ w'.tape
  ans : w.ans = q ++ w'.ans
  calm : e = none → true ∉ p ∧ none ∉ q
  user : e = some .user → true ∈ p
  alloc : e = some .badAlloc → none ∈ q

def Eff (m : M α β) : Prop := ∀ w, match m w with
  | .ok _ w' => ∃ p q, Took w w' none p q
  | .exc e w' => ∃ p q, Took w w' (some e) p q
  | .ub => True

theorem Took.refl {w w' : W α} (h1 : w'.tape = w.tape) (h2 : w'.ans = w.ans) : ∃ p q, Took w w' none p q :=
  ⟨[], [], by rw [h1]; rfl, by rw [h2]; rfl, fun _ => ⟨by simp, by simp⟩, fun h => (by cases h), fun h => (by cases h)⟩

theorem Took.trans {w w1 w2 : W α} {e e1 : Option Exc} {p p' : List Bool} {q q' : List (Option Nat)} (h1 : Took w w1 e1 p q) (h2 : Took w1 w2 e p' q')
    (hc : e = none → e1 = none) : ∃ p q, Took w w2 e p q := by
  refine ⟨p ++ p', q ++ q', by rw [h1.tape, h2.tape, List.append_assoc], by rw [h1.ans, h2.ans, List.append_assoc], ?_, ?_, ?_⟩
  · intro h
    obtain ⟨a, b⟩ := h2.calm h
    obtain ⟨c, d⟩ := h1.calm (hc h)
    simp only [List.mem_append, not_or]
    exact ⟨⟨c, a⟩, ⟨d, b⟩⟩
  · intro h
    exact List.mem_append_right _ (h2.user h)
  · intro h
    exact List.mem_append_right _ (h2.alloc h)

/-- After a destructor or a handler that returned the exception goes on. -/
theorem Took.after {w w1 w2 : W α} {e : Exc} {p p' : List Bool} {q q' : List (Option Nat)} (h1 : Took w w1 (some e) p q) (h2 : Took w1 w2 none p' q') :
    ∃ p q, Took w w2 (some e) p q := by
  refine ⟨p ++ p', q ++ q', by rw [h1.tape, h2.tape, List.append_assoc], by rw [h1.ans, h2.ans, List.append_assoc], fun h => (by cases h), ?_, ?_⟩
  · intro h
    exact List.mem_append_left _ (h1.user h)
  · intro h
    exact List.mem_append_left _ (h1.alloc h)

namespace Eff

theorem pure' (b : β) : Eff (pure b : M α β) := fun _ => Took.refl rfl rfl

theorem ub' : Eff (Vec.ub : M α β) := fun _ => trivial

theorem getV' : Eff (getV : M α V) := fun _ => Took.refl rfl rfl
theorem setV' (v : V) : Eff (setV v : M α Unit) := fun _ => Took.refl rfl rfl
theorem setSize' (n : Nat) : Eff (setSize n : M α Unit) := fun _ => Took.refl rfl rfl
theorem setCell' (b i : Nat) (x : Option α) : Eff (setCell b i x) := fun _ => Took.refl rfl rfl
theorem setCells' (f : (Nat → Nat → Option α) → Nat → Nat → Option α) : Eff (setCells f) := fun _ => Took.refl rfl rfl

theorem throw' {e : Exc} (h1 : e ≠ .user) (h2 : e ≠ .badAlloc) : Eff (throw e : M α β) := fun _ =>
  ⟨[], [], rfl, rfl, fun h => (by cases h), fun h => absurd (Option.some.inj h) h1, fun h => absurd (Option.some.inj h) h2⟩

theorem bind {m : M α β} {f : β → M α γ} (h1 : Eff m) (h2 : ∀ b, Eff (f b)) : Eff (m >>= f) := by
  intro w
  show match M.bind m f w with | .ok _ w' => _ | .exc e w' => _ | .ub => True
  unfold M.bind
  have a := h1 w
  cases hm : m w with
  | ok b w1 =>
    rw [hm] at a
    obtain ⟨p, q, t⟩ := a
    have c := h2 b w1
    dsimp only
    cases hf : f b w1 with
    | ok d w2 =>
      rw [hf] at c
      obtain ⟨p', q', t'⟩ := c
      exact t.trans t' (fun _ => rfl)
    | exc e w2 =>
      rw [hf] at c
      obtain ⟨p', q', t'⟩ := c
      exact t.trans t' (fun _ => rfl)
    | ub => trivial
  | exc e w1 =>
    rw [hm] at a
    exact a
  | ub => trivial

theorem ite {c : Prop} [Decidable c] {a b : M α β} (h1 : Eff a) (h2 : Eff b) : Eff (if c then a else b) := by
  split
  · exact h1
  · exact h2

theorem onExc' {m : M α β} {d : M α Unit} (h1 : Eff m) (h2 : Eff d) : Eff (onExc m d) := by
  intro w
  unfold onExc
  have a := h1 w
  cases hm : m w with
  | ok b w1 => rw [hm] at a; exact a
  | ub => trivial
  | exc e w1 =>
    rw [hm] at a
    obtain ⟨p, q, t⟩ := a
    have c := h2 w1
    dsimp only
    cases hd : d w1 with
    | ok b w2 =>
      rw [hd] at c
      obtain ⟨p', q', t'⟩ := c
      exact t.after t'
    | exc e w2 => trivial
    | ub => trivial

theorem catchAll' {m : M α β} {d : M α Unit} (h1 : Eff m) (h2 : Eff d) : Eff (catchAll m d) := by
  intro w
  unfold catchAll
  have a := h1 w
  cases hm : m w with
  | ok b w1 => rw [hm] at a; exact a
  | ub => trivial
  | exc e w1 =>
    rw [hm] at a
    obtain ⟨p, q, t⟩ := a
    have c := h2 w1
    dsimp only
    cases hd : d w1 with
    | ok b w2 =>
      rw [hd] at c
      obtain ⟨p', q', t'⟩ := c
      exact t.after t'
    | exc e w2 =>
      rw [hd] at c
      obtain ⟨p', q', t'⟩ := c
      exact t.trans t' (fun h => by cases h)
    | ub => trivial

theorem cell' (b i : Nat) : Eff (cell b i : M α (Option α)) := by
  intro w
  unfold cell
  split
  · next h =>
    split at h
    · split at h
      · cases h
        exact Took.refl rfl rfl
      · cases h
    · cases h
  · next h =>
    split at h
    · split at h <;> cases h
    · cases h
  · trivial

theorem rd' (b i : Nat) : Eff (rd b i : M α α) := by
  unfold rd
  refine bind (cell' b i) fun x => ?_
  cases x
  · exact ub'
  · exact pure' _

theorem construct' (b i : Nat) (x : α) : Eff (construct b i x) := by
  unfold construct
  refine bind (cell' b i) fun y => ?_
  cases y
  · exact setCell' _ _ _
  · exact ub'

theorem destroy' (b i : Nat) : Eff (destroy b i : M α Unit) := by
  unfold destroy
  refine bind (cell' b i) fun y => ?_
  cases y
  · exact ub'
  · exact setCell' _ _ _

theorem write' (b i : Nat) (x : α) : Eff (write b i x) := by
  unfold write
  refine bind (cell' b i) fun y => ?_
  cases y
  · exact ub'
  · exact setCell' _ _ _

theorem deallocate' (b n : Nat) : Eff (deallocate b n : M α Unit) := by
  intro w
  unfold deallocate
  by_cases h : w.caps b = some n ∧ ∀ i < n, w.cel b i = none
  · rw [if_pos h]
    exact Took.refl rfl rfl
  · rw [if_neg h]
    trivial

theorem allocate' (P : Par α) (least : Bool) (n : Nat) : Eff (allocate P least n) := by
  intro w
  unfold allocate
  cases ha : w.ans with
  | nil =>
    simp only [List.headD_nil]
    exact Took.refl rfl (by rw [ha]; rfl)
  | cons a l =>
    cases a with
    | none =>
      simp only [List.headD_cons]
      exact ⟨[], [none], rfl, ha, fun h => (by cases h), fun h => (by cases h), fun _ => by simp⟩
    | some k =>
      simp only [List.headD_cons]
      exact ⟨[], [some k], rfl, ha, fun _ => ⟨by simp, by simp⟩, fun h => (by cases h), fun h => (by cases h)⟩

/-- `A` always ends in the user's exception. -/
def Throws (A : M α β) : Prop := ∀ w, match A w with
  | .ok _ _ => False
  | .exc e w' => e = .user ∧ w'.tape = w.tape ∧ w'.ans = w.ans
  | .ub => True

theorem throws0 : Throws (throw .user : M α β) := fun _ => ⟨rfl, rfl, rfl⟩

/-- Nothing is taken from the tapes. -/
def Silent (m : M α β) : Prop := ∀ w, match m w with
  | .ok _ w' => w'.tape = w.tape ∧ w'.ans = w.ans
  | .exc _ _ => False
  | .ub => True

theorem silent_cell (b i : Nat) : Silent (cell b i : M α (Option α)) := by
  intro w
  unfold cell
  cases w.caps b with
  | none => trivial
  | some n =>
    dsimp only
    by_cases h : i < n
    · rw [if_pos h]
      exact ⟨rfl, rfl⟩
    · rw [if_neg h]
      trivial

theorem silent_bind {m : M α β} {f : β → M α γ} (h1 : Silent m) (h2 : ∀ b, Silent (f b)) : Silent (m >>= f) := by
  intro w
  show match M.bind m f w with | .ok _ w' => _ | .exc e w' => _ | .ub => True
  unfold M.bind
  have a := h1 w
  cases hm : m w with
  | ok b w1 =>
    rw [hm] at a
    have c := h2 b w1
    dsimp only
    cases hf : f b w1 with
    | ok d w2 =>
      rw [hf] at c
      exact ⟨c.1.trans a.1, c.2.trans a.2⟩
    | exc e w2 => rw [hf] at c; exact c
    | ub => trivial
  | exc e w1 => rw [hm] at a; exact absurd a id
  | ub => trivial

theorem throws_bind {m : M α β} {f : β → M α γ} (h1 : Silent m) (h2 : ∀ b, Throws (f b)) : Throws (m >>= f) := by
  intro w
  show match M.bind m f w with | .ok _ w' => _ | .exc e w' => _ | .ub => True
  unfold M.bind
  have a := h1 w
  cases hm : m w with
  | ok b w1 =>
    rw [hm] at a
    have c := h2 b w1
    dsimp only
    cases hf : f b w1 with
    | ok d w2 => rw [hf] at c; exact c
    | exc e w2 =>
      rw [hf] at c
      exact ⟨c.1, c.2.1.trans a.1, c.2.2.trans a.2⟩
    | ub => trivial
  | exc e w1 => rw [hm] at a; exact absurd a id
  | ub => trivial

theorem silent_rd (b i : Nat) : Silent (rd b i : M α α) := by
  unfold rd
  refine silent_bind (silent_cell b i) fun x => ?_
  cases x
  · exact fun _ => trivial
  · exact fun _ => ⟨rfl, rfl⟩

theorem silent_write (b i : Nat) (x : α) : Silent (write b i x) := by
  unfold write
  refine silent_bind (silent_cell b i) fun y => ?_
  cases y
  · exact fun _ => trivial
  · exact fun _ => ⟨rfl, rfl⟩

theorem silent_setCells (f : (Nat → Nat → Option α) → Nat → Nat → Option α) : Silent (setCells f) := fun _ => ⟨rfl, rfl⟩

theorem tick' {may : Bool} {A B : M α β} (hA : Throws A) (hB : Eff B) : Eff (tick may >>= fun b => if b = true then A else B) := by
  intro w
  show match M.bind (tick may) (fun b => if b = true then A else B) w with | .ok _ w' => _ | .exc e w' => _ | .ub => True
  unfold M.bind tick
  cases may with
  | false =>
    simp only [Bool.false_eq_true, if_false]
    exact hB w
  | true =>
    simp only [if_true]
    cases ht : w.tape with
    | nil =>
      simp only [List.headD_nil, Bool.false_eq_true, if_false, List.tail_nil]
      have : ({ w with tape := [] } : W α) = w := by
        cases w
        simp only at ht
        subst ht
        rfl
      rw [this]
      exact hB w
    | cons b l =>
      cases b with
      | true =>
        show match A { w with tape := l } with | .ok _ w' => ∃ p q, Took w w' none p q | .exc e w' => ∃ p q, Took w w' (some e) p q | .ub => True
        have a := hA { w with tape := l }
        cases hm : A { w with tape := l } with
        | ok d w2 => rw [hm] at a; exact absurd a id
        | exc e w2 =>
          rw [hm] at a
          refine ⟨[true], [], ?_, ?_, fun h => (by cases h), fun _ => by simp, fun h => ?_⟩
          · rw [a.2.1]
            exact ht
          · rw [a.2.2]
            rfl
          · have := a.1
            rw [Option.some.inj h] at this
            cases this
        | ub => trivial
      | false =>
        show match B { w with tape := l } with | .ok _ w' => ∃ p q, Took w w' none p q | .exc e w' => ∃ p q, Took w w' (some e) p q | .ub => True
        have t0 : Took w { w with tape := l } none [false] [] :=
          ⟨ht, rfl, fun _ => ⟨by simp, by simp⟩, fun h => (by cases h), fun h => (by cases h)⟩
        have a := hB { w with tape := l }
        cases hm : B { w with tape := l } with
        | ok d w2 =>
          rw [hm] at a
          obtain ⟨p, q, t⟩ := a
          exact t0.trans t fun _ => rfl
        | exc e w2 =>
          rw [hm] at a
          obtain ⟨p, q, t⟩ := a
          exact t0.trans t fun _ => rfl
        | ub => trivial

theorem run {m : M α β} (h : Eff m) (w : W α) : match m w with
    | .ok _ w' => ∃ p q, Took w w' none p q
    | .exc e w' => ∃ p q, Took w w' (some e) p q
    | .ub => True := h w

end Eff

attribute [local irreducible] Eff Eff.Throws Eff.Silent

macro "throws" : tactic => `(tactic| repeat' (with_reducible first
  | exact Eff.throws0 | exact Eff.silent_write .. | exact Eff.silent_rd .. | exact Eff.silent_setCells _ | refine Eff.throws_bind ?_ fun _ => ?_))

/-- Applies the rules above to every part of a program; the facts about the functions it calls are given. -/
macro "eff" "[" ts:term,* "]" : tactic => do
  let ts := ts.getElems
  `(tactic| repeat' (with_reducible first
    $[| exact $ts:term]*
    | exact Eff.pure' _ | exact Eff.ub' | exact Eff.getV' | exact Eff.setV' _ | exact Eff.setSize' _ | exact Eff.rd' _ _ | exact Eff.construct' _ _ _
    | exact Eff.destroy' _ _ | exact Eff.write' _ _ _ | exact Eff.deallocate' _ _ | exact Eff.allocate' _ _ _ | exact Eff.setCells' _
    | exact Eff.throw' (by simp) (by simp)
    | refine Eff.tick' (by throws) ?_ | refine Eff.onExc' ?_ ?_ | refine Eff.catchAll' ?_ ?_ | refine Eff.bind ?_ fun _ => ?_ | refine Eff.ite ?_ ?_))

namespace Eff

theorem copyC' (x : α) (b i : Nat) : Eff (copyC x b i) := by
  unfold copyC
  eff []

theorem moveC' (P : Par α) (c k b i : Nat) : Eff (moveC P c k b i) := by
  unfold moveC
  eff []

theorem copyA' (P : Par α) (x : α) (b i : Nat) : Eff (copyA P x b i) := by
  unfold copyA
  eff []

theorem moveA' (P : Par α) (c k b i : Nat) : Eff (moveA P c k b i) := by
  unfold moveA
  eff []

theorem moveAX' (P : Par α) (x : α) (b i : Nat) : Eff (moveAX P x b i) := by
  unfold moveAX
  eff []

theorem rotate' (P : Par α) (b s m n : Nat) : Eff (rotate P b s m n) := by
  unfold rotate
  eff []

theorem destroyRange' (b : Nat) : ∀ n i, Eff (destroyRange b i n : M α Unit)
  | 0, _ => Eff.pure' _
  | n + 1, i => by
    unfold destroyRange
    eff [destroyRange' b n (i + 1)]

theorem uninitMoveFrom' (P : Par α) (c s b d : Nat) : ∀ n k, Eff (uninitMoveFrom P c s b d k n)
  | 0, _ => Eff.pure' _
  | n + 1, k => by
    unfold uninitMoveFrom
    eff [uninitMoveFrom' P c s b d n (k + 1), moveC' .., destroyRange' ..]

theorem uninitCopyFrom' (c s b d : Nat) : ∀ n k, Eff (uninitCopyFrom c s b d k n : M α Unit)
  | 0, _ => Eff.pure' _
  | n + 1, k => by
    unfold uninitCopyFrom
    eff [uninitCopyFrom' c s b d n (k + 1), copyC' .., destroyRange' ..]

theorem uninitListFrom' (b d : Nat) : ∀ (xs : List α) k, Eff (uninitListFrom b d k xs)
  | [], _ => Eff.pure' _
  | x :: xs, k => by
    unfold uninitListFrom
    eff [uninitListFrom' b d xs (k + 1), copyC' .., destroyRange' ..]

theorem rdSrc' (b : Nat) (a : Src α) : Eff (rdSrc b a) := by
  cases a
  · exact Eff.pure' _
  · exact Eff.rd' ..

theorem uninitFillFrom' (o : Nat) (src : Src α) (b d : Nat) : ∀ n k, Eff (uninitFillFrom o src b d k n)
  | 0, _ => Eff.pure' _
  | n + 1, k => by
    unfold uninitFillFrom
    eff [uninitFillFrom' o src b d n (k + 1), copyC' .., destroyRange' .., rdSrc' ..]

theorem moveFwd' (P : Par α) (b : Nat) : ∀ n s d, Eff (moveFwd P b s d n)
  | 0, _, _ => Eff.pure' _
  | n + 1, s, d => by
    unfold moveFwd
    eff [moveFwd' P b n (s + 1) (d + 1), moveA' ..]

theorem moveBwd' (P : Par α) (b s d : Nat) : ∀ n, Eff (moveBwd P b s d n)
  | 0 => Eff.pure' _
  | n + 1 => by
    unfold moveBwd
    eff [moveBwd' P b s d n, moveA' ..]

theorem fill' (P : Par α) (b : Nat) (x : α) : ∀ n i, Eff (fill P b x i n)
  | 0, _ => Eff.pure' _
  | n + 1, i => by
    unfold fill
    eff [fill' P b x n (i + 1), copyA' ..]

theorem copyList' (P : Par α) (b : Nat) : ∀ (xs : List α) i, Eff (copyList P b i xs)
  | [], _ => Eff.pure' _
  | x :: xs, i => by
    unfold copyList
    eff [copyList' P b xs (i + 1), copyA' ..]

theorem uninitMove' (P : Par α) (c s n b d : Nat) : Eff (uninitMove P c s n b d) := uninitMoveFrom' ..
theorem uninitCopy' (c s n b d : Nat) : Eff (uninitCopy c s n b d : M α Unit) := uninitCopyFrom' ..
theorem uninitList' (xs : List α) (b d : Nat) : Eff (uninitList xs b d) := uninitListFrom' ..
theorem uninitFill' (o : Nat) (src : Src α) (n b d : Nat) : Eff (uninitFill o src n b d) := uninitFillFrom' ..

theorem dropArray' (v : V) : Eff (dropArray v : M α Unit) := by
  unfold dropArray
  eff [destroyRange' ..]

theorem changeArray' (a b c : Nat) : Eff (changeArray a b c : M α Unit) := by
  unfold changeArray
  eff [dropArray' _]

theorem tidy' : Eff (tidy : M α Unit) := by
  unfold tidy
  eff [destroyRange' ..]

theorem clearAndReserve' (P : Par α) (n : Nat) : Eff (clearAndReserve P n) := by
  unfold clearAndReserve buyRaw
  eff [tidy']

theorem moveOrCopy' (P : Par α) (c n b : Nat) : Eff (moveOrCopy P c n b) := by
  unfold moveOrCopy
  eff [uninitMove' .., uninitCopy' ..]

theorem guard2' (a b c d : Nat) : Eff (guard2 a b c d : M α Unit) := by
  unfold guard2
  eff [destroyRange' ..]

theorem placeOld' (P : Par α) (v : V) (a b c d : Nat) (s : Bool) : Eff (placeOld P v a b c d s) := by
  unfold placeOld
  eff [uninitMove' .., moveOrCopy' .., guard2' ..]

theorem reallocInsert' (P : Par α) (a b c : Nat) (s : Bool) {mk : Nat → M α Unit} (h : ∀ n, Eff (mk n)) : Eff (reallocInsert P a b c s mk) := by
  unfold reallocInsert
  eff [h _, guard2' .., placeOld' .., changeArray' ..]

theorem constructArg' (P : Par α) (o : Nat) (a : Arg α) (b k : Nat) : Eff (constructArg P o a b k) := by
  unfold constructArg
  cases a <;> dsimp only <;> eff [copyC' .., moveC' ..]

theorem emplaceUnused' (P : Par α) (a : Arg α) : Eff (emplaceUnused P a) := by
  unfold emplaceUnused
  eff [constructArg' ..]

theorem emplaceRealloc' (P : Par α) (off : Nat) (a : Arg α) : Eff (emplaceRealloc P off a) := by
  unfold emplaceRealloc
  eff [reallocInsert' _ _ _ _ _ (fun _ => constructArg' ..)]

theorem emplaceBack' (P : Par α) (a : Arg α) : Eff (emplaceBack P a) := by
  unfold emplaceBack
  eff [emplaceUnused' .., emplaceRealloc' ..]

theorem temporary' (P : Par α) (o : Nat) (a : Arg α) : Eff (temporary P o a) := by
  unfold temporary
  cases a <;> dsimp only <;> eff []

theorem emplace' (P : Par α) (pos : Nat) (a : Arg α) : Eff (emplace P pos a) := by
  unfold emplace
  eff [emplaceUnused' .., emplaceRealloc' .., temporary' .., moveC' .., moveBwd' .., moveAX' ..]

theorem insertN' (P : Par α) (pos n : Nat) (src : Src α) : Eff (insertN P pos n src) := by
  unfold insertN
  eff [reallocInsert' _ _ _ _ _ (fun _ => uninitFill' ..), emplaceUnused' .., temporary' .., uninitFill' .., uninitMove' .., fill' .., moveBwd' ..]

theorem appendInput' (P : Par α) : ∀ xs : List α, Eff (appendInput P xs)
  | [] => Eff.pure' _
  | x :: xs => by
    unfold appendInput
    eff [emplaceBack' .., appendInput' P xs]

theorem append' (P : Par α) (xs : List α) : Eff (append P xs) := by
  unfold append
  eff [reallocInsert' _ _ _ _ _ (fun _ => uninitList' ..), uninitList' ..]

theorem insertInput' (P : Par α) (pos : Nat) (xs : List α) : Eff (insertInput P pos xs) := by
  unfold insertInput
  eff [appendInput' .., rotate' ..]

theorem vaporize' (a b : Nat) : Eff (vaporize a b : M α Unit) := by
  unfold vaporize
  eff [destroyRange' ..]

theorem insertRange' (P : Par α) (pos : Nat) (xs : List α) : Eff (insertRange P pos xs) := by
  unfold insertRange
  eff [reallocInsert' _ _ _ _ _ (fun _ => uninitList' ..), uninitList' .., uninitMove' .., moveBwd' .., destroyRange' .., vaporize' .., moveFwd' ..]

theorem assignN' (P : Par α) (n : Nat) (x : α) : Eff (assignN P n x) := by
  unfold assignN
  eff [clearAndReserve' .., uninitFill' .., fill' .., destroyRange' ..]

theorem assignInput' (P : Par α) (xs : List α) : Eff (assignInput P xs) := by
  unfold assignInput
  eff [copyList' .., destroyRange' .., appendInput' ..]

theorem assignRange' (P : Par α) (xs : List α) : Eff (assignRange P xs) := by
  unfold assignRange
  eff [clearAndReserve' .., uninitList' .., copyList' .., destroyRange' ..]

theorem resize' (P : Par α) (n : Nat) (src : Src α) : Eff (resize P n src) := by
  unfold resize
  eff [destroyRange' .., reallocInsert' _ _ _ _ _ (fun _ => uninitFill' ..), uninitFill' ..]

theorem reallocate' (P : Par α) (l : Bool) (n : Nat) : Eff (reallocate P l n) := by
  unfold reallocate
  eff [moveOrCopy' .., changeArray' ..]

theorem reserve' (P : Par α) (n : Nat) : Eff (reserve P n) := by
  unfold reserve
  eff [reallocate' ..]

theorem shrink' (P : Par α) : Eff (shrinkToFit P) := by
  unfold shrinkToFit
  eff [reallocate' .., tidy']

theorem popBack' : Eff (popBack : M α Unit) := by
  unfold popBack
  eff []

theorem eraseOne' (P : Par α) (pos : Nat) : Eff (eraseOne P pos) := by
  unfold eraseOne
  eff [moveFwd' ..]

theorem eraseRange' (P : Par α) (f l : Nat) : Eff (eraseRange P f l) := by
  unfold eraseRange
  eff [moveFwd' .., destroyRange' ..]

theorem clear' : Eff (clear : M α Unit) := by
  unfold clear
  eff [destroyRange' ..]

theorem constructN' (P : Par α) (n : Nat) {mk : Nat → M α Unit} (h : ∀ n, Eff (mk n)) : Eff (constructN P n mk) := by
  unfold constructN buyRaw
  eff [h _, tidy']

theorem ctorInput' (P : Par α) (xs : List α) : Eff (ctorInput P xs) := by
  unfold ctorInput
  eff [appendInput' .., tidy']

theorem at' (i : Nat) : Eff (at_ i : M α α) := by
  unfold at_
  eff []

theorem readAll' (b : Nat) : ∀ n i, Eff (readAll b i n : M α (List α))
  | 0, _ => Eff.pure' _
  | n + 1, i => by
    unfold readAll
    eff [readAll' b n (i + 1)]

end Eff

/-- What the outcome of an operation says about the failures that happened. -/
def outExc : Out α → Option Exc
  | .exc e => some e
  | _ => none

theorem member_took {g g' : Pg α} {k : Nat} {m : M α β} {f : β → Out α} {out : Out α} (hE : Eff m) (hf : ∀ b, outExc (f b) = none)
    (h : member g k m f = some (g', out)) : ∃ p q, Took g.mem g'.mem (outExc out) p q := by
  unfold member at h
  have a := hE.run { g.mem with v := g.vs k }
  cases hm : m { g.mem with v := g.vs k } with
  | ok b w =>
    rw [hm] at h a
    obtain ⟨rfl, rfl⟩ := Prod.mk.inj (Option.some.inj h)
    obtain ⟨p, q, t⟩ := a
    rw [hf]
    exact ⟨p, q, t.tape, t.ans, t.calm, t.user, t.alloc⟩
  | exc e w =>
    rw [hm] at h a
    obtain ⟨rfl, rfl⟩ := Prod.mk.inj (Option.some.inj h)
    obtain ⟨p, q, t⟩ := a
    exact ⟨p, q, t.tape, t.ans, t.calm, t.user, t.alloc⟩
  | ub => rw [hm] at h; cases h

theorem some_took {g g' : Pg α} {o out : Out α} {vs : Nat → V} (ho : outExc o = none)
    (h : (some (⟨g.mem, vs⟩, o) : Option (Pg α × Out α)) = some (g', out)) : ∃ p q, Took g.mem g'.mem (outExc out) p q := by
  obtain ⟨rfl, rfl⟩ := Prod.mk.inj (Option.some.inj h)
  rw [ho]
  exact Took.refl rfl rfl

theorem step_took {P : Par α} {g g' : Pg α} {op : Op α} {out : Out α} (h : step P g op = some (g', out)) :
    ∃ p q, Took g.mem g'.mem (outExc out) p q := by
  cases op with
  | newN k n x => exact member_took (Eff.constructN' _ _ fun _ => Eff.uninitFill' ..) (fun _ => rfl) h
  | newRange k xs => exact member_took (Eff.constructN' _ _ fun _ => Eff.uninitList' ..) (fun _ => rfl) h
  | newInput k xs => exact member_took (Eff.ctorInput' ..) (fun _ => rfl) h
  | newCopy k l => exact member_took (Eff.bind (Eff.readAll' ..) fun _ => Eff.constructN' _ _ fun _ => Eff.uninitList' ..) (fun _ => rfl) h
  | newMove k l => exact some_took rfl h
  | destroy k => exact member_took Eff.tidy' (fun _ => rfl) h
  | emplaceBack k a => exact member_took (Eff.emplaceBack' ..) (fun _ => rfl) h
  | emplace k pos a => exact member_took (Eff.emplace' ..) (fun _ => rfl) h
  | insertN k pos n src => exact member_took (Eff.insertN' ..) (fun _ => rfl) h
  | append k xs => exact member_took (Eff.append' ..) (fun _ => rfl) h
  | insertRange k pos xs => exact member_took (Eff.insertRange' ..) (fun _ => rfl) h
  | appendInput k xs => exact member_took (Eff.appendInput' ..) (fun _ => rfl) h
  | insertInput k pos xs => exact member_took (Eff.insertInput' ..) (fun _ => rfl) h
  | assignN k n x => exact member_took (Eff.assignN' ..) (fun _ => rfl) h
  | assignRange k xs => exact member_took (Eff.assignRange' ..) (fun _ => rfl) h
  | assignInput k xs => exact member_took (Eff.assignInput' ..) (fun _ => rfl) h
  | copyAssign k l =>
    unfold step at h
    dsimp only at h
    split at h
    · exact some_took rfl h
    · exact member_took (Eff.bind (Eff.readAll' ..) fun _ => Eff.assignRange' ..) (fun _ => rfl) h
  | moveAssign k l =>
    unfold step at h
    dsimp only at h
    split at h
    · exact some_took rfl h
    · split at h
      · next g1 hm =>
        obtain ⟨p, q, t⟩ := member_took Eff.tidy' (fun _ => rfl) hm
        obtain ⟨rfl, rfl⟩ := Prod.mk.inj (Option.some.inj h)
        exact ⟨p, q, t⟩
      · cases h
  | swap k l =>
    unfold step at h
    dsimp only at h
    split at h
    · exact some_took rfl h
    · exact some_took rfl h
  | resize k n src => exact member_took (Eff.resize' ..) (fun _ => rfl) h
  | reserve k n => exact member_took (Eff.reserve' ..) (fun _ => rfl) h
  | shrink k => exact member_took (Eff.shrink' ..) (fun _ => rfl) h
  | popBack k => exact member_took Eff.popBack' (fun _ => rfl) h
  | eraseOne k pos => exact member_took (Eff.eraseOne' ..) (fun _ => rfl) h
  | eraseRange k f l => exact member_took (Eff.eraseRange' ..) (fun _ => rfl) h
  | clear k => exact member_took Eff.clear' (fun _ => rfl) h
  | «at» k i => exact member_took (Eff.at' i) (fun _ => rfl) h
  | size k => exact some_took rfl h
  | capacity k => exact some_took rfl h
  | data k => exact some_took rfl h
  | load p i =>
    unfold step at h
    dsimp only at h
    split at h
    · exact some_took rfl h
    · cases h
  | store p i x =>
    unfold step at h
    dsimp only at h
    have a := (Eff.copyA' P x p i).run g.mem
    cases hm : copyA P x p i g.mem with
    | ok b w =>
      rw [hm] at h a
      obtain ⟨rfl, rfl⟩ := Prod.mk.inj (Option.some.inj h)
      exact a
    | exc e w =>
      rw [hm] at h a
      obtain ⟨rfl, rfl⟩ := Prod.mk.inj (Option.some.inj h)
      exact a
    | ub => rw [hm] at h; cases h

end STL.Vec
