import Verif.Vec.Step
import Verif.Vec.Effect

/-!
# Theorems about `vector` (C09)

The specification is in `Verif/Vec/Spec.lean`: lists, capacities, places. The program is the code of `<vector>` on explicit memory.
-/

namespace STL.Vec
open STL
variable {α : Type}

/-- What can be seen of the vectors and the memory of a program, compared with a state of the specification. -/
structure Observed (P : Par α) (g : Pg α) (s : St α) : Prop where
  /-- `size()`, `capacity()` and `data()` -/
  size : ∀ k, (g.vs k).size = (s k).X.length
  capacity : ∀ k, (g.vs k).cap = (s k).cap
  data : ∀ k, (g.vs k).buf = (s k).loc
  /-- reading the elements from the first to the last gives the sequence -/
  elements : ∀ k, readAll (g.vs k).buf 0 (g.vs k).size g.mem = .ok (s k).X g.mem
  bounds : ∀ k, (s k).X.length ≤ (s k).cap ∧ (s k).cap ≤ P.max
  /-- the storage of a vector is a live allocation of just its capacity -/
  storage : ∀ k, (s k).loc ≠ 0 → g.mem.caps (s k).loc = some (s k).cap
  /-- two vectors never share storage -/
  apart : ∀ k l, k ≠ l → (s k).loc = (s l).loc → (s k).loc = 0
  /-- nothing leaks: every live allocation belongs to a vector -/
  leak : ∀ b n, g.mem.caps b = some n → b ≠ 0 ∧ ∃ k, (s k).loc = b ∧ (s k).cap = n
  /-- the objects that live are the elements of the vectors, each is where it should be -/
  objects : ∀ b i x, g.mem.cel b i = some x ↔ ∃ k, (s k).loc = b ∧ (s k).X[i]? = some x

theorem Inv.observed {P : Par α} {g : Pg α} {s : St α} (I : Inv P g s) : Observed P g s := by
  refine ⟨fun k => (I.len k).symm, fun k => (I.cap k).symm, fun k => (I.loc k).symm, ?_, ?_, ?_, ?_, ?_, ?_⟩
  · intro k
    have O := I.own k
    have ol : (g.vs k).size ≤ (g.vs k).cap := O.le
    have h : Sat (Vec.readAll (g.vs k).buf 0 (g.vs k).size) g.mem (fun xs w' => xs = (s k).X ∧ w' = g.mem) (fun _ _ => False) := by
      refine sat_readAll (N := (g.vs k).cap) _ _ (fun h => O.caps ?_) (fun _ => by omega) (fun j _ => ?_) (I.len k)
      · show 0 < (g.vs k).cap
        omega
      · have := O.cell (0 + j)
        rw [Nat.zero_add] at this ⊢
        exact this
    unfold Sat at h
    cases hm : Vec.readAll (g.vs k).buf 0 (g.vs k).size g.mem with
    | ok x w => rw [hm] at h; rw [h.1, h.2]
    | exc e w => rw [hm] at h; exact absurd h id
    | ub => rw [hm] at h; exact absurd h id
  · intro k
    rw [I.cap, I.len]
    exact ⟨(I.own k).le, (I.own k).mx⟩
  · intro k h
    rw [I.loc] at h ⊢
    rw [I.cap]
    exact ((I.own k).live h).1
  · intro k l h
    rw [I.loc, I.loc]
    exact I.inj k l h
  · intro b n h
    obtain ⟨k, hk⟩ := I.leak b (by rw [h]; simp)
    have h0 : (g.vs k).buf ≠ 0 := by
      intro h0
      rw [← hk, h0, I.sane.zero.1] at h
      cases h
    have h1 : g.mem.caps (g.vs k).buf = some (g.vs k).cap := ((I.own k).live h0).1
    refine ⟨by rw [← hk]; exact h0, k, (I.loc k).trans hk, ?_⟩
    rw [hk, h] at h1
    rw [I.cap]
    exact (Option.some.inj h1).symm
  · intro b i x
    constructor
    · intro h
      have hb : g.mem.caps b ≠ none := by
        intro hb
        rw [I.raw b hb] at h
        cases h
      obtain ⟨k, hk⟩ := I.leak b hb
      refine ⟨k, (I.loc k).trans hk, ?_⟩
      have := (I.own k).cell i
      have : g.mem.cel (g.vs k).buf i = (s k).X[i]? := this
      rw [← this, hk]
      exact h
    · rintro ⟨k, hk, hx⟩
      have : g.mem.cel (g.vs k).buf i = (s k).X[i]? := (I.own k).cell i
      rw [I.loc] at hk
      rw [← hk, this]
      exact hx

/-- **Every history.** Whatever a client does with its vectors, however it chooses its next call, whichever allocations and operations
of the element type fail: if it keeps the preconditions nothing is undefined, it sees what the specification allows, and at the end (of any
history, so at any time) all the vectors are as the specification says, `size() ≤ capacity() ≤ max_size()`, and the memory holds their elements
and nothing else. -/
theorem C09_history (P : Par α) (ans : List (Option Nat)) (tape : List Bool) (c : Client α) (hL : Legal P (fun _ => Ent.null) c) :
    ∃ g tr s, run P (start ans tape) c = some (g, tr) ∧ SpecRun P (fun _ => Ent.null) c tr s ∧ Observed P g s := by
  obtain ⟨g, tr, s, h1, h2, I⟩ := run_ok (inv_start P ans tape) hL
  exact ⟨g, tr, s, h1, h2, I.observed⟩

/-- A program that has destroyed all its vectors has freed all memory and destroyed all objects. -/
theorem C09_no_leak (P : Par α) {g : Pg α} {s : St α} (h : Observed P g s) (hs : ∀ k, s k = Ent.null) :
    (∀ b, g.mem.caps b = none) ∧ ∀ b i, g.mem.cel b i = none := by
  constructor
  · intro b
    cases hb : g.mem.caps b with
    | none => rfl
    | some n =>
      obtain ⟨h0, k, hk, _⟩ := h.leak b n hb
      rw [hs k] at hk
      exact absurd hk.symm h0
  · intro b i
    cases hb : g.mem.cel b i with
    | none => rfl
    | some x =>
      obtain ⟨k, _, hx⟩ := (h.objects b i x).1 hb
      rw [hs k] at hx
      cases hx

/-- **Exceptions.** What an operation takes from the tapes that decide about failures: if it returns normally nothing it did has failed (no
exception is swallowed); if it ends with an exception of the element type or with `bad_alloc` that is because such a failure happened (none is
invented). -/
theorem C09_exceptions (P : Par α) {g g' : Pg α} {op : Op α} {out : Out α} (h : step P g op = some (g', out)) :
    ∃ p q, g.mem.tape = p ++ g'.mem.tape ∧ g.mem.ans = q ++ g'.mem.ans ∧ ((∀ e, out ≠ .exc e) → true ∉ p ∧ none ∉ q) ∧
      (out = .exc .user → true ∈ p) ∧ (out = .exc .badAlloc → none ∈ q) := by
  obtain ⟨p, q, t⟩ := step_took h
  refine ⟨p, q, t.tape, t.ans, fun h => t.calm ?_, ?_, ?_⟩
  · cases out with
    | exc e => exact absurd rfl (h e)
    | none => rfl
    | num n => rfl
    | val x => rfl
  · rintro rfl
    exact t.user rfl
  · rintro rfl
    exact t.alloc rfl

/-- If nothing fails the only exceptions are `length_error` and, from `at`, `out_of_range`. With `C09_history`: `length_error` comes exactly if there would be
more than `max_size()` elements. -/
theorem C09_only_length_error (P : Par α) : ∀ {c : Client α} {g g' : Pg α} {tr : List (Op α × Out α)}, run P g c = some (g', tr) →
    true ∉ g.mem.tape → none ∉ g.mem.ans → ∀ op e, (op, .exc e) ∈ tr → e ≠ .user ∧ e ≠ .badAlloc
  | .done, g, g', tr, h, _, _ => by
    obtain ⟨rfl, rfl⟩ := Prod.mk.inj (Option.some.inj h)
    intro op e hm
    cases hm
  | .call op k, g, g', tr, h, ht, ha => by
    unfold run at h
    cases hs : step P g op with
    | none => rw [hs] at h; cases h
    | some r =>
      rw [hs] at h
      have h : (run P r.1 (k r.2)).bind (fun q => some (q.1, (op, r.2) :: q.2)) = some (g', tr) := h
      obtain ⟨p, q, h1, h2, _, h4, h5⟩ := C09_exceptions P (g' := r.1) (out := r.2) hs
      rw [h1] at ht
      rw [h2] at ha
      simp only [List.mem_append, not_or] at ht ha
      cases hr : run P r.1 (k r.2) with
      | none => rw [hr] at h; cases h
      | some q' =>
        rw [hr] at h
        obtain ⟨rfl, rfl⟩ := Prod.mk.inj (Option.some.inj h)
        intro op' e hm
        rcases List.mem_cons.1 hm with hm | hm
        · obtain ⟨-, hm⟩ := Prod.mk.inj hm
          refine ⟨?_, ?_⟩
          · rintro rfl
            exact ht.1 (h4 hm.symm)
          · rintro rfl
            exact ha.1 (h5 hm.symm)
        · exact C09_only_length_error P hr ht.2 ha.2 op' e hm

/-- **Growth.** `push_back` when the vector is full: if nothing fails it gets new storage for half as many elements more (up to
`max_size()`), and the argument may be an element of the vector itself. -/
theorem C09_push_back (P : Par α) {s s' : St α} {k : Nat} {a : Arg α} {x : α} (hx : argVal (s k).X a = some x)
    (h : sem P s (.emplaceBack k a) s' .none) :
    (s' k).X = argLeft P (s k).X a x ++ [x] ∧ (s k).X.length + 1 ≤ P.max ∧ (∀ m, m ≠ k → s' m = s m) ∧
      ((s k).X.length < (s k).cap → (s' k).loc = (s k).loc ∧ (s' k).cap = (s k).cap) ∧
      ((s k).cap ≤ (s k).X.length → (s' k).loc ≠ (s k).loc ∧ (s k).X.length + 1 ≤ (s' k).cap ∧ min P.max ((s k).cap + (s k).cap / 2) ≤ (s' k).cap) := by
  obtain ⟨e, he, rfl⟩ := h
  obtain ⟨h1, h2, h3⟩ := he x hx
  rw [updS_self]
  unfold grows at h3
  refine ⟨h1, h2, fun m hm => updS_ne hm, fun hc => ?_, fun hc => ?_⟩
  · rw [if_pos (by omega)] at h3
    exact h3
  · rw [if_neg (by omega)] at h3
    exact ⟨Ne.symm (h3.1.2.1 k), h3.1.2.2, h3.2⟩

/-! ## The hypotheses can be met -/

/-- Element types with everything that may go wrong, and with nothing. -/
def parBad : Par Nat := ⟨false, false, true, fun _ => 0, fun _ => 77, 0, 9⟩
def parGood : Par Nat := ⟨true, true, true, fun _ => 0, fun _ => 77, 0, 9⟩

/-- Three elements; the first is pushed back; two copies of the last are inserted; the vector is destroyed. -/
def demo : Client Nat :=
  .call (.newRange 0 [1, 2, 3]) fun
    | .none => .call (.emplaceBack 0 (.copy 0)) fun
      | .none => .call (.insertN 0 1 2 (.self 2)) fun _ => .call (.destroy 0) fun _ => .done
      | _ => .done
    | _ => .done

theorem demo_legal (P : Par Nat) : Legal P (fun _ => Ent.null) demo := by
  refine ⟨rfl, ?_⟩
  rintro s1 out ⟨e, he, rfl⟩
  cases out with
  | none =>
    obtain ⟨h1, -⟩ := he
    refine ⟨?_, ?_⟩
    · show (argVal (updS _ 0 e 0).X _).isSome
      rw [updS_self, h1]
      rfl
    · rintro s2 out ⟨e2, he2, rfl⟩
      rw [updS_self] at he2
      cases out with
      | none =>
        obtain ⟨h2, -⟩ := he2 1 (by rw [h1]; rfl)
        rw [h1] at h2
        refine ⟨⟨?_, ?_⟩, fun _ _ _ => ⟨trivial, fun _ _ _ => trivial⟩⟩
        · rw [updS_self, h2]
          rfl
        · rw [updS_self, h2]
          exact (by decide : 1 ≤ 4)
      | num n => exact trivial
      | val x => exact trivial
      | exc e => exact trivial
  | num n => exact trivial
  | val x => exact trivial
  | exc e => exact trivial

def outs (r : Option (Pg Nat × List (Op Nat × Out Nat))) : Option (List (Option Exc)) := r.map fun r => r.2.map fun p => outExc p.2

/-- Nothing fails. -/
example : outs (run parBad (start [] []) demo) = some [none, none, none, none] := by decide +kernel

/-- The element type throws in the middle of the first constructor, of the reallocation, of the insertion; the allocator fails. -/
example : outs (run parBad (start [] [false, true]) demo) = some [some .user] := by decide +kernel
example : outs (run parBad (start [] [false, false, false, false, false, true]) demo) = some [none, some .user] := by decide +kernel
example : outs (run parBad (start [] [false, false, false, false, false, false, false, false, false, true]) demo) = some [none, none, some .user, none] := by decide +kernel
example : outs (run parBad (start [some 0, none] []) demo) = some [none, some .badAlloc] := by decide +kernel

/-- `max_size()` is in the way. -/
example : outs (run { parBad with max := 3 } (start [] []) demo) = some [none, some .lengthError] := by decide +kernel

/-- What is in the vector before it is destroyed, and where. -/
def demo2 : Client Nat :=
  .call (.newRange 0 [1, 2, 3]) fun _ => .call (.emplaceBack 0 (.move 0)) fun _ => .call (.insertN 0 1 2 (.self 2)) fun _ => .done

example : ((run parGood (start [] []) demo2).map fun r => (r.1.vs 0, (List.range 8).map (r.1.mem.cel 3))) =
    some (⟨3, 6, 6⟩, [some 0, some 3, some 3, some 2, some 3, some 1, none, none]) := by decide +kernel

/-- `C09_push_back` with a full vector. -/
example : ∃ s', sem parGood (updS (fun _ => Ent.null) 0 ⟨[1, 2], 2, 5⟩) (.emplaceBack 0 (.copy 1)) s' .none :=
  ⟨_, ⟨[1, 2, 2], 3, 6⟩, fun x hx => ⟨by obtain rfl := Option.some.inj hx; rfl, by decide, by
    unfold grows
    rw [updS_self, if_neg (by decide)]
    refine ⟨⟨by decide, fun m => ?_, by decide⟩, by decide⟩
    unfold updS
    split
    · decide
    · exact (by decide : (0 : Nat) ≠ 6)⟩, rfl⟩

end STL.Vec
