import Verif.Str.Effect

/-!
# Theorems about `basic_string` (C33)

The specification is in `Verif/Str/Spec.lean`: lists of characters, capacities, allocations. The program is the code of `<xstring>` on
explicit memory.
-/

namespace STL.Str
open STL
variable {α : Type}

/-- What `data()[0]` ... `data()[size()]` are; `none` is a character that was never written. -/
def chars (P : Par α) (k : Nat) : M α (List (Option α)) := do
  let s ← get k
  let p ← myptr P k
  let f ← rdBlk (.at p 0) (s.size + 1)
  pure ((List.range (s.size + 1)).map f)

/-- What can be seen of the strings and the memory of a program, compared with a state of the specification. -/
structure Observed (P : Par α) (w : W α) (s : St α) : Prop where
  /-- `size()`, `capacity()` -/
  size : ∀ k, (w.ss k).size = (s k).X.length
  capacity : ∀ k, (w.ss k).res = (s k).cap
  bounds : ∀ k, (s k).X.length ≤ (s k).cap ∧ P.small ≤ (s k).cap ∧ (s k).cap ≤ P.max
  /-- the characters, followed by the null character -/
  contents : ∀ k, chars P k w = .ok (((s k).X ++ [P.nul]).map some) w
  /-- the small buffer is used exactly if the capacity is that of the small buffer; the member of the union that is active agrees -/
  mode : ∀ k, ((w.ss k).ptr = none ↔ (s k).cap = P.small) ∧ (w.ss k).ptr = (s k).loc
  /-- the storage of a large string is a live allocation of just its capacity and one character more -/
  storage : ∀ k b, (s k).loc = some b → w.ext (.heap b) = some ((s k).cap + 1)
  /-- a small string has its buffer -/
  buffer : ∀ k, (s k).loc = none → w.ext (.small k) = some (P.small + 1)
  /-- two strings never share storage -/
  apart : ∀ k l b, (s k).loc = some b → (s l).loc = some b → k = l
  /-- nothing leaks: every live allocation belongs to a string -/
  leak : ∀ b, w.ext (.heap b) ≠ none → ∃ k, (s k).loc = some b

theorem Inv.observed {P : Par α} {w : W α} {s : St α} (I : Inv P w s) : Observed P w s := by
  refine ⟨fun k => (I.own k).size, fun k => (I.own k).res, fun k => ⟨(I.own k).le, (I.own k).small, (I.own k).mx⟩, ?_, ?_, ?_, ?_, I.inj, I.leak⟩
  · intro k
    have O := I.own k
    have O1 := O.le
    have h : Sat (chars P k) w (fun xs w' => xs = ((s k).X ++ [P.nul]).map some ∧ w' = w) fun _ _ => False := by
      unfold chars
      refine Sat.get (Sat.bind (Sat.myptr I.mode' ?_))
      rw [I.at_eq, O.size]
      refine Sat.bind (Sat.rdBlk (I.rd (by omega)) fun f hf => Sat.pure' ⟨?_, rfl⟩)
      apply List.ext_getElem
      · simp
      · intro i h1 h2
        simp only [List.length_map, List.length_range] at h1
        simp only [List.getElem_map, List.getElem_range]
        rw [hf i h1]
        simp only [val, Nat.zero_add]
        rw [I.chr (by omega), List.getElem?_eq_getElem]
    unfold Sat at h
    cases hm : chars P k w with
    | ok x w' => rw [hm] at h; rw [h.1, h.2]
    | exc e w' => rw [hm] at h; exact absurd h id
    | ub => rw [hm] at h; exact absurd h id
  · intro k
    have O := I.own k
    have O1 := O.small
    rw [O.ptr, O.mode]
    exact ⟨by omega, rfl⟩
  · intro k b h
    have := (I.own k).ext
    unfold Ent.at atp at this
    rw [h] at this
    exact this
  · intro k h
    have O := I.own k
    have := O.ext
    unfold Ent.at atp at this
    have h1 := O.mode.1 h
    have h2 := O.small
    rw [h, show (s k).cap = P.small by omega] at this
    exact this

/-- **Every history.** Whatever a client does with its strings, however it chooses its next call, whichever allocations fail: if it keeps the
preconditions nothing is undefined, it sees what the specification allows, and at the end (of any history, so at any time) all the strings are
as the specification says: the characters followed by a null character, `size() ≤ capacity() ≤ max_size()`, small or allocated as the capacity
says, and no memory is lost. -/
theorem C33_history (P : Par α) (ans : List (Option Nat)) (c : Client α) (hL : Legal P (fun _ => Ent.empty P) c) :
    ∃ w tr s, run P (start P ans) c = some (w, tr) ∧ SpecRun P (fun _ => Ent.empty P) c tr s ∧ Observed P w s := by
  obtain ⟨w, tr, s, h1, h2, I⟩ := run_ok c (start_inv (P := P) (ans := ans)) hL
  exact ⟨w, tr, s, h1, h2, I.observed⟩

/-- A program that has destroyed all its strings has freed all memory. -/
theorem C33_no_leak (P : Par α) {w : W α} {s : St α} (h : Observed P w s) (hs : ∀ k, s k = Ent.empty P) (b : Nat) : w.ext (.heap b) = none := by
  cases hb : w.ext (.heap b) with
  | none => rfl
  | some n =>
    obtain ⟨k, hk⟩ := h.leak b (by rw [hb]; simp)
    rw [hs k] at hk
    cases hk

/-- **`bad_alloc`.** An operation ends with `bad_alloc` exactly if one of the allocations it asked for failed. -/
theorem C33_bad_alloc (P : Par α) {w w' : W α} {op : Op α} {out : Out α} (h : step P w op = some (w', out)) :
    ∃ q, w.ans = q ++ w'.ans ∧ (out = .exc .badAlloc ↔ none ∈ q) := step_took h

/-- **`length_error`.** The operations that change one string to a sequence `Y` raise `length_error` exactly if `Y` is longer than `max_size()`; if they raise
anything nothing is changed; if not, the string is `Y`, no other string is changed, and there is a reallocation exactly if `Y` does not
fit into the capacity. -/
theorem C33_edit (P : Par α) {s s' : St α} {k : Nat} {Y : List α} {out : Out α} (h : edit P s s' k Y out) (hc : (s k).cap ≤ P.max) :
    (out = .exc .lengthError ↔ P.max < Y.length) ∧ (out ≠ .none → s' = s) ∧ (out = .none → (s' k).X = Y ∧ ∀ m, m ≠ k → s' m = s m) ∧
      (out = .none → ((s' k).loc = (s k).loc ↔ Y.length ≤ (s k).cap) ∧ (Y.length ≤ (s k).cap → (s' k).cap = (s k).cap)) ∧
      (Y.length ≤ (s k).cap → out = .none) := by
  unfold edit edit' at h
  split at h
  · next h1 =>
    obtain ⟨rfl, rfl⟩ := h
    refine ⟨by simp [h1], fun _ => rfl, fun h => by simp at h, fun h => by simp at h, fun h => by omega⟩
  · next h1 =>
    rcases h with ⟨rfl, e', h2, h3, rfl⟩ | ⟨rfl, h2, rfl⟩
    · unfold room at h3
      refine ⟨by simp; omega, fun h => absurd rfl h, fun _ => ⟨by rw [updS_same]; exact h2, fun m hm => updS_ne hm⟩, fun _ => ?_, fun _ => rfl⟩
      rw [updS_same]
      by_cases h4 : Y.length ≤ (s k).cap
      · rw [if_pos h4] at h3
        exact ⟨⟨fun _ => h4, fun _ => h3.2⟩, fun _ => h3.1⟩
      · rw [if_neg h4] at h3
        obtain ⟨b, h5, h6⟩ := h3.1
        refine ⟨⟨fun h => absurd (h.symm.trans h5) (h6 k), fun h => absurd h h4⟩, fun h => absurd h h4⟩
    · exact ⟨by simp; omega, fun _ => rfl, fun h => by simp at h, fun h => by simp at h, fun h => by omega⟩

/-! ## Two defects -/

theorem ub_bind {β γ : Type} {m : M α β} {f : β → M α γ} {w : W α} {Q : β → W α → Prop} (h : Sat m w Q fun _ _ => False)
    (hf : ∀ b w', Q b w' → f b w' = .ub) : (m >>= f) w = .ub := by
  show M.bind m f w = .ub
  unfold M.bind
  unfold Sat at h
  cases hm : m w with
  | ok b w' =>
    rw [hm] at h
    exact hf b w' h
  | exc e w' =>
    rw [hm] at h
    exact absurd h id
  | ub => rfl

theorem Observed.mode' {P : Par α} {w : W α} {s : St α} (I : Observed P w s) {k : Nat} : (w.ss k).ptr = none ↔ (w.ss k).res ≤ P.small := by
  have := (I.mode k).1
  have h2 := (I.bounds k).2.1
  rw [I.capacity]
  rw [this]
  omega

theorem Observed.at_eq {P : Par α} {w : W α} {s : St α} (I : Observed P w s) {k : Nat} : atp (w.ss k).ptr k = (s k).at k := by
  rw [(I.mode k).2]
  rfl

theorem Observed.ext {P : Par α} {w : W α} {s : St α} (I : Observed P w s) {k : Nat} : w.ext ((s k).at k) = some ((s k).cap + 1) := by
  unfold Ent.at atp
  cases h : (s k).loc with
  | none =>
    have h1 := (I.mode k).1
    rw [(I.mode k).2, h] at h1
    rw [I.buffer k h, h1.1 rfl]
  | some b => exact I.storage k b h

theorem Observed.own {P : Par α} {w : W α} {s : St α} (I : Observed P w s) {k : Nat} : w.ss k = ⟨(s k).loc, (s k).X.length, (s k).cap⟩ := by
  rw [← I.size, ← I.capacity, ← (I.mode k).2]

/-- **A defect** in `_Replace` (xstring:3191-3215): when the replaced part grows in place and the new characters are from the string itself, begin before the
replaced part and end inside of it, `_Count - _Ptr_shifted_after` wraps around. The precondition of the standard, that `[ptr, ptr + n)` is a
range, holds. -/
theorem C33_replace_defect (P : Par α) {w : W α} {s : St α} (I : Observed P w s) {lo : Bool} {k off nx i n : Nat} (h : straddles (s k) k off nx k i n) :
    srcOk s (.str k i n) ∧ step P w (.replace lo k off nx (.str k i n)) = none := by
  obtain ⟨-, h1, h2, h3, h4, h5, h6⟩ := h
  have O1 := (I.bounds k).1
  refine ⟨?_, ?_⟩
  · show i + n ≤ (s k).X.length + 1
    omega
  have : (resolve P (.str k i n) >>= fun r => replace P lo k off nx r.1 r.2) w = .ub := by
    refine ub_bind (Q := fun r w' => r = (.at ((s k).at k) i, n) ∧ w' = w) ?_ ?_
    · unfold resolve
      refine Sat.bind (Sat.myptr I.mode' (Sat.pure' ?_))
      rw [I.at_eq]
      exact ⟨rfl, rfl⟩
    · rintro _ w' ⟨rfl, rfl⟩
      unfold replace
      refine ub_bind (Q := fun r w1 => r = ⟨(s k).loc, (s k).X.length, (s k).cap⟩ ∧ w1 = w') ?_ ?_
      · exact (⟨I.own, rfl⟩ : _ ∧ w' = w')
      · rintro _ w1 ⟨rfl, rfl⟩
        dsimp only
        unfold clamp
        dsimp only
        rw [if_neg (by omega), if_neg (by omega), if_neg (by omega), if_pos (by omega)]
        refine ub_bind (Q := fun _ w2 => w2 = atSize w1 k ((s k).X.length + (n - min nx ((s k).X.length - off)))) (Sat.setSize rfl) ?_
        rintro _ w2 rfl
        refine ub_bind (Q := fun p w2 => p = (s k).at k ∧ w2.ext = w1.ext) (Sat.myptr (by simpa [atSize] using I.mode') ⟨?_, rfl⟩) ?_
        · simpa [atSize] using I.at_eq
        rintro _ w2 ⟨rfl, he⟩
        have hext : w2.ext ((s k).at k) = some ((s k).cap + 1) := by rw [he]; exact I.ext
        have hsh : shiftedAfter (α := α) lo (.at ((s k).at k) i) n ((s k).at k) off (off + min nx ((s k).X.length - off)) (s k).X.length = off + min nx ((s k).X.length - off) - i := by
          unfold shiftedAfter endsBefore startsAfter startsFrom distTo
          have a1 : ¬i + n ≤ off := by omega
          have a2 : ¬i > (s k).X.length := by omega
          have a3 : ¬off + min nx ((s k).X.length - off) ≤ i := by omega
          simp [a1, a2, a3]
        rw [hsh]
        refine ub_bind (Q := fun _ w3 => w3.ext = w2.ext) (Sat.move (Or.inr ⟨_, hext, by omega⟩) (Or.inr ⟨_, hext, by omega⟩) rfl) ?_
        intro _ w3 he3
        have hext3 : w3.ext ((s k).at k) = some ((s k).cap + 1) := by rw [he3]; exact hext
        by_cases hh : i + (off + min nx ((s k).X.length - off) - i) ≤ (s k).cap + 1 ∧ off + (off + min nx ((s k).X.length - off) - i) ≤ (s k).cap + 1
        · refine ub_bind (Q := fun _ _ => True) (Sat.move (Or.inr ⟨_, hext3, hh.1⟩) (Or.inr ⟨_, hext3, hh.2⟩) trivial) ?_
          intro _ w4 _
          unfold copyRest
          rw [if_pos (by omega)]
          rfl
        · have : move ((s k).at k) off (.at ((s k).at k) i) (off + min nx ((s k).X.length - off) - i) w3 = .ub := by
            unfold move
            refine ub_bind (Q := fun _ w4 => w4 = w3) (Sat.rdBlk (Or.inr ⟨_, hext3, by omega⟩) fun _ _ => rfl) ?_
            rintro f w4 rfl
            unfold wrBlk
            rw [if_neg (by omega), hext3]
            dsimp only
            rw [if_neg (by omega)]
          show M.bind _ _ w3 = .ub
          unfold M.bind
          rw [this]
  show outcome _ ((resolve P (.str k i n) >>= fun r => replace P lo k off nx r.1 r.2) w) = none
  rw [this]
  rfl

/-- **A defect** in `operator=(ch)` (xstring:1502-1509): it writes two characters without a look at the capacity, which may be zero for characters of
nine bytes and more. -/
theorem C33_assign_char_defect (P : Par α) {w : W α} {s : St α} (I : Observed P w s) {k : Nat} {ch : α} (h : (s k).cap = 0) :
    step P w (.assignChar k ch) = none := by
  have : assignChar P k ch w = .ub := by
    unfold assignChar
    refine ub_bind (Q := fun _ w2 => w2 = atSize w k 1) (Sat.setSize rfl) ?_
    rintro _ w2 rfl
    refine ub_bind (Q := fun p w2 => p = (s k).at k ∧ w2.ext = w.ext) (Sat.myptr (by simpa [atSize] using I.mode') ⟨?_, rfl⟩) ?_
    · simpa [atSize] using I.at_eq
    rintro _ w2 ⟨rfl, he⟩
    have hext : w2.ext ((s k).at k) = some ((s k).cap + 1) := by rw [he]; exact I.ext
    rw [h] at hext
    refine ub_bind (Q := fun _ w3 => w3.ext = w2.ext) (Sat.set1 (Or.inr ⟨_, hext, by omega⟩) rfl) ?_
    intro _ w3 he3
    unfold set1 fill wrBlk
    rw [if_neg (by omega), he3, hext]
    rfl
  show outcome _ (assignChar P k ch w) = none
  rw [this]
  rfl

/-! ## The hypotheses can be met -/

/-- `char`, with a `max_size()` that can be reached. -/
def parChar (memcpy : Bool) : Par Nat := ⟨15, 15, 60, 0, memcpy, by decide⟩
def par17 : Par Nat := ⟨15, 15, 17, 0, true, by decide⟩
/-- A character of sixteen bytes. -/
def parWide : Par Nat := ⟨0, 0, 60, 0, false, by decide⟩

/-- Appends to a string parts of itself, until it is large, and takes parts away. -/
def demo : Client Nat :=
  .call (.newPtr 0 (.arr [1, 2, 3, 4, 5, 6, 7, 8])) fun
    | .none => .call (.append 0 (.str 0 2 4)) fun
      | .none => .call (.insert false 0 3 (.str 0 1 6)) fun
        | .none => .call (.replace false 0 0 17 (.arr [9])) fun _ => .call (.shrink 0) fun _ => .call (.destroy 0) fun _ => .done
        | _ => .done
      | _ => .done
    | _ => .done

theorem edit_X {P : Par α} {s s' : St α} {k : Nat} {Y : List α} (h : edit P s s' k Y .none) : (s' k).X = Y := by
  unfold edit edit' at h
  split at h
  · cases h.1
  · rcases h with ⟨-, e', h2, -, rfl⟩ | ⟨h, -⟩
    · rw [updS_same]
      exact h2
    · cases h

theorem demo_legal (P : Par Nat) : Legal P (fun _ => Ent.empty P) demo := by
  refine ⟨⟨rfl, trivial, trivial⟩, ?_⟩
  intro s1 out h1
  cases out with
  | none =>
    have x1 : (s1 0).X = [1, 2, 3, 4, 5, 6, 7, 8] := edit_X h1
    refine ⟨?_, ?_⟩
    · show 2 + 4 ≤ (s1 0).X.length + 1
      rw [x1]
      decide
    · intro s2 out h2
      cases out with
      | none =>
        have x2 : (s2 0).X = [1, 2, 3, 4, 5, 6, 7, 8, 3, 4, 5, 6] := by
          rw [edit_X h2]
          simp only [srcVal]
          rw [x1]
          rfl
        refine ⟨?_, ?_⟩
        · show 1 + 6 ≤ (s2 0).X.length + 1
          rw [x2]
          decide
        · intro s3 out h3
          cases out with
          | none =>
            refine ⟨⟨trivial, fun l i n h => by cases h⟩, ?_⟩
            intro s4 out h4
            exact ⟨trivial, fun s5 out h5 => ⟨trivial, fun _ _ _ => trivial⟩⟩
          | num n => exact trivial
          | val x => exact trivial
          | exc e => exact trivial
      | num n => exact trivial
      | val x => exact trivial
      | exc e => exact trivial
  | num n => exact trivial
  | val x => exact trivial
  | exc e => exact trivial

def outExc : Out Nat → Option Exc
  | .exc e => some e
  | _ => none

def outs (r : Option (W Nat × List (Op Nat × Out Nat))) : Option (List (Option Exc)) := r.map fun r => r.2.map fun p => outExc p.2

/-- Nothing fails; the allocator fails; `max_size()` is in the way. -/
example : outs (run (parChar true) (start (parChar true) []) demo) = some [none, none, none, none, none, none] := by decide +kernel
example : outs (run (parChar false) (start (parChar false) [none]) demo) = some [none, none, some .badAlloc] := by decide +kernel
example : outs (run par17 (start par17 []) demo) = some [none, none, some .lengthError] := by decide +kernel

/-- What is in the string after the insertion, and after it is small again. -/
def demo2 (more : List (Op Nat)) : Client Nat :=
  .call (.newPtr 0 (.arr [1, 2, 3, 4, 5, 6, 7, 8])) fun _ => .call (.append 0 (.str 0 2 4)) fun _ => .call (.insert false 0 3 (.str 0 1 6)) fun _ =>
    more.foldr (fun op c => .call op fun _ => c) .done

def shown (P : Par Nat) (r : Option (W Nat × List (Op Nat × Out Nat))) : Option (S × List (Option Nat)) := r.bind fun r =>
  match chars P 0 r.1 with
  | .ok xs w => some (w.ss 0, xs)
  | _ => none

example : shown (parChar true) (run (parChar true) (start (parChar true) []) (demo2 [])) =
    some (⟨some 0, 18, 31⟩, [1, 2, 3, 2, 3, 4, 5, 6, 7, 4, 5, 6, 7, 8, 3, 4, 5, 6, 0].map some) := by decide +kernel
example : shown (parChar true) (run (parChar true) (start (parChar true) []) (demo2 [.replace false 0 0 17 (.arr [9]), .shrink 0])) =
    some (⟨none, 2, 15⟩, [9, 6, 0].map some) := by decide +kernel

/-- The defect of `replace`, in the string `"12345678"` of capacity 15: `s.replace(4, 3, s.data() + 1, 4)`. -/
example : straddles (⟨[1, 2, 3, 4, 5, 6, 7, 8], 15, none⟩ : Ent Nat) 0 4 3 0 1 4 := by
  unfold straddles
  decide
example : outs (run (parChar true) (start (parChar true) [])
    (.call (.newPtr 0 (.arr [1, 2, 3, 4, 5, 6, 7, 8])) fun _ => .call (.replace false 0 4 3 (.str 0 1 4)) fun _ => .done)) = none := by decide +kernel

/-- The defect of `operator=(ch)`. -/
example : outs (run parWide (start parWide []) (.call (.assignChar 0 7) fun _ => .done)) = none := by decide +kernel

end STL.Str
