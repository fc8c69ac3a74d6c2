import Verif.Variant.Step

/-! # Where exceptions come from. Proofs only. -/

namespace STL.Var
open STL
variable {V β γ : Type} {P : Par V}

/-- What a computation has taken from the tape. -/
def TookR (w : W V) : Res V β → Prop
  | .ok _ w' => ∃ q, w.tape = q ++ w'.tape ∧ ∀ r ∈ q, r = none
  | .exc e w' => ∃ q, w.tape = q ++ w'.tape ∧ (e = .user ↔ ∃ p, some p ∈ q)
  | .ub => True

def Took (m : M V β) : Prop := ∀ w, TookR w (m w)

/-- It does not look at the tape, and does not throw. -/
def Quiet (m : M V β) : Prop := ∀ w, match m w with
  | .ok _ w' => w'.tape = w.tape
  | .exc _ _ => False
  | .ub => True

/-- It does not look at the tape, and throws. -/
def Throws (m : M V β) : Prop := ∀ w, match m w with
  | .ok _ _ => False
  | .exc e w' => e = .user ∧ w'.tape = w.tape
  | .ub => True

theorem Quiet.took {m : M V β} (h : Quiet m) : Took m := by
  intro w
  have := h w
  cases hm : m w with
  | ok b w' => rw [hm] at this; exact ⟨[], by simp [this], by simp⟩
  | exc e w' => rw [hm] at this; exact this.elim
  | ub => trivial

theorem Quiet.pure (b : β) : Quiet (Pure.pure b : M V β) := fun _ => rfl
theorem Quiet.ub : Quiet (Var.ub : M V β) := fun _ => trivial
theorem Quiet.setC (k : Nm) (f : Cell V → Cell V) : Quiet (Var.setC k f) := fun _ => rfl

theorem Quiet.bind {m : M V β} {f : β → M V γ} (h1 : Quiet m) (h2 : ∀ b, Quiet (f b)) : Quiet (m >>= f) := by
  intro w
  have h := h1 w
  show match M.bind m f w with | .ok _ w' => w'.tape = w.tape | .exc _ _ => False | .ub => True
  unfold M.bind
  cases hm : m w with
  | ok b w1 =>
    rw [hm] at h
    have h3 := h2 b w1
    dsimp only
    cases hf : f b w1 with
    | ok c w2 => rw [hf] at h3; exact h3.trans h
    | exc e w2 => rw [hf] at h3; exact h3
    | ub => trivial
  | exc e w1 => rw [hm] at h; exact h
  | ub => trivial

theorem Throws.bind {m : M V β} {f : β → M V γ} (h1 : Quiet m) (h2 : ∀ b, Throws (f b)) : Throws (m >>= f) := by
  intro w
  have h := h1 w
  show match M.bind m f w with | .ok _ _ => False | .exc e w' => e = .user ∧ w'.tape = w.tape | .ub => True
  unfold M.bind
  cases hm : m w with
  | ok b w1 =>
    rw [hm] at h
    have h3 := h2 b w1
    dsimp only
    cases hf : f b w1 with
    | ok c w2 => rw [hf] at h3; exact h3
    | exc e w2 => rw [hf] at h3; exact ⟨h3.1, h3.2.trans h⟩
    | ub => trivial
  | exc e w1 => rw [hm] at h; exact h.elim
  | ub => trivial

theorem Throws.throw : Throws (Var.throw .user : M V β) := fun _ => ⟨rfl, rfl⟩

theorem Quiet.rawGet (k : Nm) (i : Nat) : Quiet (Var.rawGet k i : M V V) := by
  intro w
  unfold Var.rawGet
  cases (w.cell k).obj with
  | none => trivial
  | some p => dsimp only; by_cases h : p.1 = i <;> simp [h]

theorem Quiet.setObj (k : Nm) (i : Nat) (x : V) : Quiet (Var.setObj k i x) := (Quiet.rawGet k i).bind fun _ => Quiet.setC _ _

theorem Quiet.clearObj (k : Nm) : Quiet (Var.clearObj P k) := by
  intro w
  unfold Var.clearObj
  cases (w.cell k).obj with
  | none => rfl
  | some p =>
    dsimp only
    cases h : P.td p.1 with
    | true => rfl
    | false => trivial

theorem Quiet.birth (k : Nm) (i : Nat) (x : V) : Quiet (Var.birth P k i x) := by
  unfold Var.birth
  split
  · exact Quiet.setC _ _
  · exact Quiet.ub

theorem Quiet.read (k : Nm) : Quiet (Var.read k : M V (Cell V)) := by
  intro w
  unfold Var.read
  cases h : (w.cell k).live <;> simp

theorem Quiet.newBase (k : Nm) : Quiet (Var.newBase P k) := by
  intro w
  unfold Var.newBase
  cases h : (w.cell k).live <;> simp [Var.setC]

theorem Took.bind {m : M V β} {f : β → M V γ} (h1 : Took m) (h2 : ∀ b, Took (f b)) : Took (m >>= f) := by
  intro w
  show TookR w (M.bind m f w)
  have h := h1 w
  unfold M.bind
  cases hm : m w with
  | ok b w1 =>
    rw [hm] at h
    obtain ⟨q, h3, h4⟩ := h
    have h5 := h2 b w1
    dsimp only
    cases hf : f b w1 with
    | ok c w2 =>
      rw [hf] at h5
      obtain ⟨q2, h6, h7⟩ := h5
      refine ⟨q ++ q2, by rw [h3, h6, List.append_assoc], fun r hr => ?_⟩
      rcases List.mem_append.1 hr with hr | hr
      · exact h4 r hr
      · exact h7 r hr
    | exc e w2 =>
      rw [hf] at h5
      obtain ⟨q2, h6, h7⟩ := h5
      refine ⟨q ++ q2, by rw [h3, h6, List.append_assoc], ?_⟩
      rw [h7]
      constructor
      · rintro ⟨p, hp⟩
        exact ⟨p, by simp [hp]⟩
      · rintro ⟨p, hp⟩
        rcases List.mem_append.1 hp with hp | hp
        · exact absurd (h4 _ hp) (by simp)
        · exact ⟨p, hp⟩
    | ub => trivial
  | exc e w1 =>
    rw [hm] at h
    exact h
  | ub => trivial

theorem Took.ask {nt : Bool} {f : Option (V × V) → M V β} (h1 : Took (f none)) (h2 : ∀ p, Throws (f (some p))) : Took (Var.ask nt >>= f) := by
  intro w
  show TookR w (M.bind (Var.ask nt) f w)
  unfold M.bind Var.ask
  cases nt with
  | true => exact h1 w
  | false =>
    rw [if_neg (by simp)]
    cases ht : w.tape with
    | nil =>
      dsimp only
      exact h1 w
    | cons r l =>
      dsimp only
      cases r with
      | none =>
        have h := h1 ⟨w.cell, l⟩
        cases hf : f none ⟨w.cell, l⟩ with
        | ok b w1 =>
          rw [hf] at h
          obtain ⟨q, h3, h4⟩ := h
          exact ⟨none :: q, by rw [ht]; exact congrArg _ h3, by simpa using h4⟩
        | exc e w1 =>
          rw [hf] at h
          obtain ⟨q, h3, h4⟩ := h
          exact ⟨none :: q, by rw [ht]; exact congrArg _ h3, by simpa using h4⟩
        | ub => trivial
      | some p =>
        have h := h2 p ⟨w.cell, l⟩
        cases hf : f (some p) ⟨w.cell, l⟩ with
        | ok b w1 => rw [hf] at h; exact h.elim
        | exc e w1 =>
          rw [hf] at h
          exact ⟨[some p], by rw [ht, h.2]; rfl, by rw [h.1]; simp⟩
        | ub => trivial

theorem Took.onExc {m : M V β} {d : M V Unit} (h1 : Took m) (h2 : Quiet d) : Took (Var.onExc m d) := by
  intro w
  have h := h1 w
  unfold Var.onExc
  cases hm : m w with
  | ok b w1 => rw [hm] at h; exact h
  | exc e w1 =>
    rw [hm] at h
    obtain ⟨q, h3, h4⟩ := h
    have h5 := h2 w1
    dsimp only
    cases hf : d w1 with
    | ok c w2 =>
      rw [hf] at h5
      exact ⟨q, by rw [h3, h5], h4⟩
    | exc e w2 => trivial
    | ub => trivial
  | ub => trivial

theorem Took.badAccess : Took (Var.throw .badAccess : M V β) := fun _ => ⟨[], rfl, by simp⟩

theorem Quiet.rawVisit {idx : Nat} {f : Option Nat → M V β} (h : ∀ r, Quiet (f r)) : Quiet (Var.rawVisit P idx f) := by
  unfold Var.rawVisit
  dsimp only
  split
  · exact h _
  · split
    · exact h _
    · exact Quiet.ub

theorem Took.rawVisit {idx : Nat} {f : Option Nat → M V β} (h : ∀ r, Took (f r)) : Took (Var.rawVisit P idx f) := by
  unfold Var.rawVisit
  dsimp only
  split
  · exact h _
  · split
    · exact h _
    · exact Quiet.ub.took

macro "quiet" : tactic => `(tactic|
  repeat' first
  | exact Quiet.pure _ | exact Quiet.ub | exact Quiet.setC _ _ | exact Quiet.rawGet _ _ | exact Quiet.setObj _ _ _ | exact Quiet.clearObj _
  | exact Quiet.birth _ _ _ | exact Quiet.read _ | exact Quiet.newBase _
  | refine Quiet.bind ?_ fun _ => ?_ | refine Quiet.rawVisit fun _ => ?_ | split
  | unfold Var.dtor | unfold Var.index | unfold Var.valueless | unfold Var.setIndex | unfold Var.checkValueless | unfold Var.destroyAt | unfold Var.destroy
  | unfold Var.reset | unfold Var.resetAt | unfold Var.endStorage | unfold Var.destruct | unfold Var.bytes | unfold Var.holds | unfold Var.getIf
  | unfold Var.relVisit | unfold Var.hashOf)

theorem Quiet.dtor (k : Nm) (i : Nat) : Quiet (Var.dtor P k i) := by quiet
theorem Quiet.index (k : Nm) : Quiet (Var.index k : M V Nat) := by quiet
theorem Quiet.valueless (k : Nm) : Quiet (Var.valueless k : M V Bool) := by quiet
theorem Quiet.setIndex (k : Nm) (i : Nat) : Quiet (Var.setIndex P k i) := by quiet
theorem Quiet.checkValueless (k : Nm) : Quiet (Var.checkValueless k : M V Unit) := by quiet
theorem Quiet.reset (k : Nm) : Quiet (Var.reset P k) := by quiet
theorem Quiet.resetAt (k : Nm) (i : Nat) : Quiet (Var.resetAt P k i) := by quiet
theorem Quiet.endStorage (k : Nm) : Quiet (Var.endStorage P k) := by quiet
theorem Quiet.destruct (k : Nm) : Quiet (Var.destruct P k) := by quiet
theorem Quiet.bytes (k l : Nm) : Quiet (Var.bytes P k l) := by quiet
theorem Quiet.holds (k : Nm) (i : Nat) : Quiet (Var.holds k i : M V Bool) := by quiet
theorem Quiet.getIf (k : Nm) (i : Nat) : Quiet (Var.getIf k i : M V (Option V)) := by quiet
theorem Quiet.relVisit (r : Rel) (k l : Nm) (o : Option Nat) : Quiet (Var.relVisit P r k l o) := by
  cases o <;> quiet
theorem Quiet.cmpEq (r : Rel) (k l : Nm) : Quiet (Var.cmpEq P r k l) := by
  unfold Var.cmpEq
  refine (Quiet.index _).bind fun _ => (Quiet.index _).bind fun _ => ?_
  split
  · exact Quiet.rawVisit fun _ => Quiet.relVisit _ _ _ _
  · exact Quiet.pure _
theorem Quiet.cmpLt (r : Rel) (b : Bool) (k l : Nm) : Quiet (Var.cmpLt P r b k l) := by
  unfold Var.cmpLt
  refine (Quiet.index _).bind fun _ => (Quiet.index _).bind fun _ => ?_
  dsimp only
  generalize (_ + (2 ^ 64 - 1)) % 2 ^ 64 = z
  repeat' first | with_reducible exact Quiet.pure _ | with_reducible exact Quiet.rawVisit fun _ => Quiet.relVisit _ _ _ _ | split
theorem Quiet.compare (r : Rel) (k l : Nm) : Quiet (Var.compare P r k l) := by
  cases r
  · exact Quiet.cmpEq _ _ _
  · exact Quiet.cmpEq _ _ _
  all_goals exact Quiet.cmpLt _ _ _ _
theorem Quiet.hashOf (k : Nm) : Quiet (Var.hashOf P k) := by quiet

macro "took" : tactic => `(tactic|
  repeat' first
  | with_reducible exact (Quiet.pure _).took | with_reducible exact Quiet.ub.took | with_reducible exact (Quiet.setC _ _).took | with_reducible exact (Quiet.rawGet _ _).took | with_reducible exact (Quiet.setObj _ _ _).took
  | with_reducible exact (Quiet.clearObj _).took | with_reducible exact (Quiet.birth _ _ _).took | with_reducible exact (Quiet.read _).took | with_reducible exact (Quiet.newBase _).took | with_reducible exact (Quiet.dtor _ _).took
  | with_reducible exact (Quiet.index _).took | with_reducible exact (Quiet.setIndex _ _).took | with_reducible exact (Quiet.checkValueless _).took | with_reducible exact (Quiet.reset _).took
  | with_reducible exact (Quiet.resetAt _ _).took | with_reducible exact (Quiet.endStorage _).took | with_reducible exact (Quiet.destruct _).took | with_reducible exact (Quiet.bytes _ _).took
  | with_reducible exact Took.badAccess | with_reducible exact Throws.throw
  | with_reducible exact Quiet.dtor _ _ | with_reducible exact Quiet.destruct _ | with_reducible exact Quiet.endStorage _ | with_reducible exact Quiet.setObj _ _ _
  | with_reducible refine Throws.bind ?_ fun _ => ?_
  | with_reducible refine Took.ask ?_ fun _ => ?_ | with_reducible refine Took.bind ?_ fun _ => ?_ | with_reducible refine Took.onExc ?_ ?_ | with_reducible refine Took.rawVisit fun _ => ?_ | split
  | unfold Var.ctorArg | unfold Var.ctorCopy | unfold Var.ctorMove | unfold Var.asgCopy | unfold Var.asgMove | unfold Var.asgArg | unfold Var.objSwap
  | unfold Var.constructCopy | unfold Var.constructMove | unfold Var.viaTemp | unfold Var.assignCopy | unfold Var.assignMove | unfold Var.copyCtor
  | unfold Var.moveCtor | unfold Var.copyAssign | unfold Var.moveAssign | unfold Var.ctorIn | unfold Var.emplaceArg | unfold Var.emplaceMove | unfold Var.emplace
  | unfold Var.assignArg | unfold Var.emplaceFrom | unfold Var.swapDiff | unfold Var.swapSmall | unfold Var.swapBig | unfold Var.swap
  | unfold Var.get | unfold Var.store | dsimp only)

theorem Took.asgMove (k l : Nm) (i : Nat) : Took (Var.asgMove P k l i) := by
  unfold Var.asgMove
  refine Took.bind (Quiet.rawGet _ _).took fun x => Took.ask ?_ fun p => ?_
  · dsimp only
    split
    · exact (Quiet.setObj _ _ _).took
    · exact Took.bind (Quiet.setObj _ _ _).took fun _ => (Quiet.setObj _ _ _).took
  · exact Throws.bind (Quiet.setObj _ _ _) fun _ => Throws.bind (Quiet.setObj _ _ _) fun _ => Throws.throw

theorem Took.moveAssign (k l : Nm) : Took (Var.moveAssign P k l) := by
  unfold Var.moveAssign
  split
  · exact (Quiet.bytes _ _).took
  · refine Took.bind (Quiet.index _).took fun _ => Took.rawVisit fun r => ?_
    unfold Var.assignMove
    split
    · exact (Quiet.reset _).took
    · refine Took.bind (Quiet.read _).took fun _ => ?_
      split
      · exact Took.asgMove _ _ _
      · took

theorem Took.indices (ks : List Nm) : Took (Var.indices ks : M V (List Nat)) := by
  induction ks with
  | nil => exact (Quiet.pure _).took
  | cons k ks ih =>
    unfold Var.indices
    exact Took.bind (Quiet.index _).took fun _ => Took.bind ih fun _ => (Quiet.pure _).took

theorem Took.rawGets (ks : List Nm) (is : List Nat) : Took (Var.rawGets ks is : M V (List (Nat × V))) := by
  induction ks generalizing is with
  | nil => exact (Quiet.pure _).took
  | cons k ks ih =>
    cases is with
    | nil => exact (Quiet.pure _).took
    | cons i is =>
      unfold Var.rawGets
      exact Took.bind (Quiet.rawGet _ _).took fun _ => Took.bind (ih is) fun _ => (Quiet.pure _).took

theorem Took.visit (ks : List Nm) : Took (Var.visit P ks) := by
  unfold Var.visit
  split
  · exact (Quiet.pure _).took
  · refine Took.bind (Took.indices ks) fun _ => ?_
    split
    · unfold dispatch
      split
      · exact Took.badAccess
      · exact Took.rawGets _ _
    · exact Quiet.ub.took

theorem Took.step {m : M V β} (h : Took m) {f : β → Out V} (hf : ∀ b, f b ≠ .exc .user) {w w' : W V} {out : Out V} (hs : outcome f (m w) = some (w', out)) :
    ∃ q, w.tape = q ++ w'.tape ∧ (out.threw ↔ ∃ p, some p ∈ q) := by
  have h := h w
  unfold outcome at hs
  cases hm : m w with
  | ok b w1 =>
    rw [hm] at h hs
    cases hs
    obtain ⟨q, h1, h2⟩ := h
    refine ⟨q, h1, fun h => absurd h (hf b), ?_⟩
    rintro ⟨p, hp⟩
    exact absurd (h2 _ hp) (by simp)
  | exc e w1 =>
    rw [hm] at h hs
    cases hs
    obtain ⟨q, h1, h2⟩ := h
    refine ⟨q, h1, ?_⟩
    rw [← h2]
    unfold Out.threw
    simp
  | ub =>
    rw [hm] at hs
    cases hs

theorem step_took {w w' : W V} {op : Op V} {out : Out V} (h : step P w op = some (w', out)) :
    ∃ q, w.tape = q ++ w'.tape ∧ (out.threw ↔ ∃ p, some p ∈ q) := by
  unfold step at h
  cases op with
  | newIn k i x nt => exact Took.step (by took) (by simp) h
  | newCopy k l => exact Took.step (by took) (by simp) h
  | newMove k l => exact Took.step (by took) (by simp) h
  | destroy k => exact Took.step (by took) (by simp) h
  | emplace k i x nt => exact Took.step (by took) (by simp) h
  | assignArg k i x ntc nta => exact Took.step (by took) (by simp) h
  | copyAssign k l => exact Took.step (by took) (by simp) h
  | moveAssign k l => exact Took.step (Took.moveAssign _ _) (by simp) h
  | swap k l => exact Took.step (by took) (by simp) h
  | index k => exact Took.step (by took) (by simp) h
  | valueless k => exact Took.step (Quiet.valueless _).took (by simp) h
  | holds k i => exact Took.step (Quiet.holds _ _).took (by simp) h
  | get k i => exact Took.step (by took) (by simp) h
  | getIf k i => exact Took.step (Quiet.getIf _ _).took (by simp) h
  | store k i x => exact Took.step (by took) (by simp) h
  | compare r k l => exact Took.step (Quiet.compare _ _ _).took (by simp) h
  | hash k => exact Took.step (Quiet.hashOf _).took (by simp) h
  | visit ks => exact Took.step (Took.visit _) (by simp) h

end STL.Var
