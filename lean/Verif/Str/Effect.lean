import Verif.Str.Step

/-! # Where `bad_alloc` comes from. Proofs only. -/

namespace STL.Str
open STL
variable {α β γ : Type} {P : Par α}

/-- What a computation has taken from the answers of the allocator. -/
def TookR (w : W α) : Res α β → Prop
  | .ok _ w' => ∃ q, w.ans = q ++ w'.ans ∧ none ∉ q
  | .exc e w' => ∃ q, w.ans = q ++ w'.ans ∧ (e = .badAlloc ↔ none ∈ q)
  | .ub => True

def Took (m : M α β) : Prop := ∀ w, TookR w (m w)

theorem Took.pure (b : β) : Took (Pure.pure b : M α β) := fun _ => ⟨[], rfl, by simp⟩
theorem Took.ub : Took (Str.ub : M α β) := fun _ => trivial
theorem Took.get (k : Nat) : Took (Str.get k : M α S) := fun _ => ⟨[], rfl, by simp⟩
theorem Took.setSize (k n : Nat) : Took (Str.setSize k n : M α Unit) := fun _ => ⟨[], rfl, by simp⟩
theorem Took.setRes (k n : Nat) : Took (Str.setRes k n : M α Unit) := fun _ => ⟨[], rfl, by simp⟩
theorem Took.setPtr (k n : Nat) : Took (Str.setPtr k n : M α Unit) := fun _ => ⟨[], rfl, by simp⟩
theorem Took.switchToBuf (k : Nat) : Took (Str.switchToBuf P k : M α Unit) := fun _ => ⟨[], rfl, by simp⟩
theorem Took.takeBytes (k l : Nat) : Took (Str.takeBytes k l : M α Unit) := fun _ => ⟨[], rfl, by simp⟩
theorem Took.swapBytes (k l : Nat) : Took (Str.swapBytes k l : M α Unit) := fun _ => ⟨[], rfl, by simp⟩
theorem Took.throw {e : Exc} (h : e ≠ .badAlloc) : Took (Str.throw e : M α β) := fun _ => ⟨[], rfl, by simp [h]⟩

theorem Took.bind {m : M α β} {f : β → M α γ} (h1 : Took m) (h2 : ∀ b, Took (f b)) : Took (m >>= f) := by
  intro w
  show TookR w (M.bind m f w)
  have h := h1 w
  unfold M.bind
  cases hm : m w with
  | ok b w1 =>
    rw [hm] at h
    obtain ⟨q, h3, h4⟩ := h
    have h5 := h2 b w1
    dsimp only
    cases hf : f b w1 with
    | ok c w2 =>
      rw [hf] at h5
      obtain ⟨q2, h6, h7⟩ := h5
      exact ⟨q ++ q2, by rw [h3, h6, List.append_assoc], by simp [h4, h7]⟩
    | exc e w2 =>
      rw [hf] at h5
      obtain ⟨q2, h6, h7⟩ := h5
      exact ⟨q ++ q2, by rw [h3, h6, List.append_assoc], by simp [h4, h7]⟩
    | ub => trivial
  | exc e w1 =>
    rw [hm] at h
    exact h
  | ub => trivial

theorem Took.ite {c : Prop} [Decidable c] {a b : M α β} (h1 : Took a) (h2 : Took b) : Took (if c then a else b) := by
  split
  · exact h1
  · exact h2

theorem Took.onExc {m : M α β} {d : M α Unit} (h1 : Took m) (h2 : Took d) : Took (Str.onExc m d) := by
  intro w
  have h := h1 w
  unfold Str.onExc
  cases hm : m w with
  | ok b w1 =>
    rw [hm] at h
    exact h
  | exc e w1 =>
    rw [hm] at h
    obtain ⟨q, h3, h4⟩ := h
    have h5 := h2 w1
    dsimp only
    cases hf : d w1 with
    | ok c w2 =>
      rw [hf] at h5
      obtain ⟨q2, h6, h7⟩ := h5
      exact ⟨q ++ q2, by rw [h3, h6, List.append_assoc], by simp [h4, h7]⟩
    | exc e w2 => trivial
    | ub => trivial
  | ub => trivial

theorem Took.rdBlk (q : Ptr α) (n : Nat) : Took (Str.rdBlk q n) := by
  intro w
  unfold Str.rdBlk
  repeat' split
  all_goals first | trivial | exact ⟨[], rfl, by simp⟩

theorem Took.wrBlk (p : Place) (i n : Nat) (f : Nat → Option α) : Took (Str.wrBlk p i n f) := by
  intro w
  unfold Str.wrBlk
  repeat' split
  all_goals first | trivial | exact ⟨[], rfl, by simp⟩

theorem Took.allocate (b : Bool) (cap : Nat) : Took (Str.allocate P b cap) := by
  intro w
  unfold Str.allocate
  cases h : w.ans with
  | nil => exact ⟨[], by simp [h], by simp⟩
  | cons a as =>
    cases a with
    | none => exact ⟨[none], by simp [h], by simp⟩
    | some e => exact ⟨[some e], by simp [h], by simp⟩

theorem Took.deallocate (b cap : Nat) : Took (Str.deallocate b cap : M α Unit) := by
  intro w
  unfold Str.deallocate
  split
  · exact ⟨[], rfl, by simp⟩
  · trivial

theorem Took.bufAgain (l : Nat) : Took (Str.bufAgain P l) := by
  intro w
  unfold Str.bufAgain
  split
  · exact Took.switchToBuf l w
  · exact ⟨[], rfl, by simp⟩

/-- Goes through a function. -/
macro "took" : tactic => `(tactic| repeat' first
  | with_reducible exact Took.pure _ | with_reducible exact Took.ub | with_reducible exact Took.get _ | with_reducible exact Took.setSize _ _
  | with_reducible exact Took.setRes _ _ | with_reducible exact Took.setPtr _ _ | with_reducible exact Took.switchToBuf _
  | with_reducible exact Took.takeBytes _ _ | with_reducible exact Took.swapBytes _ _ | with_reducible exact Took.throw (by decide)
  | with_reducible exact Took.rdBlk _ _ | with_reducible exact Took.wrBlk _ _ _ _ | with_reducible exact Took.allocate _ _
  | with_reducible exact Took.deallocate _ _ | with_reducible exact Took.bufAgain _
  | with_reducible refine Took.bind ?_ fun _ => ?_ | with_reducible refine Took.ite ?_ ?_ | with_reducible refine Took.onExc ?_ ?_
  | split | assumption)

theorem took_iterLoop (k : Nat) : ∀ xs : List α, Took (iterLoop P k xs)
  | [] => by
    unfold iterLoop myptr set1 fill
    took
  | x :: xs => by
    have := took_iterLoop k xs
    unfold iterLoop iterPush adopt myptr bxPtr set1 fill copy move
    took

/-- Goes through a function and those it calls. -/
macro "took'" : tactic => `(tactic| repeat' first
  | with_reducible exact Took.pure _ | with_reducible exact Took.ub | with_reducible exact Took.get _ | with_reducible exact Took.setSize _ _
  | with_reducible exact Took.setRes _ _ | with_reducible exact Took.setPtr _ _ | with_reducible exact Took.switchToBuf _
  | with_reducible exact Took.takeBytes _ _ | with_reducible exact Took.swapBytes _ _ | with_reducible exact Took.throw (by decide)
  | with_reducible exact Took.rdBlk _ _ | with_reducible exact Took.wrBlk _ _ _ _ | with_reducible exact Took.allocate _ _
  | with_reducible exact Took.deallocate _ _ | with_reducible exact Took.bufAgain _
  | with_reducible refine Took.bind ?_ fun _ => ?_ | with_reducible refine Took.ite ?_ ?_ | with_reducible refine Took.onExc ?_ ?_
  | split | assumption
  | with_reducible exact took_iterLoop _ _
  | unfold ctorN | unfold ctorPtr | unfold ctorCopy | unfold ctorIter | unfold takeContents | unfold ctorSubstr | unfold concat | unfold concatMove | unfold tidy | unfold append | unfold appendN | unfold pushBack | unfold assign | unfold assignN | unfold assignChar | unfold copyAssign | unfold moveAssign | unfold insert | unfold insertN | unfold replace | unfold replaceN | unfold eraseFrom | unfold erase | unfold clear | unfold popBack | unfold resize | unfold resizeOverwrite | unfold reserve | unfold reserve0 | unfold reserve17 | unfold shrink | unfold swap | unfold at_ | unfold index | unfold store | unfold construct | unfold resetBuf | unfold bxPtr | unfold myptr | unfold copy | unfold move | unfold fill | unfold set1 | unfold eos | unfold becomeSmall | unfold reallocGrow | unfold reallocFor | unfold copyRest | unfold swapData | unfold swapBx | unfold swapSizes | unfold swapLargeSmall | unfold takeBx | unfold adopt | unfold shiftDown | unfold resolve | unfold resolveStr | unfold rd1 | unfold overwriteRoom)

theorem step_took {w w' : W α} {op : Op α} {out : Out α} (h : step P w op = some (w', out)) :
    ∃ q, w.ans = q ++ w'.ans ∧ (out = .exc .badAlloc ↔ none ∈ q) := by
  have key : ∀ {β : Type} {m : M α β} {f : β → Out α}, (∀ b, f b ≠ .exc .badAlloc) → Took m → outcome f (m w) = some (w', out) →
      ∃ q, w.ans = q ++ w'.ans ∧ (out = .exc .badAlloc ↔ none ∈ q) := by
    intro β m f hf ht ho
    have := ht w
    cases hm : m w with
    | ok b w1 =>
      rw [hm] at this ho
      obtain ⟨rfl, rfl⟩ := Prod.mk.inj (Option.some.inj ho)
      obtain ⟨q, h1, h2⟩ := this
      exact ⟨q, h1, by simp [hf, h2]⟩
    | exc e w1 =>
      rw [hm] at this ho
      obtain ⟨rfl, rfl⟩ := Prod.mk.inj (Option.some.inj ho)
      obtain ⟨q, h1, h2⟩ := this
      exact ⟨q, h1, by simp [← h2]⟩
    | ub =>
      rw [hm] at ho
      cases ho
  have hu : ∀ b : Unit, (fun (_ : Unit) => Out.none (α := α)) b ≠ .exc .badAlloc := by simp
  have hv : ∀ b : α, Out.val b ≠ .exc .badAlloc := by simp
  cases op <;> simp only [step] at h
  case size =>
    obtain ⟨rfl, rfl⟩ := Prod.mk.inj (Option.some.inj h)
    exact ⟨[], rfl, by simp⟩
  case capacity =>
    obtain ⟨rfl, rfl⟩ := Prod.mk.inj (Option.some.inj h)
    exact ⟨[], rfl, by simp⟩
  case «at» => exact key hv (by took') h
  case index => exact key hv (by took') h
  all_goals exact key hu (by took') h

end STL.Str
