import Verif.Utf.Codecvt

/-! # Generic theory of the conversion loops: one call, and any number of calls on pieces of the input -/

namespace STL.Utf

/-- Any number of conversions of one code each: `E st a xs st'` says that in state `st` the input `a` is converted to the
output `xs`, leaving state `st'`. -/
inductive Star (E : Nat → List Nat → List Nat → Nat → Prop) : Nat → List Nat → List Nat → Nat → Prop
  | nil (st : Nat) : Star E st [] [] st
  | cons {st a xs st1 as ys st2} : E st a xs st1 → Star E st1 as ys st2 → Star E st (a ++ as) (xs ++ ys) st2

theorem Star.append {E st a xs st1 as ys st2} (h : Star E st a xs st1) (h' : Star E st1 as ys st2) :
    Star E st (a ++ as) (xs ++ ys) st2 := by
  induction h with
  | nil => simpa using h'
  | cons he _ ih => rw [List.append_assoc, List.append_assoc]; exact .cons he (ih h')

theorem Star.single {E st a xs st1} (h : E st a xs st1) : Star E st a xs st1 := by
  have := Star.cons h (Star.nil st1)
  simpa using this

/-- What the body of a conversion loop has to satisfy. `I` is an invariant of the state, `V` of the input; `Bad` is the
condition for an error, `Stuck` for giving up for lack of input or room. -/
structure StepOK (cond : List Nat → Nat → Bool) (step : Nat → Nat → List Nat → List Nat → R Step)
    (I : Nat → Prop) (V : List Nat → Prop) (E : Nat → List Nat → List Nat → Nat → Prop)
    (Bad : Nat → List Nat → Prop) (Stuck : Nat → List Nat → Nat → Prop) (moves : Bool) : Prop where
  suffix : ∀ a b, V (a ++ b) → V b
  inv : ∀ st a xs st', I st → E st a xs st' → I st'
  step : ∀ room st first mid, I st → V mid → cond mid room = true → ∃ x, step room st first mid = .ok x ∧
    match x with
    | .emit xs mid' first' st' => ∃ a, mid = a ++ mid' ∧ a ≠ [] ∧ E st a xs st' ∧ xs.length ≤ room ∧
        (first' = first ∨ (moves = true ∧ first' = mid))
    | .err mid' _ => Bad st mid ∧ mid' <:+ mid
    | .brk mid' first' st' => mid' = mid ∧ Stuck st mid room ∧ I st' ∧ (∀ a xs s, E st' a xs s → E st a xs s) ∧
        (first' = first ∨ (moves = true ∧ first' = mid))
    | .part mid' st' => mid' = mid ∧ Stuck st mid room ∧ I st' ∧ (∀ a xs s, E st' a xs s → E st a xs s) ∧ moves = true
    | .hdr _ _ => False

/-- What one call delivers. `s` is the input, `room` the size of the output buffer: the input is `a ++ rest`, where `a`
was converted; an error is reported exactly because of `rest`, and otherwise `rest` is what is left. -/
def CallOK (cond : List Nat → Nat → Bool) (I : Nat → Prop) (E : Nat → List Nat → List Nat → Nat → Prop)
    (Bad : Nat → List Nat → Prop) (Stuck : Nat → List Nat → Nat → Prop) (moves : Bool)
    (st : Nat) (s : List Nat) (room : Nat) (r : CvtRes) : Prop :=
  ∃ a rest st1, s = a ++ rest ∧ Star E st a r.out st1 ∧ r.out.length ≤ room ∧
    (r.res = .error → Bad st1 rest ∧ r.mid1 <:+ rest ∧ cond rest (room - r.out.length) = true) ∧
    (r.res ≠ .error → r.mid1 = rest ∧ I r.st ∧ (∀ a xs s, E r.st a xs s → E st1 a xs s) ∧
      (cond rest (room - r.out.length) = false ∨ Stuck st1 rest (room - r.out.length))) ∧
    (r.res = .error ∨ r.res = .part ∨ r.res = .ok) ∧
    (a = [] → r.res = .error ∨ r.res = .part) ∧
    (r.res = .part → a = [] ∨ (moves = true ∧ Stuck st1 rest (room - r.out.length)))

theorem loop_ok {cond step I V E Bad Stuck moves} (H : StepOK cond step I V E Bad Stuck moves) (total : Nat) :
    ∀ (f : Nat) (s pre first mid out : List Nat) (st0 st : Nat), I st → V mid → mid.length < f → out.length ≤ total →
      s = pre ++ mid → Star E st0 pre out st →
      ((first = s ∨ (moves = true ∧ mid.length < first.length ∧ pre ≠ []))) →
      ∃ r, cvtLoop cond step total f first mid out st = .ok r ∧ CallOK cond I E Bad Stuck moves st0 s total r := by
  intro f
  induction f with
  | zero => intro s pre first mid out st0 st _ _ h; omega
  | succ f ih =>
    intro s pre first mid out st0 st hI hV hf hout hs hstar hfirst
    rw [cvtLoop]
    have hfin : ∀ st' first', (first' = first ∨ (moves = true ∧ first' = mid)) → I st' →
        (∀ a xs s, E st' a xs s → E st a xs s) →
        (cond mid (total - out.length) = false ∧ first' = first ∨ Stuck st mid (total - out.length)) →
        CallOK cond I E Bad Stuck moves st0 s total (fin first' mid out st') := by
      intro st' first' hf' hI' hE hstop
      refine ⟨pre, mid, st, hs, hstar, hout, ?_, ?_, ?_, ?_, ?_⟩
      · intro h; unfold fin at h; dsimp only at h; split at h <;> cases h
      · intro _; exact ⟨rfl, hI', hE, hstop.imp And.left id⟩
      · unfold fin; dsimp only; split <;> simp
      · intro hpre
        refine Or.inr ?_
        rw [hpre, List.nil_append] at hs
        unfold fin; dsimp only
        rw [if_pos]
        rcases hf' with h | ⟨_, h⟩ <;> rw [h]
        rcases hfirst with h | ⟨_, _, h⟩
        · rw [h, hs]
        · exact absurd hpre h
      · intro hpart
        unfold fin at hpart; dsimp only at hpart
        split at hpart
        · next hl =>
          rcases hstop with ⟨_, hff⟩ | hstuck
          · rw [hff] at hl
            rcases hfirst with h | ⟨_, h, _⟩
            · rw [h, hs, List.length_append] at hl
              exact Or.inl (List.length_eq_zero_iff.1 (by omega))
            · omega
          · rcases hf' with h | ⟨hm, h⟩
            · rw [h] at hl
              rcases hfirst with h | ⟨_, h, _⟩
              · rw [h, hs, List.length_append] at hl
                exact Or.inl (List.length_eq_zero_iff.1 (by omega))
              · omega
            · exact Or.inr ⟨hm, hstuck⟩
        · cases hpart
    by_cases hc : cond mid (total - out.length) = true
    swap
    · rw [if_neg hc]
      exact ⟨_, rfl, hfin st first (Or.inl rfl) hI (fun _ _ _ h => h)
        (Or.inl ⟨by simpa using hc, rfl⟩)⟩
    rw [if_pos hc]
    obtain ⟨x, hx, hspec⟩ := H.step (total - out.length) st first mid hI hV hc
    rw [hx]
    match x, hspec with
    | .emit xs mid' first' st', ⟨a, ha, hne, hE, hxs, hf'⟩ =>
      dsimp only
      rw [if_neg (by omega)]
      have hapos := List.length_pos_iff.2 hne
      have hlen : mid.length = a.length + mid'.length := by rw [ha, List.length_append]
      refine ih s (pre ++ a) first' mid' (out ++ xs) st0 st' (H.inv _ _ _ _ hI hE) (H.suffix a _ (ha ▸ hV)) (by omega)
        (by rw [List.length_append]; omega) (by rw [hs, ha]; simp) (hstar.append (Star.single hE)) ?_
      rcases hf' with rfl | ⟨hm, rfl⟩
      · rcases hfirst with h | ⟨h1, h2, h3⟩
        · exact Or.inl h
        · exact Or.inr ⟨h1, by omega, by simp [h3]⟩
      · exact Or.inr ⟨hm, by omega, by simp [hne]⟩
    | .err mid' st', ⟨hb, hsuf⟩ =>
      refine ⟨_, rfl, pre, mid, st, hs, hstar, hout, ?_, ?_, Or.inl rfl, fun _ => Or.inl rfl, ?_⟩
      · intro _; exact ⟨hb, hsuf, hc⟩
      · intro h; exact absurd rfl h
      · intro h; cases h
    | .brk mid' first' st', ⟨h1, h2, h3, h4, h5⟩ =>
      subst h1
      exact ⟨_, rfl, hfin st' first' h5 h3 h4 (Or.inr h2)⟩
    | .part mid' st', ⟨h1, h2, h3, h4, h5⟩ =>
      subst h1
      refine ⟨_, rfl, pre, mid', st, hs, hstar, hout, ?_, ?_, Or.inr (Or.inl rfl), fun _ => Or.inr rfl, ?_⟩
      · intro h; cases h
      · intro _; exact ⟨rfl, h3, h4, Or.inr h2⟩
      · intro _; exact Or.inr ⟨h5, h2⟩
    | .hdr _ _, h => exact h.elim

/-- One call. -/
theorem call_ok {cond step I V E Bad Stuck moves} (H : StepOK cond step I V E Bad Stuck moves) (room st : Nat)
    (s : List Nat) (hI : I st) (hV : V s) :
    ∃ r, cvtLoop cond step room (s.length + 1) s s [] st = .ok r ∧ CallOK cond I E Bad Stuck moves st s room r :=
  loop_ok H room _ s [] s s [] st st hI hV (by omega) (by simp) rfl (.nil st) (Or.inl rfl)

/-- A sequence of calls which converts the whole of `s` to `v`: each call gets some initial piece of the input that is
left and some output buffer, and none reports an error. -/
inductive Run (call : Nat → List Nat → Nat → R CvtRes) : Nat → List Nat → List Nat → Nat → Prop
  | done (st : Nat) : Run call st [] [] st
  | call {st s k room r v st'} : call st (s.take k) room = .ok r → r.res ≠ .error →
      Run call r.st (r.mid1 ++ s.drop k) v st' → Run call st s (r.out ++ v) st'

/-- A state from which less is possible can be replaced by one from which more is. -/
theorem star_le {E : Nat → List Nat → List Nat → Nat → Prop} (st st' : Nat) (a ys : List Nat) (s1 : Nat)
    (h : ∀ b xs s, E st' b xs s → E st b xs s) (hs : Star E st' a ys s1) : ∃ s2, Star E st a ys s2 := by
  cases hs with
  | nil => exact ⟨st, .nil st⟩
  | cons he ht => exact ⟨_, .cons (h _ _ _ he) ht⟩

/-- A sequence of calls converts code by code, however the input was split and whatever room there was. -/
theorem run_star {call : Nat → List Nat → Nat → R CvtRes} {cond I E Bad Stuck moves} {V : List Nat → Prop}
    (hV : ∀ a b, V (a ++ b) → V a ∧ V b)
    (hcall : ∀ st s room, I st → V s → ∃ r, call st s room = .ok r ∧ CallOK cond I E Bad Stuck moves st s room r) :
    ∀ st s v st', Run call st s v st' → I st → V s → ∃ st2, Star E st s v st2 := by
  intro st s v st' h
  induction h with
  | done st => intro _ _; exact ⟨st, .nil st⟩
  | @call st s k room r v st' hc hne _ ih =>
    intro hI hs
    have hsk : s = s.take k ++ s.drop k := (List.take_append_drop k s).symm
    have hVk := hV _ _ (hsk ▸ hs)
    obtain ⟨r', h1, a, rest, st1, h2, h3, h4, h5, h6, h7, h8, h9⟩ := hcall st (s.take k) room hI hVk.1
    rw [hc] at h1
    cases h1
    obtain ⟨h10, h11, h12, h13⟩ := h6 hne
    have hrest : V (rest ++ s.drop k) := by
      have : s = a ++ (rest ++ s.drop k) := by rw [← List.append_assoc, ← h2, List.take_append_drop]
      exact (hV a _ (this ▸ hs)).2
    rw [h10] at ih
    obtain ⟨st2, h14⟩ := ih h11 hrest
    obtain ⟨st3, h15⟩ := star_le _ _ _ _ _ h12 h14
    refine ⟨st3, ?_⟩
    have h16 := h3.append h15
    rwa [← List.append_assoc, ← h2, List.take_append_drop] at h16

end STL.Utf
