import Verif.Vec.Model

/-!
# Rules for the model of `vector`
-/

namespace STL.Vec
open STL

variable {α β γ : Type}

/-- `m` does not run into undefined behaviour; what holds afterwards. -/
def Sat (m : M α β) (w : W α) (Q : β → W α → Prop) (E : Exc → W α → Prop) : Prop :=
  match m w with
  | .ok b w' => Q b w'
  | .exc e w' => E e w'
  | .ub => False

theorem Sat.mono {m : M α β} {w : W α} {Q Q' : β → W α → Prop} {E E' : Exc → W α → Prop} (h : Sat m w Q E) (hQ : ∀ b w', Q b w' → Q' b w')
    (hE : ∀ e w', E e w' → E' e w') : Sat m w Q' E' := by
  unfold Sat at *
  cases hm : m w with
  | ok b w' => rw [hm] at h; exact hQ _ _ h
  | exc e w' => rw [hm] at h; exact hE _ _ h
  | ub => rw [hm] at h; exact h

theorem Sat.pure' {b : β} {w : W α} {Q : β → W α → Prop} {E : Exc → W α → Prop} (h : Q b w) : Sat (pure b : M α β) w Q E := h

theorem Sat.bind {m : M α β} {f : β → M α γ} {w : W α} {Q : γ → W α → Prop} {E : Exc → W α → Prop}
    (h : Sat m w (fun b w' => Sat (f b) w' Q E) E) : Sat (m >>= f) w Q E := by
  show Sat (M.bind m f) w Q E
  unfold Sat M.bind at *
  cases hm : m w with
  | ok b w' => rw [hm] at h; exact h
  | exc e w' => rw [hm] at h; exact h
  | ub => rw [hm] at h; exact h

/-- Sequencing with the postcondition of the first part given. -/
theorem Sat.then {m : M α β} {f : β → M α γ} {w : W α} {Q : γ → W α → Prop} {E E' : Exc → W α → Prop} {Q' : β → W α → Prop}
    (h : Sat m w Q' E') (hE : ∀ e w', E' e w' → E e w') (hQ : ∀ b w', Q' b w' → Sat (f b) w' Q E) : Sat (m >>= f) w Q E :=
  Sat.bind (h.mono hQ hE)

theorem Sat.throw {e : Exc} {w : W α} {Q : β → W α → Prop} {E : Exc → W α → Prop} (h : E e w) : Sat (throw e : M α β) w Q E := h

theorem Sat.getV {f : V → M α β} {w : W α} {Q : β → W α → Prop} {E : Exc → W α → Prop} (h : Sat (f w.v) w Q E) :
    Sat (Vec.getV >>= f) w Q E := Sat.bind h

theorem Sat.onExc {m : M α β} {d : M α Unit} {w : W α} {Q : β → W α → Prop} {E : Exc → W α → Prop}
    (h : Sat m w Q (fun e w1 => Sat d w1 (fun _ w2 => E e w2) (fun _ _ => False))) : Sat (Vec.onExc m d) w Q E := by
  unfold Sat Vec.onExc at *
  cases hm : m w with
  | ok b w' => rw [hm] at h; exact h
  | ub => rw [hm] at h; exact h
  | exc e w' =>
    rw [hm] at h
    cases hd : d w' with
    | ok b w' => simp only [hd] at h ⊢; exact h
    | exc e w' => simp only [hd] at h
    | ub => simp only [hd] at h

theorem Sat.catchAll {m : M α β} {d : M α Unit} {w : W α} {Q : β → W α → Prop} {E : Exc → W α → Prop}
    (h : Sat m w Q (fun e w1 => Sat d w1 (fun _ w2 => E e w2) E)) : Sat (Vec.catchAll m d) w Q E := by
  unfold Sat Vec.catchAll at *
  cases hm : m w with
  | ok b w' => rw [hm] at h; exact h
  | ub => rw [hm] at h; exact h
  | exc e w' =>
    rw [hm] at h
    cases hd : d w' with
    | ok b w' => simp only [hd] at h ⊢; exact h
    | exc e w' => simp only [hd] at h ⊢; exact h
    | ub => simp only [hd] at h

theorem Sat.ite {c : Prop} [Decidable c] {a b : M α β} {w : W α} {Q : β → W α → Prop} {E : Exc → W α → Prop} (h1 : c → Sat a w Q E)
    (h2 : ¬c → Sat b w Q E) : Sat (if c then a else b) w Q E := by
  split
  · exact h1 ‹_›
  · exact h2 ‹_›

/-! ## Memory -/

theorem Sat.cell {b i n : Nat} {w : W α} {Q : Option α → W α → Prop} {E : Exc → W α → Prop} (hc : w.caps b = some n) (hi : i < n)
    (h : Q (w.cel b i) w) : Sat (Vec.cell b i) w Q E := by
  unfold Sat Vec.cell
  simp only [hc, if_pos hi]
  exact h

theorem Sat.rd {b i n : Nat} {x : α} {w : W α} {Q : α → W α → Prop} {E : Exc → W α → Prop} (hc : w.caps b = some n) (hi : i < n)
    (hx : w.cel b i = some x) (h : Q x w) : Sat (Vec.rd b i) w Q E := by
  unfold Vec.rd
  refine Sat.bind (Sat.cell hc hi ?_)
  rw [hx]
  exact h

theorem Sat.construct {b i n : Nat} {x : α} {w : W α} {Q : Unit → W α → Prop} {E : Exc → W α → Prop} (hc : w.caps b = some n) (hi : i < n)
    (hx : w.cel b i = none) (h : Q () { w with cel := put w.cel b i (some x) }) : Sat (Vec.construct b i x) w Q E := by
  unfold Vec.construct
  refine Sat.bind (Sat.cell hc hi ?_)
  rw [hx]
  exact h

theorem Sat.destroy {b i n : Nat} {w : W α} {Q : Unit → W α → Prop} {E : Exc → W α → Prop} (hc : w.caps b = some n) (hi : i < n)
    (hx : (w.cel b i).isSome) (h : Q () { w with cel := put w.cel b i none }) : Sat (Vec.destroy b i) w Q E := by
  unfold Vec.destroy
  refine Sat.bind (Sat.cell hc hi ?_)
  obtain ⟨x, hx⟩ := Option.isSome_iff_exists.1 hx
  rw [hx]
  exact h

theorem Sat.write {b i n : Nat} {x : α} {w : W α} {Q : Unit → W α → Prop} {E : Exc → W α → Prop} (hc : w.caps b = some n) (hi : i < n)
    (hx : (w.cel b i).isSome) (h : Q () { w with cel := put w.cel b i (some x) }) : Sat (Vec.write b i x) w Q E := by
  unfold Vec.write
  refine Sat.bind (Sat.cell hc hi ?_)
  obtain ⟨y, hy⟩ := Option.isSome_iff_exists.1 hx
  rw [hy]
  exact h

/-- The outcome of a decision whether to throw. -/
theorem Sat.tick {may : Bool} {f : Bool → M α β} {w : W α} {Q : β → W α → Prop} {E : Exc → W α → Prop}
    (h : ∀ (c : Bool) (t : List Bool), (c = true → may = true) → Sat (f c) { w with tape := t } Q E) : Sat (Vec.tick may >>= f) w Q E := by
  refine Sat.bind ?_
  unfold Sat Vec.tick
  by_cases hm : may
  · simp only [hm, if_true]
    exact h _ _ fun _ => hm
  · simp only [hm, Bool.false_eq_true, if_false]
    have := h false w.tape (by simp)
    exact this

theorem Sat.deallocate {b n : Nat} {w : W α} {Q : Unit → W α → Prop} {E : Exc → W α → Prop} (hc : w.caps b = some n)
    (hr : ∀ i < n, w.cel b i = none) (h : Q () { w with caps := fun q => if q = b then none else w.caps q }) :
    Sat (Vec.deallocate b n) w Q E := by
  unfold Sat Vec.deallocate
  simp only [hc, true_and]
  rw [if_pos (by simpa using hr)]
  exact h

theorem Sat.allocate {P : Par α} {least : Bool} {n : Nat} {w : W α} {Q : Nat × Nat → W α → Prop} {E : Exc → W α → Prop} (hn : n ≤ P.max)
    (h : ∀ m a, n ≤ m → m ≤ P.max → (least = false → m = n) →
      Q (w.nxt, m) { w with ans := a, nxt := w.nxt + 1, caps := fun q => if q = w.nxt then some m else w.caps q })
    (hE : ∀ a, E .badAlloc { w with ans := a }) : Sat (Vec.allocate P least n) w Q E := by
  unfold Sat Vec.allocate
  cases w.ans.headD (some 0) with
  | none => exact hE _
  | some k =>
    dsimp only
    split
    · next hk => exact h _ _ (by omega) hk.2 (fun hl => absurd hk.1 (by simp [hl]))
    · exact h _ _ (Nat.le_refl _) hn (fun _ => rfl)

/-! ## Constructions and assignments -/

theorem Sat.copyC {b i n : Nat} {x : α} {w : W α} {Q : Unit → W α → Prop} {E : Exc → W α → Prop} (hc : w.caps b = some n) (hi : i < n)
    (hx : w.cel b i = none) (h : ∀ t, Q () { w with cel := put w.cel b i (some x), tape := t }) (hE : ∀ t, E .user { w with tape := t }) :
    Sat (Vec.copyC x b i) w Q E := by
  unfold Vec.copyC
  refine Sat.tick fun c t _ => Sat.ite (fun _ => Sat.throw (hE t)) fun _ => Sat.construct (n := n) hc hi hx ?_
  exact h t

theorem Sat.moveC {P : Par α} {c k b i n m : Nat} {x : α} {w : W α} {Q : Unit → W α → Prop} {E : Exc → W α → Prop} (hc : w.caps b = some n)
    (hi : i < n) (hx : w.cel b i = none) (hc' : w.caps c = some m) (hk : k < m) (hy : w.cel c k = some x)
    (h : ∀ t, Q () { w with cel := put (put w.cel b i (some x)) c k (some (P.mv x)), tape := t })
    (hE : ∀ t, P.nmc = false → E .user { w with cel := put w.cel c k (some (P.bad x)), tape := t }) : Sat (Vec.moveC P c k b i) w Q E := by
  unfold Vec.moveC
  refine Sat.bind (Sat.rd hc' hk hy (Sat.tick fun z t hz => Sat.ite (fun hz' => ?_) fun _ => ?_))
  · refine Sat.bind (Sat.write (n := m) hc' hk (by simp [hy]) (Sat.throw (hE t ?_)))
    have := hz hz'
    simpa using this
  · refine Sat.bind (Sat.construct (n := n) hc hi hx (Sat.write (n := m) hc' hk ?_ (h t)))
    simp only [put]
    split
    · rfl
    · simp [hy]

theorem Sat.copyA {P : Par α} {b i n : Nat} {x y : α} {w : W α} {Q : Unit → W α → Prop} {E : Exc → W α → Prop} (hc : w.caps b = some n)
    (hi : i < n) (hx : w.cel b i = some y) (h : ∀ t, Q () { w with cel := put w.cel b i (some x), tape := t })
    (hE : ∀ t, E .user { w with cel := put w.cel b i (some (P.bad y)), tape := t }) : Sat (Vec.copyA P x b i) w Q E := by
  unfold Vec.copyA
  refine Sat.tick fun c t _ => Sat.ite (fun _ => ?_) fun _ => Sat.write (n := n) hc hi (by simp [hx]) (h t)
  exact Sat.bind (Sat.rd (n := n) hc hi hx (Sat.bind (Sat.write (n := n) hc hi (by simp [hx]) (Sat.throw (hE t)))))

theorem Sat.moveA {P : Par α} {c k b i n m : Nat} {x y : α} {w : W α} {Q : Unit → W α → Prop} {E : Exc → W α → Prop} (hc : w.caps b = some n)
    (hi : i < n) (hx : w.cel b i = some y) (hc' : w.caps c = some m) (hk : k < m) (hy : w.cel c k = some x)
    (h : ∀ t, Q () { w with cel := put (put w.cel b i (some x)) c k (some (P.mv x)), tape := t })
    (hE : ∀ t, P.nma = false → E .user { w with cel := put (put w.cel b i (some (P.bad y))) c k (some (P.bad x)), tape := t }) :
    Sat (Vec.moveA P c k b i) w Q E := by
  unfold Vec.moveA
  have key : ∀ z : α, (put w.cel b i (some z) c k).isSome := fun z => by
    simp only [put]
    split
    · rfl
    · simp [hy]
  refine Sat.bind (Sat.rd hc' hk hy (Sat.tick fun z t hz => Sat.ite (fun hz' => ?_) fun _ => ?_))
  · refine Sat.bind (Sat.rd (n := n) hc hi hx (Sat.bind (Sat.write (n := n) hc hi (by simp [hx])
      (Sat.bind (Sat.write (n := m) hc' hk (key _) (Sat.throw (hE t ?_)))))))
    have := hz hz'
    simpa using this
  · exact Sat.bind (Sat.write (n := n) hc hi (by simp [hx]) (Sat.write (n := m) hc' hk (key _) (h t)))

theorem Sat.moveAX {P : Par α} {b i n : Nat} {x y : α} {w : W α} {Q : Unit → W α → Prop} {E : Exc → W α → Prop} (hc : w.caps b = some n)
    (hi : i < n) (hx : w.cel b i = some y) (h : ∀ t, Q () { w with cel := put w.cel b i (some x), tape := t })
    (hE : ∀ t, P.nma = false → E .user { w with cel := put w.cel b i (some (P.bad y)), tape := t }) : Sat (Vec.moveAX P x b i) w Q E := by
  unfold Vec.moveAX
  refine Sat.tick fun c t ht => Sat.ite (fun ht' => ?_) fun _ => Sat.write (n := n) hc hi (by simp [hx]) (h t)
  refine Sat.bind (Sat.rd (n := n) hc hi hx (Sat.bind (Sat.write (n := n) hc hi (by simp [hx]) (Sat.throw (hE t ?_)))))
  have := ht ht'
  simpa using this

/-! ## Loops -/

/-- The cells with `[i, i + n)` of `b` replaced by what `f` says. -/
def over (c : Nat → Nat → Option α) (b i n : Nat) (f : Nat → Option α) : Nat → Nat → Option α := fun q j =>
  if q = b ∧ i ≤ j ∧ j < i + n then f (j - i) else c q j

theorem over_in {c : Nat → Nat → Option α} {b i n j : Nat} {f : Nat → Option α} (h1 : i ≤ j) (h2 : j < i + n) :
    over c b i n f b j = f (j - i) := by
  simp [over, h1, h2]

theorem over_out {c : Nat → Nat → Option α} {b i n j q : Nat} {f : Nat → Option α} (h : q ≠ b ∨ j < i ∨ i + n ≤ j) :
    over c b i n f q j = c q j := by
  unfold over
  rw [if_neg (by omega)]

/-- The values of `[s, s + n)` of `c` may be lost. -/
def Ruin (C0 C : Nat → Nat → Option α) (c s n : Nat) : Prop :=
  (∀ j, s ≤ j → j < s + n → (C c j).isSome) ∧ ∀ q j, (q ≠ c ∨ j < s ∨ s + n ≤ j) → C q j = C0 q j

theorem sat_destroyRange {b N : Nat} : ∀ (n i : Nat) {w : W α} {E : Exc → W α → Prop}, w.caps b = some N → i + n ≤ N →
    (∀ j, i ≤ j → j < i + n → (w.cel b j).isSome) →
    Sat (destroyRange b i n) w (fun _ w' => w' = { w with cel := over w.cel b i n fun _ => none }) E
  | 0, i, w, E, _, _, _ => by
    show Sat (pure ()) w _ E
    refine Sat.pure' ?_
    have : (over w.cel b i 0 fun _ => none) = w.cel := by
      funext q j
      exact over_out (by omega)
    rw [this]
  | n + 1, i, w, E, hc, hi, hs => by
    unfold destroyRange
    refine Sat.bind (Sat.destroy hc (by omega) (hs i (by omega) (by omega)) ?_)
    refine (sat_destroyRange n (i + 1) (w := { w with cel := put w.cel b i none }) hc (by omega) ?_).mono ?_ fun _ _ h => h
    · intro j h1 h2
      show (put w.cel b i none b j).isSome
      unfold put
      rw [if_neg (by omega)]
      exact hs j (by omega) (by omega)
    · rintro _ w' rfl
      have : (over (put w.cel b i none) b (i + 1) n fun _ => none) = over w.cel b i (n + 1) fun _ => none := by
        funext q j
        simp only [over, put]
        repeat' split
        all_goals first
          | rfl
          | omega
      simp only [this]

/-- The cells after `[s, s + n)` of `c` was moved to `[d, d + n)` of `b`. -/
def moved (P : Par α) (C : Nat → Nat → Option α) (c s b d n : Nat) : Nat → Nat → Option α := fun q j =>
  if q = b ∧ d ≤ j ∧ j < d + n then C c (s + (j - d))
  else if q = c ∧ s ≤ j ∧ j < s + n then (C c j).map P.mv else C q j

theorem sat_uninitMoveFrom {P : Par α} {c s b d N M : Nat} : ∀ (n k : Nat) {w : W α}, w.caps c = some N → s + k + n ≤ N →
    w.caps b = some M → d + k + n ≤ M → (c ≠ b ∨ s + k + n ≤ d ∨ d + k + n ≤ s) →
    (∀ j, s + k ≤ j → j < s + k + n → (w.cel c j).isSome) → (∀ j, d ≤ j → j < d + k → (w.cel b j).isSome) →
    (∀ j, d + k ≤ j → j < d + k + n → w.cel b j = none) →
    Sat (uninitMoveFrom P c s b d k n) w
      (fun _ w' => ∃ t, w' = { w with cel := moved P w.cel c (s + k) b (d + k) n, tape := t })
      (fun e w' => e = .user ∧ P.nmc = false ∧
        ∃ t C, w' = { w with cel := C, tape := t } ∧ Ruin (over w.cel b d k fun _ => none) C c (s + k) n)
  | 0, k, w, _, _, _, _, _, _, _, _ => by
    refine Sat.pure' ⟨w.tape, ?_⟩
    have : moved P w.cel c (s + k) b (d + k) 0 = w.cel := by
      funext q j
      unfold moved
      rw [if_neg (by omega), if_neg (by omega)]
    rw [this]
  | n + 1, k, w, hN, hsN, hM, hdM, hdis, hsrc, hold, hraw => by
    unfold uninitMoveFrom
    obtain ⟨x, hx⟩ := Option.isSome_iff_exists.1 (hsrc (s + k) (by omega) (by omega))
    refine Sat.bind (Sat.onExc (Sat.moveC hM (by omega) (hraw _ (by omega) (by omega)) hN (by omega) hx ?_ ?_))
    · intro t
      have key : ∀ q j, put (put w.cel b (d + k) (some x)) c (s + k) (some (P.mv x)) q j =
          if q = c ∧ j = s + k then some (P.mv x) else if q = b ∧ j = d + k then some x else w.cel q j := fun q j => rfl
      refine (sat_uninitMoveFrom n (k + 1)
        (w := { w with cel := put (put w.cel b (d + k) (some x)) c (s + k) (some (P.mv x)), tape := t }) hN (by omega) hM (by omega)
        (by omega) ?_ ?_ ?_).mono ?_ ?_
      · intro j h1 h2
        dsimp only
        rw [key]
        rw [if_neg (by omega), if_neg (by omega)]
        exact hsrc j (by omega) (by omega)
      · intro j h1 h2
        dsimp only
        rw [key, if_neg (by omega)]
        split
        · rfl
        · exact hold j (by omega) (by omega)
      · intro j h1 h2
        dsimp only
        rw [key, if_neg (by omega), if_neg (by omega)]
        exact hraw j (by omega) (by omega)
      · rintro _ w' ⟨t', rfl⟩
        refine ⟨t', ?_⟩
        have : moved P (put (put w.cel b (d + k) (some x)) c (s + k) (some (P.mv x))) c (s + (k + 1)) b (d + (k + 1)) n =
            moved P w.cel c (s + k) b (d + k) (n + 1) := by
          funext q j
          unfold moved
          by_cases h1 : q = b ∧ d + k ≤ j ∧ j < d + k + (n + 1)
          · rw [if_pos h1]
            by_cases h2 : j = d + k
            · rw [if_neg (by omega), if_neg (by omega), key, if_neg (by omega), if_pos ⟨h1.1, h2⟩, h2, Nat.sub_self, Nat.add_zero, hx]
            · rw [if_pos (by omega), key, if_neg (by omega), if_neg (by omega)]
              congr 1
              omega
          · rw [if_neg h1, if_neg (by omega)]
            by_cases h2 : q = c ∧ s + k ≤ j ∧ j < s + k + (n + 1)
            · rw [if_pos h2]
              by_cases h3 : j = s + k
              · rw [if_neg (by omega), key, if_pos ⟨h2.1, h3⟩, h3, hx]
                rfl
              · rw [if_pos (by omega), key, if_neg (by omega), if_neg (by omega)]
            · rw [if_neg h2, if_neg (by omega), key, if_neg (by omega), if_neg (by omega)]
        simp only [this]
      · rintro e w' ⟨he, hn, t', C, rfl, hr1, hr2⟩
        refine ⟨he, hn, t', C, rfl, ?_, ?_⟩
        · intro j h1 h2
          by_cases h3 : j = s + k
          · rw [h3, hr2 c (s + k) (by omega), over_out (by omega)]
            show (put (put w.cel b (d + k) (some x)) c (s + k) (some (P.mv x)) c (s + k)).isSome
            rw [key, if_pos ⟨rfl, rfl⟩]
            rfl
          · exact hr1 j (by omega) (by omega)
        · intro q j h1
          rw [hr2 q j (by omega)]
          by_cases h2 : q = b ∧ d ≤ j ∧ j < d + k
          · unfold over
            rw [if_pos (by omega), if_pos h2]
          · by_cases h3 : q = b ∧ j = d + k
            · rw [h3.1, h3.2, over_in (by omega) (by omega), over_out (by omega), hraw _ (by omega) (by omega)]
            · rw [over_out (by omega), over_out (by omega)]
              show put (put w.cel b (d + k) (some x)) c (s + k) (some (P.mv x)) q j = _
              rw [key, if_neg (by omega), if_neg h3]
    · intro t hn
      refine (sat_destroyRange k d (w := { w with cel := put w.cel c (s + k) (some (P.bad x)), tape := t }) hM (by omega) ?_).mono ?_
        fun _ _ h => h
      · intro j h1 h2
        show (put w.cel c (s + k) (some (P.bad x)) b j).isSome
        unfold put
        split
        · rfl
        · exact hold j h1 h2
      · rintro _ w' rfl
        refine ⟨rfl, hn, t, _, rfl, ?_, ?_⟩
        · intro j h1 h2
          rw [over_out (by omega)]
          unfold put
          dsimp only
          split
          · rfl
          · exact hsrc j (by omega) (by omega)
        · intro q j h1
          unfold over put
          dsimp only
          by_cases h2 : q = b ∧ d ≤ j ∧ j < d + k
          · rw [if_pos h2, if_pos h2]
          · rw [if_neg h2, if_neg h2, if_neg (by omega)]

theorem sat_uninitMove {P : Par α} {c s n b d N M : Nat} {w : W α} (hN : w.caps c = some N) (hsN : s + n ≤ N) (hM : w.caps b = some M)
    (hdM : d + n ≤ M) (hdis : c ≠ b ∨ s + n ≤ d ∨ d + n ≤ s) (hsrc : ∀ j, s ≤ j → j < s + n → (w.cel c j).isSome)
    (hraw : ∀ j, d ≤ j → j < d + n → w.cel b j = none) :
    Sat (uninitMove P c s n b d) w (fun _ w' => ∃ t, w' = { w with cel := moved P w.cel c s b d n, tape := t })
      (fun e w' => e = .user ∧ P.nmc = false ∧ ∃ t C, w' = { w with cel := C, tape := t } ∧ Ruin w.cel C c s n) := by
  refine (sat_uninitMoveFrom (P := P) (c := c) (s := s) (b := b) (d := d) n 0 hN (by omega) hM (by omega) (by omega) (by simpa using hsrc)
    (by intro j h1 h2; omega) (by simpa using hraw)).mono (fun _ _ h => h) ?_
  rintro e w' ⟨he, hn, t, C, rfl, h1, h2⟩
  refine ⟨he, hn, t, C, rfl, h1, ?_⟩
  intro q j h3
  rw [h2 q j (by omega), over_out (by omega)]

/-! Copies. The state is as before if they fail. -/

theorem sat_uninitCopyFrom {c s b d N M : Nat} : ∀ (n k : Nat) {w : W α}, w.caps c = some N → s + k + n ≤ N → w.caps b = some M →
    d + k + n ≤ M → c ≠ b → (∀ j, s + k ≤ j → j < s + k + n → (w.cel c j).isSome) → (∀ j, d ≤ j → j < d + k → (w.cel b j).isSome) →
    (∀ j, d + k ≤ j → j < d + k + n → w.cel b j = none) →
    Sat (uninitCopyFrom c s b d k n) w (fun _ w' => ∃ t, w' = { w with cel := over w.cel b (d + k) n fun j => w.cel c (s + k + j), tape := t })
      (fun e w' => e = .user ∧ ∃ t, w' = { w with cel := over w.cel b d k fun _ => none, tape := t })
  | 0, k, w, _, _, _, _, _, _, _, _ => by
    refine Sat.pure' ⟨w.tape, ?_⟩
    have : (over w.cel b (d + k) 0 fun j => w.cel c (s + k + j)) = w.cel := by
      funext q j
      exact over_out (by omega)
    rw [this]
  | n + 1, k, w, hN, hsN, hM, hdM, hdis, hsrc, hold, hraw => by
    unfold uninitCopyFrom
    obtain ⟨x, hx⟩ := Option.isSome_iff_exists.1 (hsrc (s + k) (by omega) (by omega))
    refine Sat.bind (Sat.rd hN (by omega) hx (Sat.bind (Sat.onExc (Sat.copyC hM (by omega) (hraw _ (by omega) (by omega)) ?_ ?_))))
    · intro t
      refine (sat_uninitCopyFrom n (k + 1) (w := { w with cel := put w.cel b (d + k) (some x), tape := t }) hN (by omega) hM (by omega) hdis
        ?_ ?_ ?_).mono ?_ ?_
      · intro j h1 h2
        show (put w.cel b (d + k) (some x) c j).isSome
        unfold put
        rw [if_neg (by omega)]
        exact hsrc j (by omega) (by omega)
      · intro j h1 h2
        show (put w.cel b (d + k) (some x) b j).isSome
        unfold put
        split
        · rfl
        · exact hold j (by omega) (by omega)
      · intro j h1 h2
        show put w.cel b (d + k) (some x) b j = none
        unfold put
        rw [if_neg (by omega)]
        exact hraw j (by omega) (by omega)
      · rintro _ w' ⟨t', rfl⟩
        refine ⟨t', ?_⟩
        have : (over (put w.cel b (d + k) (some x)) b (d + (k + 1)) n fun j => put w.cel b (d + k) (some x) c (s + (k + 1) + j)) =
            over w.cel b (d + k) (n + 1) fun j => w.cel c (s + k + j) := by
          funext q j
          by_cases h1 : q = b ∧ d + k ≤ j ∧ j < d + k + (n + 1)
          · unfold over
            rw [if_pos h1]
            by_cases h2 : j = d + k
            · rw [if_neg (by omega)]
              unfold put
              rw [if_pos ⟨h1.1, h2⟩, h2, Nat.sub_self]
              dsimp only
              rw [Nat.add_zero, hx]
            · rw [if_pos (by omega)]
              unfold put
              dsimp only
              rw [if_neg (by omega)]
              congr 1
              omega
          · rw [over_out (by omega), over_out (by omega)]
            unfold put
            rw [if_neg (by omega)]
        simp only [this]
      · rintro e w' ⟨he, t', rfl⟩
        refine ⟨he, t', ?_⟩
        have : (over (put w.cel b (d + k) (some x)) b d (k + 1) fun _ => none) = over w.cel b d k fun _ => none := by
          funext q j
          unfold over put
          by_cases h1 : q = b ∧ d ≤ j ∧ j < d + k
          · rw [if_pos (by omega), if_pos h1]
          · rw [if_neg h1]
            by_cases h2 : q = b ∧ j = d + k
            · rw [if_pos (by omega), h2.1, h2.2, hraw _ (by omega) (by omega)]
            · rw [if_neg (by omega), if_neg h2]
        simp only [this]
    · intro t
      refine (sat_destroyRange k d (w := { w with tape := t }) hM (by omega) hold).mono ?_ fun _ _ h => h
      rintro _ w' rfl
      exact ⟨rfl, t, rfl⟩

theorem sat_uninitCopy {c s n b d N M : Nat} {w : W α} (hN : w.caps c = some N) (hsN : s + n ≤ N) (hM : w.caps b = some M)
    (hdM : d + n ≤ M) (hdis : c ≠ b) (hsrc : ∀ j, s ≤ j → j < s + n → (w.cel c j).isSome)
    (hraw : ∀ j, d ≤ j → j < d + n → w.cel b j = none) :
    Sat (uninitCopy c s n b d) w (fun _ w' => ∃ t, w' = { w with cel := over w.cel b d n fun j => w.cel c (s + j), tape := t })
      (fun e w' => e = .user ∧ ∃ t, w' = { w with tape := t }) := by
  refine (sat_uninitCopyFrom (c := c) (s := s) (b := b) (d := d) n 0 hN (by omega) hM (by omega) (by omega) (by simpa using hsrc)
    (by intro j h1 h2; omega) (by simpa using hraw)).mono (fun _ _ h => h) ?_
  rintro e w' ⟨he, t, rfl⟩
  refine ⟨he, t, ?_⟩
  have : (over w.cel b d 0 fun _ => none) = w.cel := by
    funext q j
    exact over_out (by omega)
  rw [this]

theorem sat_uninitListFrom {b d M : Nat} : ∀ (xs : List α) (k : Nat) {w : W α}, w.caps b = some M → d + k + xs.length ≤ M →
    (∀ j, d ≤ j → j < d + k → (w.cel b j).isSome) → (∀ j, d + k ≤ j → j < d + k + xs.length → w.cel b j = none) →
    Sat (uninitListFrom b d k xs) w (fun _ w' => ∃ t, w' = { w with cel := over w.cel b (d + k) xs.length fun j => xs[j]?, tape := t })
      (fun e w' => e = .user ∧ ∃ t, w' = { w with cel := over w.cel b d k fun _ => none, tape := t })
  | [], k, w, _, _, _, _ => by
    refine Sat.pure' ⟨w.tape, ?_⟩
    have : (over w.cel b (d + k) ([] : List α).length fun j => ([] : List α)[j]?) = w.cel := by
      funext q j
      exact over_out (by simp; omega)
    rw [this]
  | x :: xs, k, w, hM, hdM, hold, hraw => by
    simp only [List.length_cons] at *
    unfold uninitListFrom
    refine Sat.bind (Sat.onExc (Sat.copyC hM (by omega) (hraw _ (by omega) (by omega)) ?_ ?_))
    · intro t
      refine (sat_uninitListFrom xs (k + 1) (w := { w with cel := put w.cel b (d + k) (some x), tape := t }) hM (by omega)
        ?_ ?_).mono ?_ ?_
      · intro j h1 h2
        show (put w.cel b (d + k) (some x) b j).isSome
        unfold put
        split
        · rfl
        · exact hold j (by omega) (by omega)
      · intro j h1 h2
        show put w.cel b (d + k) (some x) b j = none
        unfold put
        rw [if_neg (by omega)]
        exact hraw j (by omega) (by omega)
      · rintro _ w' ⟨t', rfl⟩
        refine ⟨t', ?_⟩
        have : (over (put w.cel b (d + k) (some x)) b (d + (k + 1)) xs.length fun j => xs[j]?) =
            over w.cel b (d + k) (xs.length + 1) fun j => (x :: xs)[j]? := by
          funext q j
          by_cases h1 : q = b ∧ d + k ≤ j ∧ j < d + k + (xs.length + 1)
          · unfold over
            rw [if_pos h1]
            by_cases h2 : j = d + k
            · rw [if_neg (by omega)]
              unfold put
              rw [if_pos ⟨h1.1, h2⟩, h2, Nat.sub_self]
              rfl
            · rw [if_pos (by omega), show j - (d + k) = (j - (d + (k + 1))) + 1 by omega]
              exact List.getElem?_cons_succ.symm
          · rw [over_out (by omega), over_out (by omega)]
            unfold put
            rw [if_neg (by omega)]
        simp only [this]
      · rintro e w' ⟨he, t', rfl⟩
        refine ⟨he, t', ?_⟩
        have : (over (put w.cel b (d + k) (some x)) b d (k + 1) fun _ => none) = over w.cel b d k fun _ => none := by
          funext q j
          unfold over put
          by_cases h1 : q = b ∧ d ≤ j ∧ j < d + k
          · rw [if_pos (by omega), if_pos h1]
          · rw [if_neg h1]
            by_cases h2 : q = b ∧ j = d + k
            · rw [if_pos (by omega), h2.1, h2.2, hraw _ (by omega) (by omega)]
            · rw [if_neg (by omega), if_neg h2]
        simp only [this]
    · intro t
      refine (sat_destroyRange k d (w := { w with tape := t }) hM (by omega) hold).mono ?_ fun _ _ h => h
      rintro _ w' rfl
      exact ⟨rfl, t, rfl⟩

theorem sat_uninitList {xs : List α} {b d M : Nat} {w : W α} (hM : w.caps b = some M) (hdM : d + xs.length ≤ M)
    (hraw : ∀ j, d ≤ j → j < d + xs.length → w.cel b j = none) :
    Sat (uninitList xs b d) w (fun _ w' => ∃ t, w' = { w with cel := over w.cel b d xs.length fun j => xs[j]?, tape := t })
      (fun e w' => e = .user ∧ ∃ t, w' = { w with tape := t }) := by
  refine (sat_uninitListFrom (b := b) (d := d) xs 0 hM (by omega) (by intro j h1 h2; omega) (by simpa using hraw)).mono (fun _ _ h => h) ?_
  rintro e w' ⟨he, t, rfl⟩
  refine ⟨he, t, ?_⟩
  have : (over w.cel b d 0 fun _ => none) = w.cel := by
    funext q j
    exact over_out (by omega)
  rw [this]

/-- The value of an argument. -/
def SrcVal (w : W α) (o : Nat) (src : Src α) (x : α) : Prop :=
  match src with
  | .ext y => y = x
  | .self i => w.cel o i = some x ∧ ∃ N, w.caps o = some N ∧ i < N

theorem Sat.rdSrc {o : Nat} {src : Src α} {x : α} {w : W α} {Q : α → W α → Prop} {E : Exc → W α → Prop} (hs : SrcVal w o src x) (h : Q x w) :
    Sat (Vec.rdSrc o src) w Q E := by
  cases src with
  | ext y =>
    have : y = x := hs
    rw [← this] at h
    exact Sat.pure' h
  | self i =>
    obtain ⟨h1, N, h2, h3⟩ := hs
    exact Sat.rd h2 h3 h1 h

theorem sat_uninitFillFrom {o b d M : Nat} {src : Src α} {x : α} : ∀ (n k : Nat) {w : W α}, SrcVal w o src x → w.caps b = some M →
    d + k + n ≤ M → (∀ j, d ≤ j → j < d + k → (w.cel b j).isSome) → (∀ j, d + k ≤ j → j < d + k + n → w.cel b j = none) →
    Sat (uninitFillFrom o src b d k n) w (fun _ w' => ∃ t, w' = { w with cel := over w.cel b (d + k) n fun _ => some x, tape := t })
      (fun e w' => e = .user ∧ ∃ t, w' = { w with cel := over w.cel b d k fun _ => none, tape := t })
  | 0, k, w, _, _, _, _, _ => by
    refine Sat.pure' ⟨w.tape, ?_⟩
    have : (over w.cel b (d + k) 0 fun _ => some x) = w.cel := by
      funext q j
      exact over_out (by omega)
    rw [this]
  | n + 1, k, w, hs, hM, hdM, hold, hraw => by
    unfold uninitFillFrom
    refine Sat.bind (Sat.rdSrc hs (Sat.bind (Sat.onExc (Sat.copyC hM (by omega) (hraw _ (by omega) (by omega)) ?_ ?_))))
    · intro t
      refine (sat_uninitFillFrom (x := x) n (k + 1) (w := { w with cel := put w.cel b (d + k) (some x), tape := t }) ?_ hM (by omega)
        ?_ ?_).mono ?_ ?_
      · cases src with
        | ext y => exact hs
        | self i =>
          refine ⟨?_, hs.2⟩
          show put w.cel b (d + k) (some x) o i = some x
          unfold put
          split
          · rfl
          · exact hs.1
      · intro j h1 h2
        show (put w.cel b (d + k) (some x) b j).isSome
        unfold put
        split
        · rfl
        · exact hold j (by omega) (by omega)
      · intro j h1 h2
        show put w.cel b (d + k) (some x) b j = none
        unfold put
        rw [if_neg (by omega)]
        exact hraw j (by omega) (by omega)
      · rintro _ w' ⟨t', rfl⟩
        refine ⟨t', ?_⟩
        have : (over (put w.cel b (d + k) (some x)) b (d + (k + 1)) n fun _ => some x) =
            over w.cel b (d + k) (n + 1) fun _ => some x := by
          funext q j
          by_cases h1 : q = b ∧ d + k ≤ j ∧ j < d + k + (n + 1)
          · unfold over
            rw [if_pos h1]
            by_cases h2 : j = d + k
            · rw [if_neg (by omega)]
              unfold put
              rw [if_pos ⟨h1.1, h2⟩]
            · rw [if_pos (by omega)]
          · rw [over_out (by omega), over_out (by omega)]
            unfold put
            rw [if_neg (by omega)]
        simp only [this]
      · rintro e w' ⟨he, t', rfl⟩
        refine ⟨he, t', ?_⟩
        have : (over (put w.cel b (d + k) (some x)) b d (k + 1) fun _ => none) = over w.cel b d k fun _ => none := by
          funext q j
          unfold over put
          by_cases h1 : q = b ∧ d ≤ j ∧ j < d + k
          · rw [if_pos (by omega), if_pos h1]
          · rw [if_neg h1]
            by_cases h2 : q = b ∧ j = d + k
            · rw [if_pos (by omega), h2.1, h2.2, hraw _ (by omega) (by omega)]
            · rw [if_neg (by omega), if_neg h2]
        simp only [this]
    · intro t
      refine (sat_destroyRange k d (w := { w with tape := t }) hM (by omega) hold).mono ?_ fun _ _ h => h
      rintro _ w' rfl
      exact ⟨rfl, t, rfl⟩

theorem sat_uninitFill {o : Nat} {src : Src α} {x : α} {n b d M : Nat} {w : W α} (hs : SrcVal w o src x) (hM : w.caps b = some M)
    (hdM : d + n ≤ M) (hraw : ∀ j, d ≤ j → j < d + n → w.cel b j = none) :
    Sat (uninitFill o src n b d) w (fun _ w' => ∃ t, w' = { w with cel := over w.cel b d n fun _ => some x, tape := t })
      (fun e w' => e = .user ∧ ∃ t, w' = { w with tape := t }) := by
  refine (sat_uninitFillFrom (b := b) (d := d) n 0 hs hM (by omega) (by intro j h1 h2; omega) (by simpa using hraw)).mono (fun _ _ h => h) ?_
  rintro e w' ⟨he, t, rfl⟩
  refine ⟨he, t, ?_⟩
  have : (over w.cel b d 0 fun _ => none) = w.cel := by
    funext q j
    exact over_out (by omega)
  rw [this]

/-! Assignments. -/

/-- Move assignment to lower places. -/
theorem sat_moveFwd {P : Par α} {b N : Nat} : ∀ (n s d : Nat) {w : W α}, w.caps b = some N → s + n ≤ N → d < s →
    (∀ j, d ≤ j → j < s + n → (w.cel b j).isSome) →
    Sat (moveFwd P b s d n) w
      (fun _ w' => ∃ t C, w' = { w with cel := C, tape := t } ∧ Ruin w.cel C b d (s + n - d) ∧ ∀ j, j < n → C b (d + j) = w.cel b (s + j))
      (fun e w' => e = .user ∧ P.nma = false ∧ ∃ t C, w' = { w with cel := C, tape := t } ∧ Ruin w.cel C b d (s + n - d))
  | 0, s, d, w, _, _, hd, hsome => by
    refine Sat.pure' ⟨w.tape, w.cel, rfl, ⟨?_, fun q j _ => rfl⟩, by intro j hj; omega⟩
    intro j h1 h2
    exact hsome j h1 (by omega)
  | n + 1, s, d, w, hN, hsN, hd, hsome => by
    unfold moveFwd
    obtain ⟨x, hx⟩ := Option.isSome_iff_exists.1 (hsome s (by omega) (by omega))
    obtain ⟨y, hy⟩ := Option.isSome_iff_exists.1 (hsome d (by omega) (by omega))
    refine Sat.bind (Sat.moveA hN (by omega) hy hN (by omega) hx ?_ ?_)
    · intro t
      have key : ∀ q j, put (put w.cel b d (some x)) b s (some (P.mv x)) q j =
          if q = b ∧ j = s then some (P.mv x) else if q = b ∧ j = d then some x else w.cel q j := fun q j => rfl
      refine (sat_moveFwd n (s + 1) (d + 1) (w := { w with cel := put (put w.cel b d (some x)) b s (some (P.mv x)), tape := t }) hN
        (by omega) (by omega) ?_).mono ?_ ?_
      · intro j h1 h2
        dsimp only
        rw [key]
        split
        · rfl
        · split
          · rfl
          · exact hsome j (by omega) (by omega)
      · rintro _ w' ⟨t', C, rfl, ⟨hr1, hr2⟩, hC⟩
        simp only at hr1 hr2 hC
        refine ⟨t', C, rfl, ⟨?_, ?_⟩, ?_⟩
        · intro j h1 h2
          by_cases h3 : j = d
          · rw [hr2 b j (by omega), key, if_neg (by omega), if_pos ⟨rfl, h3⟩]
            rfl
          · exact hr1 j (by omega) (by omega)
        · intro q j h
          rw [hr2 q j (by omega), key, if_neg (by omega), if_neg (by omega)]
        · intro j hj
          cases j with
          | zero =>
            rw [Nat.add_zero, Nat.add_zero, hr2 b d (by omega), key, if_neg (by omega), if_pos ⟨rfl, rfl⟩, hx]
          | succ j =>
            rw [show d + (j + 1) = d + 1 + j by omega, hC j (by omega), key, if_neg (by omega), if_neg (by omega)]
            congr 1
            omega
      · rintro e w' ⟨he, hn, t', C, rfl, hr1, hr2⟩
        simp only at hr1 hr2
        refine ⟨he, hn, t', C, rfl, ?_, ?_⟩
        · intro j h1 h2
          by_cases h3 : j = d
          · rw [hr2 b j (by omega), key, if_neg (by omega), if_pos ⟨rfl, h3⟩]
            rfl
          · exact hr1 j (by omega) (by omega)
        · intro q j h
          rw [hr2 q j (by omega), key, if_neg (by omega), if_neg (by omega)]
    · intro t hn
      refine ⟨rfl, hn, t, _, rfl, ?_, ?_⟩
      · intro j h1 h2
        unfold put
        split
        · rfl
        · split
          · rfl
          · exact hsome j (by omega) (by omega)
      · intro q j h
        unfold put
        rw [if_neg (by omega), if_neg (by omega)]

/-- Move assignment to higher places. -/
theorem sat_moveBwd {P : Par α} {b s d N : Nat} (hd : s < d) : ∀ (n : Nat) {w : W α}, w.caps b = some N → d + n ≤ N →
    (∀ j, s ≤ j → j < d + n → (w.cel b j).isSome) →
    Sat (moveBwd P b s d n) w
      (fun _ w' => ∃ t C, w' = { w with cel := C, tape := t } ∧ Ruin w.cel C b s (d + n - s) ∧ ∀ j, j < n → C b (d + j) = w.cel b (s + j))
      (fun e w' => e = .user ∧ P.nma = false ∧ ∃ t C, w' = { w with cel := C, tape := t } ∧ Ruin w.cel C b s (d + n - s))
  | 0, w, _, _, hsome => by
    refine Sat.pure' ⟨w.tape, w.cel, rfl, ⟨?_, fun q j _ => rfl⟩, by intro j hj; omega⟩
    intro j h1 h2
    exact hsome j h1 (by omega)
  | n + 1, w, hN, hsN, hsome => by
    unfold moveBwd
    obtain ⟨x, hx⟩ := Option.isSome_iff_exists.1 (hsome (s + n) (by omega) (by omega))
    obtain ⟨y, hy⟩ := Option.isSome_iff_exists.1 (hsome (d + n) (by omega) (by omega))
    refine Sat.bind (Sat.moveA hN (by omega) hy hN (by omega) hx ?_ ?_)
    · intro t
      have key : ∀ q j, put (put w.cel b (d + n) (some x)) b (s + n) (some (P.mv x)) q j =
          if q = b ∧ j = s + n then some (P.mv x) else if q = b ∧ j = d + n then some x else w.cel q j := fun q j => rfl
      refine (sat_moveBwd hd n (w := { w with cel := put (put w.cel b (d + n) (some x)) b (s + n) (some (P.mv x)), tape := t }) hN
        (by omega) ?_).mono ?_ ?_
      · intro j h1 h2
        dsimp only
        rw [key]
        split
        · rfl
        · split
          · rfl
          · exact hsome j (by omega) (by omega)
      · rintro _ w' ⟨t', C, rfl, ⟨hr1, hr2⟩, hC⟩
        simp only at hr1 hr2 hC
        refine ⟨t', C, rfl, ⟨?_, ?_⟩, ?_⟩
        · intro j h1 h2
          by_cases h3 : j = d + n
          · rw [hr2 b j (by omega), key, if_neg (by omega), if_pos ⟨rfl, h3⟩]
            rfl
          · exact hr1 j (by omega) (by omega)
        · intro q j h
          rw [hr2 q j (by omega), key, if_neg (by omega), if_neg (by omega)]
        · intro j hj
          by_cases h3 : j = n
          · rw [h3, hr2 b (d + n) (by omega), key, if_neg (by omega), if_pos ⟨rfl, rfl⟩, hx]
          · rw [hC j (by omega), key, if_neg (by omega), if_neg (by omega)]
      · rintro e w' ⟨he, hn, t', C, rfl, hr1, hr2⟩
        simp only at hr1 hr2
        refine ⟨he, hn, t', C, rfl, ?_, ?_⟩
        · intro j h1 h2
          by_cases h3 : j = d + n
          · rw [hr2 b j (by omega), key, if_neg (by omega), if_pos ⟨rfl, h3⟩]
            rfl
          · exact hr1 j (by omega) (by omega)
        · intro q j h
          rw [hr2 q j (by omega), key, if_neg (by omega), if_neg (by omega)]
    · intro t hn
      refine ⟨rfl, hn, t, _, rfl, ?_, ?_⟩
      · intro j h1 h2
        unfold put
        split
        · rfl
        · split
          · rfl
          · exact hsome j (by omega) (by omega)
      · intro q j h
        unfold put
        rw [if_neg (by omega), if_neg (by omega)]

theorem sat_copyList {P : Par α} {b N : Nat} : ∀ (xs : List α) (i : Nat) {w : W α}, w.caps b = some N → i + xs.length ≤ N →
    (∀ j, i ≤ j → j < i + xs.length → (w.cel b j).isSome) →
    Sat (copyList P b i xs) w (fun _ w' => ∃ t, w' = { w with cel := over w.cel b i xs.length fun j => xs[j]?, tape := t })
      (fun e w' => e = .user ∧ ∃ t C, w' = { w with cel := C, tape := t } ∧ Ruin w.cel C b i xs.length)
  | [], i, w, _, _, _ => by
    refine Sat.pure' ⟨w.tape, ?_⟩
    have : (over w.cel b i ([] : List α).length fun j => ([] : List α)[j]?) = w.cel := by
      funext q j
      exact over_out (by simp; omega)
    rw [this]
  | x :: xs, i, w, hN, hi, hsome => by
    simp only [List.length_cons] at *
    unfold copyList
    obtain ⟨y, hy⟩ := Option.isSome_iff_exists.1 (hsome i (by omega) (by omega))
    refine Sat.bind (Sat.copyA hN (by omega) hy ?_ ?_)
    · intro t
      refine (sat_copyList xs (i + 1) (w := { w with cel := put w.cel b i (some x), tape := t }) hN (by omega) ?_).mono ?_ ?_
      · intro j h1 h2
        show (put w.cel b i (some x) b j).isSome
        unfold put
        rw [if_neg (by omega)]
        exact hsome j (by omega) (by omega)
      · rintro _ w' ⟨t', rfl⟩
        refine ⟨t', ?_⟩
        have : (over (put w.cel b i (some x)) b (i + 1) xs.length fun j => xs[j]?) =
            over w.cel b i (xs.length + 1) fun j => (x :: xs)[j]? := by
          funext q j
          by_cases h1 : q = b ∧ i ≤ j ∧ j < i + (xs.length + 1)
          · unfold over
            rw [if_pos h1]
            by_cases h2 : j = i
            · rw [if_neg (by omega)]
              unfold put
              rw [if_pos ⟨h1.1, h2⟩, h2, Nat.sub_self]
              rfl
            · rw [if_pos (by omega), show j - i = (j - (i + 1)) + 1 by omega]
              exact List.getElem?_cons_succ.symm
          · rw [over_out (by omega), over_out (by omega)]
            unfold put
            rw [if_neg (by omega)]
        simp only [this]
      · rintro e w' ⟨he, t', C, rfl, hr1, hr2⟩
        simp only at hr1 hr2
        refine ⟨he, t', C, rfl, ?_, ?_⟩
        · intro j h1 h2
          by_cases h3 : j = i
          · rw [hr2 b j (by omega)]
            unfold put
            rw [if_pos ⟨rfl, h3⟩]
            rfl
          · exact hr1 j (by omega) (by omega)
        · intro q j h
          rw [hr2 q j (by omega)]
          unfold put
          rw [if_neg (by omega)]
    · intro t
      refine ⟨rfl, t, _, rfl, ?_, ?_⟩
      · intro j h1 h2
        unfold put
        split
        · rfl
        · exact hsome j (by omega) (by omega)
      · intro q j h
        unfold put
        rw [if_neg (by omega)]

/-- `fill` is the assignment of a range of equal elements. -/
theorem fill_eq {P : Par α} {b : Nat} {x : α} : ∀ (n i : Nat), fill P b x i n = copyList P b i (List.replicate n x)
  | 0, _ => rfl
  | n + 1, i => by
    rw [List.replicate_succ]
    unfold fill copyList
    rw [fill_eq n (i + 1)]

theorem sat_fill {P : Par α} {b N : Nat} {x : α} {n i : Nat} {w : W α} (hN : w.caps b = some N) (hi : i + n ≤ N)
    (hsome : ∀ j, i ≤ j → j < i + n → (w.cel b j).isSome) :
    Sat (fill P b x i n) w (fun _ w' => ∃ t, w' = { w with cel := over w.cel b i n fun _ => some x, tape := t })
      (fun e w' => e = .user ∧ ∃ t C, w' = { w with cel := C, tape := t } ∧ Ruin w.cel C b i n) := by
  rw [fill_eq]
  refine (sat_copyList (List.replicate n x) i hN (by simpa using hi) (by simpa using hsome)).mono ?_ ?_
  · rintro _ w' ⟨t, rfl⟩
    refine ⟨t, ?_⟩
    have : (over w.cel b i (List.replicate n x).length fun j => (List.replicate n x)[j]?) = over w.cel b i n fun _ => some x := by
      funext q j
      unfold over
      rw [List.length_replicate]
      by_cases h : q = b ∧ i ≤ j ∧ j < i + n
      · rw [if_pos h, if_pos h]
        dsimp only
        rw [List.getElem?_replicate, if_pos (by omega)]
      · rw [if_neg h, if_neg h]
    rw [this]
  · rintro e w' ⟨he, t, C, rfl, h⟩
    rw [List.length_replicate] at h
    exact ⟨he, t, C, rfl, h⟩

theorem sat_rotate {P : Par α} {b s m n : Nat} {w : W α} (hsome : ∀ j, s ≤ j → j < s + n → (w.cel b j).isSome) :
    Sat (rotate P b s m n) w (fun _ w' => ∃ t, w' = { w with cel := rotated w.cel b s m n, tape := t })
      (fun e w' => e = .user ∧ ¬(P.nmc = true ∧ P.nma = true) ∧ ∃ t C, w' = { w with cel := C, tape := t } ∧ Ruin w.cel C b s n) := by
  unfold rotate
  refine Sat.tick fun c t hc => Sat.ite (fun hc' => ?_) fun _ => ?_
  · refine Sat.bind ?_
    refine ⟨rfl, ?_, t, _, rfl, ?_, ?_⟩
    · have := hc hc'
      simp only [Bool.not_eq_true', Bool.and_eq_false_iff] at this
      intro hh
      rcases this with h | h
      · rw [hh.1] at h
        cases h
      · rw [hh.2] at h
        cases h
    · intro j h1 h2
      unfold ruined
      dsimp only
      rw [if_pos ⟨rfl, h1, h2⟩, Option.isSome_map]
      exact hsome j h1 h2
    · intro q j h
      unfold ruined
      dsimp only
      rw [if_neg (by omega)]
  · exact ⟨t, rfl⟩

/-! The same, for ranges that may be empty ranges of the null pointer. -/

theorem moved_zero {P : Par α} {C : Nat → Nat → Option α} {c s b d : Nat} : moved P C c s b d 0 = C := by
  funext q j
  unfold moved
  rw [if_neg (by omega), if_neg (by omega)]

theorem over_zero {C : Nat → Nat → Option α} {b i : Nat} {f : Nat → Option α} : over C b i 0 f = C := by
  funext q j
  exact over_out (by omega)

theorem sat_destroyRange0 {b N n i : Nat} {w : W α} {E : Exc → W α → Prop} (hN : 0 < n → w.caps b = some N) (hi : 0 < n → i + n ≤ N)
    (hs : ∀ j, i ≤ j → j < i + n → (w.cel b j).isSome) :
    Sat (destroyRange b i n) w (fun _ w' => w' = { w with cel := over w.cel b i n fun _ => none }) E := by
  rcases Nat.eq_zero_or_pos n with h | h
  · subst h
    refine Sat.pure' ?_
    rw [over_zero]
  · exact sat_destroyRange n i (hN h) (hi h) hs

theorem sat_uninitMove0 {P : Par α} {c s n b d N M : Nat} {w : W α} (hN : 0 < n → w.caps c = some N) (hsN : 0 < n → s + n ≤ N)
    (hM : w.caps b = some M) (hdM : d + n ≤ M) (hdis : c ≠ b ∨ s + n ≤ d ∨ d + n ≤ s) (hsrc : ∀ j, s ≤ j → j < s + n → (w.cel c j).isSome)
    (hraw : ∀ j, d ≤ j → j < d + n → w.cel b j = none) :
    Sat (uninitMove P c s n b d) w (fun _ w' => ∃ t, w' = { w with cel := moved P w.cel c s b d n, tape := t })
      (fun e w' => e = .user ∧ P.nmc = false ∧ ∃ t C, w' = { w with cel := C, tape := t } ∧ Ruin w.cel C c s n) := by
  rcases Nat.eq_zero_or_pos n with h | h
  · subst h
    refine Sat.pure' ⟨w.tape, ?_⟩
    rw [moved_zero]
  · exact sat_uninitMove (hN h) (hsN h) hM hdM hdis hsrc hraw

theorem sat_uninitCopy0 {c s n b d N M : Nat} {w : W α} (hN : 0 < n → w.caps c = some N) (hsN : 0 < n → s + n ≤ N) (hM : w.caps b = some M)
    (hdM : d + n ≤ M) (hdis : c ≠ b) (hsrc : ∀ j, s ≤ j → j < s + n → (w.cel c j).isSome)
    (hraw : ∀ j, d ≤ j → j < d + n → w.cel b j = none) :
    Sat (uninitCopy c s n b d) w (fun _ w' => ∃ t, w' = { w with cel := over w.cel b d n fun j => w.cel c (s + j), tape := t })
      (fun e w' => e = .user ∧ ∃ t, w' = { w with tape := t }) := by
  rcases Nat.eq_zero_or_pos n with h | h
  · subst h
    refine Sat.pure' ⟨w.tape, ?_⟩
    rw [over_zero]
  · exact sat_uninitCopy (hN h) (hsN h) hM hdM hdis hsrc hraw

theorem sat_copyList0 {P : Par α} {b N : Nat} {xs : List α} {i : Nat} {w : W α} (hN : 0 < xs.length → w.caps b = some N)
    (hi : 0 < xs.length → i + xs.length ≤ N) (hsome : ∀ j, i ≤ j → j < i + xs.length → (w.cel b j).isSome) :
    Sat (copyList P b i xs) w (fun _ w' => ∃ t, w' = { w with cel := over w.cel b i xs.length fun j => xs[j]?, tape := t })
      (fun e w' => e = .user ∧ ∃ t C, w' = { w with cel := C, tape := t } ∧ Ruin w.cel C b i xs.length) := by
  cases xs with
  | nil =>
    refine Sat.pure' ⟨w.tape, ?_⟩
    rw [show ([] : List α).length = 0 from rfl, over_zero]
  | cons x xs => exact sat_copyList _ i (hN (by simp)) (hi (by simp)) hsome

theorem sat_fill0 {P : Par α} {b N : Nat} {x : α} {n i : Nat} {w : W α} (hN : 0 < n → w.caps b = some N) (hi : 0 < n → i + n ≤ N)
    (hsome : ∀ j, i ≤ j → j < i + n → (w.cel b j).isSome) :
    Sat (fill P b x i n) w (fun _ w' => ∃ t, w' = { w with cel := over w.cel b i n fun _ => some x, tape := t })
      (fun e w' => e = .user ∧ ∃ t C, w' = { w with cel := C, tape := t } ∧ Ruin w.cel C b i n) := by
  rcases Nat.eq_zero_or_pos n with h | h
  · subst h
    refine Sat.pure' ⟨w.tape, ?_⟩
    rw [over_zero]
  · exact sat_fill (hN h) (hi h) hsome

end STL.Vec
