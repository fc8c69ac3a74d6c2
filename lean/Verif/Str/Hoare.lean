import Verif.Str.Spec

/-!
# Rules for the model of `basic_string`. Proofs only.
-/

namespace STL.Str
open STL

variable {α β γ : Type}

/-- `m` does not run into undefined behaviour; what holds afterwards. -/
def Sat (m : M α β) (w : W α) (Q : β → W α → Prop) (E : Exc → W α → Prop) : Prop :=
  match m w with
  | .ok b w' => Q b w'
  | .exc e w' => E e w'
  | .ub => False

theorem Sat.mono {m : M α β} {w : W α} {Q Q' : β → W α → Prop} {E E' : Exc → W α → Prop} (h : Sat m w Q E) (hQ : ∀ b w', Q b w' → Q' b w')
    (hE : ∀ e w', E e w' → E' e w') : Sat m w Q' E' := by
  unfold Sat at *
  cases hm : m w with
  | ok b w' => rw [hm] at h; exact hQ _ _ h
  | exc e w' => rw [hm] at h; exact hE _ _ h
  | ub => rw [hm] at h; exact h

section
variable {w : W α} {Q : β → W α → Prop} {E : Exc → W α → Prop}

theorem Sat.pure' {b : β} (h : Q b w) : Sat (pure b : M α β) w Q E := h

theorem Sat.bind {m : M α γ} {f : γ → M α β} (h : Sat m w (fun b w' => Sat (f b) w' Q E) E) : Sat (m >>= f) w Q E := by
  show Sat (M.bind m f) w Q E
  unfold Sat M.bind at *
  cases hm : m w with
  | ok b w' => rw [hm] at h; exact h
  | exc e w' => rw [hm] at h; exact h
  | ub => rw [hm] at h; exact h

/-- Sequencing with the postcondition of the first part given. -/
theorem Sat.then {m : M α γ} {f : γ → M α β} {E' : Exc → W α → Prop} {Q' : γ → W α → Prop}
    (h : Sat m w Q' E') (hE : ∀ e w', E' e w' → E e w') (hQ : ∀ b w', Q' b w' → Sat (f b) w' Q E) : Sat (m >>= f) w Q E :=
  Sat.bind (h.mono hQ hE)

theorem Sat.throw {e : Exc} (h : E e w) : Sat (throw e : M α β) w Q E := h

theorem Sat.get {k : Nat} {f : S → M α β} (h : Sat (f (w.ss k)) w Q E) : Sat (Str.get k >>= f) w Q E := Sat.bind h

theorem Sat.ite {c : Prop} [Decidable c] {a b : M α β} (h1 : c → Sat a w Q E) (h2 : ¬c → Sat b w Q E) : Sat (if c then a else b) w Q E := by
  split
  · exact h1 ‹_›
  · exact h2 ‹_›

theorem Sat.onExc {m : M α β} {d : M α Unit} (h : Sat m w Q (fun e w1 => Sat d w1 (fun _ w2 => E e w2) (fun _ _ => False))) :
    Sat (Str.onExc m d) w Q E := by
  unfold Sat Str.onExc at *
  cases hm : m w with
  | ok b w' => rw [hm] at h; exact h
  | ub => rw [hm] at h; exact h
  | exc e w' =>
    rw [hm] at h
    cases hd : d w' with
    | ok b w' => simp only [hd] at h ⊢; exact h
    | exc e w' => simp only [hd] at h
    | ub => simp only [hd] at h

end

/-! ## Memory -/

@[simp] theorem updF_same {γ : Type} (f : Nat → γ) (k : Nat) (x : γ) : updF f k x k = x := by simp [updF]
theorem updF_ne {γ : Type} (f : Nat → γ) {k m : Nat} (x : γ) (h : m ≠ k) : updF f k x m = f m := by simp [updF, h]
@[simp] theorem updE_same (f : Place → Option Nat) (p : Place) (x : Option Nat) : updE f p x p = x := by simp [updE]
theorem updE_ne (f : Place → Option Nat) {p q : Place} (x : Option Nat) (h : q ≠ p) : updE f p x q = f q := by simp [updE, h]
@[simp] theorem updF_updF {γ : Type} (f : Nat → γ) (k : Nat) (x y : γ) : updF (updF f k x) k y = updF f k y := by
  funext m
  simp only [updF]
  split <;> rfl

theorem blk_zero {c : Place → Nat → Option α} {p : Place} {i : Nat} {f : Nat → Option α} : blk c p i 0 f = c := by
  funext q j
  unfold blk
  rw [if_neg (by omega)]

theorem blk_ne {c : Place → Nat → Option α} {p q : Place} {i n : Nat} {f : Nat → Option α} (h : q ≠ p) : blk c p i n f q = c q := by
  funext j
  unfold blk
  rw [if_neg (by simp [h])]

theorem blk_at {c : Place → Nat → Option α} {p : Place} {i n j : Nat} {f : Nat → Option α} :
    blk c p i n f p j = if i ≤ j ∧ j < i + n then f (j - i) else c p j := by
  simp [blk]

/-- The range can be read. -/
def rdOk (w : W α) (q : Ptr α) (n : Nat) : Prop :=
  n = 0 ∨ match q with
    | .at p i => ∃ e, w.ext p = some e ∧ i + n ≤ e
    | .arr xs => n ≤ xs.length

/-- The characters a pointer points to. -/
def val (c : Place → Nat → Option α) : Ptr α → Nat → Option α
  | .at p i => fun j => c p (i + j)
  | .arr xs => fun j => xs[j]?

/-- The range can be written. -/
def wrOk (w : W α) (p : Place) (i n : Nat) : Prop := n = 0 ∨ ∃ e, w.ext p = some e ∧ i + n ≤ e

section
variable {w : W α} {E : Exc → W α → Prop}

theorem Sat.rdBlk {q : Ptr α} {n : Nat} {Q : (Nat → Option α) → W α → Prop} (h : rdOk w q n)
    (hQ : ∀ f, (∀ j, j < n → f j = val w.cel q j) → Q f w) : Sat (Str.rdBlk q n) w Q E := by
  unfold Sat Str.rdBlk
  rcases Nat.eq_zero_or_pos n with h0 | h0
  · rw [if_pos h0]
    exact hQ _ fun j hj => by omega
  · rw [if_neg (by omega)]
    have h : _ := h.resolve_left (by omega)
    cases q with
    | «at» p i =>
      obtain ⟨e, h1, h2⟩ := h
      simp only [h1, if_pos h2]
      exact hQ _ fun _ _ => rfl
    | arr xs =>
      simp only at h
      simp only [if_pos h]
      exact hQ _ fun _ _ => rfl

theorem Sat.wrBlk {p : Place} {i n : Nat} {f : Nat → Option α} {Q : Unit → W α → Prop} (h : wrOk w p i n)
    (hQ : Q () { w with cel := blk w.cel p i n f }) : Sat (Str.wrBlk p i n f) w Q E := by
  unfold Sat Str.wrBlk
  rcases Nat.eq_zero_or_pos n with h0 | h0
  · rw [if_pos h0]
    subst h0
    rw [blk_zero] at hQ
    exact hQ
  · rw [if_neg (by omega)]
    obtain ⟨e, h1, h2⟩ := h.resolve_left (by omega)
    simp only [h1, if_pos h2]
    exact hQ

theorem blk_congr {c : Place → Nat → Option α} {p : Place} {i n : Nat} {f g : Nat → Option α} (h : ∀ j, j < n → f j = g j) :
    blk c p i n f = blk c p i n g := by
  funext q j
  unfold blk
  split
  · exact h _ (by omega)
  · rfl

theorem Sat.move {p : Place} {i : Nat} {q : Ptr α} {n : Nat} {Q : Unit → W α → Prop} (hr : rdOk w q n) (hw : wrOk w p i n)
    (hQ : Q () { w with cel := blk w.cel p i n (val w.cel q) }) : Sat (Str.move p i q n) w Q E := by
  unfold Str.move
  refine Sat.bind (Sat.rdBlk hr fun f hf => Sat.wrBlk hw ?_)
  rw [blk_congr hf]
  exact hQ

theorem Sat.copy {p : Place} {i : Nat} {q : Ptr α} {n : Nat} {Q : Unit → W α → Prop} (ho : overlap p i q n = false) (hr : rdOk w q n)
    (hw : wrOk w p i n) (hQ : Q () { w with cel := blk w.cel p i n (val w.cel q) }) : Sat (Str.copy p i q n) w Q E := by
  unfold Str.copy
  rw [if_neg (by simp [ho])]
  exact Sat.move hr hw hQ

theorem Sat.fill {p : Place} {i n : Nat} {ch : α} {Q : Unit → W α → Prop} (hw : wrOk w p i n)
    (hQ : Q () { w with cel := blk w.cel p i n fun _ => some ch }) : Sat (Str.fill p i n ch) w Q E := Sat.wrBlk hw hQ

theorem Sat.set1 {p : Place} {i : Nat} {ch : α} {Q : Unit → W α → Prop} (hw : wrOk w p i 1)
    (hQ : Q () { w with cel := blk w.cel p i 1 fun _ => some ch }) : Sat (Str.set1 p i ch) w Q E := Sat.wrBlk hw hQ

theorem Sat.setSize {k n : Nat} {Q : Unit → W α → Prop} (hQ : Q () { w with ss := updF w.ss k { w.ss k with size := n } }) :
    Sat (Str.setSize k n) w Q E := hQ

theorem Sat.setRes {k n : Nat} {Q : Unit → W α → Prop} (hQ : Q () { w with ss := updF w.ss k { w.ss k with res := n } }) :
    Sat (Str.setRes k n) w Q E := hQ

theorem Sat.deallocate {b cap : Nat} {Q : Unit → W α → Prop} (h : w.ext (.heap b) = some (cap + 1))
    (hQ : Q () { w with ext := updE w.ext (.heap b) none }) : Sat (Str.deallocate b cap) w Q E := by
  unfold Sat Str.deallocate
  rw [if_pos h]
  exact hQ

theorem Sat.setPtr {k b : Nat} {Q : Unit → W α → Prop}
    (hQ : Q () { w with ss := updF w.ss k { w.ss k with ptr := some b }, ext := updE w.ext (.small k) none }) : Sat (Str.setPtr k b) w Q E := hQ

theorem Sat.switchToBuf {P : Par α} {k : Nat} {Q : Unit → W α → Prop}
    (hQ : Q () { w with ss := updF w.ss k { w.ss k with ptr := none }, ext := updE w.ext (.small k) (some (P.small + 1)),
                        cel := fun q j => if q = .small k then none else w.cel q j }) : Sat (Str.switchToBuf P k) w Q E := hQ

theorem Sat.bxPtr {k b : Nat} {Q : Nat → W α → Prop} (h : (w.ss k).ptr = some b) (hQ : Q b w) : Sat (Str.bxPtr k) w Q E := by
  unfold Str.bxPtr
  refine Sat.get ?_
  rw [h]
  exact hQ

/-- The place of the characters. -/
def atp (l : Option Nat) (k : Nat) : Place :=
  match l with
  | none => .small k
  | some b => .heap b

theorem Sat.myptr {P : Par α} {k : Nat} {Q : Place → W α → Prop} (h : (w.ss k).ptr = none ↔ (w.ss k).res ≤ P.small)
    (hQ : Q (atp (w.ss k).ptr k) w) : Sat (Str.myptr P k) w Q E := by
  unfold Str.myptr
  refine Sat.get ?_
  unfold large
  cases hp : (w.ss k).ptr with
  | none =>
    rw [hp] at hQ h
    have h := h.1 rfl
    rw [decide_eq_false (by omega)]
    exact hQ
  | some b =>
    rw [hp] at hQ h
    have h : ¬(w.ss k).res ≤ P.small := fun hh => by cases h.2 hh
    rw [decide_eq_true (by omega)]
    exact hQ

theorem Sat.allocate {P : Par α} {least : Bool} {cap : Nat} {Q : Nat × Nat → W α → Prop} (hn : cap ≤ P.max)
    (hQ : ∀ m a, cap ≤ m → m ≤ P.max → (least = false → m = cap) → Q (w.nxt, m)
      { w with ans := a, nxt := w.nxt + 1, ext := updE w.ext (.heap w.nxt) (some (m + 1)), cel := fun q j => if q = .heap w.nxt then none else w.cel q j })
    (hE : ∀ a, E .badAlloc { w with ans := a }) : Sat (Str.allocate P least cap) w Q E := by
  unfold Sat Str.allocate
  cases w.ans.headD (some 0) with
  | none => exact hE _
  | some k =>
    dsimp only
    split
    · next hk => exact hQ _ _ (by omega) hk.2 (fun hl => absurd hk.1 (by simp [hl]))
    · exact hQ _ _ (Nat.le_refl _) hn (fun _ => rfl)

end

theorem le_calcGrowth {P : Par α} {n old : Nat} (h : n ≤ P.max) : n ≤ calcGrowth P n old := by
  have := @Nat.left_le_or n P.mask
  unfold calcGrowth
  dsimp only
  split
  · omega
  · split <;> omega

theorem calcGrowth_le {P : Par α} {n old : Nat} (h : old ≤ P.max) : calcGrowth P n old ≤ P.max := by
  unfold calcGrowth
  dsimp only
  split
  · omega
  · split <;> omega

theorem grow_calcGrowth {P : Par α} {n old : Nat} : min P.max (old + old / 2) ≤ calcGrowth P n old := by
  unfold calcGrowth
  dsimp only
  split
  · omega
  · split <;> omega

/-! ## The invariant -/

def Ent.at (e : Ent α) (k : Nat) : Place := atp e.loc k

/-- The string `k` is represented. -/
structure Own (P : Par α) (w : W α) (k : Nat) (e : Ent α) : Prop where
  size : (w.ss k).size = e.X.length
  res : (w.ss k).res = e.cap
  ptr : (w.ss k).ptr = e.loc
  le : e.X.length ≤ e.cap
  small : P.small ≤ e.cap
  mx : e.cap ≤ P.max
  mode : e.loc = none ↔ e.cap ≤ P.small
  ext : w.ext (e.at k) = some (e.cap + 1)
  chr : ∀ i, i ≤ e.X.length → w.cel (e.at k) i = (e.X ++ [P.nul])[i]?

/-- All strings are represented, in different places, and there are no other allocations. -/
structure Inv (P : Par α) (w : W α) (s : St α) : Prop where
  own : ∀ k, Own P w k (s k)
  inj : ∀ k l b, (s k).loc = some b → (s l).loc = some b → k = l
  leak : ∀ b, w.ext (.heap b) ≠ none → ∃ k, (s k).loc = some b
  fresh : ∀ b, w.nxt ≤ b → w.ext (.heap b) = none

section
variable {P : Par α} {w w' : W α} {s : St α} {k l : Nat} {e' : Ent α}

theorem Inv.at_ne (I : Inv P w s) (h : k ≠ l) : (s k).at k ≠ (s l).at l := by
  unfold Ent.at atp
  cases h1 : (s k).loc <;> cases h2 : (s l).loc <;> simp
  · exact h
  · rintro rfl
    exact h (I.inj k l _ h1 h2)

theorem Inv.loc_lt (I : Inv P w s) {b : Nat} (h : (s k).loc = some b) : b < w.nxt := by
  have := (I.own k).ext
  unfold Ent.at atp at this
  rw [h] at this
  have h2 := I.fresh b
  simp only at this
  rw [this] at h2
  by_cases hh : w.nxt ≤ b
  · cases h2 hh
  · omega

theorem Inv.at_nxt (I : Inv P w s) : (s k).at k ≠ .heap w.nxt := by
  unfold Ent.at atp
  cases h : (s k).loc with
  | none => simp
  | some b =>
    have := I.loc_lt h
    simp only [ne_eq, Place.heap.injEq]
    omega

theorem Inv.mode' (I : Inv P w s) : (w.ss k).ptr = none ↔ (w.ss k).res ≤ P.small := by
  rw [(I.own k).ptr, (I.own k).res]
  exact (I.own k).mode

theorem Inv.at_eq (I : Inv P w s) : atp (w.ss k).ptr k = (s k).at k := by
  rw [(I.own k).ptr]
  rfl

theorem at_small (h : l ≠ k) : (s l).at l ≠ .small k := by
  unfold Ent.at atp
  cases (s l).loc <;> simp [h]

theorem Own.other (O : Own P w k e') (h1 : w'.ss k = w.ss k) (h2 : w'.ext (e'.at k) = w.ext (e'.at k)) (h3 : w'.cel (e'.at k) = w.cel (e'.at k)) :
    Own P w' k e' := by
  constructor
  · rw [h1, O.size]
  · rw [h1, O.res]
  · rw [h1, O.ptr]
  · exact O.le
  · exact O.small
  · exact O.mx
  · exact O.mode
  · rw [h2, O.ext]
  · rw [h3]
    exact O.chr

@[simp] theorem updS_same : updS s k e' k = e' := by simp [updS]
theorem updS_ne (h : l ≠ k) : updS s k e' l = s l := by simp [updS, h]
theorem updS_self : updS s k (s k) = s := by
  funext m
  unfold updS
  split
  · next h => rw [h]
  · rfl

/-- One string changes. -/
theorem Inv.upd (I : Inv P w s) (hss : ∀ m, m ≠ k → w'.ss m = w.ss m) (O : Own P w' k e')
    (hext : ∀ m, m ≠ k → w'.ext ((s m).at m) = w.ext ((s m).at m)) (hcel : ∀ m, m ≠ k → w'.cel ((s m).at m) = w.cel ((s m).at m))
    (hloc : e'.loc = (s k).loc ∨ e'.loc = none ∨ ∃ b, e'.loc = some b ∧ w.nxt ≤ b)
    (hleak : ∀ b, w'.ext (.heap b) ≠ none → e'.loc = some b ∨ (w.ext (.heap b) ≠ none ∧ (s k).loc ≠ some b))
    (hfresh : ∀ b, w'.nxt ≤ b → w'.ext (.heap b) = none) : Inv P w' (updS s k e') := by
  have key : ∀ m b, m ≠ k → (s m).loc = some b → e'.loc ≠ some b := by
    intro m b hm h h'
    rcases hloc with h1 | h1 | ⟨c, h1, h2⟩
    · rw [h1] at h'
      exact hm (I.inj m k b h h')
    · rw [h1] at h'
      cases h'
    · rw [h1] at h'
      cases h'
      have := I.loc_lt h
      omega
  constructor
  · intro m
    by_cases hm : m = k
    · rw [hm, updS_same]
      exact O
    · rw [updS_ne hm]
      exact (I.own m).other (hss m hm) (hext m hm) (hcel m hm)
  · intro a c b h1 h2
    by_cases ha : a = k
    · by_cases hc : c = k
      · rw [ha, hc]
      · rw [updS_ne hc] at h2
        rw [ha, updS_same] at h1
        exact absurd h1 (key c b hc h2)
    · rw [updS_ne ha] at h1
      by_cases hc : c = k
      · rw [hc, updS_same] at h2
        exact absurd h2 (key a b ha h1)
      · rw [updS_ne hc] at h2
        exact I.inj a c b h1 h2
  · intro b hb
    rcases hleak b hb with h | ⟨h1, h2⟩
    · exact ⟨k, by rw [updS_same]; exact h⟩
    · obtain ⟨m, hm⟩ := I.leak b h1
      refine ⟨m, ?_⟩
      rw [updS_ne]
      · exact hm
      · rintro rfl
        exact h2 hm
  · exact hfresh

/-- The allocator's answers do not matter. -/
theorem Inv.ans (I : Inv P w s) {a : List (Option Nat)} : Inv P { w with ans := a } s :=
  ⟨fun k => (I.own k).other rfl rfl rfl, I.inj, I.leak, I.fresh⟩

/-- The characters are changed in place. -/
theorem Inv.inPlace (I : Inv P w s) {Y : List α} {C : Place → Nat → Option α} (hY : Y.length ≤ (s k).cap)
    (hC : ∀ q, q ≠ (s k).at k → C q = w.cel q) (hc : ∀ i, i ≤ Y.length → C ((s k).at k) i = (Y ++ [P.nul])[i]?) :
    Inv P { w with ss := updF w.ss k { w.ss k with size := Y.length }, cel := C } (updS s k ⟨Y, (s k).cap, (s k).loc⟩) := by
  have O := I.own k
  refine I.upd (fun m hm => updF_ne _ _ hm) ⟨?_, ?_, ?_, hY, O.small, O.mx, O.mode, O.ext, hc⟩ (fun _ _ => rfl) ?_ (Or.inl rfl) ?_ I.fresh
  · simp
  · simp [O.res]
  · simp [O.ptr]
  · intro m hm
    exact hC _ (I.at_ne hm)
  · intro b hb
    by_cases h : (s k).loc = some b
    · exact Or.inl h
    · exact Or.inr ⟨hb, h⟩

end

end STL.Str
