import Verif.Variant.Spec

/-! # Rules for the model of `variant`. Proofs only. -/

namespace STL.Var
open STL

variable {V β γ : Type} {P : Par V}

/-- The state of a cell, also in the middle of an operation. -/
inductive Gh (V : Type) where
  | absent
  | vless
  | built (i : Nat) (x : V)
  | has (i : Nat) (x : V)

abbrev Gs (V : Type) := Nm → Gh V

/-- A cell is in a state; `plain` is for the temporary that is not a variant. -/
def RC (P : Par V) (plain : Bool) (c : Cell V) : Gh V → Prop
  | .absent => c.live = false ∧ c.obj = none ∧ c.made = c.gone
  | .vless => plain = false ∧ c.live = true ∧ c.which = -1 ∧ (∀ j y, c.obj = some (j, y) → P.td j = true) ∧ c.made = c.gone
  | .built i x => c.live = (!plain) ∧ (plain = false → c.which = -1) ∧ i < P.n ∧ c.obj = some (i, x) ∧ c.made = c.gone + if P.td i then 0 else 1
  | .has i x => plain = false ∧ c.live = true ∧ c.which = i ∧ i < P.n ∧ c.obj = some (i, x) ∧ c.made = c.gone + if P.td i then 0 else 1

def isT : Nm → Bool
  | .t => true
  | _ => false

def Rw (P : Par V) (w : W V) (g : Gs V) : Prop := ∀ k, RC P (isT k) (w.cell k) (g k)

/-- From the states `g` the computation is not undefined, and ends in states where `Q` or, with an exception, `E` holds. -/
def Does (P : Par V) (m : M V β) (g : Gs V) (Q : β → Gs V → Prop) (E : Exc → Gs V → Prop) : Prop :=
  ∀ w, Rw P w g → match m w with
    | .ok b w' => ∃ g', Rw P w' g' ∧ Q b g'
    | .exc e w' => ∃ g', Rw P w' g' ∧ E e g'
    | .ub => False

@[simp] theorem upd_same (f : Nm → γ) (k : Nm) (x : γ) : upd f k x k = x := by simp [upd]
theorem upd_ne (f : Nm → γ) {k m : Nm} (x : γ) (h : m ≠ k) : upd f k x m = f m := by simp [upd, h]
@[simp] theorem upd_upd (f : Nm → γ) (k : Nm) (x y : γ) : upd (upd f k x) k y = upd f k y := by
  funext m
  simp only [upd]
  split <;> rfl
theorem upd_comm (f : Nm → γ) {k l : Nm} (x y : γ) (h : k ≠ l) : upd (upd f k x) l y = upd (upd f l y) k x := by
  funext m
  simp only [upd]
  split <;> split <;> simp_all
theorem upd_self (f : Nm → γ) (k : Nm) (x : γ) (h : f k = x) : upd f k x = f := by
  funext m
  simp only [upd]
  split <;> simp_all

theorem Rw.upd {w : W V} {g : Gs V} (h : Rw P w g) {k : Nm} {c : Cell V} {a : Gh V} (hc : RC P (isT k) c a) (tape : List (Option (V × V))) :
    Rw P ⟨upd w.cell k c, tape⟩ (upd g k a) := by
  intro m
  by_cases hm : m = k
  · subst hm
    simp only [upd_same]
    exact hc
  · simp only [upd_ne _ _ hm]
    exact h m

section
variable {g : Gs V} {Q : β → Gs V → Prop} {E : Exc → Gs V → Prop}

theorem Does.mono {m : M V β} {Q' : β → Gs V → Prop} {E' : Exc → Gs V → Prop} (h : Does P m g Q E) (hQ : ∀ b g', Q b g' → Q' b g')
    (hE : ∀ e g', E e g' → E' e g') : Does P m g Q' E' := by
  intro w hw
  have := h w hw
  cases hm : m w with
  | ok b w' => rw [hm] at this; obtain ⟨g', h1, h2⟩ := this; exact ⟨g', h1, hQ _ _ h2⟩
  | exc e w' => rw [hm] at this; obtain ⟨g', h1, h2⟩ := this; exact ⟨g', h1, hE _ _ h2⟩
  | ub => rw [hm] at this; exact this

theorem Does.of_ok {m : M V β} (h : ∀ w, Rw P w g → ∃ b w' g', m w = .ok b w' ∧ Rw P w' g' ∧ Q b g') : Does P m g Q E := by
  intro w hw
  obtain ⟨b, w', g', h1, h2⟩ := h w hw
  rw [h1]
  exact ⟨g', h2⟩

theorem Does.pure {b : β} (h : Q b g) : Does P (pure b : M V β) g Q E := fun _ hw => ⟨g, hw, h⟩
theorem Does.throw {e : Exc} (h : E e g) : Does P (throw e : M V β) g Q E := fun _ hw => ⟨g, hw, h⟩

theorem Does.bind {m : M V γ} {f : γ → M V β} (h : Does P m g (fun b g' => Does P (f b) g' Q E) E) : Does P (m >>= f) g Q E := by
  intro w hw
  have h := h w hw
  show match M.bind m f w with | .ok b w' => _ | .exc e w' => _ | .ub => _
  unfold M.bind
  cases hm : m w with
  | ok b w' => rw [hm] at h; obtain ⟨g', h1, h2⟩ := h; exact h2 w' h1
  | exc e w' => rw [hm] at h; exact h
  | ub => rw [hm] at h; exact h

theorem Does.onExc {m : M V β} {d : M V Unit} (h : Does P m g Q fun e g' => Does P d g' (fun _ g'' => E e g'') fun _ _ => False) :
    Does P (Var.onExc m d) g Q E := by
  intro w hw
  have h := h w hw
  unfold Var.onExc
  cases hm : m w with
  | ok b w' => rw [hm] at h; exact h
  | ub => rw [hm] at h; exact h
  | exc e w' =>
    rw [hm] at h
    obtain ⟨g', h1, h2⟩ := h
    have h3 := h2 w' h1
    dsimp only
    cases hd : d w' with
    | ok b w2 => rw [hd] at h3; exact h3
    | exc e w2 => rw [hd] at h3; obtain ⟨_, _, h4⟩ := h3; exact h4.elim
    | ub => rw [hd] at h3; exact h3

/-- The tape may answer either way. -/
theorem Does.ask {nt : Bool} {f : Option (V × V) → M V β} (h1 : Does P (f none) g Q E) (h2 : nt = false → ∀ a b, Does P (f (some (a, b))) g Q E) :
    Does P (Var.ask nt >>= f) g Q E := by
  refine Does.bind fun w hw => ?_
  unfold Var.ask
  cases nt with
  | true => exact ⟨g, hw, h1⟩
  | false =>
    rw [if_neg (by simp)]
    cases ht : w.tape with
    | nil => exact ⟨g, hw, h1⟩
    | cons r l =>
      refine ⟨g, hw, ?_⟩
      cases r with
      | none => exact h1
      | some p => exact h2 rfl _ _

/-! ## Objects -/

/-- The states in which there is an object of an alternative. -/
def Obj (C : Nat → V → Gh V) : Prop := C = Gh.has ∨ C = Gh.built

theorem Obj.has : Obj (Gh.has (V := V)) := .inl rfl
theorem Obj.built : Obj (Gh.built (V := V)) := .inr rfl

theorem Obj.get {C : Nat → V → Gh V} (hC : Obj C) {b : Bool} {c : Cell V} {i : Nat} {x : V} (h : RC P b c (C i x)) : c.obj = some (i, x) := by
  rcases hC with rfl | rfl
  · exact h.2.2.2.2.1
  · exact h.2.2.2.1

theorem Obj.lt {C : Nat → V → Gh V} (hC : Obj C) {b : Bool} {c : Cell V} {i : Nat} {x : V} (h : RC P b c (C i x)) : i < P.n := by
  rcases hC with rfl | rfl
  · exact h.2.2.2.1
  · exact h.2.2.1

theorem Does.rawGet {C : Nat → V → Gh V} (hC : Obj C) {k : Nm} {i : Nat} {x : V} {f : V → M V β} (hk : g k = C i x)
    (h : Does P (f x) g Q E) : Does P (Var.rawGet k i >>= f) g Q E := by
  refine Does.bind fun w hw => ?_
  have h1 := hw k
  rw [hk] at h1
  unfold Var.rawGet
  rw [hC.get h1]
  simp only [if_pos]
  exact ⟨g, hw, h⟩

theorem Does.setObj {C : Nat → V → Gh V} (hC : Obj C) {k : Nm} {i : Nat} {x y : V} {E : Exc → Gs V → Prop} {Q : Unit → Gs V → Prop} (hk : g k = C i x)
    (h : Q () (upd g k (C i y))) : Does P (Var.setObj k i y) g Q E := by
  unfold Var.setObj
  refine Does.rawGet hC hk fun w hw => ⟨upd g k (C i y), ?_, h⟩
  refine hw.upd ?_ _
  have h1 := hw k
  rw [hk] at h1
  rcases hC with rfl | rfl
  · obtain ⟨h1, h2, h3, h4, h5, h6⟩ := h1
    exact ⟨h1, h2, h3, h4, rfl, h6⟩
  · obtain ⟨h1, h2, h3, h4, h5⟩ := h1
    exact ⟨h1, h2, h3, rfl, h5⟩

/-- The states in which an object can be built. -/
def Free (g : Gs V) (k : Nm) : Prop := (k = .t ∧ g k = .absent) ∨ (k ≠ .t ∧ g k = .vless)

theorem isT_eq {k : Nm} : isT k = true ↔ k = .t := by cases k <;> simp [isT]
theorem isT_ne {k : Nm} (h : k ≠ .t) : isT k = false := by cases k <;> simp_all [isT]

theorem Does.clearObj {k : Nm} {f : Unit → M V β} (hk : Free g k) (h : Does P (f ()) g Q E) : Does P (Var.clearObj P k >>= f) g Q E := by
  refine Does.bind fun w hw => ?_
  have h1 := hw k
  unfold Var.clearObj
  rcases hk with ⟨rfl, hk⟩ | ⟨h2, hk⟩
  · rw [hk] at h1
    rw [h1.2.1]
    exact ⟨g, hw, h⟩
  · rw [hk] at h1
    obtain ⟨h3, h4, h5, h6, h7⟩ := h1
    cases ho : (w.cell k).obj with
    | none => exact ⟨g, hw, h⟩
    | some p =>
      obtain ⟨j, y⟩ := p
      simp only [h6 j y ho, if_pos, setC]
      refine ⟨g, ?_, h⟩
      have := hw.upd (k := k) (c := { w.cell k with obj := none }) (a := .vless) ⟨h3, h4, h5, by simp, h7⟩ w.tape
      rwa [upd_self _ _ _ hk] at this

theorem Does.birth {k : Nm} {i : Nat} {x : V} {E : Exc → Gs V → Prop} {Q : Unit → Gs V → Prop} (hi : i < P.n) (hk : Free g k)
    (h : Q () (upd g k (.built i x))) : Does P (Var.birth P k i x) g Q E := by
  unfold Var.birth
  rw [if_pos hi]
  intro w hw
  refine ⟨_, hw.upd (a := .built i x) ?_ _, h⟩
  have h1 := hw k
  rcases hk with ⟨rfl, hk⟩ | ⟨h2, hk⟩
  · rw [hk] at h1
    obtain ⟨h3, h4, h5⟩ := h1
    refine ⟨h3, by simp [isT], hi, rfl, ?_⟩
    dsimp only
    rw [h5]
  · rw [hk] at h1
    obtain ⟨h3, h4, h5, h6, h7⟩ := h1
    refine ⟨by rw [h3]; exact h4, fun _ => h5, hi, rfl, ?_⟩
    dsimp only
    rw [h7]

theorem Does.ctorArg {k : Nm} {i : Nat} {x : V} {nt : Bool} {E : Exc → Gs V → Prop} {Q : Unit → Gs V → Prop} (hi : i < P.n) (hk : Free g k)
    (h : Q () (upd g k (.built i x))) (hE : nt = false → E .user g) : Does P (Var.ctorArg P k i x nt) g Q E := by
  unfold Var.ctorArg
  refine Does.clearObj hk (Does.ask (Does.birth hi hk h) fun h1 a b => Does.throw (hE h1))

theorem Free.ne {k l : Nm} {C : Nat → V → Gh V} (hC : Obj C) {i : Nat} {x : V} (hk : Free g k) (hl : g l = C i x) : l ≠ k := by
  rintro rfl
  rcases hk with ⟨_, h⟩ | ⟨_, h⟩ <;> rw [hl] at h <;> rcases hC with rfl | rfl <;> cases h

theorem Does.lt {C : Nat → V → Gh V} (hC : Obj C) {l : Nm} {i : Nat} {x : V} (hl : g l = C i x) {m : M V β} (h : i < P.n → Does P m g Q E) :
    Does P m g Q E := by
  intro w hw
  have h1 := hw l
  rw [hl] at h1
  exact h (hC.lt h1) w hw

theorem Does.ctorCopy {C : Nat → V → Gh V} (hC : Obj C) {k l : Nm} {i : Nat} {x : V} {E : Exc → Gs V → Prop} {Q : Unit → Gs V → Prop}
    (hk : Free g k) (hl : g l = C i x) (h : Q () (upd g k (.built i x))) (hE : P.ncc i = false → E .user g) :
    Does P (Var.ctorCopy P k l i) g Q E := by
  refine Does.lt hC hl fun hi => ?_
  unfold Var.ctorCopy
  exact Does.clearObj hk (Does.rawGet hC hl (Does.ask (Does.birth hi hk h) fun h1 a b => Does.throw (hE h1)))

theorem Does.ctorMove {C : Nat → V → Gh V} (hC : Obj C) {k l : Nm} {i : Nat} {x : V} {E : Exc → Gs V → Prop} {Q : Unit → Gs V → Prop}
    (hk : Free g k) (hl : g l = C i x) (h : Q () (upd (upd g k (.built i x)) l (C i (P.moved i x))))
    (hE : P.nmc i = false → ∀ b, E .user (upd g l (C i b))) :
    Does P (Var.ctorMove P k l i) g Q E := by
  refine Does.lt hC hl fun hi => ?_
  unfold Var.ctorMove
  have hne := hk.ne hC hl
  refine Does.clearObj hk (Does.rawGet hC hl (Does.ask (Does.bind (Does.birth hi hk ?_)) fun h1 a b => ?_))
  · exact Does.setObj hC (x := x) (by rw [upd_ne _ _ hne]; exact hl) h
  · exact Does.bind (Does.setObj hC hl (Does.throw (hE h1 b)))

theorem Does.dtorT {i : Nat} {x : V} {E : Exc → Gs V → Prop} {Q : Unit → Gs V → Prop} (hk : g .t = .built i x)
    (h : Q () (upd g .t .absent)) : Does P (Var.dtor P .t i) g Q E := by
  unfold Var.dtor
  refine Does.rawGet Obj.built hk fun w hw => ⟨_, hw.upd (a := .absent) ?_ _, h⟩
  have h1 := hw .t
  rw [hk] at h1
  exact ⟨h1.1, rfl, h1.2.2.2.2⟩

theorem Does.asgCopy {k l : Nm} {i : Nat} {x y : V} {E : Exc → Gs V → Prop} {Q : Unit → Gs V → Prop}
    (hk : g k = .has i x) (hl : g l = .has i y) (h : Q () (upd g k (.has i y))) (hE : P.nca i = false → ∀ a, E .user (upd g k (.has i a))) :
    Does P (Var.asgCopy P k l i) g Q E := by
  unfold Var.asgCopy
  exact Does.rawGet Obj.has hl (Does.ask (Does.setObj Obj.has hk h) fun h1 a b => Does.bind (Does.setObj Obj.has hk (Does.throw (hE h1 a))))

theorem Does.asgArg {k : Nm} {i : Nat} {x y : V} {nt : Bool} {E : Exc → Gs V → Prop} {Q : Unit → Gs V → Prop}
    (hk : g k = .has i x) (h : Q () (upd g k (.has i y))) (hE : nt = false → ∀ a, E .user (upd g k (.has i a))) :
    Does P (Var.asgArg k i y nt) g Q E := by
  unfold Var.asgArg
  exact Does.ask (Does.setObj Obj.has hk h) fun h1 a b => Does.bind (Does.setObj Obj.has hk (Does.throw (hE h1 a)))

theorem has_upd {k l : Nm} {i : Nat} {x : V} (y : V) (hk : g k = .has i x) : ∃ z, upd g l (.has i y) k = .has i z := by
  by_cases h : k = l
  · subst h
    exact ⟨y, by simp⟩
  · exact ⟨x, by rw [upd_ne _ _ h]; exact hk⟩

theorem Does.asgMove {k l : Nm} {i : Nat} {x y : V} {E : Exc → Gs V → Prop} {Q : Unit → Gs V → Prop}
    (hk : g k = .has i x) (hl : g l = .has i y) (h1 : k = l → Q () (upd g k (.has i (P.selfMoved i y))))
    (h2 : k ≠ l → Q () (upd (upd g k (.has i y)) l (.has i (P.movedA i y))))
    (hE : P.nma i = false → ∀ a b, E .user (upd (upd g l (.has i b)) k (.has i a))) :
    Does P (Var.asgMove P k l i) g Q E := by
  unfold Var.asgMove
  refine Does.rawGet Obj.has hl (Does.ask ?_ fun h3 a b => ?_)
  · dsimp only
    split
    · exact Does.setObj Obj.has hk (h1 ‹_›)
    · next h4 =>
      exact Does.bind (Does.setObj Obj.has hk (Does.setObj Obj.has (x := y) (by rw [upd_ne _ _ (Ne.symm h4)]; exact hl) (h2 h4)))
  · obtain ⟨z, hz⟩ := has_upd (l := l) b hk
    exact Does.bind (Does.setObj Obj.has hl (Does.bind (Does.setObj Obj.has hz (Does.throw (hE h3 a b)))))

theorem Does.objSwap {k l : Nm} {i : Nat} {x y : V} {E : Exc → Gs V → Prop} {Q : Unit → Gs V → Prop}
    (hk : g k = .has i x) (hl : g l = .has i y) (h : Q () (upd (upd g k (.has i y)) l (.has i x)))
    (hE : P.nsw i = false → ∀ a b, E .user (upd (upd g l (.has i b)) k (.has i a))) :
    Does P (Var.objSwap P k l i) g Q E := by
  unfold Var.objSwap
  refine Does.rawGet Obj.has hk (Does.rawGet Obj.has hl (Does.ask ?_ fun h3 a b => ?_))
  · obtain ⟨z, hz⟩ := has_upd (l := k) y hl
    exact Does.bind (Does.setObj Obj.has hk (Does.setObj Obj.has hz h))
  · obtain ⟨z, hz⟩ := has_upd (l := l) b hk
    exact Does.bind (Does.setObj Obj.has hl (Does.bind (Does.setObj Obj.has hz (Does.throw (hE h3 a b)))))

/-! ## The discriminator -/

theorem toIdx_lt {n i : Nat} (hn : n < 2 ^ 31) (hi : i < n) : toIdx n i = i := by
  unfold toIdx idxBits
  dsimp only
  split
  · rw [Nat.mod_eq_of_lt (by omega), if_pos (by omega)]
  · split
    · rw [Nat.mod_eq_of_lt (by omega), if_pos (by omega)]
    · rw [Nat.mod_eq_of_lt (by omega), if_pos (by omega)]

theorem toIdx_npos {n : Nat} : toIdx n npos = -1 := by
  unfold toIdx idxBits npos
  dsimp only
  split
  · decide
  · split <;> decide

theorem toSize_lt {i : Nat} (hi : i < 2 ^ 31) : toSize (i : Int) = i := by
  unfold toSize
  omega

theorem toSize_neg : toSize (-1) = npos := by decide

/-- What `_Which` says. -/
def Gh.idx : Gh V → Nat
  | .has i _ => i
  | _ => npos

/-- The state of a variant between operations. -/
def Whole (g : Gs V) (k : Nm) : Prop := g k = .vless ∨ ∃ i x, g k = .has i x

theorem Whole.which {k : Nm} {w : W V} (h : Whole g k) (hw : Rw P w g) (hn : P.n < 2 ^ 31) :
    (w.cell k).live = true ∧ toSize (w.cell k).which = (g k).idx ∧ ((w.cell k).which < 0 ↔ g k = .vless) := by
  have h1 := hw k
  rcases h with h | ⟨i, x, h⟩
  · rw [h] at h1 ⊢
    obtain ⟨h2, h3, h4, _⟩ := h1
    exact ⟨h3, by rw [h4]; exact toSize_neg, by rw [h4]; simp⟩
  · rw [h] at h1 ⊢
    obtain ⟨h2, h3, h4, h5, _⟩ := h1
    refine ⟨h3, ?_, ?_⟩
    · rw [h4]
      exact toSize_lt (by omega)
    · rw [h4]
      simp

theorem Does.read {k : Nm} {f : Cell V → M V β} (hn : P.n < 2 ^ 31) (hk : Whole g k)
    (h : ∀ c, toSize c.which = (g k).idx → (c.which < 0 ↔ g k = .vless) → RC P (isT k) c (g k) → Does P (f c) g Q E) : Does P (Var.read k >>= f) g Q E := by
  refine Does.bind fun w hw => ?_
  obtain ⟨h1, h2, h3⟩ := hk.which hw hn
  unfold Var.read
  rw [if_pos h1]
  exact ⟨g, hw, h _ h2 h3 (hw k)⟩

theorem Does.index {k : Nm} {f : Nat → M V β} (hn : P.n < 2 ^ 31) (hk : Whole g k) (h : Does P (f (g k).idx) g Q E) : Does P (Var.index k >>= f) g Q E := by
  unfold Var.index
  refine Does.bind (Does.read hn hk fun c h1 _ _ => ?_)
  rw [h1]
  exact Does.pure h

theorem Does.checkValueless {k : Nm} {f : Unit → M V β} (hk : g k = .vless) (h : Does P (f ()) g Q E) :
    Does P (Var.checkValueless k >>= f) g Q E := by
  refine Does.bind (Does.of_ok fun w hw => ⟨(), w, g, ?_, hw, h⟩)
  have h1 := hw k
  rw [hk] at h1
  obtain ⟨_, h3, h4, _⟩ := h1
  show M.bind (M.bind (Var.read k) _) _ w = _
  simp [M.bind, Var.read, h3, Pure.pure, M.pure, h4]

theorem rawVisit_npos {f : Option Nat → M V β} : rawVisit P npos f = f none := by
  unfold rawVisit npos
  simp

theorem rawVisit_lt {i : Nat} (hn : P.n < 2 ^ 31) (hi : i < P.n) {f : Option Nat → M V β} : rawVisit P i f = f (some i) := by
  unfold rawVisit
  have h : (i + 1) % 2 ^ 64 = i + 1 := Nat.mod_eq_of_lt (by omega)
  simp only [h, Nat.add_eq_zero_iff, Nat.one_ne_zero, and_false, if_false, Nat.add_sub_cancel]
  rw [if_pos (by omega)]

theorem Does.setIndex {k : Nm} {i : Nat} {x : V} {E : Exc → Gs V → Prop} {Q : Unit → Gs V → Prop} (hn : P.n < 2 ^ 31) (ht : k ≠ .t) (hk : g k = .built i x)
    (h : Q () (upd g k (.has i x))) : Does P (Var.setIndex P k i) g Q E := by
  intro w hw
  refine ⟨_, hw.upd (a := .has i x) ?_ _, h⟩
  have h1 := hw k
  rw [hk, isT_ne ht] at h1
  rw [isT_ne ht]
  obtain ⟨h2, h3, h4, h5, h6⟩ := h1
  exact ⟨rfl, h2, toIdx_lt hn h4, h4, h5, h6⟩

theorem all_eq {t : Nat → Bool} (h : all P t = true) {i : Nat} (hi : i < P.n) : t i = true := by
  unfold all at h
  rw [List.all_eq_true] at h
  exact h i (by simpa using hi)

/-- What `_Destroy` does to a cell. -/
theorem destroy_cell (hn : P.n < 2 ^ 31) {k : Nm} {w : W V} (hw : Rw P w g) (hk : Whole g k) : ∃ c, Var.destroy P k w = .ok () ⟨upd w.cell k c, w.tape⟩ ∧
    c.live = true ∧ (∀ j y, c.obj = some (j, y) → P.td j = true) ∧ c.made = c.gone := by
  have h1 := hw k
  obtain ⟨hl, hi, _⟩ := hk.which hw hn
  have hself : ⟨upd w.cell k (w.cell k), w.tape⟩ = w := by rw [upd_self _ _ _ rfl]
  have hidx : Var.index k w = .ok (g k).idx w := by
    show M.bind (Var.read k) _ w = _
    simp only [M.bind, Var.read, hl, if_pos, Pure.pure, M.pure, hi]
  unfold Var.destroy
  split
  · next ha =>
    show ∃ c, M.bind (Var.index k) _ w = _ ∧ _
    unfold M.bind
    rw [hidx]
    dsimp only
    rcases hk with hk | ⟨i, x, hk⟩
    · rw [hk] at h1
      obtain ⟨h2, h3, h4, h5, h6⟩ := h1
      refine ⟨w.cell k, ?_, h3, h5, h6⟩
      rw [hk, hself]
      show rawVisit P npos _ w = _
      rw [rawVisit_npos]
      rfl
    · rw [hk] at h1
      obtain ⟨h2, h3, h4, h5, h6, h7⟩ := h1
      refine ⟨{ w.cell k with obj := none, gone := (w.cell k).gone + if P.td i then 0 else 1 }, ?_, h3, by simp, h7⟩
      rw [hk]
      show rawVisit P i _ w = _
      rw [rawVisit_lt hn h5]
      show M.bind (Var.rawGet k i) _ w = _
      unfold M.bind Var.rawGet
      rw [h6]
      simp only [if_pos]
      rfl
  · next ha =>
    refine ⟨w.cell k, by rw [hself]; rfl, hl, ?_⟩
    have ha : all P P.td = true := by simpa using ha
    rcases hk with hk | ⟨i, x, hk⟩
    · rw [hk] at h1
      exact ⟨h1.2.2.2.1, h1.2.2.2.2⟩
    · rw [hk] at h1
      obtain ⟨h2, h3, h4, h5, h6, h7⟩ := h1
      have h8 := all_eq ha h5
      rw [h8] at h7
      refine ⟨fun j y h => ?_, h7⟩
      rw [h6] at h
      cases h
      exact h8

theorem Does.reset {k : Nm} {f : Unit → M V β} (hn : P.n < 2 ^ 31) (ht : k ≠ .t) (hk : Whole g k) (h : Does P (f ()) (upd g k .vless) Q E) :
    Does P (Var.reset P k >>= f) g Q E := by
  refine Does.bind (Does.of_ok fun w hw => ?_)
  obtain ⟨c, h1, h2, h3, h4⟩ := destroy_cell hn hw hk
  refine ⟨(), ⟨upd w.cell k { c with which := -1 }, w.tape⟩, _, ?_, hw.upd (a := .vless) ?_ _, h⟩
  · show M.bind (Var.destroy P k) _ w = _
    unfold M.bind
    rw [h1]
    simp only [Var.setIndex, setC, upd_same, upd_upd, toIdx_npos]
  · exact ⟨isT_ne ht, h2, rfl, h3, h4⟩

/-- The end of the storage of a cell without an object that has a destructor. -/
theorem endStorage_cell {k : Nm} {w : W V} {c : Cell V} (hc : w.cell k = c) (hl : c.live = true) (ho : ∀ j y, c.obj = some (j, y) → P.td j = true) :
    Var.endStorage P k w = .ok () ⟨upd w.cell k { c with live := false, obj := none }, w.tape⟩ := by
  show M.bind (Var.read k) (fun _ => M.bind (Var.clearObj P k) fun _ => setC k _) w = _
  simp only [M.bind, Var.read, hc, hl, if_pos, Var.clearObj]
  cases hob : c.obj with
  | none =>
    dsimp only [setC]
    rw [hc, hob]
  | some p =>
    obtain ⟨j, y⟩ := p
    dsimp only
    rw [ho j y hob]
    simp only [if_pos, setC, upd_same, upd_upd, hc]

theorem Does.destruct {k : Nm} {E : Exc → Gs V → Prop} {Q : Unit → Gs V → Prop} (hn : P.n < 2 ^ 31) (hk : Whole g k) (h : Q () (upd g k .absent)) :
    Does P (Var.destruct P k) g Q E := by
  refine Does.of_ok fun w hw => ?_
  obtain ⟨c, h1, h2, h3, h4⟩ := destroy_cell hn hw hk
  refine ⟨(), ⟨upd w.cell k { c with live := false, obj := none }, w.tape⟩, _, ?_, hw.upd (a := .absent) ?_ _, h⟩
  · show M.bind (Var.destroy P k) _ w = _
    unfold M.bind
    rw [h1]
    dsimp only
    rw [endStorage_cell (upd_same _ _ _) h2 h3]
    simp only [upd_upd]
  · exact ⟨rfl, rfl, h4⟩

theorem Does.resetAt {k : Nm} {i : Nat} {x : V} {f : Unit → M V β} (ht : k ≠ .t) (hk : g k = .has i x) (h : Does P (f ()) (upd g k .vless) Q E) :
    Does P (Var.resetAt P k i >>= f) g Q E := by
  refine Does.bind ?_
  unfold Var.resetAt Var.destroyAt
  refine Does.of_ok fun w hw => ?_
  have h1 := hw k
  rw [hk] at h1
  obtain ⟨h2, h3, h4, h5, h6, h7⟩ := h1
  cases htd : P.td i with
  | true =>
    simp only [Bool.not_true, Bool.false_eq_true, if_false]
    refine ⟨(), ⟨upd w.cell k { w.cell k with which := -1 }, w.tape⟩, _, ?_, hw.upd (a := .vless) ?_ _, h⟩
    · show Res.ok _ _ = _
      simp only [toIdx_npos]
    · rw [htd] at h7
      refine ⟨isT_ne ht, h3, rfl, fun j y ho => ?_, h7⟩
      have ho : (w.cell k).obj = some (j, y) := ho
      rw [h6] at ho
      cases ho
      exact htd
  | false =>
    simp only [Bool.not_false, if_true]
    refine ⟨(), ⟨upd w.cell k { w.cell k with which := -1, obj := none, gone := (w.cell k).gone + 1 }, w.tape⟩, _, ?_, hw.upd (a := .vless) ?_ _, h⟩
    · show M.bind (M.bind (Var.rawGet k i) _) _ w = _
      simp only [M.bind, Var.rawGet, h6, if_pos, setC, Var.setIndex, upd_same, upd_upd, toIdx_npos, htd, Bool.false_eq_true, if_false]
    · rw [htd] at h7
      exact ⟨isT_ne ht, h3, rfl, by simp, h7⟩

theorem Does.newBase {k : Nm} {f : Unit → M V β} (ht : k ≠ .t) (hk : g k = .absent) (h : Does P (f ()) (upd g k .vless) Q E) :
    Does P (Var.newBase P k >>= f) g Q E := by
  refine Does.bind (Does.of_ok fun w hw => ?_)
  have h1 := hw k
  rw [hk] at h1
  obtain ⟨h2, h3, h4⟩ := h1
  refine ⟨(), ⟨upd w.cell k { w.cell k with live := true, which := -1 }, w.tape⟩, _, ?_, hw.upd (a := .vless) ?_ _, h⟩
  · unfold Var.newBase
    rw [h2]
    simp only [Bool.false_eq_true, if_false, setC, toIdx_npos]
  · exact ⟨isT_ne ht, rfl, rfl, by simp [h3], h4⟩

theorem Does.endStorage {k : Nm} {E : Exc → Gs V → Prop} {Q : Unit → Gs V → Prop} (hk : g k = .vless) (h : Q () (upd g k .absent)) :
    Does P (Var.endStorage P k) g Q E := by
  refine Does.of_ok fun w hw => ?_
  have h1 := hw k
  rw [hk] at h1
  obtain ⟨h2, h3, h4, h5, h6⟩ := h1
  refine ⟨(), _, _, endStorage_cell rfl h3 h5, hw.upd (a := .absent) ?_ _, h⟩
  exact ⟨rfl, rfl, h6⟩

theorem RC.triv {c d : Cell V} {a b : Gh V} (ha : all P P.td = true) (h1 : RC P false c a) (h2 : RC P false d b) (h3 : a = .vless ∨ ∃ i x, a = .has i x)
    (h4 : b = .vless ∨ ∃ i x, b = .has i x) : RC P false { d with which := c.which, obj := c.obj } a := by
  have hd : d.live = true ∧ d.made = d.gone := by
    rcases h4 with rfl | ⟨i, x, rfl⟩
    · exact ⟨h2.2.1, h2.2.2.2.2⟩
    · obtain ⟨_, h5, _, h6, _, h7⟩ := h2
      rw [all_eq ha h6] at h7
      exact ⟨h5, h7⟩
  rcases h3 with rfl | ⟨i, x, rfl⟩
  · obtain ⟨_, _, h5, h6, _⟩ := h1
    exact ⟨rfl, hd.1, h5, h6, hd.2⟩
  · obtain ⟨_, _, h5, h6, h7, _⟩ := h1
    refine ⟨rfl, hd.1, h5, h6, h7, ?_⟩
    rw [all_eq ha h6]
    exact hd.2

theorem Does.bytes {k l : Nm} {E : Exc → Gs V → Prop} {Q : Unit → Gs V → Prop} (hn : P.n < 2 ^ 31) (ha : all P P.td = true) (hk : Whole g k) (hl : Whole g l)
    (hkt : k ≠ .t) (hlt : l ≠ .t) (h : Q () (upd g k (g l))) : Does P (Var.bytes P k l) g Q E := by
  unfold Var.bytes
  refine Does.read hn hl fun c _ _ h1 => Does.read hn hk fun d _ _ _ => ?_
  rw [if_pos ha]
  intro w hw
  refine ⟨_, hw.upd (a := g l) ?_ _, h⟩
  rw [isT_ne hkt]
  rw [isT_ne hlt] at h1
  have h2 := hw k
  rw [isT_ne hkt] at h2
  exact RC.triv ha h1 h2 hl hk

end
end STL.Var
