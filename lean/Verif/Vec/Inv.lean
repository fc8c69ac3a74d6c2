import Verif.Vec.Hoare

/-!
# What a vector owns
-/

namespace STL.Vec
open STL

variable {α β γ : Type}

/-- The vector holds `X`: these are the objects in its buffer, the rest of the buffer is raw. -/
structure Own (P : Par α) (w : W α) (X : List α) : Prop where
  len : X.length = w.v.size
  le : w.v.size ≤ w.v.cap
  mx : w.v.cap ≤ P.max
  cell : ∀ x, w.cel w.v.buf x = X[x]?
  live : w.v.buf ≠ 0 → w.caps w.v.buf = some w.v.cap ∧ w.v.buf < w.nxt ∧ 0 < w.v.cap
  null : w.v.buf = 0 → w.v.cap = 0

/-- There is nothing at the null pointer and in buffers not yet allocated. -/
structure Sane (w : W α) : Prop where
  zero : w.caps 0 = none ∧ ∀ i, w.cel 0 i = none
  fresh : ∀ b, w.nxt ≤ b → w.caps b = none ∧ ∀ i, w.cel b i = none
  pos : 0 < w.nxt

/-- Nothing happened to other buffers, an old buffer is gone, there is nothing left in it. -/
structure Frame (w w' : W α) : Prop where
  nxt : w.nxt ≤ w'.nxt
  buf : w'.v.buf = w.v.buf ∨ w'.v.buf = 0 ∨ w.nxt ≤ w'.v.buf
  other : ∀ b, b ≠ w.v.buf → b ≠ w'.v.buf → w'.caps b = w.caps b ∧ ∀ i, w'.cel b i = w.cel b i
  old : w'.v.buf ≠ w.v.buf → w'.caps w.v.buf = none ∧ ∀ i, w'.cel w.v.buf i = none

structure Good (P : Par α) (w w' : W α) (X' : List α) : Prop where
  own : Own P w' X'
  sane : Sane w'
  frame : Frame w w'

/-- No reallocation: pointers to elements stay pointers to elements. -/
def Same (w w' : W α) : Prop := w'.v.buf = w.v.buf ∧ w'.v.cap = w.v.cap

/-- Reallocation with geometric growth. -/
def Grown (P : Par α) (n : Nat) (w w' : W α) : Prop :=
  w.nxt ≤ w'.v.buf ∧ n ≤ w'.v.cap ∧ min P.max (w.v.cap + w.v.cap / 2) ≤ w'.v.cap

theorem Own.isS {P : Par α} {w : W α} {X : List α} (h : Own P w X) {j : Nat} (hj : j < w.v.size) : (w.cel w.v.buf j).isSome := by
  rw [h.cell, List.getElem?_eq_getElem (by rw [h.len]; exact hj)]
  rfl

theorem Own.isN {P : Par α} {w : W α} {X : List α} (h : Own P w X) {j : Nat} (hj : w.v.size ≤ j) : w.cel w.v.buf j = none := by
  rw [h.cell, List.getElem?_eq_none (by rw [h.len]; exact hj)]

theorem Own.caps {P : Par α} {w : W α} {X : List α} (h : Own P w X) (hj : 0 < w.v.cap) : w.caps w.v.buf = some w.v.cap := by
  refine (h.live ?_).1
  intro h0
  have := h.null h0
  omega

theorem list_of_cells {n : Nat} {f : Nat → Option α} (h1 : ∀ j, j < n → (f j).isSome) (h2 : ∀ j, n ≤ j → f j = none) :
    ∃ X : List α, X.length = n ∧ ∀ x, f x = X[x]? := by
  refine ⟨List.ofFn fun i : Fin n => (f i).get (h1 i i.2), by simp, ?_⟩
  intro x
  by_cases hx : x < n
  · rw [List.getElem?_eq_getElem (by simpa using hx)]
    simp
  · rw [List.getElem?_eq_none (by simpa using hx), h2 x (by omega)]

/-- The vector in its old buffer. -/
theorem Good.inplace {P : Par α} {w w' : W α} {X X' : List α} (own : Own P w X) (sane : Sane w) (h1 : w'.caps = w.caps)
    (h2 : w.nxt ≤ w'.nxt) (h3 : w'.v.buf = w.v.buf) (h4 : w'.v.cap = w.v.cap) (h5 : X'.length = w'.v.size) (h6 : w'.v.size ≤ w.v.cap)
    (hC : ∀ x, w'.cel w.v.buf x = X'[x]?) (ho : ∀ q, q ≠ w.v.buf → ∀ j, w'.cel q j = w.cel q j) : Good P w w' X' ∧ Same w w' := by
  refine ⟨⟨⟨h5, by omega, by rw [h4]; exact own.mx, by rw [h3]; exact hC, ?_, ?_⟩, ⟨?_, ?_, by have := sane.pos; omega⟩,
    ⟨by omega, .inl h3, ?_, fun h => absurd h3 h⟩⟩, h3, h4⟩
  · intro h
    rw [h1, h3, h4]
    have := own.live (by rwa [h3] at h)
    exact ⟨this.1, by omega, this.2.2⟩
  · intro h
    rw [h4]
    exact own.null (by rwa [h3] at h)
  · rw [h1]
    refine ⟨sane.zero.1, fun i => ?_⟩
    by_cases hb : w.v.buf = 0
    · have hc := own.null hb
      have : X' = [] := List.length_eq_zero_iff.1 (by omega)
      have hh := hC i
      rw [hb, this] at hh
      simpa using hh
    · rw [ho 0 (Ne.symm hb)]
      exact sane.zero.2 i
  · intro b hb
    rw [h1]
    have hb : w.nxt ≤ b := by omega
    refine ⟨(sane.fresh b hb).1, fun i => ?_⟩
    by_cases hb' : w.v.buf = 0
    · rw [ho b (by have := sane.pos; omega)]
      exact (sane.fresh b hb).2 i
    · rw [ho b (by have := (own.live hb').2.1; omega)]
      exact (sane.fresh b hb).2 i
  · intro b h _
    rw [h1]
    exact ⟨rfl, ho b h⟩

/-- The same, when nothing is known about the values. -/
theorem Good.basic {P : Par α} {w w' : W α} {X : List α} (own : Own P w X) (sane : Sane w) (h1 : w'.caps = w.caps)
    (h2 : w.nxt ≤ w'.nxt) (h3 : w'.v.buf = w.v.buf) (h4 : w'.v.cap = w.v.cap) (h6 : w'.v.size ≤ w.v.cap)
    (hC : ∀ j, j < w'.v.size → (w'.cel w.v.buf j).isSome) (hC' : ∀ j, w'.v.size ≤ j → w'.cel w.v.buf j = none)
    (ho : ∀ q, q ≠ w.v.buf → ∀ j, w'.cel q j = w.cel q j) : ∃ X', X'.length = w'.v.size ∧ Good P w w' X' ∧ Same w w' := by
  obtain ⟨X', hl, hX'⟩ := list_of_cells hC hC'
  exact ⟨X', hl, Good.inplace own sane h1 h2 h3 h4 hl h6 hX' ho⟩

/-- The vector in a new buffer. -/
theorem Good.fresh {P : Par α} {w w' : W α} {X X' : List α} (own : Own P w X) (sane : Sane w) (h2 : w'.nxt = w.nxt + 1)
    (h3 : w'.v.buf = w.nxt) (h5 : X'.length = w'.v.size) (h6 : w'.v.size ≤ w'.v.cap) (h7 : w'.v.cap ≤ P.max) (h8 : 0 < w'.v.cap)
    (hcap : ∀ q, w'.caps q = if q = w.v.buf then none else if q = w.nxt then some w'.v.cap else w.caps q)
    (hC : ∀ x, w'.cel w.nxt x = X'[x]?) (hold : ∀ x, w'.cel w.v.buf x = none)
    (ho : ∀ q, q ≠ w.v.buf → q ≠ w.nxt → ∀ j, w'.cel q j = w.cel q j) : Good P w w' X' := by
  have hp := sane.pos
  have hlt : w.v.buf < w.nxt := by
    by_cases h : w.v.buf = 0
    · omega
    · exact (own.live h).2.1
  refine ⟨⟨h5, h6, h7, by rw [h3]; exact hC, ?_, by intro h; omega⟩, ⟨?_, ?_, by omega⟩, ⟨by omega, .inr (.inr (by omega)), ?_, ?_⟩⟩
  · intro h
    rw [hcap, h3, if_neg (by omega), if_pos rfl]
    exact ⟨rfl, by omega, h8⟩
  · rw [hcap]
    constructor
    · split
      · rfl
      · rw [if_neg (by omega)]
        exact sane.zero.1
    · intro i
      by_cases h0 : w.v.buf = 0
      · rw [← h0]
        exact hold i
      · rw [ho 0 (Ne.symm h0) (by omega)]
        exact sane.zero.2 i
  · intro b hb
    rw [hcap, if_neg (by omega), if_neg (by omega)]
    refine ⟨(sane.fresh b (by omega)).1, fun i => ?_⟩
    rw [ho b (by omega) (by omega)]
    exact (sane.fresh b (by omega)).2 i
  · intro b h1 h2'
    rw [h3] at h2'
    rw [hcap, if_neg h1, if_neg h2']
    exact ⟨rfl, ho b h1 h2'⟩
  · intro _
    rw [hcap, if_pos rfl]
    exact ⟨rfl, hold⟩

theorem Frame.refl (w : W α) : Frame w w := ⟨Nat.le_refl _, .inl rfl, fun _ _ _ => ⟨rfl, fun _ => rfl⟩, fun h => absurd rfl h⟩

/-- Only a tape has changed. -/
theorem Good.same {P : Par α} {w w' : W α} {X : List α} (own : Own P w X) (sane : Sane w) (h1 : w'.caps = w.caps) (h2 : w'.nxt = w.nxt)
    (h3 : w'.v = w.v) (h4 : w'.cel = w.cel) : Good P w w X ∧ Good P w w' X ∧ Same w w' := by
  refine ⟨⟨own, sane, Frame.refl w⟩, ?_⟩
  refine Good.inplace own sane h1 (by omega) (by rw [h3]) (by rw [h3]) (by rw [h3]; exact own.len) (by rw [h3]; exact own.le) ?_ ?_
  · rw [h4]
    exact own.cell
  · intro q _ j
    rw [h4]

theorem calcGrowth_le {P : Par α} {cap n : Nat} (hn : n ≤ P.max) : calcGrowth P cap n ≤ P.max := by
  unfold calcGrowth
  dsimp only
  repeat' split
  all_goals omega

theorem le_calcGrowth {P : Par α} {cap n : Nat} (hn : n ≤ P.max) : n ≤ calcGrowth P cap n := by
  unfold calcGrowth
  dsimp only
  repeat' split
  all_goals omega

theorem geometric {P : Par α} {cap n : Nat} : min P.max (cap + cap / 2) ≤ calcGrowth P cap n := by
  unfold calcGrowth
  dsimp only
  repeat' split
  all_goals omega

/-- Nothing is left of the old array. -/
theorem sat_dropArray {w w1 : W α} {E : Exc → W α → Prop} (hv : w1.v = w.v)
    (hlive : w.v.buf ≠ 0 → w1.caps w.v.buf = some w.v.cap) (h0 : w.v.buf = 0 → w1.caps 0 = none ∧ w.v.size = 0) (hle : w.v.size ≤ w.v.cap)
    (hs : ∀ j, j < w.v.size → (w1.cel w.v.buf j).isSome) (hn : ∀ j, w.v.size ≤ j → w1.cel w.v.buf j = none) :
    Sat (dropArray w.v) w1 (fun _ w' => w' =
      { w1 with caps := fun q => if q = w.v.buf then none else w1.caps q, cel := over w1.cel w.v.buf 0 w.v.size fun _ => none }) E := by
  unfold dropArray
  refine Sat.ite (fun hb => ?_) fun hb => ?_
  · refine Sat.then (sat_destroyRange (E := E) w.v.size 0 (hlive hb) (by omega) ?_) (fun _ _ h => h) ?_
    · intro j _ h
      exact hs j (by omega)
    · rintro _ w2 rfl
      refine Sat.deallocate (n := w.v.cap) (hlive hb) ?_ rfl
      intro i _
      dsimp only
      by_cases h : i < w.v.size
      · rw [over_in (by omega) (by omega)]
      · rw [over_out (by omega)]
        exact hn i (by omega)
  · have hb : w.v.buf = 0 := by
      by_cases h : w.v.buf = 0
      · exact h
      · exact absurd h hb
    refine Sat.pure' ?_
    obtain ⟨h1, h2⟩ := h0 hb
    rw [h2, over_zero, hb]
    have : (fun q => if q = 0 then none else w1.caps q) = w1.caps := by
      funext q
      split
      · next h => rw [h, h1]
      · rfl
    rw [this]

end STL.Vec
