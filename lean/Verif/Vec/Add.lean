import Verif.Vec.Realloc

/-!
# Adding elements
-/

namespace STL.Vec
open STL

variable {α β γ : Type}

/-- The value an element is constructed with. -/
def ArgIs (X : List α) (a : Arg α) (x : α) : Prop :=
  match a with
  | .ext y => y = x
  | .copy i => X[i]? = some x
  | .move i => X[i]? = some x

/-- The vector after the argument was used. -/
def afterArg (f : α → α) (X : List α) (a : Arg α) (x : α) : List α :=
  match a with
  | .move i => X.set i (f x)
  | _ => X

theorem afterArg_length {f : α → α} {X : List α} {a : Arg α} {x : α} : (afterArg f X a x).length = X.length := by
  cases a <;> simp [afterArg]

theorem lt_of_getElem? {X : List α} {i : Nat} {x : α} (h : X[i]? = some x) : i < X.length := (List.getElem?_eq_some_iff.1 h).1

theorem set_get {X : List α} {i : Nat} {y : α} (h : i < X.length) (j : Nat) : (X.set i y)[j]? = if j = i then some y else X[j]? := by
  rw [List.getElem?_set]
  by_cases hj : i = j
  · rw [if_pos hj, if_pos hj.symm, if_pos (by omega)]
  · rw [if_neg hj, if_neg (Ne.symm hj)]

/-- Construction of one element in a raw cell. -/
theorem sat_constructArg {P : Par α} {w w1 : W α} {X : List α} (own : Own P w X) {a : Arg α} {x : α} (hx : ArgIs X a x) {b k M : Nat}
    (hcap : 0 < w.v.size → w1.caps w.v.buf = some w.v.cap) (hcel : w1.cel = w.cel) (hM : w1.caps b = some M) (hk : k < M)
    (hraw : w.cel b k = none) :
    Sat (constructArg P w.v.buf a b k) w1
      (fun _ w' => ∃ t C, w' = { w1 with cel := C, tape := t } ∧ C b k = some x ∧
        (∀ j, w.v.buf ≠ b ∨ j ≠ k → C w.v.buf j = (afterArg P.mv X a x)[j]?) ∧ ∀ q j, (q ≠ b ∨ j ≠ k) → q ≠ w.v.buf → C q j = w.cel q j)
      (fun e w' => e = .user ∧ ∃ t C, w' = { w1 with cel := C, tape := t } ∧ C b k = none ∧
        (∀ j, C w.v.buf j = (afterArg P.bad X a x)[j]?) ∧ ∀ q j, q ≠ w.v.buf → C q j = w.cel q j) := by
  have hraw1 : w1.cel b k = none := by rw [hcel]; exact hraw
  have copy : Sat (copyC x b k) w1
      (fun _ w' => ∃ t C, w' = { w1 with cel := C, tape := t } ∧ C b k = some x ∧
        (∀ j, w.v.buf ≠ b ∨ j ≠ k → C w.v.buf j = X[j]?) ∧ ∀ q j, (q ≠ b ∨ j ≠ k) → q ≠ w.v.buf → C q j = w.cel q j)
      (fun e w' => e = .user ∧ ∃ t C, w' = { w1 with cel := C, tape := t } ∧ C b k = none ∧
        (∀ j, C w.v.buf j = X[j]?) ∧ ∀ q j, q ≠ w.v.buf → C q j = w.cel q j) := by
    refine Sat.copyC hM hk hraw1 ?_ ?_
    · intro t
      refine ⟨t, _, rfl, ?_, ?_, ?_⟩
      · simp [put]
      · intro j hj
        unfold put
        rw [if_neg (by omega), hcel]
        exact own.cell j
      · intro q j hj _
        unfold put
        rw [if_neg (by omega), hcel]
    · intro t
      refine ⟨rfl, t, w1.cel, rfl, hraw1, ?_, ?_⟩
      · intro j
        rw [hcel]
        exact own.cell j
      · intro q j _
        rw [hcel]
  have hle := own.le
  have hlen := own.len
  cases a with
  | ext y =>
    have hx : y = x := hx
    subst hx
    exact copy
  | copy i =>
    have hi := lt_of_getElem? hx
    unfold constructArg
    refine Sat.bind (Sat.rd (hcap (by omega)) (by omega) ?_ copy)
    rw [hcel, own.cell]
    exact hx
  | move i =>
    have hi := lt_of_getElem? hx
    have hx : X[i]? = some x := hx
    unfold constructArg
    have hne : w.v.buf ≠ b ∨ i ≠ k := by
      by_cases h : w.v.buf = b ∧ i = k
      · rw [← h.1, ← h.2, own.cell, hx] at hraw
        cases hraw
      · omega
    refine Sat.moveC hM hk hraw1 (hcap (by omega)) (k := i) (x := x) (by omega) (by rw [hcel, own.cell]; exact hx) ?_ ?_
    · intro t
      refine ⟨t, _, rfl, ?_, ?_, ?_⟩
      · unfold put
        rw [if_neg (by omega), if_pos ⟨rfl, rfl⟩]
      · intro j hj
        show _ = (X.set i (P.mv x))[j]?
        rw [set_get hi]
        unfold put
        split
        · next h => rw [if_pos h.2]
        · rw [if_neg (by omega), if_neg (by omega), hcel]
          exact own.cell j
      · intro q j hj hq
        unfold put
        rw [if_neg (by omega), if_neg (by omega), hcel]
    · intro t _
      refine ⟨rfl, t, _, rfl, ?_, ?_, ?_⟩
      · unfold put
        rw [if_neg (by omega)]
        exact hraw1
      · intro j
        show _ = (X.set i (P.bad x))[j]?
        rw [set_get hi]
        unfold put
        split
        · next h => rw [if_pos h.2]
        · rw [if_neg (by omega), hcel]
          exact own.cell j
      · intro q j hq
        unfold put
        rw [if_neg (by omega), hcel]

theorem mkOk_constructArg {P : Par α} {w : W α} {X : List α} (own : Own P w X) (sane : Sane w) {a : Arg α} {x : α} (hx : ArgIs X a x)
    {off : Nat} : MkOk w off (fun nb => constructArg P w.v.buf a nb off) [x] (afterArg P.mv X a x) (fun X2 => X2 = afterArg P.bad X a x) := by
  intro aa m t hm
  have hlt := own.lt sane
  have hle := own.le
  have hnone := sane.fresh w.nxt (Nat.le_refl _)
  simp only [List.length_cons, List.length_nil] at hm
  refine (sat_constructArg own hx (w1 := { allocd w aa m with tape := t }) (b := w.nxt) (k := off) (M := m) ?_ rfl ?_ (by omega)
    (hnone.2 off)).mono ?_ ?_
  · intro h
    show (if w.v.buf = w.nxt then some m else w.caps w.v.buf) = _
    rw [if_neg (by omega)]
    exact own.caps (by omega)
  · show (if w.nxt = w.nxt then some m else w.caps w.nxt) = some m
    rw [if_pos rfl]
  · rintro _ w' ⟨t', C, rfl, h1, h2, h3⟩
    refine ⟨t', C, rfl, ?_, ?_, ?_⟩
    · intro j
      by_cases hj : j = off
      · rw [hj, h1]
        simp
      · rw [h3 w.nxt j (.inr hj) (by omega), hnone.2]
        split
        · rw [List.getElem?_eq_none (by simp; omega)]
        · rfl
    · intro j
      exact h2 j (.inl (by omega))
    · intro q hq1 hq2 j
      exact h3 q j (.inl hq1) hq2
  · rintro e w' ⟨he, t', C, rfl, h1, h2, h3⟩
    refine ⟨he, t', C, _, rfl, ?_, rfl, ?_, h2, ?_⟩
    · rw [afterArg_length, afterArg_length]
    · intro j
      rw [h3 w.nxt j (by omega), hnone.2]
      simp
    · intro q _ hq2 j
      exact h3 q j hq2

/-- The size is changed last. -/
theorem Sat.setSize {n : Nat} {w : W α} {Q : Unit → W α → Prop} {E : Exc → W α → Prop}
    (h : Q () { w with v := { w.v with size := n } }) : Sat (Vec.setSize n) w Q E := h

theorem append_get {X Y : List α} (j : Nat) : (X ++ Y)[j]? = if j < X.length then X[j]? else Y[j - X.length]? := List.getElem?_append

theorem sat_emplaceUnused {P : Par α} {w : W α} {X : List α} (own : Own P w X) (sane : Sane w) {a : Arg α} {x : α} (hx : ArgIs X a x)
    (hroom : w.v.size ≠ w.v.cap) :
    Sat (emplaceUnused P a) w
      (fun _ w' => Good P w w' (afterArg P.mv X a x ++ [x]) ∧ Same w w')
      (fun e w' => e = .user ∧ Good P w w' (afterArg P.bad X a x) ∧ Same w w') := by
  have hle := own.le
  have hlen := own.len
  unfold emplaceUnused
  refine Sat.getV (Sat.then (sat_constructArg own hx (w1 := w) (b := w.v.buf) (k := w.v.size) (M := w.v.cap) ?_ rfl (own.caps (by omega))
    (by omega) (own.isN (Nat.le_refl _))) ?_ ?_)
  · intro h
    exact own.caps (by omega)
  · rintro e w' ⟨he, t, C, rfl, h1, h2, h3⟩
    refine ⟨he, Good.inplace own sane rfl (Nat.le_refl _) rfl rfl ?_ own.le h2 fun q hq j => h3 q j hq⟩
    rw [afterArg_length]
    exact hlen
  · rintro _ w1 ⟨t, C, rfl, h1, h2, h3⟩
    refine Sat.setSize (Good.inplace own sane rfl (Nat.le_refl _) rfl rfl ?_ ?_ ?_ fun q hq j => h3 q j (.inl hq) hq)
    · simp only [List.length_append, afterArg_length, List.length_cons, List.length_nil]
      omega
    · show w.v.size + 1 ≤ w.v.cap
      omega
    · intro j
      show C w.v.buf j = _
      rw [append_get, afterArg_length]
      by_cases hj : j = w.v.size
      · rw [if_neg (by omega), hj, h1, hlen, Nat.sub_self]
        rfl
      · rw [h2 j (.inr hj)]
        split
        · rfl
        · rw [List.getElem?_eq_none (by rw [afterArg_length]; omega), List.getElem?_eq_none (by simp; omega)]

/-- What is left if an operation that adds elements fails. -/
structure Fail (P : Par α) (w w' : W α) (X X2 : List α) (need : Nat) (e : Exc) : Prop where
  good : Good P w w' X2
  same : Same w w'
  kind : e = .lengthError ∨ e = .badAlloc ∨ e = .user
  length : e = .lengthError → P.max < need ∧ X2 = X
  alloc : e = .badAlloc → w.v.cap < need ∧ X2 = X

theorem sat_emplaceRealloc {P : Par α} {w : W α} {X : List α} (own : Own P w X) (sane : Sane w) {a : Arg α} {x : α} (hx : ArgIs X a x)
    {off : Nat} (hoff : off ≤ w.v.size) (hfull : w.v.size = w.v.cap) :
    Sat (emplaceRealloc P off a) w
      (fun _ w' => Good P w w' ((afterArg P.mv X a x).take off ++ [x] ++ (afterArg P.mv X a x).drop off) ∧ Grown P (X.length + 1) w w')
      (fun e w' => ∃ X2, Fail P w w' X X2 (X.length + 1) e ∧ X2.length = X.length ∧
        (P.nmc = true ∨ off = X.length ∧ P.cc = true → X2 = X ∨ X2 = afterArg P.bad X a x ∨ X2 = afterArg P.mv X a x)) := by
  have hlen := own.len
  have hmx := own.mx
  have hg := Good.same own sane (w' := w) rfl rfl rfl rfl
  unfold emplaceRealloc
  refine Sat.getV (Sat.ite (fun h => Sat.throw ?_) fun h => ?_)
  · exact ⟨X, ⟨hg.1, hg.2.2, .inl rfl, fun _ => ⟨by omega, rfl⟩, fun h => (by cases h)⟩, rfl, fun _ => .inl rfl⟩
  · refine (sat_reallocInsert own sane (Y := [x]) (cnt := 1) rfl afterArg_length rfl (by omega) Nat.one_pos hoff ?_
      (mkOk_constructArg own sane hx)).mono ?_ ?_
    · intro hs
      simpa using hs
    · rintro _ w' ⟨h1, h2, _⟩
      rw [hlen]
      exact ⟨h1, h2⟩
    · rintro e w' ⟨X2, h1, h2, h3, h4⟩
      rcases h4 with ⟨rfl, rfl⟩ | ⟨rfl, h4⟩
      · exact ⟨X2, ⟨h1, h2, .inr (.inl rfl), fun h => (by cases h), fun _ => ⟨by omega, rfl⟩⟩, h3, fun _ => .inl rfl⟩
      · refine ⟨X2, ⟨h1, h2, .inr (.inr rfl), fun h => (by cases h), fun h => (by cases h)⟩, h3, ?_⟩
        intro h6
        rcases h4 with h4 | h4
        · exact .inr (.inl h4)
        · refine .inr (.inr (h4 ?_))
          rcases h6 with h6 | ⟨h5, h6⟩
          · exact .inl h6
          · refine .inr ⟨?_, h6⟩
            rw [h5, hlen]
            simp

/-- No reallocation if there is room, geometric growth if not. -/
def Room (P : Par α) (n : Nat) (w w' : W α) : Prop := (n ≤ w.v.cap → Same w w') ∧ (w.v.cap < n → Grown P n w w')

/-- The old elements, one of them perhaps changed because it was the rvalue argument. -/
def Spared (X : List α) (a : Arg α) (X2 : List α) : Prop := X2 = X ∨ ∃ i y, a = .move i ∧ X2 = X.set i y

theorem spared_afterArg {f : α → α} {X : List α} {a : Arg α} {x : α} : Spared X a (afterArg f X a x) := by
  cases a with
  | ext y => exact .inl rfl
  | copy i => exact .inl rfl
  | move i => exact .inr ⟨i, f x, rfl, rfl⟩

theorem sat_emplaceBack {P : Par α} {w : W α} {X : List α} (own : Own P w X) (sane : Sane w) {a : Arg α} {x : α} (hx : ArgIs X a x) :
    Sat (emplaceBack P a) w
      (fun _ w' => Good P w w' (afterArg P.mv X a x ++ [x]) ∧ Room P (X.length + 1) w w')
      (fun e w' => ∃ X2, Fail P w w' X X2 (X.length + 1) e ∧ X2.length = X.length ∧ (P.nmc = true ∨ P.cc = true → Spared X a X2)) := by
  have hlen := own.len
  have hle := own.le
  unfold emplaceBack
  refine Sat.getV (Sat.ite (fun h => ?_) fun h => ?_)
  · refine (sat_emplaceUnused own sane hx h).mono ?_ ?_
    · rintro _ w' ⟨h1, h2⟩
      exact ⟨h1, fun _ => h2, fun h => by omega⟩
    · rintro e w' ⟨rfl, h1, h2⟩
      exact ⟨_, ⟨h1, h2, .inr (.inr rfl), fun h => (by cases h), fun h => (by cases h)⟩, afterArg_length, fun _ => spared_afterArg⟩
  · have h : w.v.size = w.v.cap := by
      by_cases hh : w.v.size = w.v.cap
      · exact hh
      · exact absurd hh h
    refine (sat_emplaceRealloc own sane hx (Nat.le_refl _) h).mono ?_ ?_
    · rintro _ w' ⟨h1, h2⟩
      rw [List.take_of_length_le (by rw [afterArg_length]; omega), List.drop_eq_nil_of_le (by rw [afterArg_length]; omega),
        List.append_nil] at h1
      exact ⟨h1, fun h => by omega, fun _ => h2⟩
    · rintro e w' ⟨X2, h1, h2, h3⟩
      refine ⟨X2, h1, h2, fun h => ?_⟩
      rcases h3 (h.imp_right fun h => ⟨hlen.symm, h⟩) with h | h | h
      · exact .inl h
      · rw [h]
        exact spared_afterArg
      · rw [h]
        exact spared_afterArg

/-- The temporary. -/
theorem sat_temporary {P : Par α} {w : W α} {X : List α} (own : Own P w X) {a : Arg α} {x : α} (hx : ArgIs X a x) :
    Sat (temporary P w.v.buf a) w
      (fun y w' => y = x ∧ ∃ t C, w' = { w with cel := C, tape := t } ∧ (∀ j, C w.v.buf j = (afterArg P.mv X a x)[j]?) ∧
        ∀ q j, q ≠ w.v.buf → C q j = w.cel q j)
      (fun e w' => e = .user ∧ ∃ t C, w' = { w with cel := C, tape := t } ∧ (∀ j, C w.v.buf j = (afterArg P.bad X a x)[j]?) ∧
        ∀ q j, q ≠ w.v.buf → C q j = w.cel q j) := by
  have hle := own.le
  have hlen := own.len
  cases a with
  | ext y =>
    have hx : y = x := hx
    subst hx
    exact Sat.tick fun c t _ => Sat.ite (fun _ => Sat.throw ⟨rfl, t, w.cel, rfl, own.cell, fun _ _ _ => rfl⟩)
      fun _ => Sat.pure' ⟨rfl, t, w.cel, rfl, own.cell, fun _ _ _ => rfl⟩
  | copy i =>
    have hi := lt_of_getElem? hx
    refine Sat.bind (Sat.rd (own.caps (by omega)) (by omega) ((own.cell i).trans hx) ?_)
    exact Sat.tick fun c t _ => Sat.ite (fun _ => Sat.throw ⟨rfl, t, w.cel, rfl, own.cell, fun _ _ _ => rfl⟩)
      fun _ => Sat.pure' ⟨rfl, t, w.cel, rfl, own.cell, fun _ _ _ => rfl⟩
  | move i =>
    have hi := lt_of_getElem? hx
    have hxi := (own.cell i).trans hx
    have hcap := own.caps (by omega)
    have key : ∀ f : α → α, ∀ t, ∃ t' C, ({ w with cel := put w.cel w.v.buf i (some (f x)), tape := t } : W α) = { w with cel := C, tape := t' } ∧
        (∀ j, C w.v.buf j = (X.set i (f x))[j]?) ∧ ∀ q j, q ≠ w.v.buf → C q j = w.cel q j := by
      intro f t
      refine ⟨t, _, rfl, ?_, ?_⟩
      · intro j
        rw [set_get hi]
        unfold put
        split
        · next h => rw [if_pos h.2]
        · rw [if_neg (by omega)]
          exact own.cell j
      · intro q j hq
        unfold put
        rw [if_neg (by omega)]
    refine Sat.bind (Sat.rd hcap (by omega) hxi ?_)
    refine Sat.tick fun c t _ => Sat.ite (fun _ => ?_) fun _ => ?_
    · exact Sat.bind (Sat.write (n := w.v.cap) hcap (by omega) (by rw [hxi]; rfl) (Sat.throw ⟨rfl, key P.bad t⟩))
    · exact Sat.bind (Sat.write (n := w.v.cap) hcap (by omega) (by rw [hxi]; rfl) (Sat.pure' ⟨rfl, key P.mv t⟩))

/-- Something went wrong in the old buffer. -/
theorem Fail.user {P : Par α} {w w' : W α} {X : List α} (own : Own P w X) (sane : Sane w) {need : Nat} (h1 : w'.caps = w.caps)
    (h2 : w'.nxt = w.nxt) (h3 : w'.v.buf = w.v.buf) (h4 : w'.v.cap = w.v.cap) (h6 : w'.v.size ≤ w.v.cap)
    (hC : ∀ j, j < w'.v.size → (w'.cel w.v.buf j).isSome) (hC' : ∀ j, w'.v.size ≤ j → w'.cel w.v.buf j = none)
    (ho : ∀ q, q ≠ w.v.buf → ∀ j, w'.cel q j = w.cel q j) : ∃ X2, Fail P w w' X X2 need .user := by
  obtain ⟨X2, _, hg, hs⟩ := Good.basic own sane h1 (by omega) h3 h4 h6 hC hC' ho
  exact ⟨X2, hg, hs, .inr (.inr rfl), fun h => (by cases h), fun h => (by cases h)⟩

theorem sat_emplace {P : Par α} {w : W α} {X : List α} (own : Own P w X) (sane : Sane w) {a : Arg α} {x : α} (hx : ArgIs X a x) {pos : Nat}
    (hpos : pos ≤ X.length) :
    Sat (emplace P pos a) w
      (fun _ w' => Good P w w' ((afterArg P.mv X a x).take pos ++ [x] ++ (afterArg P.mv X a x).drop pos) ∧ Room P (X.length + 1) w w')
      (fun e w' => ∃ X2, Fail P w w' X X2 (X.length + 1) e ∧
        (P.nmc = true ∧ (P.nma = true ∨ pos = X.length) ∨ pos = X.length ∧ P.cc = true → Spared X a X2)) := by
  have hlen := own.len
  have hle := own.le
  have hlX := @afterArg_length α P.mv X a x
  unfold emplace
  refine Sat.getV (Sat.ite (fun hroom => Sat.ite (fun h => ?_) fun h => ?_) fun hroom => ?_)
  · refine (sat_emplaceUnused own sane hx hroom).mono ?_ ?_
    · rintro _ w' ⟨h1, h2⟩
      rw [List.take_of_length_le (by omega), List.drop_eq_nil_of_le (by omega), List.append_nil]
      exact ⟨h1, fun _ => h2, fun h => by omega⟩
    · rintro e w' ⟨rfl, h1, h2⟩
      exact ⟨_, ⟨h1, h2, .inr (.inr rfl), fun h => (by cases h), fun h => (by cases h)⟩, fun _ => spared_afterArg⟩
  · have hcap := own.caps (by omega)
    refine Sat.then (sat_temporary own hx) ?_ ?_
    · rintro e w' ⟨rfl, t, C, rfl, h1, h2⟩
      obtain ⟨g1, g2⟩ := Good.inplace own sane (w' := { w with cel := C, tape := t }) rfl (Nat.le_refl _) rfl rfl
        (by rw [afterArg_length]; exact hlen) own.le h1 fun q hq j => h2 q j hq
      exact ⟨_, ⟨g1, g2, .inr (.inr rfl), fun h => (by cases h), fun h => (by cases h)⟩, fun _ => spared_afterArg⟩
    · rintro x' w1 ⟨hx', t, C1, rfl, h1, h2⟩
      rw [hx']
      clear hx'
      obtain ⟨y, hy⟩ := Option.isSome_iff_exists.1 (isSome_getElem? (l := afterArg P.mv X a x) (j := w.v.size - 1) (by omega))
      have hyC : C1 w.v.buf (w.v.size - 1) = some y := (h1 _).trans hy
      have hS1 : C1 w.v.buf w.v.size = none := by rw [h1, List.getElem?_eq_none (by omega)]
      have hsome : ∀ j, j < w.v.size → (C1 w.v.buf j).isSome := fun j hj => by
        rw [h1]
        exact isSome_getElem? (by omega)
      have hnone : ∀ j, w.v.size ≤ j → C1 w.v.buf j = none := fun j hj => by
        rw [h1]
        exact List.getElem?_eq_none (by omega)
      refine Sat.bind (Sat.moveC (w := { w with cel := C1, tape := t }) hcap (by omega) hS1 hcap (k := w.v.size - 1) (x := y) (by omega) hyC ?_ ?_)
      · intro t2
        have hC2 : ∀ q j, put (put C1 w.v.buf w.v.size (some y)) w.v.buf (w.v.size - 1) (some (P.mv y)) q j =
            if q = w.v.buf ∧ j = w.v.size - 1 then some (P.mv y) else if q = w.v.buf ∧ j = w.v.size then some y else C1 q j := fun _ _ => rfl
        generalize put (put C1 w.v.buf w.v.size (some y)) w.v.buf (w.v.size - 1) (some (P.mv y)) = C2 at hC2 ⊢
        refine Sat.bind (Sat.setSize ?_)
        have hsome2 : ∀ j, j < w.v.size + 1 → (C2 w.v.buf j).isSome := by
          intro j hj
          rw [hC2]
          split
          · rfl
          · split
            · rfl
            · exact hsome j (by omega)
        have hnone2 : ∀ j, w.v.size + 1 ≤ j → C2 w.v.buf j = none := by
          intro j hj
          rw [hC2, if_neg (by omega), if_neg (by omega)]
          exact hnone j (by omega)
        have hother2 : ∀ q j, q ≠ w.v.buf → C2 q j = w.cel q j := by
          intro q j hq
          rw [hC2, if_neg (by omega), if_neg (by omega)]
          exact h2 q j hq
        refine Sat.then (sat_moveBwd (P := P) (b := w.v.buf) (s := pos) (d := pos + 1) (N := w.v.cap) (by omega) (w.v.size - 1 - pos)
          (w := { w with cel := C2, tape := t2, v := { w.v with size := w.v.size + 1 } }) hcap (by omega) ?_) ?_ ?_
        · intro j hj1 hj2
          exact hsome2 j (by omega)
        · rintro e w' ⟨rfl, hna, t3, C3, rfl, hr1, hr2⟩
          obtain ⟨X2, hX2⟩ := Fail.user own sane (need := X.length + 1)
            (w' := { w with cel := C3, tape := t3, v := { w.v with size := w.v.size + 1 } }) rfl rfl rfl rfl
            (by show w.v.size + 1 ≤ w.v.cap; omega)
            (fun j hj => by
              show (C3 w.v.buf j).isSome
              by_cases h : pos ≤ j ∧ j < w.v.size
              · exact hr1 j (by omega) (by omega)
              · rw [hr2 _ j (by omega)]
                exact hsome2 j hj)
            (fun j hj => by
              show C3 w.v.buf j = none
              have hj : w.v.size + 1 ≤ j := hj
              rw [hr2 _ j (by omega)]
              exact hnone2 j hj)
            (fun q hq j => by
              show C3 q j = _
              rw [hr2 q j (.inl hq)]
              exact hother2 q j hq)
          exact ⟨X2, hX2, fun h => by simp [hna] at h; omega⟩
        · rintro _ w3 ⟨t3, C3, rfl, ⟨hr1, hr2⟩, hr3⟩
          simp only at hr1 hr2 hr3
          have hsome3 : ∀ j, j < w.v.size + 1 → (C3 w.v.buf j).isSome := fun j hj => by
            by_cases h : pos ≤ j ∧ j < w.v.size
            · exact hr1 j (by omega) (by omega)
            · rw [hr2 _ j (by omega)]
              exact hsome2 j hj
          have hnone3 : ∀ j, w.v.size + 1 ≤ j → C3 w.v.buf j = none := fun j hj => by
            rw [hr2 _ j (by omega)]
            exact hnone2 j hj
          obtain ⟨z, hz⟩ := Option.isSome_iff_exists.1 (hsome3 pos (by omega))
          refine Sat.moveAX (n := w.v.cap) (w := { w with cel := C3, tape := t3, v := { w.v with size := w.v.size + 1 } }) hcap (by omega) hz ?_ ?_
          · intro t4
            obtain ⟨g1, g2⟩ := Good.inplace own sane (X' := (afterArg P.mv X a x).take pos ++ [x] ++ (afterArg P.mv X a x).drop pos)
              (w' := { w with cel := put C3 w.v.buf pos (some x), tape := t4, v := { w.v with size := w.v.size + 1 } }) rfl (Nat.le_refl _) rfl rfl
              (by
                simp only [List.length_append, List.length_take, List.length_drop, List.length_cons, List.length_nil]
                omega)
              (by show w.v.size + 1 ≤ w.v.cap; omega)
              (fun j => by
                show put C3 w.v.buf pos (some x) w.v.buf j = _
                rw [insert_get (by omega)]
                unfold put
                simp only [List.length_cons, List.length_nil, true_and]
                by_cases j1 : j < pos
                · rw [if_neg (by omega), if_pos j1, hr2 _ j (by omega), hC2, if_neg (by omega), if_neg (by omega), h1]
                · rw [if_neg j1]
                  by_cases j2 : j = pos
                  · rw [if_pos j2, if_pos (by omega), j2, Nat.sub_self]
                    rfl
                  · rw [if_neg j2, if_neg (by omega)]
                    by_cases j3 : j < w.v.size
                    · have := hr3 (j - (pos + 1)) (by omega)
                      rw [show pos + 1 + (j - (pos + 1)) = j by omega] at this
                      rw [this, hC2, if_neg (by omega), if_neg (by omega), h1]
                      congr 1
                      omega
                    · by_cases j4 : j = w.v.size
                      · rw [hr2 _ j (by omega), hC2, if_neg (by omega), if_pos ⟨rfl, j4⟩, j4]
                        exact hy.symm
                      · rw [hnone3 j (by omega), List.getElem?_eq_none (by omega)])
              (fun q hq j => by
                show put C3 w.v.buf pos (some x) q j = _
                unfold put
                rw [if_neg (by omega), hr2 q j (.inl hq)]
                exact hother2 q j hq)
            exact ⟨g1, fun _ => g2, fun h => by omega⟩
          · intro t4 hna
            obtain ⟨X2, hX2⟩ := Fail.user own sane (need := X.length + 1)
              (w' := { w with cel := put C3 w.v.buf pos (some (P.bad z)), tape := t4, v := { w.v with size := w.v.size + 1 } }) rfl rfl rfl rfl
              (by show w.v.size + 1 ≤ w.v.cap; omega)
              (fun j hj => by
                show (put C3 w.v.buf pos (some (P.bad z)) w.v.buf j).isSome
                unfold put
                split
                · rfl
                · exact hsome3 j hj)
              (fun j hj => by
                show put C3 w.v.buf pos (some (P.bad z)) w.v.buf j = none
                have hj : w.v.size + 1 ≤ j := hj
                unfold put
                rw [if_neg (by omega)]
                exact hnone3 j hj)
              (fun q hq j => by
                show put C3 w.v.buf pos (some (P.bad z)) q j = _
                unfold put
                rw [if_neg (by omega), hr2 q j (.inl hq)]
                exact hother2 q j hq)
            exact ⟨X2, hX2, fun h => by simp [hna] at h; omega⟩
      · intro t2 hna
        obtain ⟨X2, hX2⟩ := Fail.user own sane (need := X.length + 1)
          (w' := { w with cel := put C1 w.v.buf (w.v.size - 1) (some (P.bad y)), tape := t2 }) rfl rfl rfl rfl own.le
          (fun j hj => by
            show (put C1 w.v.buf (w.v.size - 1) (some (P.bad y)) w.v.buf j).isSome
            unfold put
            split
            · rfl
            · exact hsome j hj)
          (fun j hj => by
            show put C1 w.v.buf (w.v.size - 1) (some (P.bad y)) w.v.buf j = none
            have hj : w.v.size ≤ j := hj
            unfold put
            rw [if_neg (by omega)]
            exact hnone j hj)
          (fun q hq j => by
            show put C1 w.v.buf (w.v.size - 1) (some (P.bad y)) q j = _
            unfold put
            rw [if_neg (by omega)]
            exact h2 q j hq)
        exact ⟨X2, hX2, fun h => by simp [hna] at h; omega⟩
  · have h : w.v.size = w.v.cap := by
      by_cases hh : w.v.size = w.v.cap
      · exact hh
      · exact absurd hh hroom
    refine (sat_emplaceRealloc own sane hx (by omega) h).mono ?_ ?_
    · rintro _ w' ⟨h1, h2⟩
      exact ⟨h1, fun h => by omega, fun _ => h2⟩
    · rintro e w' ⟨X2, h1, h2, h3⟩
      refine ⟨X2, h1, fun h => ?_⟩
      rcases h3 (h.imp_left And.left) with h | h | h
      · exact .inl h
      · rw [h]
        exact spared_afterArg
      · rw [h]
        exact spared_afterArg

end STL.Vec
