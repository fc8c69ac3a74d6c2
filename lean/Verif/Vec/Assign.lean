import Verif.Vec.Rest

/-!
# Assignment, `resize`, construction
-/

namespace STL.Vec
open STL

variable {α β γ : Type}

/-- What is left if an assignment of `n` elements fails. -/
structure AFail (P : Par α) (w w' : W α) (X X2 : List α) (n : Nat) (e : Exc) : Prop where
  good : Good P w w' X2
  kind : e = .lengthError ∨ e = .badAlloc ∨ e = .user
  length : e = .lengthError → P.max < n ∧ X2 = X ∧ Same w w'
  alloc : e = .badAlloc → w.v.cap < n ∧ X2 = []
  user : e = .user → w.v.cap < n ∧ X2 = [] ∨ n ≤ w.v.cap ∧ X2.length = X.length ∧ Same w w'

theorem Own.noCap {P : Par α} {w : W α} {X : List α} (own : Own P w X) (hc : w.v.cap = 0) : w.v.buf = 0 := by
  by_cases h : w.v.buf = 0
  · exact h
  · have := (own.live h).2.2
    omega

/-- An empty vector with a new buffer. -/
theorem sat_buyRaw {P : Par α} {w : W α} {X : List α} (own : Own P w X) (hb : w.v.buf = 0) (sane : Sane w) {n : Nat} (h0 : 0 < n) (hmx : n ≤ P.max) :
    Sat (buyRaw P n) w
      (fun _ w' => Good P w w' [] ∧ w'.v.buf = w.nxt ∧ w'.v.size = 0 ∧ n ≤ w'.v.cap)
      (fun e w' => e = .badAlloc ∧ Good P w w' X ∧ w'.v = w.v) := by
  have hp := sane.pos
  unfold buyRaw
  refine Sat.bind (Sat.allocate hmx ?_ ?_)
  · intro m a h1 h2 _
    refine ⟨Good.fresh own sane rfl rfl rfl (Nat.zero_le _) h2 (by show 0 < m; omega) ?_ ?_ ?_ ?_, rfl, rfl, h1⟩
    · intro q
      show (if q = w.nxt then some m else w.caps q) = if q = w.v.buf then none else if q = w.nxt then some m else w.caps q
      by_cases h : q = w.v.buf
      · rw [if_pos h, if_neg (by omega), h, hb]
        exact sane.zero.1
      · rw [if_neg h]
    · intro x
      exact (sane.fresh w.nxt (Nat.le_refl _)).2 x
    · intro x
      show w.cel w.v.buf x = none
      rw [hb]
      exact sane.zero.2 x
    · intro q _ _ j
      rfl
  · intro a
    exact ⟨rfl, (Good.same own sane (w' := { w with ans := a }) rfl rfl rfl rfl).2.1, rfl⟩

theorem sat_clearAndReserve {P : Par α} {w : W α} {X : List α} (own : Own P w X) (sane : Sane w) {n : Nat} (h : w.v.cap < n) :
    Sat (clearAndReserve P n) w
      (fun _ w' => Good P w w' [] ∧ w'.v.size = 0 ∧ Grown P n w w')
      (fun e w' => ∃ X2, AFail P w w' X X2 n e) := by
  unfold clearAndReserve
  refine Sat.ite (fun hm => Sat.throw ?_) fun hm => Sat.getV (Sat.then (sat_tidy own sane) (E' := fun _ _ => False) (fun _ _ h => absurd h id) ?_)
  · obtain ⟨g0, _, g2⟩ := Good.same own sane (w' := w) rfl rfl rfl rfl
    exact ⟨X, g0, .inl rfl, fun _ => ⟨hm, rfl, g2⟩, fun h => (by cases h), fun h => (by cases h)⟩
  · rintro _ w1 ⟨g1, hv1, hn1⟩
    have h1 := calcGrowth_le (P := P) (cap := w.v.cap) (n := n) (by omega)
    have h2 := le_calcGrowth (P := P) (cap := w.v.cap) (n := n) (by omega)
    have h3 := geometric (P := P) (cap := w.v.cap) (n := n)
    refine (sat_buyRaw g1.own (by rw [hv1]) g1.sane (by omega) h1).mono ?_ ?_
    · rintro _ w2 ⟨g2, b2, s2, c2⟩
      exact ⟨g1.trans sane g2, s2, by omega, by omega, by omega⟩
    · rintro e w2 ⟨rfl, g2, _⟩
      exact ⟨[], g1.trans sane g2, .inr (.inl rfl), fun h => (by cases h), fun _ => ⟨h, rfl⟩, fun h => (by cases h)⟩

/-- The vector holds a list of known elements. -/
theorem sat_finish {P : Par α} {w w1 : W α} {X Y : List α} (own : Own P w X) (sane : Sane w) {n : Nat} {t : List Bool}
    {C : Nat → Nat → Option α} (hw1 : w1 = { w with cel := C, tape := t }) (hn : n ≤ w.v.cap) (hY : Y.length = n)
    (hC : ∀ j, C w.v.buf j = Y[j]?) (ho : ∀ q j, q ≠ w.v.buf → C q j = w.cel q j) {E : Exc → W α → Prop} :
    Sat (setSize n) w1 (fun _ w' => Good P w w' Y ∧ Same w w') E := by
  subst hw1
  exact Sat.setSize (Good.inplace own sane rfl (Nat.le_refl _) rfl rfl hY hn hC (fun q hq j => ho q j hq))

theorem Grown.same {P : Par α} {n : Nat} {w w1 w2 : W α} (h1 : Grown P n w w1) (h2 : Same w1 w2) : Grown P n w w2 := by
  obtain ⟨a, b, c⟩ := h1
  obtain ⟨d, e⟩ := h2
  exact ⟨by omega, by omega, by omega⟩

theorem AFail.inplace {P : Par α} {w : W α} {X : List α} (own : Own P w X) (sane : Sane w) {n k : Nat} (hn : n ≤ w.v.cap) (hk : k ≤ w.v.size)
    {t : List Bool} {C : Nat → Nat → Option α} (hr : Ruin w.cel C w.v.buf 0 k) : ∃ X2, AFail P w { w with cel := C, tape := t } X X2 n .user := by
  obtain ⟨r1, r2⟩ := hr
  have hlen := own.len
  obtain ⟨X2, l2, g2, s2⟩ := Good.basic own sane (w' := { w with cel := C, tape := t }) rfl (Nat.le_refl _) rfl rfl own.le
    (fun j hj => by
      show (C w.v.buf j).isSome
      have hj : j < w.v.size := hj
      by_cases h : j < k
      · exact r1 j (by omega) (by omega)
      · rw [r2 _ j (by omega)]
        exact own.isS hj)
    (fun j hj => by
      show C w.v.buf j = none
      have hj : w.v.size ≤ j := hj
      rw [r2 _ j (by omega)]
      exact own.isN hj)
    (fun q hq j => by
      show C q j = _
      rw [r2 q j (.inl hq)])
  exact ⟨X2, g2, .inr (.inr rfl), fun h => (by cases h), fun h => (by cases h), fun _ => .inr ⟨hn, by rw [l2, hlen], s2⟩⟩

theorem sat_assignRange {P : Par α} {w : W α} {X : List α} (own : Own P w X) (sane : Sane w) {xs : List α} :
    Sat (assignRange P xs) w (fun _ w' => Good P w w' xs ∧ Room P xs.length w w') (fun e w' => ∃ X2, AFail P w w' X X2 xs.length e) := by
  have hlen := own.len
  have hle := own.le
  unfold assignRange
  refine Sat.getV ?_
  dsimp only
  refine Sat.ite (fun h1 => ?_) fun h1 => Sat.ite (fun h2 => ?_) fun h2 => ?_
  · refine Sat.then (sat_clearAndReserve own sane (by omega)) (fun _ _ h => h) ?_
    rintro _ w1 ⟨g1, s1, gr1⟩
    have hc1 := gr1.2.1
    refine Sat.getV (Sat.then (sat_uninitList (g1.own.caps (by omega)) (by omega) ?_) ?_ ?_)
    · intro j _ _
      exact g1.own.isN (by omega)
    · rintro e w2 ⟨rfl, t, rfl⟩
      refine ⟨[], g1.trans sane (Good.same g1.own g1.sane (w' := { w1 with tape := t }) rfl rfl rfl rfl).2.1, .inr (.inr rfl), fun h => (by cases h),
        fun h => (by cases h), fun _ => .inl ⟨by omega, rfl⟩⟩
    · rintro _ w2 ⟨t, hw2⟩
      refine (sat_finish g1.own g1.sane hw2 (Y := xs) hc1 rfl ?_ ?_).mono ?_ fun _ _ h => h
      · intro j
        by_cases h : j < xs.length
        · rw [over_in (by omega) (by omega), Nat.sub_zero]
        · rw [over_out (by omega), g1.own.isN (by omega), List.getElem?_eq_none (by omega)]
      · intro q j hq
        exact over_out (.inl hq)
      · rintro _ w' ⟨g2, s2⟩
        exact ⟨g1.trans sane g2, fun h => by omega, fun _ => gr1.same s2⟩
  · have htl : (xs.take w.v.size).length = w.v.size := by simp; omega
    refine Sat.then (sat_copyList0 (N := w.v.cap) (fun h => own.caps (by omega)) (fun _ => by omega) ?_) ?_ ?_
    · intro j _ h
      exact own.isS (by omega)
    · rintro e w' ⟨rfl, t, C, rfl, hr⟩
      exact AFail.inplace own sane (by omega) (Nat.le_refl _) (by rw [htl] at hr; exact hr)
    · rintro _ w1 ⟨t, rfl⟩
      rw [htl]
      have hcap := own.caps (by omega)
      have hdl : (xs.drop w.v.size).length = xs.length - w.v.size := by simp
      refine Sat.then (sat_uninitList (M := w.v.cap) hcap (by omega) ?_) ?_ ?_
      · intro j h _
        show over w.cel w.v.buf 0 w.v.size _ w.v.buf j = none
        rw [over_out (by omega)]
        exact own.isN h
      · rintro e w2 ⟨rfl, t2, rfl⟩
        refine AFail.inplace own sane (by omega) (Nat.le_refl _) ⟨?_, fun q j hh => over_out (by omega)⟩
        intro j h1 h2
        dsimp only
        rw [over_in h1 h2]
        exact isSome_getElem? (by omega)
      · rintro _ w2 ⟨t2, hw2⟩
        refine (sat_finish own sane (C := over (over w.cel w.v.buf 0 w.v.size fun j => (xs.take w.v.size)[j]?) w.v.buf w.v.size (xs.drop w.v.size).length
          fun j => (xs.drop w.v.size)[j]?) hw2 (Y := xs) (by omega) rfl ?_ ?_).mono ?_ fun _ _ h => h
        · intro j
          by_cases h : j < w.v.size
          · rw [over_out (by omega), over_in (by omega) (by omega), List.getElem?_take, if_pos (by omega), Nat.sub_zero]
          · by_cases h' : j < xs.length
            · rw [over_in (by omega) (by omega), List.getElem?_drop]
              congr 1
              omega
            · rw [over_out (by omega), over_out (by omega), own.isN (by omega), List.getElem?_eq_none (by omega)]
        · intro q j hq
          rw [over_out (.inl hq), over_out (.inl hq)]
        · rintro _ w' ⟨g2, s2⟩
          exact ⟨g2, Room.same s2 (by omega)⟩
  · refine Sat.then (sat_copyList0 (N := w.v.cap) (fun h => own.caps (by omega)) (fun _ => by omega) ?_) ?_ ?_
    · intro j _ h
      exact own.isS (by omega)
    · rintro e w' ⟨rfl, t, C, rfl, hr⟩
      exact AFail.inplace own sane (by omega) (by omega) hr
    · rintro _ w1 ⟨t, hw1⟩
      refine (sat_truncate own sane hw1 (Y := xs) (by omega) rfl ?_ ?_ ?_ ?_).mono ?_ fun _ _ h => h
      · intro j h
        rw [over_in (by omega) (by omega), Nat.sub_zero]
      · intro j h
        by_cases h' : j < xs.length
        · rw [over_in (by omega) (by omega)]
          exact isSome_getElem? (by omega)
        · rw [over_out (by omega)]
          exact own.isS h
      · intro j h
        rw [over_out (by omega)]
        exact own.isN h
      · intro q j hq
        exact over_out (.inl hq)
      · rintro _ w' ⟨g2, s2⟩
        exact ⟨g2, Room.same s2 (by omega)⟩

theorem uninitFill_eq {o b d : Nat} {x : α} : ∀ (n k : Nat), uninitFillFrom o (.ext x) b d k n = uninitListFrom b d k (List.replicate n x)
  | 0, k => rfl
  | n + 1, k => by
    rw [List.replicate_succ]
    unfold uninitFillFrom uninitListFrom
    rw [← uninitFill_eq n (k + 1)]
    rfl

/-- `assign(n, val)` does what the assignment of a range of `n` copies does. -/
theorem assignN_eq {P : Par α} {n : Nat} {x : α} : assignN P n x = assignRange P (List.replicate n x) := by
  unfold assignN assignRange uninitFill uninitList
  simp only [List.length_replicate, fill_eq, uninitFill_eq, List.take_replicate, List.drop_replicate]
  congr 1
  funext v
  by_cases h1 : n > v.cap
  · rw [if_pos h1, if_pos h1]
  · rw [if_neg h1, if_neg h1]
    by_cases h2 : n > v.size
    · rw [if_pos h2, if_pos h2, Nat.min_eq_left (by omega)]
    · rw [if_neg h2, if_neg h2]

theorem Sat.assoc {δ : Type} {m : M α β} {f : β → M α γ} {g : γ → M α δ} {w : W α} {Q : δ → W α → Prop} {E : Exc → W α → Prop}
    (h : Sat ((m >>= f) >>= g) w Q E) : Sat (m >>= fun x => f x >>= g) w Q E := by
  have : (m >>= f) >>= g = m >>= fun x => f x >>= g := by
    funext w0
    show M.bind (M.bind m f) g w0 = M.bind m (fun x => M.bind (f x) g) w0
    unfold M.bind
    cases m w0 <;> rfl
  rw [← this]
  exact h

/-- What is left if an assignment from input iterators fails. -/
structure IFail (P : Par α) (w w' : W α) (X xs X2 : List α) (e : Exc) : Prop where
  good : Good P w w' X2
  kind : e = .lengthError ∨ e = .badAlloc ∨ e = .user
  length : e = .lengthError → P.max < xs.length ∧ X2 = xs.take P.max
  alloc : e = .badAlloc → w.v.cap < xs.length ∧ ∃ k, k < xs.length ∧ X2 = xs.take k
  user : e = .user → X2.length ≤ max X.length xs.length

theorem sat_assignInput {P : Par α} {w : W α} {X : List α} (own : Own P w X) (sane : Sane w) {xs : List α} :
    Sat (assignInput P xs) w (fun _ w' => Good P w w' xs ∧ Room P xs.length w w') (fun e w' => ∃ X2, IFail P w w' X xs X2 e) := by
  have hlen := own.len
  have hle := own.le
  unfold assignInput
  refine Sat.getV ?_
  dsimp only
  have hk : min xs.length w.v.size ≤ w.v.size := Nat.min_le_right ..
  have hk' : min xs.length w.v.size ≤ xs.length := Nat.min_le_left ..
  have hk2 : min xs.length w.v.size = xs.length ∨ min xs.length w.v.size = w.v.size := by omega
  generalize min xs.length w.v.size = k at hk hk' hk2
  have htl : (xs.take k).length = k := by simp; omega
  refine Sat.then (sat_copyList0 (N := w.v.cap) (fun h => own.caps (by omega)) (fun _ => by omega) ?_) ?_ ?_
  · intro j _ h
    exact own.isS (by omega)
  · rintro e w' ⟨rfl, t, C, rfl, hr⟩
    rw [htl] at hr
    obtain ⟨X2, h⟩ := AFail.inplace (t := t) own sane (n := 0) (by omega) hk hr
    refine ⟨X2, h.good, h.kind, fun h => (by cases h), fun h => (by cases h), fun hu => ?_⟩
    rcases h.user hu with h | h
    · omega
    · omega
  · rintro _ w1 ⟨t, hw1⟩
    rw [htl] at hw1
    refine Sat.assoc (Sat.then (E' := fun _ _ => False) (Q' := fun _ w' => Good P w w' (xs.take k) ∧ Same w w') (m := do
      destroyRange w.v.buf k (w.v.size - k); setSize k) (f := fun _ => appendInput P (xs.drop k)) ?_ (fun _ _ h => absurd h id) ?_)
    · refine sat_truncate own sane hw1 (Y := xs.take k) hk htl ?_ ?_ ?_ ?_
      · intro j h
        rw [over_in (by omega) (by omega), Nat.sub_zero]
      · intro j h
        by_cases h' : j < k
        · rw [over_in (by omega) (by omega)]
          exact isSome_getElem? (by omega)
        · rw [over_out (by omega)]
          exact own.isS h
      · intro j h
        rw [over_out (by omega)]
        exact own.isN h
      · intro q j hq
        exact over_out (.inl hq)
    · rintro _ w2 ⟨g2, s2⟩
      refine (sat_appendInput g2.own g2.sane).mono ?_ ?_
      · rintro _ w3 ⟨g3, r3⟩
        rw [List.take_append_drop] at g3
        rw [htl, List.length_drop, show k + (xs.length - k) = xs.length by omega] at r3
        exact ⟨g2.trans sane g3, Room.trans hk' g2.frame.nxt (Room.same (P := P) s2 (by omega)) r3⟩
      · rintro e w3 ⟨X2, i, h⟩
        have hl := h.len
        have hi := h.le
        have hr := h.room
        rw [htl] at hl hr
        rw [List.length_drop] at hi
        have he : ∀ Z, Z = xs.take k ++ (xs.drop k).take i → Z = xs.take (k + i) := by
          rintro _ rfl
          rw [List.take_add]
        refine ⟨X2, g2.trans sane h.good, h.kind, fun h' => ?_, fun h' => ?_, fun h' => by omega⟩
        · obtain ⟨a, b, c⟩ := h.length h'
          rw [htl] at b
          rw [List.length_drop] at a
          refine ⟨by omega, ?_⟩
          rw [he _ c, b]
        · obtain ⟨a, b, c⟩ := h.alloc h'
          rw [htl] at b
          rw [List.length_drop] at a
          refine ⟨?_, k + i, by omega, he _ c⟩
          obtain ⟨s21, s22⟩ := s2
          by_cases hc : k + i ≤ w2.v.cap
          · have := (hr.1 hc).2
            omega
          · omega

theorem sat_resize {P : Par α} {w : W α} {X : List α} (own : Own P w X) (sane : Sane w) {src : Src α} {x : α} (hx : ArgIs X src.arg x) {n : Nat} :
    Sat (resize P n src) w
      (fun _ w' => Good P w w' (X.take n ++ List.replicate (n - X.length) x) ∧ Room P n w w')
      (fun e w' => ∃ X2, Fail P w w' X X2 n e ∧ (P.nmc = true ∨ P.cc = true → X2 = X)) := by
  have hlen := own.len
  have hle := own.le
  have hmx := own.mx
  unfold resize
  refine Sat.getV (Sat.ite (fun h1 => ?_) fun h1 => Sat.ite (fun h2 => Sat.ite (fun h3 => Sat.ite (fun h4 => Sat.throw ?_) fun h4 => ?_) fun h3 => ?_)
    fun h2 => Sat.pure' ?_)
  · refine (sat_truncate (t := w.tape) (C := w.cel) own sane (n := n) rfl (by omega) (Y := X.take n ++ List.replicate (n - X.length) x) ?_ ?_
      (fun j => own.isS) (fun j => own.isN) (fun _ _ _ => rfl)).mono ?_ fun _ _ h => h
    · simp
      omega
    · intro j hj
      rw [List.getElem?_append_left (by simp; omega), List.getElem?_take, if_pos hj]
      exact own.cell j
    · rintro _ w' ⟨g, s⟩
      exact ⟨g, Room.same s (by omega)⟩
  · exact ⟨X, Fail.tooLong own sane h4, fun _ => rfl⟩
  · rw [hlen.symm]
    refine (sat_grow own sane (Y := List.replicate (n - X.length) x) (cnt := n - X.length) (strong := true) (by simp) (by omega) (by omega) (by omega)
      (Nat.le_refl _) (fun _ => rfl) (mkOk_uninitFill own sane hx)).mono ?_ ?_
    · rintro _ w' ⟨g, r⟩
      rw [List.drop_eq_nil_of_le (Nat.le_refl _), List.append_nil, List.take_length] at g
      rw [List.take_of_length_le (by omega)]
      exact ⟨g, r⟩
    · rintro e w' ⟨X2, f, s⟩
      exact ⟨X2, f, fun h => s (h.imp_right fun h => ⟨rfl, h⟩)⟩
  · refine Sat.then (sat_uninitFill (M := w.v.cap) (srcVal own hx) (own.caps (by omega)) (by omega) ?_) ?_ ?_
    · intro j h _
      exact own.isN h
    · rintro e w' ⟨rfl, t, rfl⟩
      exact ⟨X, Fail.strong own sane rfl rfl rfl rfl, fun _ => rfl⟩
    · rintro _ w1 ⟨t, hw1⟩
      refine (sat_finish own sane hw1 (Y := X.take n ++ List.replicate (n - X.length) x) (by omega) (by simp; omega) ?_ ?_).mono ?_ fun _ _ h => h
      · intro j
        rw [List.take_of_length_le (by omega)]
        by_cases h : j < w.v.size
        · rw [over_out (by omega), List.getElem?_append_left (by omega)]
          exact own.cell j
        · rw [List.getElem?_append_right (by omega), List.getElem?_replicate]
          by_cases h' : j < n
          · rw [over_in (by omega) (by omega), if_pos (by omega)]
          · rw [over_out (by omega), if_neg (by omega)]
            exact own.isN (by omega)
      · intro q j hq
        exact over_out (.inl hq)
      · rintro _ w' ⟨g, s⟩
        exact ⟨g, Room.same s (by omega)⟩
  · obtain ⟨g0, _, g2⟩ := Good.same own sane (w' := w) rfl rfl rfl rfl
    rw [List.take_of_length_le (by omega), show n - X.length = 0 by omega, List.replicate_zero, List.append_nil]
    exact ⟨g0, Room.same g2 (by omega)⟩

/-! ## Construction -/

/-- What is left if a constructor fails: nothing. -/
structure CFail (P : Par α) (w w' : W α) (xs : List α) (e : Exc) : Prop where
  good : Good P w w' []
  null : w'.v = ⟨0, 0, 0⟩
  kind : e = .lengthError ∨ e = .badAlloc ∨ e = .user
  length : e = .lengthError → P.max < xs.length
  ne : xs ≠ []

/-- A new vector. -/
structure Built (P : Par α) (w w' : W α) (xs : List α) : Prop where
  good : Good P w w' xs
  null : xs = [] → w'.v = w.v
  new : xs ≠ [] → w.nxt ≤ w'.v.buf ∧ xs.length ≤ w'.v.cap

theorem sat_ctorRange {P : Par α} {w : W α} (hv : w.v = ⟨0, 0, 0⟩) (own : Own P w []) (sane : Sane w) {xs : List α} :
    Sat (ctorRange P xs) w (fun _ w' => Built P w w' xs) (fun e w' => CFail P w w' xs e) := by
  unfold ctorRange constructN
  obtain ⟨g0, _, g2⟩ := Good.same own sane (w' := w) rfl rfl rfl rfl
  refine Sat.ite (fun h0 => ?_) fun h0 => Sat.pure' ?_
  · have hne : xs ≠ [] := fun h => h0 (by rw [h]; rfl)
    refine Sat.ite (fun h1 => Sat.throw ?_) fun h1 => ?_
    · exact ⟨g0, hv, .inl rfl, fun _ => h1, hne⟩
    · refine Sat.then (sat_buyRaw own (by rw [hv]) sane (n := xs.length) (by omega) (by omega)) ?_ ?_
      · rintro e w' ⟨rfl, h2, h3⟩
        exact ⟨h2, h3.trans hv, .inr (.inl rfl), fun h => (by cases h), hne⟩
      · rintro _ w1 ⟨g1, b1, s1, c1⟩
        refine Sat.getV (Sat.onExc (Sat.then (sat_uninitList (g1.own.caps (by omega)) (by omega) ?_) ?_ ?_))
        · intro j _ _
          exact g1.own.isN (by omega)
        · rintro e w2 ⟨rfl, t, rfl⟩
          obtain ⟨_, g2, _⟩ := Good.same g1.own g1.sane (w' := { w1 with tape := t }) rfl rfl rfl rfl
          refine (sat_tidy g2.own g2.sane).mono ?_ fun _ _ h => h
          rintro _ w3 ⟨g3, v3, _⟩
          exact ⟨g1.trans sane (g2.trans g1.sane g3), v3, .inr (.inr rfl), fun h => (by cases h), hne⟩
        · rintro _ w2 ⟨t, hw2⟩
          refine (sat_finish g1.own g1.sane hw2 (Y := xs) c1 rfl ?_ ?_).mono ?_ fun _ _ h => h
          · intro j
            by_cases h : j < xs.length
            · rw [over_in (by omega) (by omega), Nat.sub_zero]
            · rw [over_out (by omega), g1.own.isN (by omega), List.getElem?_eq_none (by omega)]
          · intro q j hq
            exact over_out (.inl hq)
          · rintro _ w' ⟨g2, s2, s3⟩
            exact ⟨g1.trans sane g2, fun h => absurd h hne, fun _ => ⟨by omega, by omega⟩⟩
  · have : xs = [] := List.length_eq_zero_iff.1 (by omega)
    subst this
    exact ⟨g0, fun _ => rfl, fun h => absurd rfl h⟩

theorem ctorN_eq {P : Par α} {n : Nat} {x : α} : ctorN P n x = ctorRange P (List.replicate n x) := by
  unfold ctorN ctorRange uninitFill uninitList
  simp only [List.length_replicate, uninitFill_eq]

theorem sat_ctorInput {P : Par α} {w : W α} (hv : w.v = ⟨0, 0, 0⟩) (own : Own P w []) (sane : Sane w) {xs : List α} :
    Sat (ctorInput P xs) w (fun _ w' => Built P w w' xs) (fun e w' => CFail P w w' xs e) := by
  unfold ctorInput
  by_cases hne : xs = []
  · subst hne
    exact Sat.onExc (Sat.pure' ⟨(Good.same own sane (w' := w) rfl rfl rfl rfl).1, fun _ => rfl, fun h => absurd rfl h⟩)
  · have hpos : 0 < xs.length := List.length_pos_iff.2 hne
    refine Sat.onExc ((sat_appendInput own sane).mono ?_ ?_)
    · rintro _ w' ⟨g, r⟩
      have hc : w.v.cap < ([] : List α).length + xs.length := by
        rw [hv]
        simpa using hpos
      obtain ⟨a, b, _⟩ := r.2 hc
      exact ⟨g, fun h => absurd h hne, fun _ => ⟨a, by simpa using b⟩⟩
    · rintro e w1 ⟨X2, k, h⟩
      refine (sat_tidy h.good.own h.good.sane).mono ?_ fun _ _ h => h
      rintro _ w2 ⟨g2, v2, _⟩
      refine ⟨h.good.trans sane g2, v2, h.kind, ?_, hne⟩
      intro h'
      obtain ⟨a, b, _⟩ := h.length h'
      simp at b
      omega

theorem sat_at {P : Par α} {w : W α} {X : List α} (own : Own P w X) {i : Nat} :
    Sat (at_ i) w (fun x w' => X[i]? = some x ∧ w' = w) (fun e w' => e = .outOfRange ∧ X.length ≤ i ∧ w' = w) := by
  have hlen := own.len
  have hle := own.le
  unfold at_
  refine Sat.getV (Sat.ite (fun h => ?_) fun h => ?_)
  · exact ⟨rfl, by omega, rfl⟩
  · have hi : i < X.length := by omega
    refine Sat.rd (own.caps (by omega)) (by omega) ((own.cell i).trans (List.getElem?_eq_getElem hi)) ⟨List.getElem?_eq_getElem hi, rfl⟩

end STL.Vec
