import Verif.Vec.Inv

/-!
# Reallocation
-/

namespace STL.Vec
open STL

variable {α β γ : Type}

/-- The state after an allocation of `m` cells. -/
def allocd (w : W α) (a : List (Option Nat)) (m : Nat) : W α :=
  { w with ans := a, nxt := w.nxt + 1, caps := fun q => if q = w.nxt then some m else w.caps q }

/-- The new buffer holds `Y` from `off` on, the old one `X1`. -/
structure Placed (w : W α) (off : Nat) (C : Nat → Nat → Option α) (Y X1 : List α) : Prop where
  new : ∀ j, C w.nxt j = if off ≤ j then Y[j - off]? else none
  old : ∀ x, C w.v.buf x = X1[x]?
  other : ∀ q, q ≠ w.nxt → q ≠ w.v.buf → ∀ j, C q j = w.cel q j

theorem Own.lt {P : Par α} {w : W α} {X : List α} (own : Own P w X) (sane : Sane w) : w.v.buf < w.nxt := by
  have := sane.pos
  by_cases h : w.v.buf = 0
  · omega
  · exact (own.live h).2.1

theorem Placed.start {P : Par α} {w : W α} {X : List α} (own : Own P w X) (sane : Sane w) (off : Nat) : Placed w off w.cel [] X := by
  refine ⟨?_, own.cell, fun _ _ _ _ => rfl⟩
  intro j
  rw [(sane.fresh w.nxt (Nat.le_refl _)).2]
  simp

theorem isSome_getElem? {l : List α} {j : Nat} (h : j < l.length) : (l[j]?).isSome := by
  rw [List.getElem?_eq_getElem h]
  rfl

/-- The new buffer is given back. -/
theorem sat_backout {P : Par α} {w : W α} {X : List α} (own : Own P w X) (sane : Sane w) {a : List (Option Nat)} {m off cnt : Nat}
    {C : Nat → Nat → Option α} {Y X2 : List α} {t : List Bool} (hp : Placed w off C Y X2) (hY : Y.length = cnt) (hm : off + cnt ≤ m)
    (hX2 : X2.length = X.length) {E : Exc → W α → Prop} :
    Sat (guard2 w.nxt m off (off + cnt)) { allocd w a m with cel := C, tape := t }
      (fun _ w' => Good P w w' X2 ∧ Same w w' ∧ w'.v = w.v) E := by
  have hlt := own.lt sane
  unfold guard2
  refine Sat.then (Q' := fun _ w' => w' = { allocd w a m with cel := over C w.nxt off (off + cnt - off) fun _ => none, tape := t }) (E' := E)
    ?_ (fun _ _ h => h) ?_
  · refine sat_destroyRange0 (N := m) ?_ ?_ ?_
    · intro _
      show (if w.nxt = w.nxt then some m else w.caps w.nxt) = some m
      rw [if_pos rfl]
    · intro _
      omega
    · intro j h1 h2
      show (C w.nxt j).isSome
      rw [hp.new, if_pos h1]
      exact isSome_getElem? (by omega)
  · rintro _ w1 rfl
    refine Sat.deallocate ?_ ?_ ?_
    · show (if w.nxt = w.nxt then some m else w.caps w.nxt) = some m
      rw [if_pos rfl]
    · intro i hi
      show over C w.nxt off (off + cnt - off) (fun _ => none) w.nxt i = none
      by_cases h : off ≤ i ∧ i < off + cnt
      · rw [over_in (by omega) (by omega)]
      · rw [over_out (by omega), hp.new]
        split
        · rw [List.getElem?_eq_none (by omega)]
        · rfl
    · have key : ∀ q j, q ≠ w.nxt → over C w.nxt off (off + cnt - off) (fun _ => none) q j = C q j := fun q j h => over_out (.inl h)
      rw [← and_assoc]
      refine ⟨Good.inplace own sane ?_ (Nat.le_succ _) rfl rfl (by rw [hX2]; exact own.len) own.le ?_ ?_, rfl⟩
      · funext q
        show (if q = w.nxt then none else if q = w.nxt then some m else w.caps q) = w.caps q
        split
        · next h => rw [h, (sane.fresh w.nxt (Nat.le_refl _)).1]
        · rfl
      · intro x
        show over C w.nxt off (off + cnt - off) (fun _ => none) w.v.buf x = _
        rw [key _ _ (by omega)]
        exact hp.old x
      · intro q hq j
        show over C w.nxt off (off + cnt - off) (fun _ => none) q j = _
        by_cases h : q = w.nxt
        · rw [h, (sane.fresh w.nxt (Nat.le_refl _)).2]
          by_cases h : off ≤ j ∧ j < off + cnt
          · rw [over_in (by omega) (by omega)]
          · rw [over_out (by omega), hp.new]
            split
            · rw [List.getElem?_eq_none (by omega)]
            · rfl
        · rw [key _ _ h]
          exact hp.other q h hq j

/-- What may be left of the old elements. -/
structure Rest (w : W α) (C C' : Nat → Nat → Option α) (n : Nat) : Prop where
  some : ∀ j, j < n → (C' w.v.buf j).isSome
  none : ∀ j, n ≤ j → C' w.v.buf j = none
  other : ∀ q, q ≠ w.nxt → q ≠ w.v.buf → ∀ j, C' q j = C q j

theorem insert_get {X Y : List α} {off : Nat} (h : off ≤ X.length) (j : Nat) :
    (X.take off ++ Y ++ X.drop off)[j]? = if j < off then X[j]? else if j < off + Y.length then Y[j - off]? else X[j - Y.length]? := by
  rw [List.append_assoc, List.getElem?_append, List.length_take, Nat.min_eq_left h]
  split
  · next h1 => rw [List.getElem?_take, if_pos h1]
  · next h1 =>
    rw [List.getElem?_append]
    split
    · next h2 => rw [if_pos (by omega)]
    · next h2 =>
      rw [if_neg (by omega), List.getElem?_drop]
      congr 1
      omega

/-- The old elements go around the new ones. -/
theorem sat_placeOld {P : Par α} {w : W α} {X : List α} (own : Own P w X) (sane : Sane w) {a : List (Option Nat)} {m off cnt : Nat}
    {C : Nat → Nat → Option α} {Y X1 : List α} {t : List Bool} {strong : Bool} (hp : Placed w off C Y X1) (hY : Y.length = cnt)
    (hm : w.v.size + cnt ≤ m) (hX1 : X1.length = X.length) (hoff : off ≤ w.v.size) (hs : strong = true → off = w.v.size) :
    Sat (placeOld P w.v w.nxt m off cnt strong) { allocd w a m with cel := C, tape := t }
      (fun _ w' => ∃ t C', w' = { allocd w a m with cel := C', tape := t } ∧
        (∀ j, C' w.nxt j = (X1.take off ++ Y ++ X1.drop off)[j]?) ∧ Rest w w.cel C' w.v.size)
      (fun e w' => e = .user ∧ ∃ X2, Good P w w' X2 ∧ Same w w' ∧ w'.v = w.v ∧ X2.length = X.length ∧
        (P.nmc = true ∨ strong = true ∧ P.cc = true → X2 = X1)) := by
  have hlt := own.lt sane
  have hlen : X1.length = w.v.size := by rw [hX1, own.len]
  have hnew : (allocd w a m).caps w.nxt = some m := by
    show (if w.nxt = w.nxt then some m else w.caps w.nxt) = some m
    rw [if_pos rfl]
  have hcap : 0 < w.v.size → (allocd w a m).caps w.v.buf = some w.v.cap := by
    intro h
    have := own.le
    show (if w.v.buf = w.nxt then some m else w.caps w.v.buf) = _
    rw [if_neg (by omega)]
    exact own.caps (by omega)
  have hsrc : ∀ j, j < w.v.size → (C w.v.buf j).isSome := by
    intro j hj
    rw [hp.old]
    exact isSome_getElem? (by omega)
  have hle := own.le
  unfold placeOld
  refine Sat.ite (fun hst => ?_) fun hst => ?_
  · have hoff := hs hst
    subst hoff
    refine Sat.onExc ?_
    unfold moveOrCopy
    refine Sat.ite (fun hmc => ?_) fun hmc => ?_
    · refine (sat_uninitMove0 (P := P) (N := w.v.cap) (M := m) (w := { allocd w a m with cel := C, tape := t }) (by exact hcap)
        (by intro; omega) hnew (by omega) (.inl (by omega)) ?_ ?_).mono ?_ ?_
      · intro j _ h
        exact hsrc j (by omega)
      · intro j _ h
        show C w.nxt j = none
        rw [hp.new, if_neg (by omega)]
      · rintro _ w' ⟨t', rfl⟩
        refine ⟨t', _, rfl, ?_, ?_, ?_, ?_⟩
        · intro j
          show moved P C w.v.buf 0 w.nxt 0 w.v.size w.nxt j = _
          rw [insert_get (by omega)]
          unfold moved
          by_cases h : j < w.v.size
          · rw [if_pos (by omega), if_pos h, hp.old]
            congr 1
            omega
          · rw [if_neg (by omega), if_neg (by omega), if_neg (by omega), hp.new, if_pos (by omega)]
            split
            · rfl
            · rw [List.getElem?_eq_none (by omega), List.getElem?_eq_none (by omega)]
        · intro j hj
          show (moved P C w.v.buf 0 w.nxt 0 w.v.size w.v.buf j).isSome
          unfold moved
          rw [if_neg (by omega), if_pos (by omega), Option.isSome_map]
          exact hsrc j hj
        · intro j hj
          show moved P C w.v.buf 0 w.nxt 0 w.v.size w.v.buf j = none
          unfold moved
          rw [if_neg (by omega), if_neg (by omega), hp.old, List.getElem?_eq_none (by omega)]
        · intro q h1 h2 j
          show moved P C w.v.buf 0 w.nxt 0 w.v.size q j = _
          unfold moved
          rw [if_neg (by omega), if_neg (by omega)]
          exact hp.other q h1 h2 j
      · rintro e w' ⟨rfl, hnm, t', C', rfl, hr1, hr2⟩
        have hcc : P.cc = false := by
          rw [hnm] at hmc
          simpa using hmc
        obtain ⟨X2, hl2, hX2⟩ := list_of_cells (f := C' w.v.buf) (n := w.v.size)
          (fun j hj => hr1 j (by omega) (by omega))
          (fun j hj => by
            rw [hr2 w.v.buf j (by omega)]
            show C w.v.buf j = none
            rw [hp.old, List.getElem?_eq_none (by omega)])
        have hp2 : Placed w w.v.size C' Y X2 := by
          refine ⟨?_, hX2, ?_⟩
          · intro j
            rw [hr2 w.nxt j (by omega)]
            exact hp.new j
          · intro q h1 h2 j
            rw [hr2 q j (by omega)]
            exact hp.other q h1 h2 j
        refine (sat_backout own sane (a := a) (t := t') hp2 hY hm (by rw [hl2, own.len])).mono ?_ fun _ _ h => h
        rintro _ w' ⟨h1, h2, h3⟩
        refine ⟨rfl, X2, h1, h2, h3, by rw [hl2, own.len], ?_⟩
        intro h
        rcases h with h | ⟨_, h⟩
        · rw [hnm] at h
          cases h
        · rw [hcc] at h
          cases h
    · refine (sat_uninitCopy0 (N := w.v.cap) (M := m) (w := { allocd w a m with cel := C, tape := t }) (by exact hcap)
        (by intro; omega) hnew (by omega) (by omega) ?_ ?_).mono ?_ ?_
      · intro j _ h
        exact hsrc j (by omega)
      · intro j _ h
        show C w.nxt j = none
        rw [hp.new, if_neg (by omega)]
      · rintro _ w' ⟨t', rfl⟩
        refine ⟨t', _, rfl, ?_, ?_, ?_, ?_⟩
        · intro j
          show over C w.nxt 0 w.v.size (fun j => C w.v.buf (0 + j)) w.nxt j = _
          rw [insert_get (by omega)]
          by_cases h : j < w.v.size
          · rw [over_in (by omega) (by omega), if_pos h, hp.old]
            congr 1
            omega
          · rw [over_out (by omega), if_neg (by omega), hp.new, if_pos (by omega)]
            split
            · rfl
            · rw [List.getElem?_eq_none (by omega), List.getElem?_eq_none (by omega)]
        · intro j hj
          show (over C w.nxt 0 w.v.size (fun j => C w.v.buf (0 + j)) w.v.buf j).isSome
          rw [over_out (by omega)]
          exact hsrc j hj
        · intro j hj
          show over C w.nxt 0 w.v.size (fun j => C w.v.buf (0 + j)) w.v.buf j = none
          rw [over_out (by omega), hp.old, List.getElem?_eq_none (by omega)]
        · intro q h1 h2 j
          show over C w.nxt 0 w.v.size (fun j => C w.v.buf (0 + j)) q j = _
          rw [over_out (by omega)]
          exact hp.other q h1 h2 j
      · rintro e w' ⟨rfl, t', rfl⟩
        refine (sat_backout own sane (a := a) (t := t') hp hY hm hX1).mono ?_ fun _ _ h => h
        rintro _ w' ⟨h1, h2, h3⟩
        exact ⟨rfl, X1, h1, h2, h3, hX1, fun _ => rfl⟩
  · refine Sat.then (Sat.onExc (E := fun e w' => e = .user ∧ ∃ X2, Good P w w' X2 ∧ Same w w' ∧ w'.v = w.v ∧ X2.length = X.length ∧
        (P.nmc = true ∨ strong = true ∧ P.cc = true → X2 = X1))
      (Q := fun _ w' => ∃ t, w' = { allocd w a m with cel := moved P C w.v.buf 0 w.nxt 0 off, tape := t }) ?_) (fun _ _ h => h) ?_
    · refine (sat_uninitMove0 (P := P) (N := w.v.cap) (M := m) (w := { allocd w a m with cel := C, tape := t }) (fun h => by exact hcap (by omega))
        (by intro; omega) hnew (by omega) (.inl (by omega)) ?_ ?_).mono (fun _ _ h => h) ?_
      · intro j _ h
        exact hsrc j (by omega)
      · intro j _ h
        show C w.nxt j = none
        rw [hp.new, if_neg (by omega)]
      · rintro e w' ⟨rfl, hnm, t', C', rfl, hr1, hr2⟩
        obtain ⟨X2, hl2, hX2⟩ := list_of_cells (f := C' w.v.buf) (n := w.v.size)
          (fun j hj => by
            by_cases h : j < off
            · exact hr1 j (by omega) (by omega)
            · rw [hr2 w.v.buf j (by omega)]
              exact hsrc j hj)
          (fun j hj => by
            rw [hr2 w.v.buf j (by omega)]
            show C w.v.buf j = none
            rw [hp.old, List.getElem?_eq_none (by omega)])
        have hp2 : Placed w off C' Y X2 := by
          refine ⟨?_, hX2, ?_⟩
          · intro j
            rw [hr2 w.nxt j (by omega)]
            exact hp.new j
          · intro q h1 h2 j
            rw [hr2 q j (by omega)]
            exact hp.other q h1 h2 j
        refine (sat_backout own sane (a := a) (t := t') hp2 hY (by omega) (by rw [hl2, own.len])).mono ?_ fun _ _ h => h
        rintro _ w' ⟨h1, h2, h3⟩
        exact ⟨rfl, X2, h1, h2, h3, by rw [hl2, own.len], fun h => h.elim (fun h => by rw [hnm] at h; cases h) fun h => absurd h.1 hst⟩
    · rintro _ w1 ⟨t1, rfl⟩
      refine Sat.onExc ((sat_uninitMove0 (P := P) (N := w.v.cap) (M := m)
        (w := { allocd w a m with cel := moved P C w.v.buf 0 w.nxt 0 off, tape := t1 }) (fun h => by exact hcap (by omega))
        (by intro; omega) hnew (by omega) (.inl (by omega)) ?_ ?_).mono ?_ ?_)
      · intro j h1 h2
        show (moved P C w.v.buf 0 w.nxt 0 off w.v.buf j).isSome
        unfold moved
        rw [if_neg (by omega), if_neg (by omega)]
        exact hsrc j (by omega)
      · intro j h1 h2
        show moved P C w.v.buf 0 w.nxt 0 off w.nxt j = none
        unfold moved
        rw [if_neg (by omega), if_neg (by omega), hp.new, if_pos (by omega), List.getElem?_eq_none (by omega)]
      · rintro _ w' ⟨t', rfl⟩
        refine ⟨t', _, rfl, ?_, ?_, ?_, ?_⟩
        · intro j
          show moved P (moved P C w.v.buf 0 w.nxt 0 off) w.v.buf off w.nxt (off + cnt) (w.v.size - off) w.nxt j = _
          rw [insert_get (by omega), hY]
          unfold moved
          by_cases h : j < off
          · rw [if_pos h, if_neg (by omega), if_neg (by omega), if_pos (by omega), hp.old]
            congr 1
            omega
          · rw [if_neg h]
            by_cases h2 : j < off + cnt
            · rw [if_pos h2, if_neg (by omega), if_neg (by omega), if_neg (by omega), if_neg (by omega), hp.new, if_pos (by omega)]
            · rw [if_neg h2]
              by_cases h3 : j < w.v.size + cnt
              · rw [if_pos (by omega), if_neg (by omega), if_neg (by omega), hp.old]
                congr 1
                omega
              · rw [if_neg (by omega), if_neg (by omega), if_neg (by omega), if_neg (by omega), hp.new, if_pos (by omega),
                  List.getElem?_eq_none (by omega), List.getElem?_eq_none (by omega)]
        · intro j hj
          show (moved P (moved P C w.v.buf 0 w.nxt 0 off) w.v.buf off w.nxt (off + cnt) (w.v.size - off) w.v.buf j).isSome
          unfold moved
          rw [if_neg (by omega)]
          by_cases h : j < off
          · rw [if_neg (by omega), if_neg (by omega), if_pos (by omega), Option.isSome_map]
            exact hsrc j hj
          · rw [if_pos (by omega), Option.isSome_map, if_neg (by omega), if_neg (by omega)]
            exact hsrc j hj
        · intro j hj
          show moved P (moved P C w.v.buf 0 w.nxt 0 off) w.v.buf off w.nxt (off + cnt) (w.v.size - off) w.v.buf j = none
          unfold moved
          rw [if_neg (by omega), if_neg (by omega), if_neg (by omega), if_neg (by omega), hp.old, List.getElem?_eq_none (by omega)]
        · intro q h1 h2 j
          show moved P (moved P C w.v.buf 0 w.nxt 0 off) w.v.buf off w.nxt (off + cnt) (w.v.size - off) q j = _
          unfold moved
          rw [if_neg (by omega), if_neg (by omega), if_neg (by omega), if_neg (by omega)]
          exact hp.other q h1 h2 j
      · rintro e w' ⟨rfl, hnm, t', C', rfl, hr1, hr2⟩
        obtain ⟨X2, hl2, hX2⟩ := list_of_cells (f := C' w.v.buf) (n := w.v.size)
          (fun j hj => by
            by_cases h : off ≤ j
            · exact hr1 j (by omega) (by omega)
            · rw [hr2 w.v.buf j (by omega)]
              show (moved P C w.v.buf 0 w.nxt 0 off w.v.buf j).isSome
              unfold moved
              rw [if_neg (by omega), if_pos (by omega), Option.isSome_map]
              exact hsrc j hj)
          (fun j hj => by
            rw [hr2 w.v.buf j (by omega)]
            show moved P C w.v.buf 0 w.nxt 0 off w.v.buf j = none
            unfold moved
            rw [if_neg (by omega), if_neg (by omega), hp.old, List.getElem?_eq_none (by omega)])
        have hp2 : Placed w 0 C' (X1.take off ++ Y) X2 := by
          refine ⟨?_, hX2, ?_⟩
          · intro j
            rw [hr2 w.nxt j (by omega)]
            show moved P C w.v.buf 0 w.nxt 0 off w.nxt j = _
            unfold moved
            rw [if_pos (Nat.zero_le j), Nat.sub_zero, List.getElem?_append, List.length_take, Nat.min_eq_left (by omega)]
            by_cases h : j < off
            · rw [if_pos (by omega), if_pos h, hp.old, List.getElem?_take, if_pos h]
              congr 1
              omega
            · rw [if_neg (by omega), if_neg (by omega), if_neg h, hp.new, if_pos (by omega)]
          · intro q h1 h2 j
            rw [hr2 q j (by omega)]
            show moved P C w.v.buf 0 w.nxt 0 off q j = _
            unfold moved
            rw [if_neg (by omega), if_neg (by omega)]
            exact hp.other q h1 h2 j
        have hb := sat_backout own sane (a := a) (m := m) (off := 0) (cnt := off + cnt) (t := t') hp2 (by simp; omega) (by omega) (by rw [hl2, own.len])
          (E := fun _ _ => False)
        rw [Nat.zero_add] at hb
        refine hb.mono ?_ fun _ _ h => h
        rintro _ w' ⟨h1, h2, h3⟩
        exact ⟨rfl, X2, h1, h2, h3, by rw [hl2, own.len], fun h => h.elim (fun h => by rw [hnm] at h; cases h) fun h => absurd h.1 hst⟩

/-- What the construction of the new elements does. `F` holds of the old elements if it fails. -/
def MkOk (w : W α) (off : Nat) (mk : Nat → M α Unit) (Y X1 : List α) (F : List α → Prop) : Prop :=
  ∀ a m t, off + Y.length ≤ m → Sat (mk w.nxt) { allocd w a m with tape := t }
    (fun _ w' => ∃ t C, w' = { allocd w a m with cel := C, tape := t } ∧ Placed w off C Y X1)
    (fun e w' => e = .user ∧ ∃ t C X2, w' = { allocd w a m with cel := C, tape := t } ∧ X2.length = X1.length ∧ F X2 ∧ Placed w off C [] X2)

theorem sat_changeArray {P : Par α} {w : W α} {X : List α} (own : Own P w X) (sane : Sane w) {a : List (Option Nat)} {m n : Nat}
    {C : Nat → Nat → Option α} {X' : List α} {t : List Bool} (hl : X'.length = n) (hm : n ≤ m) (hmx : m ≤ P.max) (h0 : 0 < m)
    (hC : ∀ j, C w.nxt j = X'[j]?) (hr : Rest w w.cel C w.v.size) {E : Exc → W α → Prop} :
    Sat (changeArray w.nxt n m) { allocd w a m with cel := C, tape := t } (fun _ w' => Good P w w' X' ∧ w'.v = ⟨w.nxt, n, m⟩) E := by
  have hlt := own.lt sane
  have hle := own.le
  unfold changeArray
  refine Sat.getV (Sat.then (sat_dropArray (w := w) (w1 := { allocd w a m with cel := C, tape := t }) (E := E) rfl ?_ ?_ own.le hr.some hr.none)
    (fun _ _ h => h) ?_)
  · intro hb
    show (if w.v.buf = w.nxt then some m else w.caps w.v.buf) = _
    rw [if_neg (by omega)]
    exact (own.live hb).1
  · intro hb
    refine ⟨?_, ?_⟩
    · show (if 0 = w.nxt then some m else w.caps 0) = none
      rw [if_neg (by omega)]
      exact sane.zero.1
    · have := own.null hb
      omega
  · rintro _ w1 rfl
    refine ⟨Good.fresh own sane rfl rfl hl hm hmx h0 ?_ ?_ ?_ ?_, rfl⟩
    · intro q
      rfl
    · intro x
      show over C w.v.buf 0 w.v.size (fun _ => none) w.nxt x = _
      rw [over_out (by omega)]
      exact hC x
    · intro x
      show over C w.v.buf 0 w.v.size (fun _ => none) w.v.buf x = _
      by_cases h : x < w.v.size
      · rw [over_in (by omega) (by omega)]
      · rw [over_out (by omega)]
        exact hr.none x (by omega)
    · intro q h1 h2 j
      show over C w.v.buf 0 w.v.size (fun _ => none) q j = _
      rw [over_out (by omega)]
      exact hr.other q h2 h1 j

theorem sat_reallocInsert {P : Par α} {w : W α} {X : List α} (own : Own P w X) (sane : Sane w) {newsize off cnt : Nat} {strong : Bool}
    {mk : Nat → M α Unit} {Y X1 : List α} {F : List α → Prop} (hY : Y.length = cnt) (hX1 : X1.length = X.length) (hn : newsize = w.v.size + cnt)
    (hmx : newsize ≤ P.max) (hc : 0 < cnt) (hoff : off ≤ w.v.size) (hs : strong = true → off = w.v.size) (hmk : MkOk w off mk Y X1 F) :
    Sat (reallocInsert P newsize off cnt strong mk) w
      (fun _ w' => Good P w w' (X1.take off ++ Y ++ X1.drop off) ∧ Grown P newsize w w' ∧ w'.v.size = newsize)
      (fun e w' => ∃ X2, Good P w w' X2 ∧ Same w w' ∧ X2.length = X.length ∧
        (e = .badAlloc ∧ X2 = X ∨ e = .user ∧ (F X2 ∨ (P.nmc = true ∨ strong = true ∧ P.cc = true → X2 = X1)))) := by
  have hle := own.le
  have hlt := own.lt sane
  unfold reallocInsert
  refine Sat.getV (Sat.bind (Sat.allocate (calcGrowth_le hmx) ?_ ?_))
  · intro m a h1 h2 _
    have h3 := le_calcGrowth (P := P) (cap := w.v.cap) hmx
    have h4 := geometric (P := P) (cap := w.v.cap) (n := newsize)
    refine Sat.then (Sat.onExc (E := fun e w' => ∃ X2, Good P w w' X2 ∧ Same w w' ∧ X2.length = X.length ∧ (e = .user ∧ F X2))
      (Q := fun _ w' => ∃ t C, w' = { allocd w a m with cel := C, tape := t } ∧ Placed w off C Y X1) ?_) ?_ ?_
    · refine (hmk a m w.tape (by omega)).mono (fun _ _ h => h) ?_
      rintro e w' ⟨he, t, C, X2, rfl, hl, hF, hp⟩
      have hp' : Placed w (off + cnt) C [] X2 := by
        refine ⟨fun j => ?_, hp.old, hp.other⟩
        rw [hp.new]
        simp
      refine (sat_backout own sane (a := a) (m := m) (cnt := 0) (t := t) hp' rfl (by omega) (by omega)).mono ?_ fun _ _ h => h
      rintro _ w' ⟨g1, g2, g3⟩
      exact ⟨X2, g1, g2, by omega, he, hF⟩
    · rintro e w' ⟨X2, g1, g2, g3, g4, g5⟩
      exact ⟨X2, g1, g2, g3, .inr ⟨g4, .inl g5⟩⟩
    · rintro _ w1 ⟨t, C, rfl, hp⟩
      refine Sat.then (sat_placeOld own sane (a := a) (t := t) hp hY (by omega) hX1 hoff hs) ?_ ?_
      · rintro e w' ⟨he, X2, g1, g2, g3, g4, g5⟩
        exact ⟨X2, g1, g2, g4, .inr ⟨he, .inr g5⟩⟩
      · rintro _ w2 ⟨t2, C2, rfl, hC2, hr⟩
        refine (sat_changeArray own sane (a := a) (t := t2) (X' := X1.take off ++ Y ++ X1.drop off) ?_ (by omega) h2 (by omega) hC2 hr).mono
          ?_ fun _ _ h => h
        · have := own.len
          simp only [List.length_append, List.length_take, List.length_drop]
          omega
        · rintro _ w' ⟨g1, g2⟩
          refine ⟨g1, ⟨?_, ?_, ?_⟩, ?_⟩
          · rw [g2]
            exact Nat.le_refl _
          · rw [g2]
            show newsize ≤ m
            omega
          · rw [g2]
            show _ ≤ m
            omega
          · rw [g2]
  · intro a
    obtain ⟨_, g1, g2⟩ := Good.same own sane (w' := { w with ans := a }) rfl rfl rfl rfl
    exact ⟨X, g1, g2, rfl, .inl ⟨rfl, rfl⟩⟩

end STL.Vec
