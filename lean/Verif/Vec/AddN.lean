import Verif.Vec.Add

/-!
# Adding several elements
-/

namespace STL.Vec
open STL

variable {α β γ : Type}

theorem mkOk_uninitFill {P : Par α} {w : W α} {X : List α} (own : Own P w X) (sane : Sane w) {src : Src α} {x : α} (hx : ArgIs X src.arg x)
    {off n : Nat} : MkOk w off (fun nb => uninitFill w.v.buf src n nb off) (List.replicate n x) X (fun X2 => X2 = X) := by
  intro aa m t hm
  have hlt := own.lt sane
  have hle := own.le
  have hlen := own.len
  have hnone := sane.fresh w.nxt (Nat.le_refl _)
  rw [List.length_replicate] at hm
  refine (sat_uninitFill (w := { allocd w aa m with tape := t }) (x := x) (M := m) ?_ ?_ hm ?_).mono ?_ ?_
  · cases src with
    | ext y => exact hx
    | self i =>
      have hi := lt_of_getElem? hx
      refine ⟨(own.cell i).trans hx, w.v.cap, ?_, by omega⟩
      show (if w.v.buf = w.nxt then some m else w.caps w.v.buf) = _
      rw [if_neg (by omega)]
      exact own.caps (by omega)
  · show (if w.nxt = w.nxt then some m else w.caps w.nxt) = some m
    rw [if_pos rfl]
  · intro j _ _
    exact hnone.2 j
  · rintro _ w' ⟨t', rfl⟩
    refine ⟨t', _, rfl, ?_, ?_, ?_⟩
    · intro j
      show over w.cel w.nxt off n (fun _ => some x) w.nxt j = _
      by_cases h : off ≤ j ∧ j < off + n
      · rw [over_in h.1 h.2, if_pos h.1, List.getElem?_replicate, if_pos (by omega)]
      · rw [over_out (by omega), hnone.2]
        split
        · rw [List.getElem?_eq_none (by simp; omega)]
        · rfl
    · intro j
      show over w.cel w.nxt off n (fun _ => some x) w.v.buf j = _
      rw [over_out (by omega)]
      exact own.cell j
    · intro q hq1 hq2 j
      show over w.cel w.nxt off n (fun _ => some x) q j = _
      rw [over_out (by omega)]
  · rintro e w' ⟨he, t', rfl⟩
    refine ⟨he, t', w.cel, X, rfl, rfl, rfl, ?_, own.cell, fun _ _ _ _ => rfl⟩
    intro j
    rw [hnone.2]
    simp

theorem mkOk_uninitList {P : Par α} {w : W α} {X : List α} (own : Own P w X) (sane : Sane w) {xs : List α} {off : Nat} :
    MkOk w off (fun nb => uninitList xs nb off) xs X (fun X2 => X2 = X) := by
  intro aa m t hm
  have hlt := own.lt sane
  have hnone := sane.fresh w.nxt (Nat.le_refl _)
  refine (sat_uninitList (w := { allocd w aa m with tape := t }) (M := m) ?_ hm ?_).mono ?_ ?_
  · show (if w.nxt = w.nxt then some m else w.caps w.nxt) = some m
    rw [if_pos rfl]
  · intro j _ _
    exact hnone.2 j
  · rintro _ w' ⟨t', rfl⟩
    refine ⟨t', _, rfl, ?_, ?_, ?_⟩
    · intro j
      show over w.cel w.nxt off xs.length (fun j => xs[j]?) w.nxt j = _
      by_cases h : off ≤ j ∧ j < off + xs.length
      · rw [over_in h.1 h.2, if_pos h.1]
      · rw [over_out (by omega), hnone.2]
        split
        · rw [List.getElem?_eq_none (by omega)]
        · rfl
    · intro j
      show over w.cel w.nxt off xs.length (fun j => xs[j]?) w.v.buf j = _
      rw [over_out (by omega)]
      exact own.cell j
    · intro q hq1 hq2 j
      show over w.cel w.nxt off xs.length (fun j => xs[j]?) q j = _
      rw [over_out (by omega)]
  · rintro e w' ⟨he, t', rfl⟩
    refine ⟨he, t', w.cel, X, rfl, rfl, rfl, ?_, own.cell, fun _ _ _ _ => rfl⟩
    intro j
    rw [hnone.2]
    simp

/-- Reallocation when a number of elements is added. -/
theorem sat_grow {P : Par α} {w : W α} {X : List α} (own : Own P w X) (sane : Sane w) {newsize off cnt : Nat} {strong : Bool}
    {mk : Nat → M α Unit} {Y : List α} (hY : Y.length = cnt) (hn : newsize = X.length + cnt) (hmx : newsize ≤ P.max)
    (hroom : w.v.cap < newsize) (hoff : off ≤ X.length) (hs : strong = true → off = X.length) (hmk : MkOk w off mk Y X (fun X2 => X2 = X)) :
    Sat (reallocInsert P newsize off cnt strong mk) w
      (fun _ w' => Good P w w' (X.take off ++ Y ++ X.drop off) ∧ Room P newsize w w')
      (fun e w' => ∃ X2, Fail P w w' X X2 newsize e ∧ (P.nmc = true ∨ strong = true ∧ P.cc = true → X2 = X)) := by
  have hle := own.le
  have hlen := own.len
  refine (sat_reallocInsert own sane hY rfl (by omega) hmx (by omega) (by omega) (fun h => by rw [hs h, hlen]) hmk).mono ?_ ?_
  · rintro _ w' ⟨h1, h2, _⟩
    exact ⟨h1, fun h => by omega, fun _ => h2⟩
  · rintro e w' ⟨X2, h1, h2, h3, h4⟩
    rcases h4 with ⟨rfl, rfl⟩ | ⟨rfl, h4⟩
    · exact ⟨X2, ⟨h1, h2, .inr (.inl rfl), fun h => (by cases h), fun _ => ⟨hroom, rfl⟩⟩, fun _ => rfl⟩
    · refine ⟨X2, ⟨h1, h2, .inr (.inr rfl), fun h => (by cases h), fun h => (by cases h)⟩, ?_⟩
      intro h6
      rcases h4 with h4 | h4
      · exact h4
      · exact h4 h6

theorem Fail.tooLong {P : Par α} {w : W α} {X : List α} (own : Own P w X) (sane : Sane w) {need : Nat} (h : P.max < need) :
    Fail P w w X X need .lengthError := by
  have hg := Good.same own sane (w' := w) rfl rfl rfl rfl
  exact ⟨hg.1, hg.2.2, .inl rfl, fun _ => ⟨h, rfl⟩, fun h => (by cases h)⟩

theorem Fail.strong {P : Par α} {w w' : W α} {X : List α} (own : Own P w X) (sane : Sane w) {need : Nat} (h1 : w'.caps = w.caps)
    (h2 : w'.nxt = w.nxt) (h3 : w'.v = w.v) (h4 : w'.cel = w.cel) : Fail P w w' X X need .user := by
  have hg := Good.same own sane h1 h2 h3 h4
  exact ⟨hg.2.1, hg.2.2, .inr (.inr rfl), fun h => (by cases h), fun h => (by cases h)⟩

theorem Room.same {P : Par α} {n : Nat} {w w' : W α} (h : Same w w') (hn : n ≤ w.v.cap) : Room P n w w' :=
  ⟨fun _ => h, fun h => by omega⟩

theorem srcVal {P : Par α} {w : W α} {X : List α} (own : Own P w X) {src : Src α} {x : α} (hx : ArgIs X src.arg x) : SrcVal w w.v.buf src x := by
  have hle := own.le
  have hlen := own.len
  cases src with
  | ext y => exact hx
  | self i =>
    have hi := lt_of_getElem? hx
    exact ⟨(own.cell i).trans hx, w.v.cap, own.caps (by omega), by omega⟩

theorem afterSrc {f : α → α} {X : List α} {src : Src α} {x : α} : afterArg f X src.arg x = X := by
  cases src <;> rfl

theorem sat_insertN {P : Par α} {w : W α} {X : List α} (own : Own P w X) (sane : Sane w) {src : Src α} {x : α} (hx : ArgIs X src.arg x)
    {pos n : Nat} (hpos : pos ≤ X.length) :
    Sat (insertN P pos n src) w
      (fun _ w' => Good P w w' (X.take pos ++ List.replicate n x ++ X.drop pos) ∧ Room P (X.length + n) w w')
      (fun e w' => ∃ X2, Fail P w w' X X2 (X.length + n) e ∧ (pos = X.length → n = 1 → P.nmc = true ∨ P.cc = true → X2 = X)) := by
  have hlen := own.len
  have hle := own.le
  have hmx := own.mx
  unfold insertN
  refine Sat.getV ?_
  dsimp only
  refine Sat.ite (fun h0 => ?_) fun h0 => Sat.ite (fun h1 => Sat.ite (fun h2 => ?_) fun h2 => ?_) fun h1 => Sat.ite (fun h2 => ?_) fun h2 => ?_
  · subst h0
    obtain ⟨g0, _, g2⟩ := Good.same own sane (w' := w) rfl rfl rfl rfl
    refine Sat.pure' ⟨?_, Room.same g2 (by omega)⟩
    rw [List.replicate_zero, List.append_nil, List.take_append_drop]
    exact g0
  · exact ⟨X, Fail.tooLong own sane (by omega), fun _ _ _ => rfl⟩
  · have hg := sat_grow own sane (newsize := X.length + n) (off := pos) (cnt := n) (strong := n == 1 && pos == w.v.size) (List.length_replicate) rfl
      (by omega) (by omega) hpos (fun h => by simp at h; omega) (mkOk_uninitFill own sane hx)
    rw [hlen] at hg ⊢
    refine hg.mono (fun _ _ h => h) ?_
    rintro e w' ⟨X2, g1, g2⟩
    exact ⟨X2, g1, fun hp hn h => g2 (h.imp_right fun h => ⟨by simp [hn, hp], h⟩)⟩
  · have hone : n = 1 ∧ pos = w.v.size := by simpa using h2
    refine (sat_emplaceUnused own sane hx (by omega)).mono ?_ ?_
    · rintro _ w' ⟨g1, g2⟩
      rw [afterSrc] at g1
      rw [hone.1, List.take_of_length_le (by omega), List.drop_eq_nil_of_le (by omega), List.append_nil]
      exact ⟨g1, Room.same g2 (by omega)⟩
    · rintro e w' ⟨rfl, g1, g2⟩
      rw [afterSrc] at g1
      exact ⟨X, ⟨g1, g2, .inr (.inr rfl), fun h => (by cases h), fun h => (by cases h)⟩, fun _ _ _ => rfl⟩
  · have hcap := own.caps (by omega)
    have hnb : ¬(pos = X.length ∧ n = 1) := by
      rintro ⟨h3, h4⟩
      simp [h3, h4, hlen] at h2
    have weak : ∀ {w' : W α}, (∃ X2, Fail P w w' X X2 (X.length + n) .user) →
        ∃ X2, Fail P w w' X X2 (X.length + n) .user ∧ (pos = X.length → n = 1 → P.nmc = true ∨ P.cc = true → X2 = X) := by
      rintro w' ⟨X2, h⟩
      exact ⟨X2, h, fun h3 h4 => absurd ⟨h3, h4⟩ hnb⟩
    refine Sat.then (sat_temporary own hx) ?_ ?_
    · rintro e w' ⟨rfl, t, C, rfl, g1, g2⟩
      rw [afterSrc] at g1
      obtain ⟨g1, g2⟩ := Good.inplace own sane (w' := { w with cel := C, tape := t }) rfl (Nat.le_refl _) rfl rfl
        hlen own.le g1 fun q hq j => g2 q j hq
      exact ⟨_, ⟨g1, g2, .inr (.inr rfl), fun h => (by cases h), fun h => (by cases h)⟩, fun _ _ _ => rfl⟩
    · rintro x' w1 ⟨hx', t, C1, rfl, g1, g2⟩
      rw [hx']
      clear hx'
      rw [afterSrc] at g1
      have hsome : ∀ j, j < w.v.size → (C1 w.v.buf j).isSome := fun j hj => by
        rw [g1]
        exact isSome_getElem? (by omega)
      have hnone : ∀ j, w.v.size ≤ j → C1 w.v.buf j = none := fun j hj => by
        rw [g1]
        exact List.getElem?_eq_none (by omega)
      refine Sat.ite (fun h3 => ?_) fun h3 => ?_
      · -- new elements spill off the end
        refine Sat.then (sat_uninitFill (w := { w with cel := C1, tape := t }) (src := .ext x) (x := x) (M := w.v.cap) rfl hcap (by omega) ?_) ?_ ?_
        · intro j h _
          exact hnone j h
        · rintro e w' ⟨rfl, t', rfl⟩
          exact weak (Fail.user own sane rfl rfl rfl rfl own.le hsome hnone fun q hq j => g2 q j hq)
        · rintro _ w2 ⟨t2, rfl⟩
          refine Sat.bind (Sat.setSize ?_)
          have hC2 : ∀ q j, over C1 w.v.buf w.v.size (n - (w.v.size - pos)) (fun _ => some x) q j =
              if q = w.v.buf ∧ w.v.size ≤ j ∧ j < pos + n then some x else C1 q j := by
            intro q j
            unfold over
            by_cases h : q = w.v.buf ∧ w.v.size ≤ j ∧ j < pos + n
            · rw [if_pos h, if_pos (by omega)]
            · rw [if_neg h, if_neg (by omega)]
          dsimp only
          generalize over C1 w.v.buf w.v.size (n - (w.v.size - pos)) (fun _ => some x) = C2 at hC2 ⊢
          have hsome2 : ∀ j, j < pos + n → (C2 w.v.buf j).isSome := fun j hj => by
            rw [hC2]
            split
            · rfl
            · exact hsome j (by omega)
          have hnone2 : ∀ j, pos + n ≤ j → C2 w.v.buf j = none := fun j hj => by
            rw [hC2, if_neg (by omega)]
            exact hnone j (by omega)
          have ho2 : ∀ q, q ≠ w.v.buf → ∀ j, C2 q j = w.cel q j := fun q hq j => by
            rw [hC2, if_neg (by omega)]
            exact g2 q j hq
          refine Sat.then (sat_uninitMove0 (P := P)
            (w := { w with cel := C2, tape := t2, v := { w.v with size := w.v.size + (n - (w.v.size - pos)) } }) (N := w.v.cap) (M := w.v.cap)
            (fun _ => hcap) (by omega) hcap (by omega) (.inr (.inl (by omega))) ?_ ?_) ?_ ?_
          · intro j _ h
            exact hsome2 j (by omega)
          · intro j h _
            exact hnone2 j (by omega)
          · rintro e w' ⟨rfl, _, t3, C3, rfl, hr1, hr2⟩
            refine weak (Fail.user own sane rfl rfl rfl rfl ?_ ?_ ?_ ?_)
            · show w.v.size + (n - (w.v.size - pos)) ≤ w.v.cap
              omega
            · intro j hj
              have hj : j < w.v.size + (n - (w.v.size - pos)) := hj
              show (C3 w.v.buf j).isSome
              by_cases h : pos ≤ j ∧ j < w.v.size
              · exact hr1 j (by omega) (by omega)
              · rw [hr2 _ j (by omega)]
                exact hsome2 j (by omega)
            · intro j hj
              have hj : w.v.size + (n - (w.v.size - pos)) ≤ j := hj
              show C3 w.v.buf j = none
              rw [hr2 _ j (by omega)]
              exact hnone2 j (by omega)
            · intro q hq j
              show C3 q j = _
              rw [hr2 q j (.inl hq)]
              exact ho2 q hq j
          · rintro _ w3 ⟨t3, rfl⟩
            refine Sat.bind (Sat.setSize ?_)
            have hC3 : ∀ q j, moved P C2 w.v.buf pos w.v.buf (w.v.size + (n - (w.v.size - pos))) (w.v.size - pos) q j =
                if q = w.v.buf ∧ pos + n ≤ j ∧ j < w.v.size + n then C2 w.v.buf (j - n)
                else if q = w.v.buf ∧ pos ≤ j ∧ j < w.v.size then (C2 w.v.buf j).map P.mv else C2 q j := by
              intro q j
              unfold moved
              by_cases h : q = w.v.buf ∧ pos + n ≤ j ∧ j < w.v.size + n
              · rw [if_pos h, if_pos (by omega)]
                congr 1
                omega
              · rw [if_neg h, if_neg (by omega)]
                by_cases h' : q = w.v.buf ∧ pos ≤ j ∧ j < w.v.size
                · rw [if_pos h', if_pos (by omega)]
                · rw [if_neg h', if_neg (by omega)]
            dsimp only
            generalize moved P C2 w.v.buf pos w.v.buf (w.v.size + (n - (w.v.size - pos))) (w.v.size - pos) = C3 at hC3 ⊢
            have hsome3 : ∀ j, j < w.v.size + n → (C3 w.v.buf j).isSome := fun j hj => by
              rw [hC3]
              split
              · exact hsome2 _ (by omega)
              · split
                · rw [Option.isSome_map]
                  exact hsome2 j (by omega)
                · exact hsome2 j (by omega)
            have hnone3 : ∀ j, w.v.size + n ≤ j → C3 w.v.buf j = none := fun j hj => by
              rw [hC3, if_neg (by omega), if_neg (by omega)]
              exact hnone2 j (by omega)
            have ho3 : ∀ q, q ≠ w.v.buf → ∀ j, C3 q j = w.cel q j := fun q hq j => by
              rw [hC3, if_neg (by omega), if_neg (by omega)]
              exact ho2 q hq j
            refine (sat_fill0 (P := P) (w := { w with cel := C3, tape := t3, v := { w.v with size := w.v.size + n } }) (N := w.v.cap) (fun _ => hcap)
              (by omega) ?_).mono ?_ ?_
            · intro j _ h
              exact hsome3 j (by omega)
            · rintro _ w' ⟨t4, rfl⟩
              have hg := Good.inplace own sane (X' := X.take pos ++ List.replicate n x ++ X.drop pos)
                (w' := { w with cel := over C3 w.v.buf pos (w.v.size - pos) fun _ => some x, tape := t4, v := { w.v with size := w.v.size + n } })
                rfl (Nat.le_refl _) rfl rfl
                (by
                  simp only [List.length_append, List.length_take, List.length_drop, List.length_replicate]
                  omega)
                (by show w.v.size + n ≤ w.v.cap; omega)
                (fun j => by
                  show over C3 w.v.buf pos (w.v.size - pos) (fun _ => some x) w.v.buf j = _
                  rw [insert_get (by omega), List.length_replicate]
                  by_cases j1 : j < pos
                  · rw [if_pos j1, over_out (by omega), hC3, if_neg (by omega), if_neg (by omega), hC2, if_neg (by omega), g1]
                  · rw [if_neg j1]
                    by_cases j2 : j < pos + n
                    · rw [if_pos j2, List.getElem?_replicate, if_pos (by omega)]
                      by_cases j3 : j < w.v.size
                      · rw [over_in (by omega) (by omega)]
                      · rw [over_out (by omega), hC3, if_neg (by omega), if_neg (by omega), hC2, if_pos ⟨rfl, by omega, j2⟩]
                    · rw [if_neg j2, over_out (by omega)]
                      by_cases j4 : j < w.v.size + n
                      · rw [hC3, if_pos ⟨rfl, by omega, j4⟩, hC2, if_neg (by omega), g1]
                      · rw [hnone3 j (by omega), List.getElem?_eq_none (by omega)])
                (fun q hq j => by
                  show over C3 w.v.buf pos (w.v.size - pos) (fun _ => some x) q j = _
                  rw [over_out (.inl hq)]
                  exact ho3 q hq j)
              exact ⟨hg.1, Room.same hg.2 (by omega)⟩
            · rintro e w' ⟨rfl, t4, C4, rfl, hr1, hr2⟩
              refine weak (Fail.user own sane rfl rfl rfl rfl ?_ ?_ ?_ ?_)
              · show w.v.size + n ≤ w.v.cap
                omega
              · intro j hj
                have hj : j < w.v.size + n := hj
                show (C4 w.v.buf j).isSome
                by_cases h : pos ≤ j ∧ j < w.v.size
                · exact hr1 j (by omega) (by omega)
                · rw [hr2 _ j (by omega)]
                  exact hsome3 j (by omega)
              · intro j hj
                have hj : w.v.size + n ≤ j := hj
                show C4 w.v.buf j = none
                rw [hr2 _ j (by omega)]
                exact hnone3 j (by omega)
              · intro q hq j
                show C4 q j = _
                rw [hr2 q j (.inl hq)]
                exact ho3 q hq j
      · -- new elements can all be assigned
        refine Sat.then (sat_uninitMove0 (P := P) (w := { w with cel := C1, tape := t }) (N := w.v.cap) (M := w.v.cap)
            (fun _ => hcap) (by omega) hcap (by omega) (.inr (.inl (by omega))) ?_ ?_) ?_ ?_
        · intro j _ h
          exact hsome j (by omega)
        · intro j h _
          exact hnone j (by omega)
        · rintro e w' ⟨rfl, _, t2, C2, rfl, hr1, hr2⟩
          refine weak (Fail.user own sane rfl rfl rfl rfl own.le ?_ ?_ ?_)
          · intro j hj
            have hj : j < w.v.size := hj
            show (C2 w.v.buf j).isSome
            by_cases h : w.v.size - n ≤ j
            · exact hr1 j (by omega) (by omega)
            · rw [hr2 _ j (by omega)]
              exact hsome j (by omega)
          · intro j hj
            have hj : w.v.size ≤ j := hj
            show C2 w.v.buf j = none
            rw [hr2 _ j (by omega)]
            exact hnone j (by omega)
          · intro q hq j
            show C2 q j = _
            rw [hr2 q j (.inl hq)]
            exact g2 q j hq
        · rintro _ w2 ⟨t2, rfl⟩
          refine Sat.bind (Sat.setSize ?_)
          have hC2 : ∀ q j, moved P C1 w.v.buf (w.v.size - n) w.v.buf w.v.size n q j =
              if q = w.v.buf ∧ w.v.size ≤ j ∧ j < w.v.size + n then C1 w.v.buf (j - n)
              else if q = w.v.buf ∧ w.v.size - n ≤ j ∧ j < w.v.size then (C1 w.v.buf j).map P.mv else C1 q j := by
            intro q j
            unfold moved
            by_cases h : q = w.v.buf ∧ w.v.size ≤ j ∧ j < w.v.size + n
            · rw [if_pos h, if_pos (by omega)]
              congr 1
              omega
            · rw [if_neg h, if_neg h]
              by_cases h' : q = w.v.buf ∧ w.v.size - n ≤ j ∧ j < w.v.size
              · rw [if_pos h', if_pos (by omega)]
              · rw [if_neg h', if_neg (by omega)]
          dsimp only
          generalize moved P C1 w.v.buf (w.v.size - n) w.v.buf w.v.size n = C2 at hC2 ⊢
          have hsome2 : ∀ j, j < w.v.size + n → (C2 w.v.buf j).isSome := fun j hj => by
            rw [hC2]
            split
            · exact hsome _ (by omega)
            · split
              · rw [Option.isSome_map]
                exact hsome j (by omega)
              · exact hsome j (by omega)
          have hnone2 : ∀ j, w.v.size + n ≤ j → C2 w.v.buf j = none := fun j hj => by
            rw [hC2, if_neg (by omega), if_neg (by omega)]
            exact hnone j (by omega)
          have ho2 : ∀ q, q ≠ w.v.buf → ∀ j, C2 q j = w.cel q j := fun q hq j => by
            rw [hC2, if_neg (by omega), if_neg (by omega)]
            exact g2 q j hq
          refine Sat.then (sat_moveBwd (P := P) (b := w.v.buf) (s := pos) (d := pos + n) (N := w.v.cap) (by omega) (w.v.size - pos - n)
            (w := { w with cel := C2, tape := t2, v := { w.v with size := w.v.size + n } }) hcap (by omega) ?_) ?_ ?_
          · intro j _ h
            exact hsome2 j (by omega)
          · rintro e w' ⟨rfl, _, t3, C3, rfl, hr1, hr2⟩
            refine weak (Fail.user own sane rfl rfl rfl rfl ?_ ?_ ?_ ?_)
            · show w.v.size + n ≤ w.v.cap
              omega
            · intro j hj
              have hj : j < w.v.size + n := hj
              show (C3 w.v.buf j).isSome
              by_cases h : pos ≤ j ∧ j < w.v.size
              · exact hr1 j (by omega) (by omega)
              · rw [hr2 _ j (by omega)]
                exact hsome2 j (by omega)
            · intro j hj
              have hj : w.v.size + n ≤ j := hj
              show C3 w.v.buf j = none
              rw [hr2 _ j (by omega)]
              exact hnone2 j (by omega)
            · intro q hq j
              show C3 q j = _
              rw [hr2 q j (.inl hq)]
              exact ho2 q hq j
          · rintro _ w3 ⟨t3, C3, rfl, ⟨hr1, hr2⟩, hr3⟩
            simp only at hr1 hr2 hr3
            have hsome3 : ∀ j, j < w.v.size + n → (C3 w.v.buf j).isSome := fun j hj => by
              by_cases h : pos ≤ j ∧ j < w.v.size
              · exact hr1 j (by omega) (by omega)
              · rw [hr2 _ j (by omega)]
                exact hsome2 j (by omega)
            have hnone3 : ∀ j, w.v.size + n ≤ j → C3 w.v.buf j = none := fun j hj => by
              rw [hr2 _ j (by omega)]
              exact hnone2 j (by omega)
            have ho3 : ∀ q, q ≠ w.v.buf → ∀ j, C3 q j = w.cel q j := fun q hq j => by
              rw [hr2 q j (.inl hq)]
              exact ho2 q hq j
            refine (sat_fill0 (P := P) (w := { w with cel := C3, tape := t3, v := { w.v with size := w.v.size + n } }) (N := w.v.cap) (fun _ => hcap)
              (by omega) ?_).mono ?_ ?_
            · intro j _ h
              exact hsome3 j (by omega)
            · rintro _ w' ⟨t4, rfl⟩
              have hg := Good.inplace own sane (X' := X.take pos ++ List.replicate n x ++ X.drop pos)
                (w' := { w with cel := over C3 w.v.buf pos n fun _ => some x, tape := t4, v := { w.v with size := w.v.size + n } })
                rfl (Nat.le_refl _) rfl rfl
                (by
                  simp only [List.length_append, List.length_take, List.length_drop, List.length_replicate]
                  omega)
                (by show w.v.size + n ≤ w.v.cap; omega)
                (fun j => by
                  show over C3 w.v.buf pos n (fun _ => some x) w.v.buf j = _
                  rw [insert_get (by omega), List.length_replicate]
                  by_cases j1 : j < pos
                  · rw [if_pos j1, over_out (by omega), hr2 _ j (by omega), hC2, if_neg (by omega), if_neg (by omega), g1]
                  · rw [if_neg j1]
                    by_cases j2 : j < pos + n
                    · rw [if_pos j2, List.getElem?_replicate, if_pos (by omega), over_in (by omega) (by omega)]
                    · rw [if_neg j2, over_out (by omega)]
                      by_cases j3 : j < w.v.size
                      · have := hr3 (j - (pos + n)) (by omega)
                        rw [show pos + n + (j - (pos + n)) = j by omega] at this
                        rw [this, hC2, if_neg (by omega), if_neg (by omega), g1]
                        congr 1
                        omega
                      · by_cases j4 : j < w.v.size + n
                        · rw [hr2 _ j (by omega), hC2, if_pos ⟨rfl, by omega, j4⟩, g1]
                        · rw [hnone3 j (by omega), List.getElem?_eq_none (by omega)])
                (fun q hq j => by
                  show over C3 w.v.buf pos n (fun _ => some x) q j = _
                  rw [over_out (.inl hq)]
                  exact ho3 q hq j)
              exact ⟨hg.1, Room.same hg.2 (by omega)⟩
            · rintro e w' ⟨rfl, t4, C4, rfl, hr1, hr2⟩
              refine weak (Fail.user own sane rfl rfl rfl rfl ?_ ?_ ?_ ?_)
              · show w.v.size + n ≤ w.v.cap
                omega
              · intro j hj
                have hj : j < w.v.size + n := hj
                show (C4 w.v.buf j).isSome
                by_cases h : pos ≤ j ∧ j < pos + n
                · exact hr1 j (by omega) (by omega)
                · rw [hr2 _ j (by omega)]
                  exact hsome3 j (by omega)
              · intro j hj
                have hj : w.v.size + n ≤ j := hj
                show C4 w.v.buf j = none
                rw [hr2 _ j (by omega)]
                exact hnone3 j (by omega)
              · intro q hq j
                show C4 q j = _
                rw [hr2 q j (.inl hq)]
                exact ho3 q hq j

end STL.Vec
