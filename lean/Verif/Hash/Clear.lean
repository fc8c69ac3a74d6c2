import Verif.Hash.Erase

/-! # `clear`. Proofs only. -/

namespace STL.UH
open STL STL.DL
variable {α K β : Type}

theorem relink {h h1 : Hp α} {c : Con} {A M B : List (Nat × α)} (W : WF h c (A ++ M ++ B)) (hM : M ≠ []) (fr : Freed h h1 M) :
    ∃ h2 h3, setN h1 (atLast c.hd A) (atFirst c.hd B) = .ok h2 ∧ setP h2 (atFirst c.hd B) (atLast c.hd A) = .ok h3 ∧
      One h c (A ++ M ++ B) h3 ⟨c.hd, c.size - M.length⟩ (A ++ B) := by
  have hnd := W.nd
  obtain ⟨r1, r2, r3, k1, k2⟩ := (ring3 hM).1 W.ch
  have hb1 := atFirst_mem (hd := c.hd) B
  have ha1 := atLast_mem (hd := c.hd) A
  have he : atFirst c.hd B ∉ ids M := by nds at hnd hb1 ⊢; grind
  have hp : atLast c.hd A ∉ ids M := by nds at hnd ha1 ⊢; grind
  have C := Chg.refl h
  obtain ⟨_, e, C⟩ := C.setN k1.la (atFirst c.hd B); clear e
  obtain ⟨g1, e, C⟩ := C.setP k2.lb (atLast c.hd A); clear e
  obtain ⟨W', frm⟩ := cut_block W hM C (by simp) (by intro q q1 q2; simp [q1]) (by simp) (by intro q q1 q2; simp [q1])
  have la : live h1 (atLast c.hd A) := by rw [live_eq (fr.2 _ hp)]; exact k1.la
  have lb : live h1 (atFirst c.hd B) := by rw [live_eq (fr.2 _ he)]; exact k2.lb
  have D := Chg.refl h1
  obtain ⟨h2, e2, D⟩ := D.setN la (atFirst c.hd B)
  obtain ⟨h3, e3, D⟩ := D.setP lb (atLast c.hd A)
  refine ⟨h2, h3, e2, e3, cut_free W W' rfl frm ?_ ?_⟩
  · intro q hq
    have : ¬ live h3 q := by rw [D.live]; simp [live, fr.1 q hq]
    simpa [live] using this
  · intro q hq
    refine hp_ext ?_ ?_ ?_ ?_
    · rw [D.live, C.live, live_eq (fr.2 q hq)]
    · rw [D.nx, C.nx, nx_eq (fr.2 q hq)]
    · rw [D.pv, C.pv, pv_eq (fr.2 q hq)]
    · rw [D.vl, C.vl, vl_eq (fr.2 q hq)]

theorem Fwd.drop {h : Hp α} {e : Nat} {E : List (Nat × α)} : ∀ {D : List (Nat × α)}, Fwd h e (D ++ E) → Fwd h e E
  | [], f => f
  | _ :: _, f => Fwd.drop f.2.2.2

theorem atLast_ne {d d' : Nat} {D : List (Nat × α)} (hD : D ≠ []) : atLast d D = atLast d' D := by
  unfold atLast
  have : D.reverse ≠ [] := by simpa using hD
  cases h : D.reverse with
  | nil => exact absurd h this
  | cons _ _ => rfl

/-- A bucket at the front of the list. -/
theorem front {P : Par α K} {mask hd : Nat} {vec : List Nat} {w : Nat × α} {M : List (Nat × α)} (k : BOK P mask hd vec (w :: M)) :
    ∃ D E, w :: M = D ++ E ∧ D ≠ [] ∧ (w :: M).filter (inB P mask (P.hash (P.kfn w.2) &&& mask)) = D ∧ (∀ a ∈ D, inB P mask (P.hash (P.kfn w.2) &&& mask) a = true) ∧
      ∀ a ∈ E, inB P mask (P.hash (P.kfn w.2) &&& mask) a = false := by
  obtain ⟨A0, F, e, _, _, hh⟩ := overlap (A := []) (B := []) (w := w) (M := M) (p := inB P mask (P.hash (P.kfn w.2) &&& mask)) (by simpa using k.cont _) (by simp [inB])
  rcases hh with ⟨D, E, eM, hD, hDb, hEb, _⟩ | ⟨B1, B2, e, hB1, _⟩
  · refine ⟨D, E, eM, hD, ?_, hDb, hEb⟩
    rw [eM, List.filter_append, filter_all hDb, filter_none.2 hEb, List.append_nil]
  · simp at e; exact absurd e.1 hB1

/-- Clearing the buckets, from the front. `Dn` is in the bucket array, `Td` is not. -/
theorem eraseMore_all {P : Par α K} {hd mask size : Nat} : ∀ {f : Nat} {h : Hp α} {vec : List Nat} {Dn Td : List (Nat × α)} {c : Nat},
    Fwd h hd (Dn ++ Td) → (hd :: ids (Dn ++ Td)).Nodup → BOK P mask hd vec Dn → (Dn ++ Td).length < f → (Dn ++ Td).length ≤ size →
    ∃ h' vec', eraseMore P hd hd mask size f h vec (atFirst hd (Dn ++ Td)) c = .ok (h', vec', hd, c + (Dn ++ Td).length) ∧ Freed h h' (Dn ++ Td) ∧
      BOK P mask hd vec' [] ∧ vec'.length = vec.length
  | 0, _, _, _, _, _, _, _, _, hf, _ => by omega
  | f + 1, h, vec, [], [], c, _, _, k, _, _ => by
    refine ⟨h, vec, ?_, ?_, by simpa using k, rfl⟩
    · unfold eraseMore; rw [if_neg (by simp [atFirst])]; rfl
    · simp [Freed, ids]
  | f + 1, h, vec, [], w :: Td, c, F, hnd, k, hf, hs => by
    rw [List.nil_append] at *
    have hhd : hd ∉ ids (w :: Td) := (List.nodup_cons.1 hnd).1
    have hb : P.hash (P.kfn w.2) &&& mask ≤ mask := Nat.and_le_right
    unfold eraseMore
    rw [if_pos (by rw [atFirst_cons]; intro h; apply hhd; rw [← h]; simp [ids]), atFirst_cons, valAt_ok F.1 F.2.1, R.ok_bind]
    simp only [shl1]
    rw [vget_ok (k.hi _ hb), R.ok_bind]
    have hlen := k.len hb
    have hlo := k.lo _ hb
    obtain ⟨h1, e1, fr1⟩ := (eraseIn_spec (e := hd) (oldHi := atLast hd (([] : List (Nat × α)).filter (inB P mask (P.hash (P.kfn w.2) &&& mask)))) (f := size) (c := c) (by simp) F
      (List.nodup_cons.1 hnd).2 hhd hs).2 hhd
    rw [atFirst_cons] at e1
    rw [e1, R.ok_bind]; simp only [↓reduceIte]
    generalize P.hash (P.kfn w.2) &&& mask = b at *
    obtain ⟨v1, ev1, l1, g1⟩ := vset_ok (v := vec) (i := 2 * b) (by omega) hd
    rw [ev1, R.ok_bind]
    refine ⟨h1, v1, rfl, fr1, ⟨?_, ?_, k.cont, k.grp⟩, l1⟩
    · intro c hc; rw [g1]; split
      · rfl
      · exact k.lo c hc
    · intro c hc; rw [g1, if_neg (by omega)]; exact k.hi c hc
  | f + 1, h, vec, w :: M, Td, c, F, hnd, k, hf, hs => by
    have hhd : hd ∉ ids (w :: M ++ Td) := (List.nodup_cons.1 hnd).1
    have hb : P.hash (P.kfn w.2) &&& mask ≤ mask := Nat.and_le_right
    unfold eraseMore
    rw [List.cons_append, if_pos (by rw [atFirst_cons]; intro h; apply hhd; rw [← h]; simp [ids]), atFirst_cons, valAt_ok F.1 F.2.1, R.ok_bind]
    simp only [shl1]
    rw [vget_ok (k.hi _ hb), R.ok_bind]
    have hlen := k.len hb
    obtain ⟨D, E, eM, hD, fX, hDb, hEb⟩ := front k
    have hIn := eraseIn_spec (e := hd) (oldHi := atLast hd ((w :: M).filter (inB P mask (P.hash (P.kfn w.2) &&& mask)))) (f := size) (c := c) (by simp) F (List.nodup_cons.1 hnd).2 hhd hs
    rw [show atFirst hd (w :: M ++ Td) = w.1 from rfl] at hIn
    obtain ⟨h1, e1, fr1⟩ := hIn.1 D (E ++ Td) (by rw [eM]; simp) hD (by rw [fX])
    rw [e1, R.ok_bind]; simp only [Bool.false_eq_true, ↓reduceIte]
    generalize P.hash (P.kfn w.2) &&& mask = b at *
    obtain ⟨v1, ev1, l1, g1⟩ := vset_ok (v := vec) (i := 2 * b) (by omega) hd
    obtain ⟨v2, ev2, l2, g2⟩ := vset_ok (v := v1) (i := 2 * b + 1) (by omega) hd
    rw [ev1, R.ok_bind, ev2, R.ok_bind]
    have K2 : BOK P mask hd v2 ([] ++ E) := BOK.cut (A := []) (D := D) (by rw [eM] at k; simpa using k) hDb
      (by rw [List.nil_append, filter_none.2 hEb, g2, g1, if_neg (by omega), if_pos rfl]; rfl) (by rw [List.nil_append, filter_none.2 hEb, g2, if_pos rfl]; rfl)
      (by intro i h1 h2; rw [g2, g1, if_neg h2, if_neg h1])
    have eAll : w :: M ++ Td = D ++ (E ++ Td) := by rw [eM]; simp
    have eAll' : w :: (M ++ Td) = D ++ (E ++ Td) := eAll
    rw [eAll] at F hnd hf hs
    rw [eAll']
    have FE : Fwd h1 hd (E ++ Td) := F.drop.frame fun q hq => fr1.2 q (by nds at hnd hq ⊢; grind)
    have hDl : 0 < D.length := by cases D with | nil => exact absurd rfl hD | cons d D => simp
    obtain ⟨h2, v3, e3, fr2, K3, l3⟩ := eraseMore_all (P := P) (size := size) (f := f) (vec := v2) (Dn := E) (Td := Td) (c := c + D.length) FE (by nds at hnd ⊢; grind) (by simpa using K2)
      (by simp only [List.length_append] at hf ⊢; omega) (by simp only [List.length_append] at hs ⊢; omega)
    refine ⟨h2, v3, ?_, fr1.append fr2, K3, by omega⟩
    rw [e3]; simp only [List.length_append]; rw [Nat.add_assoc]

theorem eraseRange_all {P : Par α K} {h : Hp α} {t : Tab} {Dn Td : List (Nat × α)} (W : WF h t.con (Dn ++ Td)) (k : BOK P t.mask t.con.hd t.vec Dn) (hne : Dn ++ Td ≠ []) :
    ∃ h' vec', eraseRange P h t (atFirst t.con.hd (Dn ++ Td)) t.con.hd = .ok (h', { t with con := ⟨t.con.hd, 0⟩, vec := vec' }) ∧
      One h t.con (Dn ++ Td) h' ⟨t.con.hd, 0⟩ [] ∧ BOK P t.mask t.con.hd vec' [] ∧ vec'.length = t.vec.length := by
  unfold eraseRange
  have hnd := W.nd
  have hhd : t.con.hd ∉ ids (Dn ++ Td) := (List.nodup_cons.1 hnd).1
  have hsz := W.size
  have F : Fwd h t.con.hd (Dn ++ Td) := Fwd.of (A := []) (B := []) (by simpa using W)
  obtain ⟨w, Z, eZ⟩ : ∃ w Z, Dn ++ Td = w :: Z := by
    cases hh : Dn ++ Td with
    | nil => exact absurd hh hne
    | cons w Z => exact ⟨w, Z, rfl⟩
  have fin : ∀ h1 : Hp α, Freed h h1 (Dn ++ Td) → ∃ h2 h3, setN h1 t.con.hd t.con.hd = .ok h2 ∧ setP h2 t.con.hd t.con.hd = .ok h3 ∧ One h t.con (Dn ++ Td) h3 ⟨t.con.hd, 0⟩ [] := by
    intro h1 fr
    have := relink (A := []) (B := []) (by simpa using W) hne fr
    simp only [List.nil_append, List.append_nil] at this
    rw [← hsz, Nat.sub_self] at this
    exact this
  rw [eZ] at W hne hnd hhd hsz F fin ⊢
  rw [atFirst_cons, if_neg (by intro hh; apply hhd; rw [← hh]; simp [ids]), WF.ndAt (A := []) (a := w) (B := Z) (by simpa using W), R.ok_bind]
  simp only
  rw [WF.valAt (a := w) W (by simp), R.ok_bind]
  unfold bucket
  have hb : P.hash (P.kfn w.2) &&& t.mask ≤ t.mask := Nat.and_le_right
  simp only [shl1]
  rw [vget_ok (k.lo _ hb), R.ok_bind, vget_ok (k.hi _ hb), R.ok_bind]
  have hlen := k.len hb
  have hlast : atLast t.con.hd ([] : List (Nat × α)) = t.con.hd := rfl
  cases Dn with
  | nil =>
    rw [List.nil_append] at eZ
    subst eZ
    obtain ⟨h1, e1, fr1⟩ := (eraseIn_spec (e := t.con.hd) (oldHi := atLast t.con.hd (([] : List (Nat × α)).filter (inB P t.mask (P.hash (P.kfn w.2) &&& t.mask)))) (f := t.con.size) (c := 0) (by simp) F
      (List.nodup_cons.1 hnd).2 hhd (by omega)).2 hhd
    rw [atFirst_cons] at e1
    rw [e1, R.ok_bind]; simp only [↓reduceIte]
    obtain ⟨g2, g3, eg2, eg3, O⟩ := fin h1 fr1
    rw [if_neg (by simp [atFirst]; intro hh; apply hhd; rw [hh]; simp [ids]), R.ok_bind, hlast]
    simp only
    rw [eg2, R.ok_bind, eg3, R.ok_bind]
    refine ⟨g3, t.vec, ?_, O, k, rfl⟩
    simp only [Except.ok.injEq, Prod.mk.injEq, Tab.mk.injEq, Con.mk.injEq, true_and, and_true]; omega
  | cons w' M =>
    simp only [List.cons_append, List.cons.injEq] at eZ
    obtain ⟨rfl, rfl⟩ := eZ
    obtain ⟨D, E, eM, hD, fX, hDb, hEb⟩ := front k
    have hIn := eraseIn_spec (e := t.con.hd) (oldHi := atLast t.con.hd ((w' :: M).filter (inB P t.mask (P.hash (P.kfn w'.2) &&& t.mask)))) (f := t.con.size) (c := 0) (by simp) F (List.nodup_cons.1 hnd).2 hhd (by omega)
    rw [show atFirst t.con.hd (w' :: (M ++ Td)) = w'.1 from rfl] at hIn
    have eAll : w' :: (M ++ Td) = D ++ (E ++ Td) := by rw [← List.cons_append, eM]; simp
    obtain ⟨h1, e1, fr1⟩ := hIn.1 D (E ++ Td) eAll hD (by rw [fX])
    rw [e1, R.ok_bind]; simp only [Bool.false_eq_true, ↓reduceIte]
    have hlo : atFirst t.con.hd ((w' :: M).filter (inB P t.mask (P.hash (P.kfn w'.2) &&& t.mask))) = w'.1 := by
      rw [List.filter_cons_of_pos (by simp [inB])]; rfl
    rw [if_pos hlo]
    generalize P.hash (P.kfn w'.2) &&& t.mask = b at *
    obtain ⟨v1, ev1, l1, g1⟩ := vset_ok (v := t.vec) (i := 2 * b) (by omega) t.con.hd
    obtain ⟨v2, ev2, l2, g2⟩ := vset_ok (v := v1) (i := 2 * b + 1) (by omega) t.con.hd
    rw [ev1, R.ok_bind, ev2, R.ok_bind]
    have K2 : BOK P t.mask t.con.hd v2 ([] ++ E) := BOK.cut (A := []) (D := D) (by rw [eM] at k; simpa using k) hDb
      (by rw [List.nil_append, filter_none.2 hEb, g2, g1, if_neg (by omega), if_pos rfl]; rfl) (by rw [List.nil_append, filter_none.2 hEb, g2, if_pos rfl]; rfl)
      (by intro i h1 h2; rw [g2, g1, if_neg h2, if_neg h1])
    rw [eAll] at F hnd hsz fin ⊢
    have FE : Fwd h1 t.con.hd (E ++ Td) := F.drop.frame fun q hq => fr1.2 q (by nds at hnd hq ⊢; grind)
    obtain ⟨h2, v3, e3, fr2, K3, l3⟩ := eraseMore_all (P := P) (size := t.con.size) (f := t.con.size + 1) (vec := v2) (Dn := E) (Td := Td) (c := 0 + D.length) FE (by nds at hnd ⊢; grind) (by simpa using K2)
      (by simp only [List.length_append] at hsz ⊢; omega) (by simp only [List.length_append] at hsz ⊢; omega)
    rw [e3, R.ok_bind]
    obtain ⟨g2, g3, eg2, eg3, O⟩ := fin h2 (fr1.append fr2)
    simp only [hlast]
    rw [eg2, R.ok_bind, eg3, R.ok_bind]
    refine ⟨g3, v3, ?_, O, K3, by omega⟩
    simp only [Except.ok.injEq, Prod.mk.injEq, Tab.mk.injEq, Con.mk.injEq, true_and, and_true]
    simp only [List.length_append] at hsz ⊢; omega

theorem BOK.empty {P : Par α K} {mask hd n : Nat} (h : 2 * mask + 1 < n) : BOK P mask hd (List.replicate n hd) ([] : List (Nat × α)) :=
  ⟨fun b hb => by rw [List.getElem?_replicate, if_pos (by omega)]; rfl, fun b hb => by rw [List.getElem?_replicate, if_pos (by omega)]; rfl, fun _ => Contig.nil, fun _ => Contig.nil⟩

/-- `clear`, also in the middle of a rehash. -/
theorem clearTab_ok {P : Par α K} {h : Hp α} {t : Tab} {Dn Td : List (Nat × α)} (W : WF h t.con (Dn ++ Td)) (k : BOK P t.mask t.con.hd t.vec Dn) (h0 : h 0 = none) :
    ∃ h' vec', clearTab P h t = .ok (h', { t with con := ⟨t.con.hd, 0⟩, vec := vec' }) ∧ One h t.con (Dn ++ Td) h' ⟨t.con.hd, 0⟩ [] ∧
      BOK P t.mask t.con.hd vec' [] ∧ vec'.length = t.vec.length := by
  unfold clearTab
  by_cases hs : t.con.size = 0
  · rw [if_pos hs]
    have e : Dn ++ Td = [] := by have := W.size; rw [hs] at this; exact List.eq_nil_of_length_eq_zero this.symm
    obtain ⟨rfl, rfl⟩ := List.append_eq_nil_iff.1 e
    have ec : t.con = ⟨t.con.hd, 0⟩ := by rw [← hs]
    refine ⟨h, t.vec, ?_, ?_, k, rfl⟩
    · rw [← ec]
    · rw [← ec]; exact One.refl W
  rw [if_neg hs]
  split
  · rw [WF.ndHd W, R.ok_bind]
    exact eraseRange_all W k (by intro e; rw [e] at W; exact hs W.size)
  · obtain ⟨h', e, O⟩ := clear_ok W h0
    rw [e, R.ok_bind]
    refine ⟨h', _, rfl, O, BOK.empty ?_, by simp⟩
    exact k.len (Nat.le_refl _)

end STL.UH
