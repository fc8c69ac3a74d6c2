import Verif.Hash.Insert

/-! # Erasing a range. Proofs only. -/

namespace STL.UH
open STL STL.DL
variable {α K β : Type}

/-- Following `_Next` through `L` leads to `e`. -/
def Fwd (h : Hp α) (e : Nat) : List (Nat × α) → Prop
  | [] => True
  | a :: L => live h a.1 ∧ vl h a.1 = some a.2 ∧ nx h a.1 = atFirst e L ∧ Fwd h e L

theorem Fwd.frame {h h' : Hp α} {e : Nat} : ∀ {L : List (Nat × α)}, Fwd h e L → (∀ q ∈ ids L, h' q = h q) → Fwd h' e L
  | [], _, _ => trivial
  | a :: L, ⟨f1, f2, f3, f4⟩, hs =>
    ⟨(live_eq (hs a.1 (by simp [ids]))).2 f1, (vl_eq (hs a.1 (by simp [ids]))).trans f2, (nx_eq (hs a.1 (by simp [ids]))).trans f3,
      f4.frame fun q hq => hs q (by simp [ids] at hq ⊢; exact Or.inr hq)⟩

theorem Fwd.of {h : Hp α} {c : Con} {B : List (Nat × α)} : ∀ {A M : List (Nat × α)}, WF h c (A ++ M ++ B) → Fwd h (atFirst c.hd B) M
  | A, [], W => trivial
  | A, a :: M, W => by
    refine ⟨W.live (Or.inr (by simp [ids])), W.val a (by simp), ?_, Fwd.of (A := A ++ [a]) (by simpa using W)⟩
    rw [WF.next (A := A) (a := a) (B := M ++ B) (by simpa using W), atFirst_app']
    split
    · rename_i h; subst h; rfl
    · cases M with
      | nil => contradiction
      | cons b M => rfl

/-- `h'` is `h` without the nodes `L` -/
def Freed (h h' : Hp α) (L : List (Nat × α)) : Prop := (∀ q ∈ ids L, h' q = none) ∧ ∀ q, q ∉ ids L → h' q = h q

theorem eraseIn_spec {e oldHi : Nat} : ∀ {f : Nat} {h : Hp α} {M : List (Nat × α)} {c : Nat}, M ≠ [] → Fwd h e M → (ids M).Nodup → e ∉ ids M → M.length ≤ f →
    (∀ D E, M = D ++ E → D ≠ [] → atLast e D = oldHi → ∃ h', eraseIn oldHi e f h (atFirst e M) c = .ok (h', atFirst e E, c + D.length, false) ∧ Freed h h' D) ∧
    (oldHi ∉ ids M → ∃ h', eraseIn oldHi e f h (atFirst e M) c = .ok (h', e, c + M.length, true) ∧ Freed h h' M)
  | _, _, [], _, hM, _, _, _, _ => absurd rfl hM
  | 0, _, a :: M, _, _, _, _, _, hf => by simp at hf
  | f + 1, h, a :: M, c, _, ⟨f1, f2, f3, f4⟩, hnd, he, hf => by
    obtain ⟨h1, e1, g1, g2⟩ := free_ok f1
    simp only [ids, List.map_cons, List.nodup_cons] at hnd
    have he' : e ≠ a.1 ∧ e ∉ ids M := by simpa [ids] using he
    have hF : Fwd h1 e M := f4.frame fun q hq => g1 q (by rintro rfl; exact hnd.1 hq)
    constructor
    · intro D E hDE hD hl
      unfold eraseIn
      rw [atFirst_cons, nd_live f1, R.ok_bind, e1, R.ok_bind, f3]
      simp only
      cases D with
      | nil => exact absurd rfl hD
      | cons d D =>
        simp only [List.cons_append, List.cons.injEq] at hDE
        obtain ⟨rfl, rfl⟩ := hDE
        cases D with
        | nil =>
          rw [if_pos (by simpa [atLast, atFirst] using hl)]
          exact ⟨h1, by simp, by simpa [Freed, ids] using ⟨g2, g1⟩⟩
        | cons d D =>
          have hl' : atLast e (d :: D) = oldHi := by rw [← hl]; exact (atLast_app (M := [a]) (N := d :: D) (by simp)).symm
          have hmem := atLast_block (d := e) (M := d :: D) (by simp)
          rw [hl'] at hmem
          rw [if_neg (by rintro rfl; apply hnd.1; simp [ids] at hmem ⊢; tauto), if_neg (by simp [atFirst_cons]; rintro rfl; apply he'.2; simp [ids])]
          obtain ⟨h2, e2, r1, r2⟩ := (eraseIn_spec (e := e) (oldHi := oldHi) (f := f) (h := h1) (M := d :: D ++ E) (c := c + 1) (by simp) hF hnd.2 he'.2 (by simp at hf ⊢; omega)).1 (d :: D) E rfl (by simp) hl'
          refine ⟨h2, ?_, ?_, ?_⟩
          · rw [e2]; simp; omega
          · intro q hq; simp only [ids, List.map_cons, List.mem_cons] at hq
            by_cases hq' : q ∈ ids (d :: D)
            · exact r1 q hq'
            · rw [r2 q hq']; rcases hq with rfl | hq
              · exact g2
              · exact absurd (by simpa [ids] using hq) hq'
          · intro q hq; rw [r2 q (by simp [ids] at hq ⊢; tauto), g1 q (by simp [ids] at hq; tauto)]
    · intro hn
      have hn' : oldHi ≠ a.1 ∧ oldHi ∉ ids M := by simpa [ids] using hn
      unfold eraseIn
      rw [atFirst_cons, nd_live f1, R.ok_bind, e1, R.ok_bind, f3]
      simp only
      rw [if_neg (fun h => hn'.1 h.symm)]
      cases M with
      | nil => rw [if_pos (by rfl)]; exact ⟨h1, by simp [atFirst], by simpa [Freed, ids] using ⟨g2, g1⟩⟩
      | cons b M =>
        rw [if_neg (by simp [atFirst_cons]; rintro rfl; apply he'.2; simp [ids])]
        obtain ⟨h2, e2, r1, r2⟩ := (eraseIn_spec (e := e) (oldHi := oldHi) (f := f) (h := h1) (M := b :: M) (c := c + 1) (by simp) hF hnd.2 he'.2 (by simp at hf ⊢; omega)).2 hn'.2
        refine ⟨h2, ?_, ?_, ?_⟩
        · rw [e2]; simp; omega
        · intro q hq; simp only [ids, List.map_cons, List.mem_cons] at hq
          by_cases hq' : q ∈ ids (b :: M)
          · exact r1 q hq'
          · rw [r2 q hq']; rcases hq with rfl | hq
            · exact g2
            · exact absurd (by simpa [ids] using hq) hq'
        · intro q hq; rw [r2 q (by simp [ids] at hq ⊢; tauto), g1 q (by simp [ids] at hq; tauto)]

theorem Freed.append {h h1 h2 : Hp α} {D E : List (Nat × α)} (a : Freed h h1 D) (b : Freed h1 h2 E) : Freed h h2 (D ++ E) := by
  refine ⟨?_, ?_⟩
  · intro q hq
    by_cases h' : q ∈ ids E
    · exact b.1 q h'
    · rw [b.2 q h']; exact a.1 q (by nds at hq h' ⊢; tauto)
  · intro q hq; rw [b.2 q (by nds at hq ⊢; tauto), a.2 q (by nds at hq ⊢; tauto)]

/-- Removal of elements of one bucket. -/
theorem BOK.cut {P : Par α K} {mask hd b : Nat} {vec vec' : List Nat} {A D Y : List (Nat × α)} (k : BOK P mask hd vec (A ++ D ++ Y)) (hD : ∀ d ∈ D, inB P mask b d = true)
    (h1 : vec'[2 * b]? = some (atFirst hd ((A ++ Y).filter (inB P mask b)))) (h2 : vec'[2 * b + 1]? = some (atLast hd ((A ++ Y).filter (inB P mask b))))
    (h3 : ∀ i, i ≠ 2 * b → i ≠ 2 * b + 1 → vec'[i]? = vec[i]?) : BOK P mask hd vec' (A ++ Y) := by
  have hsub : (A ++ Y).Sublist (A ++ D ++ Y) := by simp
  have ne : ∀ c, c ≠ b → D.filter (inB P mask c) = [] := by
    intro c hc; rw [filter_none]; intro d hd; have := hD d hd; simp [inB] at this ⊢; omega
  refine ⟨?_, ?_, fun b => (k.cont b).sub hsub, fun q => (k.grp q).sub hsub⟩
  · intro c hc
    by_cases e : c = b
    · subst e; exact h1
    · rw [h3 _ (by omega) (by omega), k.lo c hc]; simp only [List.filter_append, ne c e, List.append_nil]
  · intro c hc
    by_cases e : c = b
    · subst e; exact h2
    · rw [h3 _ (by omega) (by omega), k.hi c hc]; simp only [List.filter_append, ne c e, List.append_nil]

/-- How the bucket of the first element of `w :: M` overlaps with it. -/
theorem overlap {p : β → Bool} {A M B : List β} {w : β} (c : Contig p (A ++ (w :: M) ++ B)) (hw : p w = true) :
    ∃ A0 F, A = A0 ++ F ∧ (∀ a ∈ A0, p a = false) ∧ (∀ a ∈ F, p a = true) ∧
      ((∃ D E, w :: M = D ++ E ∧ D ≠ [] ∧ (∀ a ∈ D, p a = true) ∧ (∀ a ∈ E, p a = false) ∧ ∀ a ∈ B, p a = false) ∨
       (∃ B1 B2, B = B1 ++ B2 ∧ B1 ≠ [] ∧ (∀ a ∈ w :: M, p a = true) ∧ (∀ a ∈ B1, p a = true) ∧ ∀ a ∈ B2, p a = false)) := by
  obtain ⟨A0, F, F2, C, e1, e2, hA, hF, hF2, hC⟩ := Contig.around (L := A) (N := M ++ B) (a := w) (by simpa using c) hw
  refine ⟨A0, F, e1, hA, hF, ?_⟩
  rcases List.append_eq_append_iff.1 e2 with ⟨Q, q1, q2⟩ | ⟨Q, q1, q2⟩
  · -- F2 = M ++ Q, B = Q ++ C
    by_cases hQ : Q = []
    · subst hQ
      left
      refine ⟨w :: M, [], by simp, by simp, ?_, by simp, ?_⟩
      · intro a ha; rcases List.mem_cons.1 ha with rfl | ha
        · exact hw
        · exact hF2 a (by rw [q1]; simpa using ha)
      · rw [q2]; simpa using hC
    · right
      refine ⟨Q, C, q2, hQ, ?_, ?_, hC⟩
      · intro a ha; rcases List.mem_cons.1 ha with rfl | ha
        · exact hw
        · exact hF2 a (by rw [q1]; simp [ha])
      · intro a ha; exact hF2 a (by rw [q1]; simp [ha])
  · -- M = F2 ++ Q, C = Q ++ B
    left
    refine ⟨w :: F2, Q, by rw [q1]; simp, by simp, ?_, ?_, ?_⟩
    · intro a ha; rcases List.mem_cons.1 ha with rfl | ha
      · exact hw
      · exact hF2 a ha
    · intro a ha; exact hC a (by rw [q2]; simp [ha])
    · intro a ha; exact hC a (by rw [q2]; simp [ha])

/-- No bucket has elements in both `A` and `M`. -/
def Sep (P : Par α K) (mask : Nat) (A M : List (Nat × α)) : Prop := ∀ a ∈ A, ∀ m ∈ M, inB P mask (P.hash (P.kfn m.2) &&& mask) a = false

/-- When a bucket has been erased up to its end, the next buckets are separate. -/
theorem Sep.next {P : Par α K} {mask : Nat} {A D E B : List (Nat × α)} {b : Nat} (hc : ∀ c, Contig (inB P mask c) (A ++ (D ++ E) ++ B)) (hD : D ≠ [])
    (hDb : ∀ d ∈ D, inB P mask b d = true) (hE : ∀ d ∈ E, inB P mask b d = false) : Sep P mask A E := by
  intro a ha m hm
  cases h : inB P mask (P.hash (P.kfn m.2) &&& mask) a
  · rfl
  · exfalso
    obtain ⟨A1, A2, rfl⟩ := List.append_of_mem ha
    obtain ⟨E1, E2, rfl⟩ := List.append_of_mem hm
    cases D with
    | nil => exact absurd rfl hD
    | cons d D =>
      have h1 := Contig.mid (L := A1) (a := a) (M := A2 ++ (d :: D) ++ E1) (b := m) (N := E2 ++ B) (by have := hc (P.hash (P.kfn m.2) &&& mask); simpa using this) h (by simp [inB]) d (by simp)
      have h2 := hDb d (by simp)
      have h3 := hE m hm
      simp [inB] at h1 h2 h3; omega

theorem eraseMore_spec {P : Par α K} {hd mask size : Nat} {A B : List (Nat × α)} : ∀ {f : Nat} {h : Hp α} {vec : List Nat} {M : List (Nat × α)} {c : Nat},
    Fwd h (atFirst hd B) M → (hd :: ids (A ++ M ++ B)).Nodup → BOK P mask hd vec (A ++ M ++ B) → Sep P mask A M → M.length < f → M.length ≤ size →
    ∃ h' vec', eraseMore P hd (atFirst hd B) mask size f h vec (atFirst (atFirst hd B) M) c = .ok (h', vec', atFirst hd B, c + M.length) ∧ Freed h h' M ∧
      BOK P mask hd vec' (A ++ B) ∧ vec'.length = vec.length
  | 0, _, _, _, _, _, _, _, _, hf, _ => by omega
  | f + 1, h, vec, [], c, _, _, k, _, _, _ => by
    refine ⟨h, vec, ?_, ?_, by simpa using k, rfl⟩
    · unfold eraseMore; rw [if_neg (by simp [atFirst])]; rfl
    · simp [Freed, ids]
  | f + 1, h, vec, w :: M, c, F, hnd, k, sp, hf, hs => by
    have hb1 := atFirst_mem (hd := hd) B
    have he : atFirst hd B ∉ ids (w :: M) := by nds at hnd hb1 ⊢; grind
    have hndM : (ids (w :: M)).Nodup := by nds at hnd ⊢; grind
    have hb : P.hash (P.kfn w.2) &&& mask ≤ mask := Nat.and_le_right
    unfold eraseMore
    rw [if_pos (by rw [atFirst_cons]; intro h; apply he; rw [← h]; simp [ids]), atFirst_cons, valAt_ok F.1 F.2.1, R.ok_bind]
    simp only [shl1]
    have hw : inB P mask (P.hash (P.kfn w.2) &&& mask) w = true := by simp [inB]
    have hA : ∀ a ∈ A, inB P mask (P.hash (P.kfn w.2) &&& mask) a = false := fun a ha => sp a ha w (by simp)
    have hov := overlap (k.cont (P.hash (P.kfn w.2) &&& mask)) hw
    rw [vget_ok (k.hi _ hb), R.ok_bind]
    have hlen := k.len hb
    have hlo := k.lo _ hb
    have hhi := k.hi _ hb
    have hfA := filter_none.2 hA
    have hIn := eraseIn_spec (e := atFirst hd B) (oldHi := atLast hd ((A ++ w :: M ++ B).filter (inB P mask (P.hash (P.kfn w.2) &&& mask)))) (f := size) (c := c) (by simp) F hndM he hs
    rw [show atFirst (atFirst hd B) (w :: M) = w.1 from rfl] at hIn
    generalize eb : P.hash (P.kfn w.2) &&& mask = b at *
    obtain ⟨A0, F', rfl, _, hF', hcases⟩ := hov
    have hF0 : F' = [] := by
      cases F' with
      | nil => rfl
      | cons x F' => have h1 := hA x (by simp); rw [hF' x (by simp)] at h1; simp at h1
    subst hF0
    rw [List.append_nil] at *
    rcases hcases with ⟨D, E, eM, hD, hDb, hEb, hBb⟩ | ⟨B1, B2, rfl, hB1, hMb, hB1b, hB2b⟩
    · rw [eM] at hIn hlo hhi k hnd F ⊢
      have fX : (A0 ++ (D ++ E) ++ B).filter (inB P mask b) = D := by
        simp only [List.filter_append, hfA, filter_none.2 hEb, filter_none.2 hBb, filter_all hDb]; simp
      rw [fX] at hIn ⊢
      obtain ⟨h1, e1, fr1⟩ := hIn.1 D E rfl hD (by cases D with | nil => exact absurd rfl hD | cons d D => unfold atLast; rw [List.reverse_cons]; cases D.reverse <;> rfl)
      rw [e1, R.ok_bind]
      rw [if_neg (by simp)]
      obtain ⟨v1, ev1, l1, g1⟩ := vset_ok (v := vec) (i := 2 * b) (by omega) hd
      obtain ⟨v2, ev2, l2, g2⟩ := vset_ok (v := v1) (i := 2 * b + 1) (by omega) hd
      simp only
      rw [ev1, R.ok_bind, ev2, R.ok_bind]
      have fY : (A0 ++ (E ++ B)).filter (inB P mask b) = [] := by
        simp only [List.filter_append, hfA, filter_none.2 hEb, filter_none.2 hBb]; simp
      have K2 : BOK P mask hd v2 (A0 ++ (E ++ B)) := BOK.cut (D := D) (by simpa using k) hDb
        (by rw [fY, g2, g1, if_neg (by omega), if_pos rfl]; rfl) (by rw [fY, g2, if_pos rfl]; rfl) (by intro i h1 h2; rw [g2, g1, if_neg h2, if_neg h1])
      have FE : Fwd h1 (atFirst hd B) E := by
        have : ∀ {D : List (Nat × α)}, Fwd h (atFirst hd B) (D ++ E) → Fwd h (atFirst hd B) E := by
          intro D; induction D with
          | nil => exact id
          | cons d D ih => intro h; exact ih h.2.2.2
        exact (this F).frame fun q hq => fr1.2 q (by nds at hnd hq ⊢; grind)
      have hlenM : D.length + E.length = M.length + 1 := by have := congrArg List.length eM; simp at this; omega
      have hDl : 0 < D.length := by cases D with | nil => exact absurd rfl hD | cons d D => simp
      obtain ⟨h2, v3, e3, fr2, K3, l3⟩ := eraseMore_spec (P := P) (size := size) (A := A0) (B := B) (f := f) (vec := v2) (M := E) (c := c + D.length) FE (by nds at hnd ⊢; grind) (by simpa using K2)
        (Sep.next k.cont hD hDb hEb) (by simp at hf; omega) (by simp at hs; omega)
      refine ⟨h2, v3, ?_, fr1.append fr2, K3, by omega⟩
      rw [e3]; simp; omega
    · have fX : (A0 ++ (w :: M) ++ (B1 ++ B2)).filter (inB P mask b) = w :: M ++ B1 := by
        simp only [List.filter_append, hfA, filter_none.2 hB2b, filter_all hMb, filter_all hB1b]; simp
      rw [fX, atLast_app hB1] at hIn
      obtain ⟨h1, e1, fr1⟩ := hIn.2 (by
        have := atLast_block (d := hd) hB1
        nds at hnd this ⊢; grind)
      rw [fX, atLast_app hB1, e1, R.ok_bind, if_pos (by simp)]
      obtain ⟨v1, ev1, l1, g1⟩ := vset_ok (v := vec) (i := 2 * b) (by omega) (atFirst hd (B1 ++ B2))
      simp only
      rw [ev1, R.ok_bind]
      have fY : (A0 ++ (B1 ++ B2)).filter (inB P mask b) = B1 := by
        simp only [List.filter_append, hfA, filter_none.2 hB2b, filter_all hB1b]; simp
      refine ⟨h1, v1, rfl, fr1, ?_, l1⟩
      refine BOK.cut (D := w :: M) k hMb ?_ ?_ ?_
      · rw [fY, g1, if_pos rfl, atFirst_app hB1]
      · rw [fY, g1, if_neg (by omega), hhi, fX, atLast_app hB1]
      · intro i h1 h2; rw [g1, if_neg h1]

theorem eraseRange_ok {P : Par α K} {h : Hp α} {t : Tab} {A M B : List (Nat × α)} (W : WF h t.con (A ++ M ++ B)) (k : BOK P t.mask t.con.hd t.vec (A ++ M ++ B)) :
    ∃ h' vec', eraseRange P h t (atFirst t.con.hd (M ++ B)) (atFirst t.con.hd B) = .ok (h', { t with con := ⟨t.con.hd, t.con.size - M.length⟩, vec := vec' }) ∧
      One h t.con (A ++ M ++ B) h' ⟨t.con.hd, t.con.size - M.length⟩ (A ++ B) ∧ BOK P t.mask t.con.hd vec' (A ++ B) ∧ vec'.length = t.vec.length := by
  unfold eraseRange
  cases M with
  | nil =>
    rw [if_pos (by simp)]
    refine ⟨h, t.vec, by simp, ?_, by simpa using k, rfl⟩
    simpa using One.refl W
  | cons w M =>
  have hM : w :: M ≠ [] := by simp
  have hnd := W.nd
  obtain ⟨r1, r2, r3, k1, k2⟩ := (ring3 hM).1 W.ch
  have hb1 := atFirst_mem (hd := t.con.hd) B
  have ha1 := atLast_mem (hd := t.con.hd) A
  have he : atFirst t.con.hd B ∉ ids (w :: M) := by nds at hnd hb1 ⊢; grind
  have hp : atLast t.con.hd A ∉ ids (w :: M) := by nds at hnd ha1 ⊢; grind
  have hndM : (ids (w :: M)).Nodup := by nds at hnd ⊢; grind
  rw [atFirst_app hM, atFirst_cons, if_neg (by intro hh; apply he; rw [← hh]; simp [ids]), WF.ndAt (A := A) (a := w) (B := M ++ B) (by simpa using W), R.ok_bind]
  simp only
  rw [WF.valAt (a := w) W (by simp), R.ok_bind]
  unfold bucket
  have hb : P.hash (P.kfn w.2) &&& t.mask ≤ t.mask := Nat.and_le_right
  have hw : inB P t.mask (P.hash (P.kfn w.2) &&& t.mask) w = true := by simp [inB]
  have hov := overlap (k.cont (P.hash (P.kfn w.2) &&& t.mask)) hw
  simp only [shl1]
  rw [vget_ok (k.lo _ hb), R.ok_bind, vget_ok (k.hi _ hb), R.ok_bind]
  have hlen := k.len hb
  have hlo := k.lo _ hb
  have hhi := k.hi _ hb
  have F := Fwd.of W
  have hMl : (w :: M).length ≤ t.con.size := by rw [W.size]; simp; omega
  have hIn := eraseIn_spec (e := atFirst t.con.hd B) (oldHi := atLast t.con.hd ((A ++ w :: M ++ B).filter (inB P t.mask (P.hash (P.kfn w.2) &&& t.mask)))) (f := t.con.size) (c := 0) hM F hndM he hMl
  rw [show atFirst (atFirst t.con.hd B) (w :: M) = w.1 from rfl] at hIn
  -- it remains to relink
  have fin : ∀ h1 : Hp α, Freed h h1 (w :: M) → ∃ h2 h3, setN h1 (atLast t.con.hd A) (atFirst t.con.hd B) = .ok h2 ∧ setP h2 (atFirst t.con.hd B) (atLast t.con.hd A) = .ok h3 ∧
      One h t.con (A ++ w :: M ++ B) h3 ⟨t.con.hd, t.con.size - (w :: M).length⟩ (A ++ B) := by
    intro h1 fr
    have C := Chg.refl h
    obtain ⟨_, e, C⟩ := C.setN k1.la (atFirst t.con.hd B); clear e
    obtain ⟨g1, e, C⟩ := C.setP k2.lb (atLast t.con.hd A); clear e
    obtain ⟨W', frm⟩ := cut_block W hM C (by simp) (by intro q q1 q2; simp [q1]) (by simp) (by intro q q1 q2; simp [q1])
    have la : live h1 (atLast t.con.hd A) := by rw [live_eq (fr.2 _ hp)]; exact k1.la
    have lb : live h1 (atFirst t.con.hd B) := by rw [live_eq (fr.2 _ he)]; exact k2.lb
    have D := Chg.refl h1
    obtain ⟨h2, e2, D⟩ := D.setN la (atFirst t.con.hd B)
    obtain ⟨h3, e3, D⟩ := D.setP lb (atLast t.con.hd A)
    refine ⟨h2, h3, e2, e3, cut_free W W' rfl frm ?_ ?_⟩
    · intro q hq
      have : ¬ live h3 q := by rw [D.live]; simp [live, fr.1 q hq]
      simpa [live] using this
    · intro q hq
      refine hp_ext ?_ ?_ ?_ ?_
      · rw [D.live, C.live, live_eq (fr.2 q hq)]
      · rw [D.nx, C.nx, nx_eq (fr.2 q hq)]
      · rw [D.pv, C.pv, pv_eq (fr.2 q hq)]
      · rw [D.vl, C.vl, vl_eq (fr.2 q hq)]
  generalize eb : P.hash (P.kfn w.2) &&& t.mask = b at *
  obtain ⟨A0, F', rfl, hA0, hF', hcases⟩ := hov
  have hbk : ∀ Y, (∀ a ∈ Y, inB P t.mask b a = false) → ((A0 ++ F') ++ Y).filter (inB P t.mask b) = F' := by
    intro Y hY; simp only [List.filter_append, filter_none.2 hA0, filter_all hF', filter_none.2 hY]; simp
  -- the first element of the bucket is the first to erase iff nothing of the bucket comes before
  have hfirst : ∀ Z, (A0 ++ F' ++ w :: M ++ B).filter (inB P t.mask b) = F' ++ w :: Z → (atFirst t.con.hd (F' ++ w :: Z) = w.1 ↔ F' = []) := by
    intro Z _
    constructor
    · intro hh
      by_contra h0
      rw [atFirst_app h0] at hh
      have := atFirst_block (d := t.con.hd) h0
      rw [hh] at this
      nds at hnd this; grind
    · rintro rfl; rfl
  rcases hcases with ⟨D, E, eM, hD, hDb, hEb, hBb⟩ | ⟨B1, B2, rfl, hB1, hMb, hB1b, hB2b⟩
  · have fX : (A0 ++ F' ++ w :: M ++ B).filter (inB P t.mask b) = F' ++ D := by
      rw [eM]; simp only [List.filter_append, filter_none.2 hA0, filter_all hF', filter_none.2 hEb, filter_none.2 hBb, filter_all hDb]; simp
    obtain ⟨D', rfl⟩ : ∃ D', D = w :: D' := by
      cases D with
      | nil => exact absurd rfl hD
      | cons d D => simp only [List.cons_append, List.cons.injEq] at eM; exact ⟨D, by rw [eM.1]⟩
    have hfirst := hfirst D' fX
    rw [fX] at hlo hhi hIn ⊢
    obtain ⟨h1, e1, fr1⟩ := hIn.1 (w :: D') E eM hD (by rw [atLast_app (M := F') (by simp)]; unfold atLast; rw [List.reverse_cons]; cases D'.reverse <;> rfl)
    rw [e1, R.ok_bind]
    simp only [Bool.false_eq_true, ↓reduceIte]
    -- the bucket array after the first bucket
    have hv : ∃ v, (if atFirst t.con.hd (F' ++ w :: D') = w.1 then do
            let vec ← vset t.vec (2 * b) t.con.hd
            vset vec (2 * b + 1) t.con.hd
          else vset t.vec (2 * b + 1) (atLast t.con.hd (A0 ++ F')) : R (List Nat)) = .ok v ∧ v.length = t.vec.length ∧ BOK P t.mask t.con.hd v (A0 ++ F' ++ E ++ B) := by
      have hEB : ∀ a ∈ E ++ B, inB P t.mask b a = false := by
        intro a ha; rcases List.mem_append.1 ha with ha | ha
        · exact hEb a ha
        · exact hBb a ha
      rw [List.append_assoc]
      by_cases hF0 : F' = []
      · rw [if_pos (hfirst.2 hF0)]
        obtain ⟨v1, ev1, l1, g1⟩ := vset_ok (v := t.vec) (i := 2 * b) (by omega) t.con.hd
        obtain ⟨v2, ev2, l2, g2⟩ := vset_ok (v := v1) (i := 2 * b + 1) (by omega) t.con.hd
        rw [ev1, R.ok_bind, ev2]
        refine ⟨v2, rfl, by omega, BOK.cut (D := w :: D') (by rw [eM] at k; simpa using k) hDb ?_ ?_ ?_⟩
        · rw [hbk _ hEB, hF0, g2, g1, if_neg (by omega), if_pos rfl]; rfl
        · rw [hbk _ hEB, hF0, g2, if_pos rfl]; rfl
        · intro i h1 h2; rw [g2, g1, if_neg h2, if_neg h1]
      · rw [if_neg (fun hh => hF0 (hfirst.1 hh))]
        obtain ⟨v1, ev1, l1, g1⟩ := vset_ok (v := t.vec) (i := 2 * b + 1) (by omega) (atLast t.con.hd (A0 ++ F'))
        rw [ev1]
        refine ⟨v1, rfl, by omega, BOK.cut (D := w :: D') (by rw [eM] at k; simpa using k) hDb ?_ ?_ ?_⟩
        · rw [hbk _ hEB, g1, if_neg (by omega), hlo, atFirst_app hF0]
        · rw [hbk _ hEB, g1, if_pos rfl, atLast_app hF0]
        · intro i h1 h2; rw [g1, if_neg h2]
    obtain ⟨v, ev, lv, kv⟩ := hv
    rw [ev, R.ok_bind]
    have FE : Fwd h1 (atFirst t.con.hd B) E := by
      refine (Fwd.of (A := A0 ++ F' ++ (w :: D')) (M := E) (B := B) (by rw [eM] at W; simpa using W)).frame fun q hq => fr1.2 q ?_
      rw [eM] at hndM; nds at hndM hq ⊢; grind
    have hlenM : (w :: D').length + E.length = (w :: M).length := by rw [eM]; simp; omega
    obtain ⟨h2, v3, e3, fr2, K3, l3⟩ := eraseMore_spec (P := P) (size := t.con.size) (A := A0 ++ F') (B := B) (f := t.con.size + 1) (vec := v) (M := E) (c := 0 + (w :: D').length) FE
      (by rw [eM] at hnd; nds at hnd ⊢; grind) kv (Sep.next (by rw [eM] at k; exact k.cont) hD hDb hEb) (by omega) (by omega)
    rw [e3, R.ok_bind]
    obtain ⟨g2, g3, eg2, eg3, O⟩ := fin h2 (by rw [eM]; exact fr1.append fr2)
    simp only
    rw [eg2, R.ok_bind, eg3, R.ok_bind]
    refine ⟨g3, v3, ?_, O, K3, by omega⟩
    simp only [Except.ok.injEq, Prod.mk.injEq, Tab.mk.injEq, Con.mk.injEq, true_and, and_true]
    omega
  · have fX : (A0 ++ F' ++ w :: M ++ (B1 ++ B2)).filter (inB P t.mask b) = F' ++ w :: (M ++ B1) := by
      simp only [List.filter_append, filter_none.2 hA0, filter_all hF', filter_none.2 hB2b, filter_all hMb, filter_all hB1b]; simp
    have hfirst := hfirst (M ++ B1) fX
    have hlB : atLast t.con.hd (F' ++ w :: (M ++ B1)) = atLast t.con.hd B1 := by
      rw [show F' ++ w :: (M ++ B1) = (F' ++ w :: M) ++ B1 by simp, atLast_app hB1]
    rw [fX, hlB] at hhi hIn
    rw [fX] at hlo
    rw [fX, hlB]
    obtain ⟨h1, e1, fr1⟩ := hIn.2 (by
      have := atLast_block (d := t.con.hd) hB1
      nds at hnd this ⊢; grind)
    rw [e1, R.ok_bind]
    simp only [↓reduceIte]
    obtain ⟨g2, g3, eg2, eg3, O⟩ := fin h1 fr1
    have fY : (A0 ++ F' ++ (B1 ++ B2)).filter (inB P t.mask b) = F' ++ B1 := by
      simp only [List.filter_append, filter_none.2 hA0, filter_all hF', filter_none.2 hB2b, filter_all hB1b]; simp
    by_cases hF0 : F' = []
    · rw [if_pos (hfirst.2 hF0)]
      obtain ⟨v1, ev1, l1, q1⟩ := vset_ok (v := t.vec) (i := 2 * b) (by omega) (atFirst t.con.hd (B1 ++ B2))
      rw [ev1, R.ok_bind, R.ok_bind]
      simp only
      rw [eg2, R.ok_bind, eg3, R.ok_bind]
      refine ⟨g3, v1, by rw [Nat.zero_add], O, BOK.cut (D := w :: M) k hMb ?_ ?_ ?_, l1⟩
      · rw [fY, hF0, q1, if_pos rfl, atFirst_app hB1]; rfl
      · rw [fY, hF0, q1, if_neg (by omega), hhi]; rfl
      · intro i h1 h2; rw [q1, if_neg h1]
    · rw [if_neg (fun hh => hF0 (hfirst.1 hh)), R.ok_bind]
      simp only
      rw [eg2, R.ok_bind, eg3, R.ok_bind]
      refine ⟨g3, t.vec, by rw [Nat.zero_add], O, BOK.cut (D := w :: M) k hMb ?_ ?_ (fun _ _ _ => rfl), rfl⟩
      · rw [fY, hlo, atFirst_app hF0, atFirst_app hF0]
      · rw [fY, hhi, atLast_app hB1]

end STL.UH
