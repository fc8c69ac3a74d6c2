import Verif.Hash.Find

/-! # Linking in a node, and taking one out. Proofs only. -/

namespace STL.UH
open STL STL.DL
variable {α K β : Type}

theorem BOK.len {P : Par α K} {mask hd : Nat} {vec : List Nat} {X : List (Nat × α)} (B : BOK P mask hd vec X) {b : Nat} (hb : b ≤ mask) : 2 * b + 1 < vec.length := by
  have := B.hi b hb
  by_contra hh
  rw [List.getElem?_eq_none (by omega)] at this
  simp at this

/-- The update of the bucket array in `_Insert_new_node_before`. -/
def insVec (vec : List Nat) (hd b before after x : Nat) : R (List Nat) := do
  let lo ← vget vec (2 * b)
  let hi ← vget vec (2 * b + 1)
  if lo = hd then do
    let v ← vset vec (2 * b) x
    vset v (2 * b + 1) x
  else if lo = before then vset vec (2 * b) x
  else if hi = after then vset vec (2 * b + 1) x
  else .ok vec

theorem filter_snoc_ne {p : β → Bool} {L' : List β} {a : β} (ha : p a = true) : (L' ++ [a]).filter p ≠ [] := by
  rw [List.filter_append, List.filter_cons_of_pos ha]; simp

theorem insVec_ok {P : Par α K} (g : Good P) {mask hd : Nat} {vec : List Nat} {L N : List (Nat × α)} {key : K} {x : Nat}
    (hnd : (hd :: ids (L ++ N)).Nodup) (B : BOK P mask hd vec (L ++ N)) (pl : Place P mask key L N) :
    ∃ vec', insVec vec hd (P.hash key &&& mask) (atFirst hd N) (atLast hd L) x = .ok vec' ∧ Upd P mask (P.hash key &&& mask) vec L N x vec' := by
  have hb : P.hash key &&& mask ≤ mask := Nat.and_le_right
  have hlen := B.len hb
  have hlo := B.lo _ hb
  have hhi := B.hi _ hb
  have hF := @first_hd α hd (L ++ N) _ hnd (fun q hq => filter_ids (p := inB P mask (P.hash key &&& mask)) hq)
  unfold insVec
  rw [vget_ok hlo, R.ok_bind, vget_ok hhi, R.ok_bind]
  have pl' : (∃ L' a, L = L' ++ [a] ∧ inB P mask (P.hash key &&& mask) a = true) ∨ (∀ a ∈ L ++ N, inB P mask (P.hash key &&& mask) a = false) ∨
     ∃ r N', N = r :: N' ∧ inB P mask (P.hash key &&& mask) r = true ∧ ∀ a ∈ L, inB P mask (P.hash key &&& mask) a = false := by
    rcases pl with ⟨L', a, h1, h2⟩ | ⟨_, ⟨h, _⟩ | h⟩
    · exact Or.inl ⟨L', a, h1, g.inB_eqk h2⟩
    · exact Or.inr (Or.inl h)
    · exact Or.inr (Or.inr h)
  clear pl
  generalize P.hash key &&& mask = b at *
  generalize hp : inB P mask b = p at *
  by_cases c1 : atFirst hd ((L ++ N).filter p) = hd
  · rw [if_pos c1]
    have hFe := hF.1 c1
    rw [List.filter_append] at hFe
    have hFe := List.append_eq_nil_iff.1 hFe
    obtain ⟨v1, e1, l1, g1⟩ := vset_ok (v := vec) (i := 2 * b) (by omega) x
    obtain ⟨v2, e2, l2, g2⟩ := vset_ok (v := v1) (i := 2 * b + 1) (by omega) x
    rw [e1, R.ok_bind, e2]
    refine ⟨v2, rfl, by omega, ?_, ?_, ?_⟩
    · rw [g2, g1, hp, if_neg (by omega), if_pos rfl, if_pos hFe.1]
    · rw [g2, hp, if_pos rfl, if_pos hFe.2]
    · intro i h1 h2; rw [g2, g1, if_neg h2, if_neg h1]
  · rw [if_neg c1]
    by_cases c2 : atFirst hd ((L ++ N).filter p) = atFirst hd N
    · rw [if_pos c2]
      have hL : L.filter p = [] := by
        by_contra hL
        rw [List.filter_append, atFirst_app hL] at c2
        have b1 := filter_ids (atFirst_block (d := hd) hL)
        have b2 := atFirst_mem (hd := hd) N
        rw [c2] at b1
        nds at hnd b1 b2; grind
      have hN : N.filter p ≠ [] := by
        intro hN
        rw [List.filter_append, hL, hN] at c1; exact c1 rfl
      obtain ⟨v1, e1, l1, g1⟩ := vset_ok (v := vec) (i := 2 * b) (by omega) x
      rw [e1]
      refine ⟨v1, rfl, by omega, ?_, ?_, ?_⟩
      · rw [g1, hp, if_pos rfl, if_pos hL]
      · rw [g1, hp, if_neg (by omega), if_neg hN]
      · intro i h1 h2; rw [g1, if_neg h1]
    · rw [if_neg c2]
      have hL : L.filter p ≠ [] := by
        rcases pl' with ⟨L', a, rfl, ha⟩ | h | ⟨r, N', rfl, hr, hn⟩
        · exact filter_snoc_ne ha
        · exact absurd (hF.2 (filter_none.2 h)) c1
        · exfalso; apply c2
          rw [List.filter_append, filter_none.2 hn, List.filter_cons_of_pos hr]; rfl
      obtain ⟨L', a, rfl, ha⟩ : ∃ L' a, L = L' ++ [a] ∧ p a = true := by
        rcases pl' with h | h | ⟨r, N', rfl, hr, hn⟩
        · exact h
        · exact absurd (filter_none.2 fun a ha => h a (by simp [ha])) hL
        · exact absurd (filter_none.2 hn) hL
      rw [atLast_snoc]
      by_cases c3 : atLast hd (((L' ++ [a]) ++ N).filter p) = a.1
      · rw [if_pos c3]
        have hN : N.filter p = [] := by
          by_contra hN
          rw [List.filter_append, atLast_app hN] at c3
          have b1 := filter_ids (atLast_block (d := hd) hN)
          rw [c3] at b1
          nds at hnd b1; grind
        obtain ⟨v1, e1, l1, g1⟩ := vset_ok (v := vec) (i := 2 * b + 1) (by omega) x
        rw [e1]
        refine ⟨v1, rfl, by omega, ?_, ?_, ?_⟩
        · rw [g1, hp, if_neg (by omega), if_neg hL]
        · rw [g1, hp, if_pos rfl, if_pos hN]
        · intro i h1 h2; rw [g1, if_neg h2]
      · rw [if_neg c3]
        have hN : N.filter p ≠ [] := by
          intro hN
          apply c3
          rw [List.filter_append, hN, List.append_nil, List.filter_append, List.filter_cons_of_pos ha]
          simp [atLast_snoc]
        exact ⟨vec, rfl, rfl, by rw [hp, if_neg hL], by rw [hp, if_neg hN], fun _ _ _ => rfl⟩

theorem insertNew_eq {h : Hp α} {t : Tab} {hv before x : Nat} : insertNew h t hv before x = (do
    let bn ← nd h before
    let h ← setN h x before
    let h ← setP h x bn.prev
    let h ← setN h bn.prev x
    let h ← setP h before x
    let vec ← insVec t.vec t.con.hd (hv &&& t.mask) before bn.prev x
    .ok (h, { t with con := ⟨t.con.hd, t.con.size + 1⟩, vec := vec })) := by
  unfold insertNew insVec
  simp only [shl1, bind_assoc]

theorem insertNew_ok {P : Par α K} (g : Good P) {h : Hp α} {t : Tab} {L N : List (Nat × α)} {x : Nat} {v : α} (W : WF h t.con (L ++ N)) (B : BOK P t.mask t.con.hd t.vec (L ++ N))
    (pl : Place P t.mask (P.kfn v) L N) (lx : live h x) (vx : vl h x = some v) (hx : x ∉ t.con.hd :: ids (L ++ N)) :
    ∃ h' vec', insertNew h t (P.hash (P.kfn v)) (atFirst t.con.hd N) x = .ok (h', { t with con := ⟨t.con.hd, t.con.size + 1⟩, vec := vec' }) ∧
      WF h' ⟨t.con.hd, t.con.size + 1⟩ (L ++ (x, v) :: N) ∧ BOK P t.mask t.con.hd vec' (L ++ (x, v) :: N) ∧ vec'.length = t.vec.length ∧
      ∀ q, q ∉ t.con.hd :: ids (L ++ (x, v) :: N) → h' q = h q := by
  have k := W.link
  have a1 := atLast_mem (hd := t.con.hd) L
  have b1 := atFirst_mem (hd := t.con.hd) N
  have m1 : x ≠ atFirst t.con.hd N := by rintro rfl; apply hx; nds; grind
  have m2 : x ≠ atLast t.con.hd L := by rintro rfl; apply hx; nds; grind
  rw [insertNew_eq]
  have C := Chg.refl h
  rw [C.nd k.lb, R.ok_bind, k.p]; simp only
  obtain ⟨_, e, C⟩ := C.setN lx (atFirst t.con.hd N); rw [e, R.ok_bind]; clear e
  obtain ⟨_, e, C⟩ := C.setP lx (atLast t.con.hd L); rw [e, R.ok_bind]; clear e
  obtain ⟨_, e, C⟩ := C.setN k.la x; rw [e, R.ok_bind]; clear e
  obtain ⟨h', e, C⟩ := C.setP k.lb x; rw [e, R.ok_bind]; clear e
  obtain ⟨vec', ev, U⟩ := insVec_ok (x := x) g W.nd B pl
  rw [ev, R.ok_bind]
  have r := insert_block (Q := [(x, v)]) W (by simp) ⟨.singleton _, by simpa [ids] using lx, by simp [ids], by simpa using vx⟩
      (by intro q hq; simp only [ids, List.map_cons, List.map_nil, List.mem_singleton]; rintro rfl; exact hx hq) C
      (by simp [atFirst_cons]) (by simp [atLast_single, m2]) (by intro q hq; simp [atLast_single] at hq; simp [hq])
      (by simp [atFirst_cons, m1]) (by simp [atLast_single]) (by intro q hq; simp [atFirst_cons] at hq; simp [hq])
  refine ⟨h', vec', rfl, by simpa using r.1, BOK.insert (x := (x, v)) g B pl U, U.len, by simpa using r.2⟩

/-! ## Taking out -/

/-- The update of the bucket array in `_Erase_bucket`. -/
theorem eraseBucket_ok {P : Par α K} {h : Hp α} {t : Tab} {A B : List (Nat × α)} {a : Nat × α} (W : WF h t.con (A ++ [a] ++ B)) (K : BOK P t.mask t.con.hd t.vec (A ++ [a] ++ B)) :
    ∃ vec', eraseBucket h t a.1 (P.hash (P.kfn a.2) &&& t.mask) = .ok { t with vec := vec' } ∧ BOK P t.mask t.con.hd vec' (A ++ B) ∧ vec'.length = t.vec.length := by
  have hb : P.hash (P.kfn a.2) &&& t.mask ≤ t.mask := Nat.and_le_right
  have ha : inB P t.mask (P.hash (P.kfn a.2) &&& t.mask) a = true := by simp [inB]
  have ne : ∀ b, b ≠ P.hash (P.kfn a.2) &&& t.mask → inB P t.mask b a = false := by intro b hb; simp [inB]; exact fun h => hb h.symm
  have hlen := K.len hb
  have hsub : (A ++ B).Sublist (A ++ [a] ++ B) := by simp
  have hnd := W.nd
  have key : ∀ vec' : List Nat, vec'.length = t.vec.length →
      vec'[2 * (P.hash (P.kfn a.2) &&& t.mask)]? = some (atFirst t.con.hd ((A ++ B).filter (inB P t.mask (P.hash (P.kfn a.2) &&& t.mask)))) →
      vec'[2 * (P.hash (P.kfn a.2) &&& t.mask) + 1]? = some (atLast t.con.hd ((A ++ B).filter (inB P t.mask (P.hash (P.kfn a.2) &&& t.mask)))) →
      (∀ i, i ≠ 2 * (P.hash (P.kfn a.2) &&& t.mask) → i ≠ 2 * (P.hash (P.kfn a.2) &&& t.mask) + 1 → vec'[i]? = t.vec[i]?) →
      BOK P t.mask t.con.hd vec' (A ++ B) ∧ vec'.length = t.vec.length := by
    intro vec' l h1 h2 h3
    refine ⟨⟨?_, ?_, fun b => (K.cont b).sub hsub, fun k => (K.grp k).sub hsub⟩, l⟩
    · intro b hb'
      by_cases e : b = P.hash (P.kfn a.2) &&& t.mask
      · subst e; exact h1
      · rw [h3 _ (by omega) (by omega), K.lo b hb']
        simp only [List.filter_append, List.filter_cons_of_neg (show ¬ inB P t.mask b a = true by simp [ne b e]), List.filter_nil, List.append_nil]
    · intro b hb'
      by_cases e : b = P.hash (P.kfn a.2) &&& t.mask
      · subst e; exact h2
      · rw [h3 _ (by omega) (by omega), K.hi b hb']
        simp only [List.filter_append, List.filter_cons_of_neg (show ¬ inB P t.mask b a = true by simp [ne b e]), List.filter_nil, List.append_nil]
  have hlo := K.lo _ hb
  have hhi := K.hi _ hb
  have hc := K.cont (P.hash (P.kfn a.2) &&& t.mask)
  clear ne
  unfold eraseBucket
  simp only [shl1]
  rw [vget_ok hlo, R.ok_bind, vget_ok hhi, R.ok_bind]
  generalize P.hash (P.kfn a.2) &&& t.mask = b at *
  generalize inB P t.mask b = p at *
  obtain ⟨A0, F1, F2, B0, rfl, rfl, hA0, hF1, hF2, hB0⟩ := Contig.around hc ha
  have f0 : (A0 ++ F1 ++ [a] ++ (F2 ++ B0)).filter p = F1 ++ [a] ++ F2 := by
    simp only [List.filter_append, filter_none.2 hA0, filter_none.2 hB0, filter_all hF1, filter_all hF2, List.filter_cons_of_pos ha]; simp
  have f1 : (A0 ++ F1 ++ (F2 ++ B0)).filter p = F1 ++ F2 := by
    simp only [List.filter_append, filter_none.2 hA0, filter_none.2 hB0, filter_all hF1, filter_all hF2]; simp
  rw [f0] at hlo hhi ⊢
  rw [f1] at key
  have n := WF.ndAt W
  have c1 : atLast t.con.hd (F1 ++ [a] ++ F2) = a.1 ↔ F2 = [] := by
    constructor
    · intro hh
      by_contra h0
      rw [atLast_app h0] at hh
      have b1 := atLast_block (d := t.con.hd) h0
      rw [hh] at b1
      nds at hnd b1; grind
    · rintro rfl; simp [atLast_snoc]
  have c2 : atFirst t.con.hd (F1 ++ [a] ++ F2) = a.1 ↔ F1 = [] := by
    constructor
    · intro hh
      by_contra h0
      rw [List.append_assoc, atFirst_app h0] at hh
      have b1 := atFirst_block (d := t.con.hd) h0
      rw [hh] at b1
      nds at hnd b1; grind
    · rintro rfl; rfl
  by_cases h2 : F2 = []
  · rw [if_pos (c1.2 h2)]
    by_cases h1 : F1 = []
    · rw [if_pos (c2.2 h1)]
      obtain ⟨v1, e1, l1, g1⟩ := vset_ok (v := t.vec) (i := 2 * b) (by omega) t.con.hd
      obtain ⟨v2, e2, l2, g2⟩ := vset_ok (v := v1) (i := 2 * b + 1) (by omega) t.con.hd
      rw [e1, R.ok_bind, e2, R.ok_bind]
      subst h1 h2
      exact ⟨v2, rfl, key v2 (by omega) (by rw [g2, g1, if_neg (by omega), if_pos rfl]; rfl) (by rw [g2, if_pos rfl]; rfl)
        (by intro i h1 h2; rw [g2, g1, if_neg h2, if_neg h1])⟩
    · rw [if_neg (fun hh => h1 (c2.1 hh)), n, R.ok_bind]
      obtain ⟨v1, e1, l1, g1⟩ := vset_ok (v := t.vec) (i := 2 * b + 1) (by omega) (atLast t.con.hd (A0 ++ F1))
      rw [e1, R.ok_bind]
      subst h2
      refine ⟨v1, rfl, key v1 (by omega) ?_ ?_ ?_⟩
      · rw [g1, if_neg (by omega), hlo, List.append_assoc, atFirst_app h1, atFirst_app h1]
      · rw [g1, if_pos rfl, atLast_app h1, List.append_nil]
      · intro i h1 h2; rw [g1, if_neg h2]
  · rw [if_neg (fun hh => h2 (c1.1 hh))]
    by_cases h1 : F1 = []
    · rw [if_pos (c2.2 h1), n, R.ok_bind]
      obtain ⟨v1, e1, l1, g1⟩ := vset_ok (v := t.vec) (i := 2 * b) (by omega) (atFirst t.con.hd (F2 ++ B0))
      rw [e1, R.ok_bind]
      subst h1
      refine ⟨v1, rfl, key v1 (by omega) ?_ ?_ ?_⟩
      · rw [g1, if_pos rfl, atFirst_app h2, List.nil_append]
      · rw [g1, if_neg (by omega), hhi, atLast_app h2, atLast_app h2]
      · intro i h1 h2; rw [g1, if_neg h1]
    · rw [if_neg (fun hh => h1 (c2.1 hh))]
      refine ⟨t.vec, rfl, key t.vec rfl ?_ ?_ (fun _ _ _ => rfl)⟩
      · rw [hlo, List.append_assoc, atFirst_app h1, atFirst_app h1]
      · rw [hhi, atLast_app h2, atLast_app h2]

theorem eraseNode_ok {P : Par α K} {h : Hp α} {t : Tab} {A B : List (Nat × α)} {a : Nat × α} (W : WF h t.con (A ++ [a] ++ B)) (K : BOK P t.mask t.con.hd t.vec (A ++ [a] ++ B)) :
    ∃ h' vec', eraseNode h t a.1 (P.hash (P.kfn a.2) &&& t.mask) = .ok (h', { t with con := ⟨t.con.hd, t.con.size - 1⟩, vec := vec' }, atFirst t.con.hd B) ∧
      One h t.con (A ++ [a] ++ B) h' ⟨t.con.hd, t.con.size - 1⟩ (A ++ B) ∧ BOK P t.mask t.con.hd vec' (A ++ B) ∧ vec'.length = t.vec.length := by
  obtain ⟨vec', e, K', l⟩ := eraseBucket_ok W K
  obtain ⟨h', e2, O⟩ := uncheckedErase_ok W
  unfold eraseNode
  rw [e, R.ok_bind]
  simp only
  rw [e2, R.ok_bind]
  exact ⟨h', vec', rfl, O, K', l⟩

theorem eraseAt_ok {P : Par α K} {h : Hp α} {t : Tab} {A B : List (Nat × α)} {a : Nat × α} (W : WF h t.con (A ++ [a] ++ B)) (K : BOK P t.mask t.con.hd t.vec (A ++ [a] ++ B)) :
    ∃ h' vec', eraseAt P h t a.1 = .ok (h', { t with con := ⟨t.con.hd, t.con.size - 1⟩, vec := vec' }, atFirst t.con.hd B) ∧
      One h t.con (A ++ [a] ++ B) h' ⟨t.con.hd, t.con.size - 1⟩ (A ++ B) ∧ BOK P t.mask t.con.hd vec' (A ++ B) ∧ vec'.length = t.vec.length := by
  unfold eraseAt bucket
  rw [WF.valAt (a := a) W (by simp), R.ok_bind]
  exact eraseNode_ok W K

/-- Unlinking without freeing. -/
theorem unlink_ok {h : Hp α} {c : Con} {A B : List (Nat × α)} {a : Nat × α} (W : WF h c (A ++ [a] ++ B)) :
    ∃ h', unlinkNode h c a.1 = .ok (h', ⟨c.hd, c.size - 1⟩) ∧ WF h' ⟨c.hd, c.size - 1⟩ (A ++ B) ∧ live h' a.1 ∧ vl h' a.1 = some a.2 ∧
      ∀ q, q ∉ c.hd :: ids (A ++ [a] ++ B) → h' q = h q := by
  obtain ⟨k1, k2, m1, m2⟩ := cut1_spec W
  unfold unlinkNode
  have C := Chg.refl h
  rw [C.nd k1.lb, R.ok_bind, k1.p, k2.n]; simp only
  obtain ⟨_, e, C⟩ := C.setN k1.la (atFirst c.hd B); rw [e, R.ok_bind, C.nd k1.lb, R.ok_bind, k1.p, if_neg m1, k2.n]; simp only; clear e
  obtain ⟨h1, e, C⟩ := C.setP k2.lb (atLast c.hd A); rw [e, R.ok_bind]; clear e
  obtain ⟨W', fr⟩ := cut_block W (by simp) C (by simp) (by intro q q1 q2; simp [q1]) (by simp) (by intro q q1 q2; simp [q1])
  exact ⟨h1, rfl, W', (C.live _).2 k1.lb, by rw [C.vl, W.val a (by simp)], fr⟩

end STL.UH
