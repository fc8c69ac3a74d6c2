import Verif.RBTree.Walk

/-! # `_Extract`. Proofs only. -/

namespace STL.RBT
open STL
variable {α κ : Type}

theorem At.mem {hd : Nat} {h : Hp α} {Lm Rm : Nat} {C : Cx α} {t : T α} (hA : At hd h Lm Rm C t) {q : Nat} {v : α} (hq : (q, v) ∈ inord C t) :
    ∃ n, h q = some n ∧ n.nil = false ∧ n.val = some v := by
  have hA' := At.plug.1 hA
  rw [← items_plug] at hq
  obtain ⟨A, B, e⟩ := List.append_of_mem hq
  obtain ⟨C', c, l, r, e1, -, -⟩ := split_item _ _ _ _ _ e
  rw [← e1] at hA'
  exact ⟨_, (At.plug.2 hA').node, rfl, rfl⟩

theorem firstId_mem (hd : Nat) (X : List (Nat × α)) : firstId hd X = hd ∨ ∃ v, (firstId hd X, v) ∈ X := by
  cases X with
  | nil => exact Or.inl rfl
  | cons a X => exact Or.inr ⟨a.2, List.mem_cons_self⟩

theorem lastId_mem (hd : Nat) (X : List (Nat × α)) : lastId hd X = hd ∨ ∃ v, (lastId hd X, v) ∈ X := by
  rcases List.eq_nil_or_concat X with rfl | ⟨L, a, rfl⟩
  · exact Or.inl rfl
  · exact Or.inr ⟨a.2, by simp [lastId]⟩

theorem At.first {hd : Nat} {h : Hp α} {Lm Rm : Nat} {C : Cx α} {t : T α} (hA : At hd h Lm Rm C t) {Y : List (Nat × α)} (hY : ∀ y ∈ Y, y ∈ inord C t) :
    ∃ n, h (firstId hd Y) = some n := by
  rcases firstId_mem hd Y with e | ⟨v, e⟩
  · exact ⟨_, by rw [e]; exact hA.head⟩
  · obtain ⟨n, hn, _⟩ := hA.mem (hY _ e); exact ⟨n, hn⟩

theorem itL_nil_parP {hd : Nat} : ∀ {C : Cx α}, itL C = [] → firstId hd (itR C) = parP hd C
  | [], _ => rfl
  | ⟨true, _, _, _, _⟩ :: _, _ => rfl
  | ⟨false, _, _, _, _⟩ :: _, h => by simp [itL] at h

theorem itR_nil_parP {hd : Nat} : ∀ {C : Cx α}, itR C = [] → lastId hd (itL C) = parP hd C
  | [], _ => rfl
  | ⟨false, _, _, _, _⟩ :: _, _ => by simp [lastId, itL, parP, ← List.append_assoc, List.getLast?_concat]
  | ⟨true, _, _, _, _⟩ :: _, h => by simp [itR] at h

theorem firstId_append {hd : Nat} {A B : List (Nat × α)} (h : A ≠ []) : firstId hd (A ++ B) = firstId hd A := by
  cases A <;> simp_all [firstId]

theorem lastId_append {hd : Nat} {A B : List (Nat × α)} (h : B ≠ []) : lastId hd (A ++ B) = lastId hd B := by
  rcases List.eq_nil_or_concat B with rfl | ⟨L, a, rfl⟩
  · exact absurd rfl h
  · simp [lastId, ← List.append_assoc, List.getLast?_concat]

theorem lastId_drop {hd : Nat} {A B : List (Nat × α)} {x : Nat × α} (h : B ≠ []) : lastId hd (A ++ B) = lastId hd (A ++ x :: B) := by
  rw [lastId_append h, show A ++ x :: B = (A ++ [x]) ++ B by simp, lastId_append h]

theorem firstId_eq {hd e : Nat} {v : α} {A B : List (Nat × α)} (hn : ((A ++ (e, v) :: B).map Prod.fst).Nodup) : firstId hd (A ++ (e, v) :: B) = e ↔ A = [] := by
  cases A with
  | nil => simp [firstId]
  | cons a A =>
    simp only [List.cons_append, List.map_cons, List.nodup_cons] at hn
    simp only [firstId, List.cons_append, List.head?_cons, reduceCtorEq, iff_false]
    rintro rfl; exact hn.1 (by simp)

theorem lastId_eq {hd e : Nat} {v : α} {A B : List (Nat × α)} (hn : ((A ++ (e, v) :: B).map Prod.fst).Nodup) : lastId hd (A ++ (e, v) :: B) = e ↔ B = [] := by
  rcases List.eq_nil_or_concat B with rfl | ⟨L, a, rfl⟩
  · simp [lastId]
  · have e1 : lastId hd (A ++ (e, v) :: (L.concat a)) = a.1 := by
      rw [show A ++ (e, v) :: L.concat a = (A ++ (e, v) :: L) ++ [a] by simp]; simp only [lastId, List.getLast?_concat]
    rw [e1]
    constructor
    · rintro rfl
      simp [List.nodup_append] at hn
    · intro h; simp at h

/-- updating the head's `_Left`/`_Right` -/
theorem At.headL {hd : Nat} {h : Hp α} {Lm Rm : Nat} {C : Cx α} {t : T α} (m : Nat) (hA : At hd h Lm Rm C t) :
    ∃ h', RBT.setL h hd m = .ok h' ∧ At hd h' m Rm C t ∧ ∀ q, q ≠ hd → h' q = h q := by
  obtain ⟨h', s, y, f⟩ := setL_ok' (v := m) hA.head
  have hn := hA.nodup
  nds at hn
  refine ⟨h', s, ⟨hA.ctx.head_upd _ _ (by nds; grind) f ?_, hA.sub.congr (by grind), hA.nodup⟩, f⟩
  intro n e; rw [hA.head] at e; cases e; exact y

theorem At.headR {hd : Nat} {h : Hp α} {Lm Rm : Nat} {C : Cx α} {t : T α} (m : Nat) (hA : At hd h Lm Rm C t) :
    ∃ h', RBT.setR h hd m = .ok h' ∧ At hd h' Lm m C t ∧ ∀ q, q ≠ hd → h' q = h q := by
  obtain ⟨h', s, y, f⟩ := setR_ok' (v := m) hA.head
  have hn := hA.nodup
  nds at hn
  refine ⟨h', s, ⟨hA.ctx.head_upd _ _ (by nds; grind) f ?_, hA.sub.congr (by grind), hA.nodup⟩, f⟩
  intro n e; rw [hA.head] at e; cases e; exact y

/-- At most one subtree: it takes the node's place. -/
theorem unlink_one {hd f : Nat} {h : Hp α} {C : Cx α} {e : Nat} {v : α} {c : Bool} {l r s : T α}
    (hA : At hd h (firstId hd (inord C (.node e v c l r))) (lastId hd (inord C (.node e v c l r))) C (.node e v c l r))
    (hs : (l = .nil ∧ s = r) ∨ (l ≠ .nil ∧ r = .nil ∧ s = l)) (hf : C.length + ht (.node e v c l r) ≤ f) :
    ∃ h' n, unlink hd f h e = .ok (h', ptr hd s, parP hd C) ∧ At hd h' (firstId hd (inord C s)) (lastId hd (inord C s)) C s ∧
      h' e = some n ∧ n.red = c ∧ n.val = some v ∧ n.nil = false ∧ Same hd (inord C (.node e v c l r)) h h' := by
  have hnid := hA.ids
  have hn := hA.nodup
  have hn0 : Hid (hd :: (idl C ++ (ids s ++ idr C))).Nodup := by
    unfold Hid; nds; nds at hn
    rcases hs with ⟨rfl, rfl⟩ | ⟨-, rfl, rfl⟩ <;> (nds at hn; grind)
  have hfs : ht s ≤ f := by rcases hs with ⟨rfl, rfl⟩ | ⟨-, rfl, rfl⟩ <;> (simp only [ht] at hf; omega)
  obtain ⟨sn, hsn⟩ := hA.first (Y := items r ++ itR C) (by intro y hy; simp only [inord, items]; simp at hy ⊢; tauto)
  obtain ⟨ln, hln, -, hlnil⟩ := (At.upL.2 hA).at
  obtain ⟨rn, hrn, -, hrnil⟩ := (At.upR.2 hA).at
  have hLs : Lk hd h e s := by rcases hs with ⟨rfl, rfl⟩ | ⟨-, rfl, rfl⟩ <;> [exact hA.sub.2.2; exact hA.sub.2.1]
  have hids : ∀ q, q ∈ ids s ↔ q ∈ ids l ∨ q ∈ ids r := by rcases hs with ⟨rfl, rfl⟩ | ⟨-, rfl, rfl⟩ <;> simp [ids_nil]
  have hnil : ln.nil = true ∨ rn.nil = true := by rw [hlnil, hrnil]; tauto
  have hfix : (if ln.nil = true then ptr hd r else ptr hd l) = ptr hd s := by
    rcases hs with ⟨h1, rfl⟩ | ⟨h1, h2, rfl⟩
    · rw [if_pos (hlnil.2 h1)]
    · rw [if_neg (by rw [hlnil]; exact h1)]
  have hpm := parP_mem (hd := hd) (C := C)
  nds at hn
  obtain ⟨fn, h1, r1, r2, L1, f1⟩ := reparent (w := parP hd C) hLs hA.head rfl (by nds; unfold Hid at hn0; nds at hn0; grind)
  have hc := hA.ctx
  rw [ptr_node] at hc
  have hc1 := hc.congr (h' := h1) (by grind) (by grind) (by grind)
  obtain ⟨n1, h2, r3, r4, -, c2, f2⟩ := relink (ptr hd s) hc1 (by nds; grind) (by grind)
  have hr4 : (if n1.parent = e then setP h1 hd (ptr hd s)
      else do
        let q ← nd h1 (parP hd C)
        if q.left = e then setL h1 (parP hd C) (ptr hd s) else setR h1 (parP hd C) (ptr hd s) : R (Hp α)) = .ok h2 := by
    rw [← r4]; simp only [eq_comm]
  have A2 : At hd h2 _ _ C s := ⟨c2, L1.congr (by grind), hn0⟩
  have he2 : h2 e = some ⟨ptr hd l, parP hd C, ptr hd r, c, false, some v⟩ := by rw [f2 e (by grind), f1 e (by grind), hA.node]
  have S2 : ∀ q, q ≠ hd → q ≠ parP hd C → q ∉ ids s → h2 q = h q := fun q h1 h2 h3 => by rw [f2 q h2, f1 q h3]
  have hX : inord C (.node e v c l r) = (itL C ++ items l) ++ (e, v) :: (items r ++ itR C) := by simp [inord, items]
  have hX' : inord C s = (itL C ++ items l) ++ (items r ++ itR C) := by
    rcases hs with ⟨rfl, rfl⟩ | ⟨-, rfl, rfl⟩ <;> simp [inord, items]
  have hnX : (((itL C ++ items l) ++ (e, v) :: (items r ++ itR C)).map Prod.fst).Nodup := by rw [← hX]; exact (List.nodup_cons.1 hnid).2
  obtain ⟨mn, hmn, -, hmnil⟩ := A2.at
  -- the head's left pointer
  have step3 : ∃ h3, (if firstId hd (inord C (.node e v c l r)) = e then do
        let fixn ← nd h2 (ptr hd s)
        let m ← (if fixn.nil then .ok (parP hd C) else minF h2 f (ptr hd s) : R Nat)
        setL h2 hd m
      else .ok h2 : R (Hp α)) = .ok h3 ∧ At hd h3 (firstId hd (inord C s)) (lastId hd (inord C (.node e v c l r))) C s ∧ ∀ q, q ≠ hd → h3 q = h2 q := by
    by_cases hfe : firstId hd (inord C (.node e v c l r)) = e
    · rw [if_pos hfe]
      rw [hX, firstId_eq hnX] at hfe
      have hl0 : l = .nil := by rw [← items_eq_nil]; exact (List.append_eq_nil_iff.1 hfe).2
      have hitL := (List.append_eq_nil_iff.1 hfe).1
      have hsr : s = r := by rcases hs with ⟨_, h⟩ | ⟨h, _⟩ <;> [exact h; exact absurd hl0 h]
      rw [nd_some hmn, R.ok_bind]
      obtain ⟨h3, e3, A3, f3⟩ := A2.headL (firstId hd (inord C s))
      refine ⟨h3, ?_, A3, f3⟩
      have : (if mn.nil then .ok (parP hd C) else minF h2 f (ptr hd s) : R Nat) = .ok (firstId hd (inord C s)) := by
        by_cases h0 : s = .nil
        · rw [if_pos (hmnil.2 h0), hX', hl0, ← hsr, h0, hitL]; simp [items]; exact (itL_nil_parP hitL).symm
        · rw [if_neg (by rw [hmnil]; exact h0), minF_first A2 h0 hfs (itR C), hX', hl0, ← hsr, hitL]; simp [items]
      rw [this, R.ok_bind, e3]
    · rw [if_neg hfe]
      refine ⟨h2, rfl, ?_, fun _ _ => rfl⟩
      have : firstId hd (inord C s) = firstId hd (inord C (.node e v c l r)) := by
        rw [hX, firstId_eq hnX] at hfe
        rw [hX, hX', firstId_append hfe, firstId_append hfe]
      rw [this]; exact A2
  obtain ⟨h3, e3, A3, f3⟩ := step3
  obtain ⟨mn3, hmn3, -, hmnil3⟩ := A3.at
  have step4 : ∃ h4, (if lastId hd (inord C (.node e v c l r)) = e then do
        let fixn ← nd h3 (ptr hd s)
        let m ← (if fixn.nil then .ok (parP hd C) else maxF h3 f (ptr hd s) : R Nat)
        setR h3 hd m
      else .ok h3 : R (Hp α)) = .ok h4 ∧ At hd h4 (firstId hd (inord C s)) (lastId hd (inord C s)) C s ∧ ∀ q, q ≠ hd → h4 q = h3 q := by
    by_cases hfe : lastId hd (inord C (.node e v c l r)) = e
    · rw [if_pos hfe]
      rw [hX, lastId_eq hnX] at hfe
      have hr0 : r = .nil := by rw [← items_eq_nil]; exact (List.append_eq_nil_iff.1 hfe).1
      have hitR := (List.append_eq_nil_iff.1 hfe).2
      have hsl : s = l := by rcases hs with ⟨h1, h2⟩ | ⟨_, _, h⟩ <;> [rw [h2, hr0, h1]; exact h]
      rw [nd_some hmn3, R.ok_bind]
      obtain ⟨h4, e4, A4, f4⟩ := A3.headR (lastId hd (inord C s))
      refine ⟨h4, ?_, A4, f4⟩
      have : (if mn3.nil then .ok (parP hd C) else maxF h3 f (ptr hd s) : R Nat) = .ok (lastId hd (inord C s)) := by
        by_cases h0 : s = .nil
        · rw [if_pos (hmnil3.2 h0), hX', hr0, ← hsl, h0, hitR]; simp [items]; exact (itR_nil_parP hitR).symm
        · rw [if_neg (by rw [hmnil3]; exact h0), maxF_last A3 h0 hfs (itL C), hX', hr0, ← hsl, hitR]; simp [items]
      rw [this, R.ok_bind, e4]
    · rw [if_neg hfe]
      refine ⟨h3, rfl, ?_, fun _ _ => rfl⟩
      have : lastId hd (inord C s) = lastId hd (inord C (.node e v c l r)) := by
        rw [hX, lastId_eq hnX] at hfe
        rw [hX, hX']; exact lastId_drop hfe
      rw [this]; exact A3
  obtain ⟨h4, e4, A4, f4⟩ := step4
  refine ⟨h4, ⟨ptr hd l, parP hd C, ptr hd r, c, false, some v⟩, ?_, A4, ?_, rfl, rfl, rfl, ?_⟩
  · unfold unlink
    rw [next_foc hA hf, R.ok_bind, nd_some hA.node, R.ok_bind]; simp only
    rw [nd_some hln, R.ok_bind, nd_some hrn, R.ok_bind, nd_some hsn, R.ok_bind, if_pos hnil, hfix, r1, R.ok_bind, r2, R.ok_bind, r3, R.ok_bind, hr4, R.ok_bind,
      nd_some A2.head, R.ok_bind]; simp only
    rw [e3, R.ok_bind, nd_some A3.head, R.ok_bind]; simp only
    rw [e4]; rfl
  · rw [f4 e (by grind), f3 e (by grind), he2]
  · rw [same_iff]; intro q h1 h2 h3 h4'
    rw [f4 q h1, f3 q h1, S2 q h1 (by grind) (by nds at h3; grind)]

/-- a path segment, its outermost frame having parent `par` -/
def Seg (hd : Nat) (h : Hp α) (par : Nat) : Cx α → Nat → Prop
  | [], _ => True
  | ⟨true, i, v, c, s⟩ :: D, x => h i = some ⟨x, parP par D, ptr hd s, c, false, some v⟩ ∧ Lk hd h i s ∧ Seg hd h par D i
  | ⟨false, i, v, c, s⟩ :: D, x => h i = some ⟨ptr hd s, parP par D, x, c, false, some v⟩ ∧ Lk hd h i s ∧ Seg hd h par D i

theorem parP_append (hd : Nat) (D C : Cx α) : parP hd (D ++ C) = parP (parP hd C) D := by cases D <;> rfl

theorem LkC.app {hd : Nat} {h : Hp α} {Lm Rm : Nat} : ∀ {D C : Cx α} {x : Nat}, LkC hd h Lm Rm (D ++ C) x ↔ Seg hd h (parP hd C) D x ∧ LkC hd h Lm Rm C (rootP D x)
  | [], C, x => by simp [Seg, rootP]
  | ⟨true, i, v, c, s⟩ :: D, C, x => by
    simp only [List.cons_append, LkC, Seg, rootP, parP_append]; rw [LkC.app]; tauto
  | ⟨false, i, v, c, s⟩ :: D, C, x => by
    simp only [List.cons_append, LkC, Seg, rootP, parP_append]; rw [LkC.app]; tauto

theorem Seg.congr {hd : Nat} {h h' : Hp α} {par : Nat} : ∀ {D : Cx α} {x : Nat}, Seg hd h par D x → (∀ q ∈ idl D, h' q = h q) → (∀ q ∈ idr D, h' q = h q) → Seg hd h' par D x
  | [], _, _, _, _ => trivial
  | ⟨true, i, v, c, s⟩ :: C, x, ⟨h1, h2, h3⟩, hl, hr => by
    nds at hl hr
    exact ⟨by rw [hr.1]; exact h1, h2.congr hr.2.1, h3.congr hl hr.2.2⟩
  | ⟨false, i, v, c, s⟩ :: C, x, ⟨h1, h2, h3⟩, hl, hr => by
    nds at hl hr
    exact ⟨by rw [hl.2.2]; exact h1, h2.congr hl.2.1, h3.congr hl.1 hr⟩

/-- changing the outermost frame's parent -/
theorem Seg.reroot {hd : Nat} {h h' : Hp α} {par par' : Nat} : ∀ {D : Cx α} {x : Nat}, AllL D → Seg hd h par D x → (idr D).Nodup → D ≠ [] →
    (∀ q ∈ idr D, q ≠ rootP D x → h' q = h q) → (∀ n, h (rootP D x) = some n → h' (rootP D x) = some ⟨n.left, par', n.right, n.red, n.nil, n.val⟩) → Seg hd h' par' D x
  | [], _, _, _, _, h, _, _ => absurd rfl h
  | ⟨false, i, v, c, s⟩ :: D, x, hL, _, _, _, _, _ => absurd (hL _ List.mem_cons_self) (by simp)
  | ⟨true, i, v, c, s⟩ :: D, x, hL, ⟨a, b, d⟩, hn, _, h1, h2 => by
    simp only [rootP] at h1 h2
    nds at h1 hn
    cases D with
    | nil =>
      simp only [rootP] at h1 h2
      refine ⟨?_, b.congr (by grind), trivial⟩
      rw [h2 _ a]; rfl
    | cons g D =>
      have hL' : AllL (g :: D) := fun f hf => hL f (List.mem_cons_of_mem _ hf)
      obtain ⟨gl, gi, gv, gc, gs⟩ := g
      obtain rfl : gl = true := hL' _ List.mem_cons_self
      have hr := rootP_mem (C := D) (x := gi)
      have hlD : idl D = [] := by rw [idl, AllL.itL fun f hf => hL' f (List.mem_cons_of_mem _ hf)]; rfl
      rw [hlD] at hr
      simp only [rootP] at h1 h2 hr
      nds at hn h1
      exact ⟨by rw [h1.1 (by grind)]; exact a, b.congr (by grind), Seg.reroot hL' d (by nds; grind) (by simp) (by simp only [rootP]; nds; grind) (by simpa only [rootP] using h2)⟩
termination_by D => D.length

/-- taking the successor out of its place -/
theorem hoist {hd : Nat} {h2 : Hp α} {D : Cx α} {e s : Nat} {sv : α} {sc : Bool} {l sr : T α} {n0 n1 n2 : Nat} (hD : AllL D) (hseg : Seg hd h2 e D s)
    (y2 : h2 s = some ⟨ptr hd l, parP e D, ptr hd sr, sc, false, some sv⟩) (hsr : Lk hd h2 s sr) (h0' : h2 hd = some ⟨n0, n1, n2, false, true, none⟩)
    (hn : (hd :: (s :: (ids sr ++ idr D))).Nodup) : ∃ h6, (if s = rootP D s then .ok (h2, s)
      else do
        let sn ← nd h2 s
        let fp := sn.parent
        let fixn ← nd h2 (ptr hd sr)
        let h ← (if fixn.nil then .ok h2 else setP h2 (ptr hd sr) fp : R (Hp α))
        let h ← setL h fp (ptr hd sr)
        let h ← setR h s (rootP D s)
        let h ← setP h (rootP D s) s
        .ok (h, fp) : R (Hp α × Nat)) = .ok (h6, parP s D) ∧ Seg hd h6 s D (ptr hd sr) ∧ Lk hd h6 (parP s D) sr ∧
        h6 s = some ⟨ptr hd l, parP e D, rootP D (ptr hd sr), sc, false, some sv⟩ ∧ (∀ q, q ∉ ids sr → q ∉ idr D → q ≠ s → h6 q = h2 q) := by
  have hlD : itL D = [] := hD.itL
  nds at hn
  have hpD : ∀ x, D ≠ [] → parP x D ∈ idr D := by
    intro x h0
    cases D with
    | nil => exact absurd rfl h0
    | cons g D => obtain ⟨gl, gi, gv, gc, gs⟩ := g; obtain rfl : gl = true := hD _ List.mem_cons_self; simp only [parP]; nds; simp
  have hrD : ∀ x, D ≠ [] → rootP D x ∈ idr D := by
    intro x h0
    cases D with
    | nil => exact absurd rfl h0
    | cons g D =>
      have hlD' : idl D = [] := by rw [idl, AllL.itL fun f hf => hD f (List.mem_cons_of_mem _ hf)]; rfl
      obtain ⟨gl, gi, gv, gc, gs⟩ := g; obtain rfl : gl = true := hD _ List.mem_cons_self
      have := rootP_mem (C := D) (x := gi)
      rw [hlD'] at this
      simp only [rootP]; nds; simp at this; tauto
  by_cases h0 : D = []
  · subst h0
    exact ⟨h2, by rw [if_pos (by rfl)]; rfl, trivial, hsr, y2, fun _ _ _ _ => rfl⟩
  · have hpm := hpD e h0
    have hrm := hrD s h0
    have hpp : ∀ x, parP x D = parP e D := by intro x; cases D with | nil => exact absurd rfl h0 | cons _ _ => rfl
    have hrr : ∀ x, rootP D x = rootP D s := by intro x; cases D with | nil => exact absurd rfl h0 | cons _ _ => rfl
    obtain ⟨fn, h3, r1, r2, L3, f3⟩ := reparent (h := h2) (t := sr) (w := parP e D) hsr h0' rfl (by nds; grind)
    have G3 : Seg hd h3 e D s := hseg.congr (by simp [idl, hlD]) (by grind)
    -- the innermost frame
    have step4 : ∃ h4, setL h3 (parP e D) (ptr hd sr) = .ok h4 ∧ Seg hd h4 e D (ptr hd sr) ∧ ∀ q, q ≠ parP e D → h4 q = h3 q := by
      cases D with
      | nil => exact absurd rfl h0
      | cons g D =>
        obtain ⟨gl, gi, gv, gc, gs⟩ := g; obtain rfl : gl = true := hD _ List.mem_cons_self
        obtain ⟨a, b, d⟩ := G3
        obtain ⟨h4, e4, y4, f4⟩ := setL_ok' (v := ptr hd sr) a
        have hlD' : idl D = [] := by rw [idl, AllL.itL fun f hf => hD f (List.mem_cons_of_mem _ hf)]; rfl
        nds at hn
        exact ⟨h4, e4, ⟨y4, b.congr (by grind), d.congr (by rw [hlD']; simp) (by grind)⟩, f4⟩
    obtain ⟨h4, e4, G4, f4⟩ := step4
    have hs4 : h4 s = some ⟨ptr hd l, parP e D, ptr hd sr, sc, false, some sv⟩ := by rw [f4 s (by grind), f3 s (by grind), y2]
    obtain ⟨h5, e5, y5, f5⟩ := setR_ok' (v := rootP D s) hs4
    have G5 : Seg hd h5 e D (ptr hd sr) := G4.congr (by simp [idl, hlD]) (by grind)
    have hroot : ∃ n, h5 (rootP D s) = some n := by
      have : ∃ v, (rootP D s, v) ∈ itR D := by
        simp only [idr, List.mem_map] at hrm; obtain ⟨⟨a, b⟩, h1, h2⟩ := hrm; exact ⟨b, by rw [← h2]; exact h1⟩
      obtain ⟨v', hv'⟩ := this
      have hne : ∀ x, Seg hd h5 e D x → ∀ q ∈ idr D, ∃ n, h5 q = some n := by
        have hLk : ∀ (t : T α) (p : Nat), Lk hd h5 p t → ∀ q ∈ ids t, ∃ n, h5 q = some n := by
          intro t; induction t with
          | nil => intro p _ q hq; simp [ids_nil] at hq
          | node i v c l r ihl ihr =>
            rintro p ⟨a, b, d⟩ q hq
            nds at hq
            rcases hq with hq | rfl | hq
            · exact ihl _ b q hq
            · exact ⟨_, a⟩
            · exact ihr _ d q hq
        intro x hx
        have : ∀ (D : Cx α) (x : Nat), Seg hd h5 e D x → ∀ q ∈ idr D, ∃ n, h5 q = some n := by
          intro D; induction D with
          | nil => intro x _ q hq; simp [idr_nil] at hq
          | cons g D ih =>
            obtain ⟨gl, gi, gv, gc, gs⟩ := g
            intro x hx q hq
            cases gl
            · exact ih _ hx.2.2 q hq
            · nds at hq
              rcases hq with rfl | hq | hq
              · exact ⟨_, hx.1⟩
              · exact hLk _ _ hx.2.1 q hq
              · exact ih _ hx.2.2 q hq
        exact this D x hx
      exact hne _ G5 _ hrm
    obtain ⟨rn, hrn⟩ := hroot
    obtain ⟨h6, e6, y6, f6⟩ := setP_ok' (v := s) hrn
    refine ⟨h6, ?_, ?_, ?_, ?_, ?_⟩
    · rw [if_neg (by grind), nd_some y2, R.ok_bind]; simp only
      rw [r1, R.ok_bind, r2, R.ok_bind, e4, R.ok_bind, e5, R.ok_bind, e6, R.ok_bind, hpp s]
    · refine G5.reroot hD (by grind) h0 ?_ ?_
      · intro q _ hq; rw [hrr] at hq; exact f6 q hq
      · intro n hn'; rw [hrr] at hn' ⊢; rw [hrn] at hn'; cases hn'; exact y6
    · rw [hpp s]; exact L3.congr (by grind)
    · rw [f6 s (by grind), y5, hrr (ptr hd sr)]
    · intro q a b d; rw [f6 q (by grind), f5 q d, f4 q (by grind), f3 q a]

set_option maxHeartbeats 2000000 in
/-- Two subtrees: the successor takes the node's place. -/
theorem unlink_two {hd f : Nat} {h : Hp α} {Lm Rm : Nat} {C D : Cx α} {e s : Nat} {v sv : α} {c sc : Bool} {l sr : T α}
    (hA : At hd h Lm Rm C (.node e v c l (plug D (.node s sv sc .nil sr)))) (hD : AllL D) (hl : l ≠ .nil)
    (hf : C.length + ht (.node e v c l (plug D (.node s sv sc .nil sr))) ≤ f) :
    ∃ h' n, unlink hd f h e = .ok (h', ptr hd sr, parP hd (D ++ ⟨false, s, sv, c, l⟩ :: C)) ∧ At hd h' Lm Rm (D ++ ⟨false, s, sv, c, l⟩ :: C) sr ∧
      h' e = some n ∧ n.red = sc ∧ n.val = some v ∧ n.nil = false ∧ Same hd (inord C (.node e v c l (plug D (.node s sv sc .nil sr)))) h h' := by
  have hr : plug D (.node s sv sc .nil sr) ≠ .nil := by
    intro e; have := items_plug D (.node s sv sc .nil sr); rw [e] at this; simp [items, inord] at this
  have hB := At.app.1 (At.upR.2 hA)
  have hn := hB.nodup
  have hlD : itL D = [] := hD.itL
  have hidl : idl (D ++ ⟨false, e, v, c, l⟩ :: C) = idl C ++ (ids l ++ [e]) := by simp [idl, itL_append, hlD, itL, ids]
  have hidr : idr (D ++ ⟨false, e, v, c, l⟩ :: C) = idr D ++ idr C := by simp [idr, itR_append, itR]
  have hidl' : idl (D ++ ⟨false, s, sv, c, l⟩ :: C) = idl C ++ (ids l ++ [s]) := by simp [idl, itL_append, hlD, itL, ids]
  have hidr' : idr (D ++ ⟨false, s, sv, c, l⟩ :: C) = idr D ++ idr C := by simp [idr, itR_append, itR]
  rw [hidl, hidr] at hn
  nds at hn
  have hn0 : Hid (hd :: (idl (D ++ ⟨false, s, sv, c, l⟩ :: C) ++ (ids sr ++ idr (D ++ ⟨false, s, sv, c, l⟩ :: C)))).Nodup := by
    rw [hidl', hidr']; unfold Hid; nds; grind
  obtain ⟨hseg, hce, hll, hc⟩ := LkC.app.1 hB.ctx
  have hsr : Lk hd h s sr := hB.sub.2.2
  have hs : h s = some ⟨hd, parP e D, ptr hd sr, sc, false, some sv⟩ := by have := hB.sub.1; rw [parP_append] at this; exact this
  have hseg : Seg hd h e D s := hseg
  rw [ptr_node] at hce
  have hptr : ptr hd (plug D (.node s sv sc .nil sr)) = rootP D s := by
    have := hA.node; rw [hce] at this; simpa using this.symm
  -- the left subtree goes under the successor
  have step1 : ∃ h1, setP h (ptr hd l) s = .ok h1 ∧ Lk hd h1 s l ∧ ∀ q, q ∉ ids l → h1 q = h q := by
    cases l with
    | nil => exact absurd rfl hl
    | node li lv lc ll lr =>
      obtain ⟨a, b, d⟩ := hll
      obtain ⟨h1, e1, y1, f1⟩ := setP_ok' (v := s) a
      nds at hn
      exact ⟨h1, e1, ⟨y1, b.congr (by grind), d.congr (by grind)⟩, by nds; grind⟩
  obtain ⟨h1, e1, L1, f1⟩ := step1
  have hs1 : h1 s = some ⟨hd, parP e D, ptr hd sr, sc, false, some sv⟩ := by rw [f1 s (by grind), hs]
  obtain ⟨h2, e2, y2, f2⟩ := setL_ok' (v := ptr hd l) hs1
  simp only at y2
  have F2 : ∀ q, q ∉ ids l → q ≠ s → h2 q = h q := fun q a b => by rw [f2 q b, f1 q a]
  have L2 : Lk hd h2 s l := L1.congr (by grind)
  obtain ⟨h6, e6, G6, L6, y6, f6⟩ := hoist (hd := hd) (h2 := h2) (l := l) hD (hseg.congr (by simp [idl, hlD]) (by grind)) y2 (hsr.congr (by grind)) (by rw [F2 hd (by grind) (by grind)]; exact hA.head) (by nds; grind)
  have F6 : ∀ q, q ∉ ids l → q ∉ ids sr → q ∉ idr D → q ≠ s → h6 q = h q := fun q a b d e => by rw [f6 q b d e, F2 q a e]
  have hpm := parP_mem (hd := hd) (C := C)
  obtain ⟨hn6, h7, r3, r4, -, c7, f7⟩ := relink (h := h6) s (hc.congr (by grind) (by grind) (by grind)) (by nds; grind) (w := e) (by grind)
  have hr4 : (if hn6.parent = e then setP h6 hd s
      else do
        let q ← nd h6 (parP hd C)
        if q.left = e then setL h6 (parP hd C) s else setR h6 (parP hd C) s : R (Hp α)) = .ok h7 := by
    rw [← r4]; simp only [eq_comm]
  have y7 : h7 s = some ⟨ptr hd l, parP e D, rootP D (ptr hd sr), sc, false, some sv⟩ := by rw [f7 s (by grind), y6]
  obtain ⟨h8, e8, y8, f8⟩ := setP_ok' (v := parP hd C) y7
  have z8 : h8 e = some ⟨ptr hd l, parP hd C, rootP D s, c, false, some v⟩ := by
    rw [f8 e (by grind), f7 e (by grind), F6 e (by grind) (by grind) (by grind) (by grind), hce]
  obtain ⟨h9, e9, y9, f9⟩ := setC_ok' (c := c) y8
  have z9 : h9 e = some ⟨ptr hd l, parP hd C, rootP D s, c, false, some v⟩ := by rw [f9 e (by grind), z8]
  obtain ⟨h10, e10, z10, f10⟩ := setC_ok' (c := sc) z9
  have F10 : ∀ q, q ≠ e → q ≠ s → q ≠ parP hd C → h10 q = h6 q := fun q a b d => by rw [f10 q a, f9 q b, f8 q b, f7 q d]
  obtain ⟨ln, hln, -, hlnil⟩ := (At.upL.2 hA).at
  obtain ⟨rn, hrn, -, hrnil⟩ := (At.upR.2 hA).at
  have hnext : next h f e = .ok s := by
    rw [next_foc hA hf, items_plug, inord, hlD]; simp [items, firstId]
  have hD2 : LkC hd h10 Lm Rm C s := c7.congr (by grind) (by grind) (by grind)
  refine ⟨h10, _, ?_, ⟨LkC.app.2 ⟨?_, ?_, ?_, ?_⟩, ?_, hn0⟩, z10, rfl, rfl, rfl, ?_⟩
  · unfold unlink
    rw [hnext, R.ok_bind, nd_some hA.node, R.ok_bind]; simp only
    rw [nd_some hln, R.ok_bind, nd_some hrn, R.ok_bind, nd_some hs, R.ok_bind, if_neg (by rw [hlnil, hrnil]; tauto), e1, R.ok_bind, e2, R.ok_bind, hptr, e6, R.ok_bind]
    simp only
    rw [r3, R.ok_bind, hr4, R.ok_bind, e8, R.ok_bind, nd_some y8, R.ok_bind, nd_some z8, R.ok_bind, e9, R.ok_bind, e10, R.ok_bind, parP_append]; rfl
  · exact G6.congr (by simp [idl, hlD]) (by grind)
  · rw [f10 s (by grind), y9]
  · exact L2.congr (by grind)
  · exact hD2
  · rw [parP_append]; exact L6.congr (by grind)
  · rw [same_iff]; intro q a b d e'
    have hids : q ∈ ids (.node e v c l (plug D (.node s sv sc .nil sr))) ↔ q ∈ ids l ∨ q = e ∨ q = s ∨ q ∈ ids sr ∨ q ∈ idr D := by
      nds
      have : ids (plug D (.node s sv sc .nil sr)) = s :: (ids sr ++ idr D) := by simp [ids, items_plug, inord, hlD, items, idr]
      rw [this]; nds
    rw [hids] at d
    rw [F10 q (by grind) (by grind) (by grind), F6 q (by grind) (by grind) (by grind) (by grind)]

end STL.RBT
