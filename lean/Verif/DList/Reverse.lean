import Verif.DList.Sort

/-! # `reverse`. Proofs only. -/

namespace STL.DL
open STL
variable {α : Type}

theorem reverseLoop_ok {h0 : Hp α} {hd : Nat} : ∀ {f : Nat} {B : List (Nat × α)} {D : List Nat} {h : Hp α} {p : Nat},
    Chg h0 h (fun q => if q ∈ D then pv h0 q else nx h0 q) (fun q => if q ∈ D then nx h0 q else pv h0 q) → p ∉ D → Ch h0 (p :: (ids B ++ [hd])) → (p :: ids B).Nodup → hd ∉ ids B → (∀ q ∈ ids B, q ∉ D) → B.length < f →
    ∃ h', reverseLoop hd f h p = .ok h' ∧
      Chg h0 h' (fun q => if q ∈ D ++ p :: ids B then pv h0 q else nx h0 q) (fun q => if q ∈ D ++ p :: ids B then nx h0 q else pv h0 q)
  | 0, _, _, _, _, _, _, _, _, _, _, hf => by omega
  | f + 1, B, D, h, p, C, hp, ch, hnd, hhd, hD, hf => by
    have hl : live h0 p := ch_live ch (by simp) p (by simp)
    unfold reverseLoop
    rw [C.nd hl, R.ok_bind]; simp only
    obtain ⟨_, e, C⟩ := C.setN hl (if p ∈ D then nx h0 p else pv h0 p); rw [e, R.ok_bind]; clear e
    obtain ⟨h1, e, C⟩ := C.setP hl (if p ∈ D then pv h0 p else nx h0 p); rw [e, R.ok_bind]; clear e
    simp only [if_neg hp] at C ⊢
    have C1 : Chg h0 h1 (fun q => if q ∈ D ++ [p] then pv h0 q else nx h0 q) (fun q => if q ∈ D ++ [p] then nx h0 q else pv h0 q) := by
      refine ⟨C.live, fun q => ?_, fun q => ?_, C.vl⟩
      · rw [C.nx]; by_cases h : q = p <;> simp [h]
      · rw [C.pv]; by_cases h : q = p <;> simp [h]
    cases B with
    | nil =>
      have hn : nx h0 p = hd := by
        rw [ids, List.map_nil, List.nil_append, Ch, List.isChain_cons_cons] at ch; exact ch.1.n
      rw [if_pos hn]
      exact ⟨h1, rfl, by simpa using C1⟩
    | cons b B =>
      have hc : Ch h0 (p :: b.1 :: (ids B ++ [hd])) := by simpa [ids] using ch
      rw [Ch, List.isChain_cons_cons] at hc
      have hbd : b.1 ≠ hd := by rintro hh; exact hhd (by simp [ids, hh])
      rw [hc.1.n, if_neg hbd]
      obtain ⟨h', e, C2⟩ := reverseLoop_ok (f := f) (B := B) (D := D ++ [p]) C1 (by
          have := hD b.1 (by simp [ids]); nds at hnd ⊢; grind) hc.2 (by nds at hnd ⊢; grind) (by nds at hhd ⊢; grind)
        (by intro q hq; have := hD q (by nds at hq ⊢; grind); nds at hnd hq ⊢; grind) (by simp at hf; omega)
      rw [List.append_assoc, List.singleton_append] at C2
      exact ⟨h', e, C2⟩

theorem reverse_ok {h : Hp α} {c : Con} {X : List (Nat × α)} (W : WF h c X) : ∃ h', reverse h c = .ok h' ∧ One h c X h' c X.reverse := by
  have hnd := W.nd
  obtain ⟨h', e, C⟩ := reverseLoop_ok (h0 := h) (h := h) (hd := c.hd) (f := c.size + 1) (B := X) (D := []) (p := c.hd) (by simpa using Chg.refl h) (by simp) W.ch hnd (List.nodup_cons.1 hnd).1 (by simp) (by rw [W.size]; omega)
  rw [List.nil_append] at C
  have hm : ∀ q, q ∈ ids X.reverse ↔ q ∈ ids X := by intro q; simp [ids]
  refine ⟨h', e, ⟨?_, ?_, ?_, ?_⟩, rfl, ?_, ?_, ?_⟩
  · have e1 : c.hd :: (ids X.reverse ++ [c.hd]) = (c.hd :: (ids X ++ [c.hd])).reverse := by simp [ids]
    rw [e1, Ch, List.isChain_reverse]
    have mem : ∀ x ∈ c.hd :: (ids X ++ [c.hd]), x ∈ c.hd :: ids X := by intro x hx; simp only [List.mem_cons, List.mem_append, List.not_mem_nil, or_false] at hx ⊢; tauto
    have this : ∀ x y, Link h x y → x ∈ c.hd :: ids X → y ∈ c.hd :: ids X → Link h' y x := fun x y l hx hy =>
      ⟨(C.live y).2 l.lb, (C.live x).2 l.la, by rw [C.nx, if_pos hy]; exact l.p, by rw [C.pv, if_pos hx]; exact l.n⟩
    have key : ∀ {L : List Nat}, Ch h L → (∀ x ∈ L, x ∈ c.hd :: ids X) → L.IsChain (fun a b => Link h' b a) := by
      intro L hc hL
      induction L with
      | nil => exact .nil
      | cons x L ih =>
        cases L with
        | nil => exact .singleton _
        | cons y L =>
          rw [Ch, List.isChain_cons_cons] at hc
          exact .cons_cons (this x y hc.1 (hL x (by simp)) (hL y (by simp))) (ih hc.2 (fun z hz => hL z (List.mem_cons_of_mem _ hz)))
    exact key W.ch mem
  · rw [List.nodup_cons] at hnd ⊢; rw [hm]; exact ⟨hnd.1, by rw [ids, List.map_reverse]; exact (List.reverse_perm _).nodup_iff.2 hnd.2⟩
  · intro a ha; rw [C.vl]; exact W.val a (by simpa using ha)
  · simpa using W.size
  · intro q q1 q2 q3
    have : q ∉ c.hd :: ids X := by simp only [List.mem_cons, not_or]; exact ⟨q1, q2⟩
    exact C.same (by rw [if_neg this]) (by rw [if_neg this])
  · intro q q1 q2; rw [hm] at q2; exact absurd q1 q2
  · intro q q1; rw [hm] at q1; exact Or.inl q1

end STL.DL
