import Verif.StableSort.Inplace

/-! `_Buffered_inplace_merge_unchecked` merges stably, for every buffer capacity. -/

namespace STL
variable {α : Type} {lt : α → α → Bool}

/-- induction hypothesis for `bufferedInplaceMerge` at a given fuel -/
def BimOk (lt : α → α → Bool) (tmp cap fuel : Nat) : Prop :=
  ∀ (m : Mem α) (first mid last c1 c2 : Nat) (A B : List α), At m first (A ++ B) → mid = first + A.length → last = mid + B.length →
    last ≤ tmp → tmp + cap ≤ m.length → Srt lt A → Srt lt B → c1 = A.length → c2 = B.length → 2 * (A.length + B.length) + 1 ≤ fuel →
    MergePost lt m first last tmp cap A B (bufferedInplaceMerge lt fuel m first mid last c1 c2 tmp cap)

theorem bim_dnc (hlt : SWO lt) {tmp cap fuel : Nat} (ih : BimOk lt tmp cap fuel) (m : Mem α) (first : Nat)
    (A1 A2 B1 B2 : List α) (hat : At m first ((A1 ++ A2) ++ (B1 ++ B2)))
    (ht : first + (A1 ++ A2).length + (B1 ++ B2).length ≤ tmp) (hcap : tmp + cap ≤ m.length)
    (sA : Srt lt (A1 ++ A2)) (sB : Srt lt (B1 ++ B2)) (hBA : ∀ a ∈ A2, ∀ b ∈ B1, lt b a = true)
    (hAB : ∀ a ∈ A1, ∀ b ∈ B2, lt b a = false)
    (hf : 2 * (A1.length + B1.length) + 1 ≤ fuel) (hf' : 2 * (A2.length + B2.length) + 1 ≤ fuel) :
    MergePost lt m first (first + (A1 ++ A2).length + (B1 ++ B2).length) tmp cap (A1 ++ A2) (B1 ++ B2)
      (bufferedRotate m (first + A1.length) (first + (A1 ++ A2).length) (first + (A1 ++ A2).length + B1.length) A2.length B1.length tmp cap >>=
        fun x => bufferedInplaceMerge lt fuel x.1 first (first + A1.length) x.2 A1.length B1.length tmp cap >>=
        fun m => bufferedInplaceMerge lt fuel m x.2 (first + (A1 ++ A2).length + B1.length) (first + (A1 ++ A2).length + (B1 ++ B2).length)
          A2.length B2.length tmp cap) := by
  have hat0 := hat
  rw [show A1 ++ A2 ++ (B1 ++ B2) = A1 ++ ((A2 ++ B1) ++ B2) by simp, At.append_iff, At.append_iff] at hat
  simp only [List.length_append] at ht ⊢
  obtain ⟨hA1, hmid, hB2⟩ := hat
  have HH := bufferedRotate_spec m (first + A1.length) (first + (A1.length + A2.length)) (first + (A1.length + A2.length) + B1.length) tmp cap A2 B1
    hmid (by omega) (by omega) (by omega) hcap
  obtain ⟨m1, e1, a1, u1⟩ := HH
  rw [e1, R.ok_bind]
  obtain ⟨aB1, aA2⟩ := At.append_iff.1 a1
  have HH := ih m1 first (first + A1.length) (first + A1.length + B1.length) A1.length B1.length A1 B1
    (At.append_iff.2 ⟨hA1.upd u1 (fun j _ _ => by unfold Seg; omega), aB1⟩) rfl rfl (by omega) (by rw [u1.len]; exact hcap)
    (Srt.left sA) (Srt.left sB) rfl rfl hf
  obtain ⟨m2, Y, e2, a2, s2, u2⟩ := HH
  simp only at e2 ⊢
  rw [e2, R.ok_bind]
  have HH := ih m2 (first + A1.length + B1.length) (first + (A1.length + A2.length) + B1.length)
    (first + (A1.length + A2.length) + (B1.length + B2.length)) A2.length B2.length A2 B2
    (At.append_iff.2 ⟨aA2.upd u2 (fun j _ _ => by unfold Seg; omega),
      (by have := (hB2.upd u1 (fun j h1 h2 => by simp only [List.length_append] at h1 h2; unfold Seg; omega)).upd u2 (fun j h1 h2 => by simp only [List.length_append] at h1 h2; unfold Seg; omega)
          convert this using 1; simp only [List.length_append]; omega)⟩)
    (by omega) (by omega) (by omega) (by rw [u2.len, u1.len]; exact hcap)
    (Srt.right sA) (Srt.right sB) rfl rfl hf'
  obtain ⟨m3, Z, e3, a3, s3, u3⟩ := HH
  have hYl := s2.len
  have hZl := s3.len
  simp only [List.length_append] at hYl hZl
  refine ⟨m3, Y ++ Z, e3, ?_, ?_, ((u1.trans u2).trans u3).mono (fun j => by unfold Seg; omega)⟩
  · rw [At.append_iff]
    refine ⟨a2.upd u3 (fun j _ _ => by unfold Seg; omega), ?_⟩
    rw [hYl, ← Nat.add_assoc]; exact a3
  · have q : SEq lt (A1 ++ A2 ++ (B1 ++ B2)) ((A1 ++ B1) ++ (A2 ++ B2)) := by
      have := ((SEq.refl (lt := lt) A1).append (SEq.swap hlt hBA)).append (SEq.refl B2)
      simpa [List.append_assoc] using this
    refine SS.of_seq q (SS.append s2 s3 ?_)
    intro x hx z hz
    rcases List.mem_append.1 hx with hx | hx <;> rcases List.mem_append.1 hz with hz | hz
    · exact (List.pairwise_append.1 sA).2.2 x hx z hz
    · exact hAB x hx z hz
    · exact hlt.asymm (hBA z hz x hx)
    · exact (List.pairwise_append.1 sB).2.2 x hx z hz

theorem bimImpl_step (hlt : SWO lt) {tmp cap fuel : Nat} (ih : BimOk lt tmp cap fuel) (m : Mem α) (first mid last : Nat) (A B : List α)
    (hat : At m first (A ++ B)) (hm : mid = first + A.length) (hl : last = mid + B.length) (ht : last ≤ tmp) (hcap : tmp + cap ≤ m.length)
    (sA : Srt lt A) (sB : Srt lt B) (h1 : 2 ≤ A.length) (h2 : 2 ≤ B.length)
    (hlow : ∀ a ∈ A.head?, ∀ b ∈ B.head?, lt b a = true) (hhigh : ∀ a ∈ A.getLast?, ∀ b ∈ B.getLast?, lt b a = true)
    (hf : 2 * (A.length + B.length) ≤ fuel + 1) :
    MergePost lt m first last tmp cap A B (bimImpl lt (fuel + 1) m first mid last A.length B.length tmp cap) := by
  unfold bimImpl
  by_cases c1 : A.length ≤ B.length ∧ A.length ≤ cap
  · rw [if_pos c1]
    obtain ⟨m', Y, e, a, s, u⟩ := imbLeft_spec hlt m first mid last tmp A B hat hm hl ht (by omega) sA sB h1 h2 hlow hhigh
    exact ⟨m', Y, e, a, s, u.mono (fun j => by unfold Seg; omega)⟩
  rw [if_neg c1]
  by_cases c2 : B.length ≤ cap
  · rw [if_pos c2]
    obtain ⟨m', Y, e, a, s, u⟩ := imbRight_spec hlt m first mid last tmp A B hat hm hl ht (by omega) sA sB h1 h2 hlow hhigh
    exact ⟨m', Y, e, a, s, u.mono (fun j => by unfold Seg; omega)⟩
  rw [if_neg c2]
  obtain ⟨aA, aB⟩ := At.append_iff.1 hat
  rw [← hm] at aB
  by_cases c3 : A.length ≤ B.length
  · rw [if_pos c3]
    have hk : A.length / 2 < A.length := by omega
    simp only []
    rw [aA.rd _ hk, R.ok_bind]
    obtain ⟨B1, B2, rfl, hB1, hB2⟩ := sB.split_lt hlt A[A.length / 2]
    have eA : A = A.take (A.length / 2) ++ A.drop (A.length / 2) := by rw [List.take_append_drop]
    have hd : A.drop (A.length / 2) = A[A.length / 2] :: A.drop (A.length / 2 + 1) := List.drop_eq_getElem_cons hk
    generalize A[A.length / 2] = v at *
    have h3 : lowerBound lt m mid last v = .ok (mid + B1.length) :=
      lowerBoundLoop_at lt m v _ mid B1 B2 aB (by simp at hl; omega) hB1 hB2
    rw [h3, R.ok_bind]
    have hA1l : (A.take (A.length / 2)).length = A.length / 2 := by simp; omega
    have hA2l : (A.drop (A.length / 2)).length = A.length - A.length / 2 := by simp
    generalize hA1 : A.take (A.length / 2) = A1 at *
    generalize hA2 : A.drop (A.length / 2) = A2 at *
    have hv : ∀ z ∈ A2, lt z v = false := by
      rw [eA] at sA
      have := Srt.right sA
      rw [hd] at this ⊢
      exact this.le_all hlt (hlt.irrefl _)
    have hv1 : ∀ z ∈ A1, lt v z = false := by
      rw [eA] at sA
      intro z hz
      exact (List.pairwise_append.1 sA).2.2 z hz v (by rw [hd]; simp)
    have hAl : A.length = A1.length + A2.length := by rw [eA]; simp
    simp only [List.length_append] at hl hf h2
    have HH := bim_dnc hlt ih m first A1 A2 B1 B2 (by rw [← eA]; exact hat) (by simp; omega) hcap (by rw [← eA]; exact sA) sB
      (fun a ha b hb => hlt.lt_of_lt_of_le (hB1 b hb) (hv a ha)) (fun a ha b hb => hlt.le_trans (hv1 a ha) (hB2 b hb))
      (by omega) (by omega)
    have e1 : mid + B1.length - mid = B1.length := by omega
    have e2 : (B1 ++ B2).length - B1.length = B2.length := by simp
    rw [e1, e2, ← hA1l, hm]
    rw [show first + (A1 ++ A2).length + (B1 ++ B2).length = last by simp; omega, ← eA] at HH
    rw [show A.length - A1.length = A2.length by omega]
    exact HH
  · rw [if_neg c3]
    have hk : B.length / 2 < B.length := by omega
    simp only []
    rw [aB.rd _ hk, R.ok_bind]
    obtain ⟨A1, A2, rfl, hA1, hA2⟩ := sA.split_le hlt B[B.length / 2]
    have eB : B = B.take (B.length / 2) ++ B.drop (B.length / 2) := by rw [List.take_append_drop]
    have hd : B.drop (B.length / 2) = B[B.length / 2] :: B.drop (B.length / 2 + 1) := List.drop_eq_getElem_cons hk
    generalize B[B.length / 2] = v at *
    have h3 : upperBound lt m first mid v = .ok (first + A1.length) :=
      upperBoundLoop_at lt m v _ first A1 A2 aA (by simp at hm; omega) hA1 hA2
    rw [h3, R.ok_bind]
    have hB1l : (B.take (B.length / 2)).length = B.length / 2 := by simp; omega
    have hB2l : (B.drop (B.length / 2)).length = B.length - B.length / 2 := by simp
    generalize hB1 : B.take (B.length / 2) = B1 at *
    generalize hB2 : B.drop (B.length / 2) = B2 at *
    have hv : ∀ z ∈ B2, lt z v = false := by
      rw [eB] at sB
      have := Srt.right sB
      rw [hd] at this ⊢
      exact this.le_all hlt (hlt.irrefl _)
    have hv1 : ∀ z ∈ B1, lt v z = false := by
      rw [eB] at sB
      intro z hz
      exact (List.pairwise_append.1 sB).2.2 z hz v (by rw [hd]; simp)
    have hBl : B.length = B1.length + B2.length := by rw [eB]; simp
    simp only [List.length_append] at hm hf h1 c3
    have HH := bim_dnc hlt ih m first A1 A2 B1 B2 (by rw [← eB]; exact hat) (by simp; omega) hcap sA (by rw [← eB]; exact sB)
      (fun a ha b hb => hlt.lt_of_le_of_lt (hv1 b hb) (hA2 a ha)) (fun a ha b hb => hlt.le_trans (hA1 a ha) (hv b hb))
      (by omega) (by omega)
    have e1 : first + A1.length - first = A1.length := by omega
    have e2 : (A1 ++ A2).length - A1.length = A2.length := by simp
    rw [e1, e2, ← hB1l, hm]
    rw [show first + (A1 ++ A2).length + (B1 ++ B2).length = last by simp; omega, ← eB] at HH
    rw [show B.length - B1.length = B2.length by omega]
    rw [List.length_append] at HH
    exact HH

theorem trim_common (hlt : SWO lt) {tmp cap : Nat} (m : Mem α) (first mid last : Nat) (A B : List α)
    (hat : At m first (A ++ B)) (hm : mid = first + A.length) (hl : last = mid + B.length) (ht : last ≤ tmp) (hcap : tmp + cap ≤ m.length)
    (sA : Srt lt A) (sB : Srt lt B) (K : Nat → Nat → R (Mem α))
    (hK : ∀ (A1 A2 B1 B2 : List α), A = A1 ++ A2 → B = B1 ++ B2 → 2 ≤ A2.length → 2 ≤ B1.length →
      (∀ a ∈ A2.head?, ∀ b ∈ B1.head?, lt b a = true) → (∀ a ∈ A2.getLast?, ∀ b ∈ B1.getLast?, lt b a = true) →
      MergePost lt m (first + A1.length) (mid + B1.length) tmp cap A2 B1 (K (first + A1.length) (mid + B1.length)))
    (r : R (Mem α))
    (hr : r = if mid = last then pure m
      else do
        let r ← trimLeft lt m first mid
        match r with
        | none => pure m
        | some f => do
          let r ← trimRight lt m mid last
          match r with
          | none => rotateOneRight m f mid (mid + 1)
          | some l => if mid - f = 1 then rotateOneLeft m f mid l else K f l) :
    MergePost lt m first last tmp cap A B r := by
  subst hr
  obtain ⟨aA, aB⟩ := At.append_iff.1 hat
  rw [← hm] at aB
  by_cases h0 : mid = last
  · rw [if_pos h0]
    have : B = [] := List.length_eq_zero_iff.1 (by omega)
    subst this
    exact ⟨m, A, rfl, by simpa using hat, SS.self_nil sA, Upd.refl _ _⟩
  rw [if_neg h0]
  match B with
  | [] => simp at hl; omega
  | b :: B =>
  obtain ⟨hb, aB'⟩ := At.cons_iff.1 aB
  rcases trimLeft_spec (lt := lt) m mid b hb A first aA hm with ⟨e1, hall⟩ | ⟨A1, a, A2, rfl, e1, hA1, hba⟩
  · rw [e1, R.ok_bind]
    refine ⟨m, A ++ b :: B, rfl, hat, SS.append (SS.self sA) (SS.self sB) ?_, Upd.refl _ _⟩
    intro x hx z hz
    exact hlt.le_trans (hall x hx) (Srt.le_all hlt sB (hlt.irrefl _) z hz)
  rw [e1, R.ok_bind]
  have hmpos : 0 < mid := by simp at hm; omega
  obtain h' | ⟨A2', h, hA2'⟩ := snoc_cases (a :: A2)
  · simp at h'
  have hh : m[mid - 1]? = some (some h) := by
    rw [hA2', ← List.append_assoc, At.snoc_iff] at aA
    have := aA.2
    rw [← this]; congr 1
    rw [hA2', ← List.append_assoc, List.length_append] at hm
    simp at hm ⊢; omega
  have hm2 := hm
  simp only [List.length_append, List.length_cons] at hm hl
  rcases trimRight_spec (lt := lt) m mid h hmpos hh _ B b last rfl aB (by omega) with ⟨e2, hall⟩ | ⟨B1, c, B2, rfl, e2, hB2, hca⟩
  · simp only [e2, R.ok_bind]
    have aAB : At m (first + A1.length) ((a :: A2) ++ [b]) := by
      rw [At.append_iff] at aA
      rw [At.snoc_iff]
      refine ⟨aA.2, ?_⟩
      rw [← hb]; congr 1; simp; omega
    obtain ⟨m', e3, a3, u3⟩ := rotateOneRight_spec m (first + A1.length) mid (a :: A2) b aAB (by simp; omega)
    refine imb_trim hlt hat (by rw [hl]; simp; omega) ht sA sB rfl (show b :: B = [b] ++ B from rfl) (b := b) (h := h) (by simp) hA1
      (by rw [hA2']; simp) hall ?_
    refine ⟨m', b :: a :: A2, e3, a3, ?_, u3.mono (fun j => by unfold Seg; omega)⟩
    exact SS.cons_right hlt (SS.self_nil (Srt.right sA)) (Srt.lt_all hlt (Srt.right sA) hba) (by simp)
  · simp only [e2, R.ok_bind]
    simp only [List.length_append, List.length_cons] at hl
    have eB : b :: (B1 ++ c :: B2) = (b :: (B1 ++ [c])) ++ B2 := by simp
    refine imb_trim hlt hat (by rw [hl]; simp; omega) ht sA sB rfl eB (b := b) (h := h) (by simp) hA1
      (by rw [hA2']; simp) hB2 ?_
    rw [eB] at sB
    have sB1 : Srt lt (b :: (B1 ++ [c])) := Srt.left sB
    have el : last - B2.length = mid + (b :: (B1 ++ [c])).length := by simp; omega
    rw [el]
    by_cases h1 : mid - (first + A1.length) = 1
    · rw [if_pos h1]
      have : A2 = [] := List.length_eq_zero_iff.1 (by omega)
      subst this
      have hah : a = h := by
        have := congrArg List.getLast? hA2'
        simpa using this
      subst hah
      have aAB : At m (first + A1.length) (a :: (b :: (B1 ++ [c]))) := by
        rw [At.append_iff] at aA
        rw [At.cons_iff]
        refine ⟨(At.cons_iff.1 aA.2).1, ?_⟩
        rw [show first + A1.length + 1 = mid by omega]
        rw [eB, At.append_iff] at aB
        exact aB.1
      obtain ⟨m', e3, a3, u3⟩ := rotateOneLeft_spec m (first + A1.length) (mid + 1 + (B1.length + 1)) a (b :: (B1 ++ [c])) aAB
        (by simp at *; omega)
      refine ⟨m', _, by rw [← e3]; congr 1, a3, ?_, u3.mono (fun j => by simp; omega)⟩
      refine SS.snoc_left hlt (A := []) (SS.nil_self sB1) ?_ (by simp)
      rw [← List.cons_append] at sB1 ⊢
      exact sB1.all_lt hlt hca
    · rw [if_neg h1]
      have HH := hK A1 (a :: A2) (b :: (B1 ++ [c])) B2 rfl eB (by simp; omega) (by simp) (by simpa using hba)
        (by
          intro x hx y hy
          rw [hA2'] at hx
          rw [← List.cons_append, List.getLast?_concat] at hy
          simp at hx hy; subst hx; subst hy; exact hca)
      rw [show mid + (b :: (B1 ++ [c])).length = mid + 1 + (B1.length + 1) by simp; omega] at HH ⊢
      exact HH

theorem bim_ok (hlt : SWO lt) (tmp cap fuel : Nat) :
    BimOk lt tmp cap fuel ∧ (∀ (m : Mem α) (first mid last c1 c2 : Nat) (A B : List α), 
      At m first (A ++ B) → mid = first + A.length → last = mid + B.length → last ≤ tmp → tmp + cap ≤ m.length →
      Srt lt A → Srt lt B → 2 ≤ A.length → 2 ≤ B.length →
      (∀ a ∈ A.head?, ∀ b ∈ B.head?, lt b a = true) → (∀ a ∈ A.getLast?, ∀ b ∈ B.getLast?, lt b a = true) →
      c1 = A.length → c2 = B.length → 2 * (A.length + B.length) ≤ fuel →
      MergePost lt m first last tmp cap A B (bimImpl lt fuel m first mid last c1 c2 tmp cap)) := by
  induction fuel with
  | zero =>
    constructor
    · intro m first mid last c1 c2 A B _ _ _ _ _ _ _ _ _ h; omega
    · intro m first mid last c1 c2 A B _ _ _ _ _ _ _ _ _ _ _ _ _ h; omega
  | succ fuel ih =>
    refine ⟨?_, ?_⟩
    · intro m first mid last c1 c2 A B hat hm hl ht hcap sA sB hc1 hc2 hf
      refine trim_common hlt m first mid last A B hat hm hl ht hcap sA sB
        (fun f l => bimImpl lt fuel m f mid l (c1 - (f - first)) (c2 - (last - l)) tmp cap) ?_ _ ?_
      · intro A1 A2 B1 B2 eA eB h1 h2 hlow hhigh
        subst eA; subst eB
        simp only [List.length_append] at *
        refine ih.2 m (first + A1.length) mid (mid + B1.length) _ _ A2 B1 ?_ (by omega) rfl (by omega) hcap (Srt.right sA) (Srt.left sB) h1 h2
          hlow hhigh (by omega) (by omega) (by omega)
        rw [show A1 ++ A2 ++ (B1 ++ B2) = A1 ++ ((A2 ++ B1) ++ B2) by simp, At.append_iff, At.append_iff] at hat
        exact hat.2.1
      · unfold bufferedInplaceMerge
        by_cases h0 : mid = last
        · rw [if_pos h0, if_pos h0]
        rw [if_neg h0, if_neg h0]
        match B with
        | [] => simp at hl; omega
        | b :: B =>
        obtain ⟨aA, aB⟩ := At.append_iff.1 hat
        rw [← hm] at aB
        rcases trimLeft_spec (lt := lt) m mid b (At.cons_iff.1 aB).1 A first aA hm with ⟨e1, hall⟩ | ⟨A1, a, A2, rfl, e1, hA1, hba⟩
        · rw [e1]; rfl
        · rw [e1]
          simp only [R.ok_bind]
          simp only [List.length_append, List.length_cons] at hm hc1
          congr 1
          funext r
          cases r with
          | none => rfl
          | some l =>
            simp only
            rw [show c1 - (first + A1.length - first) = mid - (first + A1.length) by omega]
    · intro m first mid last c1 c2 A B hat hm hl ht hcap sA sB h1 h2 hlow hhigh hc1 hc2 hf
      subst hc1; subst hc2
      exact bimImpl_step hlt ih.1 m first mid last A B hat hm hl ht hcap sA sB h1 h2 hlow hhigh (by omega)

theorem inplaceMerge_spec (hlt : SWO lt) (tmp cap : Nat) (m : Mem α) (first mid last : Nat) (A B : List α)
    (hat : At m first (A ++ B)) (hm : mid = first + A.length) (hl : last = mid + B.length) (ht : last ≤ tmp) (hcap : tmp + cap ≤ m.length)
    (sA : Srt lt A) (sB : Srt lt B) : MergePost lt m first last tmp cap A B (inplaceMerge lt m first mid last tmp cap) := by
  refine trim_common hlt m first mid last A B hat hm hl ht hcap sA sB
    (fun f l => bimImpl lt (2 * (last - first) + 1) m f mid l (mid - f) (l - mid) tmp cap) ?_ _ rfl
  intro A1 A2 B1 B2 eA eB h1 h2 hlow hhigh
  subst eA; subst eB
  simp only [List.length_append] at *
  refine (bim_ok hlt tmp cap _).2 m (first + A1.length) mid (mid + B1.length) _ _ A2 B1 ?_ (by omega) rfl (by omega) hcap (Srt.right sA) (Srt.left sB) h1 h2
    hlow hhigh (by omega) (by omega) (by omega)
  rw [show A1 ++ A2 ++ (B1 ++ B2) = A1 ++ ((A2 ++ B1) ++ B2) by simp, At.append_iff, At.append_iff] at hat
  exact hat.2.1

end STL
