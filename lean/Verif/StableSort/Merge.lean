import Verif.StableSort.Model
import Verif.StableSort.SS

/-! Lemmas about the merging loops of `stable_sort` / `inplace_merge`. -/

namespace STL
variable {α : Type _} {lt : α → α → Bool}

theorem mergeMove_spec (hlt : SWO lt) (fuel : Nat) : ∀ (m : Mem α) (first mid next last dest : Nat) (A B : List α),
    At m first A → At m next B → mid = first + A.length → last = next + B.length → mid ≤ next → A ≠ [] → B ≠ [] →
    (dest + A.length + B.length ≤ first ∨ last ≤ dest) → dest + A.length + B.length ≤ m.length →
    A.length + B.length ≤ fuel → Srt lt A → Srt lt B →
    ∃ m' Y, mergeMove lt fuel m first mid next last dest = .ok (m', dest + A.length + B.length) ∧ At m' dest Y ∧
      SS lt (A ++ B) Y ∧
      Upd m m' (fun j => Seg first mid j ∨ Seg next last j ∨ Seg dest (dest + A.length + B.length) j) := by
  induction fuel with
  | zero =>
    intro m first mid next last dest A B _ _ _ _ _ hA _ _ _ hf
    have := List.length_pos_iff.2 hA
    omega
  | succ fuel ih =>
    intro m first mid next last dest A B aA aB hm hl hmn hA hB hd hb hf sA sB
    match A, B, hA, hB with
    | a :: A, b :: B, _, _ =>
    simp only [List.length_cons] at hm hl hd hb hf ⊢
    obtain ⟨ha, aA'⟩ := At.cons_iff.1 aA
    obtain ⟨hb', aB'⟩ := At.cons_iff.1 aB
    unfold mergeMove
    rw [rd_of hb', R.ok_bind, rd_of ha, R.ok_bind]
    by_cases hc : lt b a = true
    · rw [if_pos hc]
      obtain ⟨m1, e1, u1, g1⟩ := mvTo_upd hb' (by omega : dest < m.length)
      rw [e1, R.ok_bind]
      have hall := sA.lt_all hlt hc
      have aA1 : At m1 first (a :: A) := aA.upd u1 (fun j h1 h2 => by simp at h2; omega)
      by_cases hn : next + 1 = last
      · rw [if_pos hn]
        have : B = [] := List.length_eq_zero_iff.1 (by omega)
        subst this
        obtain ⟨m2, e2, a2, u2⟩ := moveFwd_spec m1 first mid (dest + 1) (a :: A) aA1 (by simp; omega) (by simp at *; omega)
          (by rw [u1.len]; simp at *; omega)
        refine ⟨m2, b :: a :: A, ?_, ?_, SS.cons_right hlt (SS.self_nil sA) hall (by simp),
          (u1.trans u2).mono (fun j => by unfold Seg; simp; omega)⟩
        · rw [e2]; simp; omega
        · rw [At.cons_iff]
          refine ⟨?_, a2⟩
          rw [u2.out _ (by unfold Seg; omega)]; exact g1
      · rw [if_neg hn]
        obtain ⟨m2, Y, e2, a2, s2, u2⟩ := ih m1 first mid (next + 1) last (dest + 1) (a :: A) B aA1
          (aB'.upd u1 (fun j h1 h2 => by omega)) (by simp; omega) (by omega) (by omega) (by simp)
          (by intro h; subst h; simp at hl; omega) (by simp; omega) (by rw [u1.len]; simp; omega) (by simp; omega) sA sB.tail
        refine ⟨m2, b :: Y, ?_, ?_, SS.cons_right hlt s2 hall sB.head_le,
          (u1.trans u2).mono (fun j => by unfold Seg; simp; omega)⟩
        · rw [e2]; simp; omega
        · rw [At.cons_iff]
          refine ⟨?_, a2⟩
          rw [u2.out _ (by unfold Seg; omega)]; exact g1
    · rw [if_neg hc]
      have hc : lt b a = false := by simpa using hc
      obtain ⟨m1, e1, u1, g1⟩ := mvTo_upd ha (by omega : dest < m.length)
      rw [e1, R.ok_bind]
      have hall := sB.le_all hlt hc
      have aB1 : At m1 next (b :: B) := aB.upd u1 (fun j h1 h2 => by simp at h2; omega)
      by_cases hn : first + 1 = mid
      · rw [if_pos hn]
        have : A = [] := List.length_eq_zero_iff.1 (by omega)
        subst this
        obtain ⟨m2, e2, a2, u2⟩ := moveFwd_spec m1 next last (dest + 1) (b :: B) aB1 (by simp; omega) (by simp at *; omega)
          (by rw [u1.len]; simp at *; omega)
        refine ⟨m2, a :: b :: B, ?_, ?_, SS.cons_left (SS.self sB) hall,
          (u1.trans u2).mono (fun j => by unfold Seg; simp; omega)⟩
        · rw [e2]; simp
        · rw [At.cons_iff]
          refine ⟨?_, a2⟩
          rw [u2.out _ (by unfold Seg; omega)]; exact g1
      · rw [if_neg hn]
        obtain ⟨m2, Y, e2, a2, s2, u2⟩ := ih m1 (first + 1) mid next last (dest + 1) A (b :: B)
          (aA'.upd u1 (fun j h1 h2 => by omega)) aB1 (by omega) (by simp; omega) (by omega)
          (by intro h; subst h; simp at hm; omega) (by simp) (by simp; omega) (by rw [u1.len]; simp; omega) (by simp; omega) sA.tail sB
        refine ⟨m2, a :: Y, ?_, ?_, SS.cons_left s2 ?_,
          (u1.trans u2).mono (fun j => by unfold Seg; simp; omega)⟩
        · rw [e2]; simp; omega
        · rw [At.cons_iff]
          refine ⟨?_, a2⟩
          rw [u2.out _ (by unfold Seg; omega)]; exact g1
        · intro z hz
          rcases List.mem_append.1 hz with hz | hz
          · exact sA.head_le z hz
          · exact hall z hz

/-- the left part `L ++ [h]` sits in the buffer, the right part `B` at `mid`, the gap `[first, mid)` is free -/
theorem imbLeftLoop_spec (hlt : SWO lt) (fuel : Nat) : ∀ (m : Mem α) (first mid last lf llast lend : Nat) (L B : List α) (h : α),
    At m lf (L ++ [h]) → At m mid B → last = mid + B.length → llast = lf + L.length → lend = llast + 1 →
    mid = first + (L.length + 1) → last ≤ lf → L ≠ [] → B ≠ [] → L.length + B.length ≤ fuel →
    Srt lt (L ++ [h]) → Srt lt B → (∀ z ∈ B, lt z h = true) →
    ∃ m' Y, imbLeftLoop lt fuel m first mid last lf llast lend = .ok m' ∧ At m' first Y ∧ SS lt ((L ++ [h]) ++ B) Y ∧
      Upd m m' (fun j => Seg first last j ∨ Seg lf lend j) := by
  induction fuel with
  | zero =>
    intro m first mid last lf llast lend L B h _ _ _ _ _ _ _ hL _ hf
    have := List.length_pos_iff.2 hL
    omega
  | succ fuel ih =>
    intro m first mid last lf llast lend L B h aL aB hl hll hle hmid hlf hL hB hf sL sB hh
    have blen := aL.le_length (by simp)
    simp only [List.length_append, List.length_cons, List.length_nil] at blen
    match L, B, hL, hB with
    | a :: L, b :: B, _, _ =>
    simp only [List.length_cons] at hl hll hle hmid hf blen
    obtain ⟨ha, aL'⟩ := At.cons_iff.1 aL
    obtain ⟨hb', aB'⟩ := At.cons_iff.1 aB
    rw [List.cons_append] at sL
    unfold imbLeftLoop
    rw [rd_of hb', R.ok_bind, rd_of ha, R.ok_bind]
    by_cases hc : lt b a = true
    · rw [if_pos hc]
      obtain ⟨m1, e1, u1, g1⟩ := mvTo_upd hb' (by omega : first < m.length)
      rw [e1, R.ok_bind]
      have hall := sL.lt_all hlt hc
      have aL1 : At m1 lf (a :: L ++ [h]) := aL.upd u1 (fun j h1 h2 => by simp at h2; omega)
      by_cases hn : mid + 1 = last
      · rw [if_pos hn]
        have : B = [] := List.length_eq_zero_iff.1 (by omega)
        subst this
        obtain ⟨m2, e2, a2, u2⟩ := moveFwd_spec m1 lf lend (first + 1) (a :: L ++ [h]) aL1 (by simp; omega) (by simp at *; omega)
          (by rw [u1.len]; simp at *; omega)
        refine ⟨m2, b :: (a :: L ++ [h]), ?_, ?_, SS.cons_right hlt (SS.self_nil sL) hall (by simp),
          (u1.trans u2).mono (fun j => by unfold Seg; simp at *; omega)⟩
        · rw [e2]; rfl
        · rw [At.cons_iff]
          refine ⟨?_, a2⟩
          rw [u2.out _ (by unfold Seg; omega)]; exact g1
      · rw [if_neg hn]
        obtain ⟨m2, Y, e2, a2, s2, u2⟩ := ih m1 (first + 1) (mid + 1) last lf llast lend (a :: L) B h aL1
          (aB'.upd u1 (fun j h1 h2 => by omega)) (by omega) (by simp; omega) (by omega) (by simp; omega) (by omega) (by simp)
          (by intro h; subst h; simp at hl; omega) (by simp; omega) sL sB.tail
          (fun z hz => hh z (by simp [hz]))
        refine ⟨m2, b :: Y, e2, ?_, SS.cons_right hlt s2 hall sB.head_le,
          (u1.trans u2).mono (fun j => by unfold Seg; simp at *; omega)⟩
        · rw [At.cons_iff]
          refine ⟨?_, a2⟩
          rw [u2.out _ (by unfold Seg; omega)]; exact g1
    · rw [if_neg hc]
      have hc : lt b a = false := by simpa using hc
      obtain ⟨m1, e1, u1, g1⟩ := mvTo_upd ha (by omega : first < m.length)
      rw [e1, R.ok_bind]
      have hall := sB.le_all hlt hc
      have aB1 : At m1 mid (b :: B) := aB.upd u1 (fun j h1 h2 => by simp at h2; omega)
      have aL1 : At m1 (lf + 1) (L ++ [h]) := aL'.upd u1 (fun j h1 h2 => by omega)
      by_cases hn : lf + 1 = llast
      · rw [if_pos hn]
        have : L = [] := List.length_eq_zero_iff.1 (by omega)
        subst this
        obtain ⟨m2, e2, a2, u2⟩ := moveFwd_spec m1 mid last (first + 1) (b :: B) aB1 (by simp; omega) (by simp at *; omega)
          (by rw [u1.len]; simp at *; omega)
        have hh1 : m2[lf + 1]? = some (some h) := by
          rw [u2.out _ (by unfold Seg; simp at *; omega)]
          exact (At.cons_iff.1 aL1).1
        obtain ⟨m3, e3, u3, g3⟩ := mvTo_upd (d := first + 1 + (b :: B).length) hh1 (by rw [u2.len, u1.len]; simp at *; omega)
        refine ⟨m3, a :: ((b :: B) ++ [h]), ?_, ?_, ?_,
          ((u1.trans u2).trans u3).mono (fun j => by unfold Seg; simp at *; omega)⟩
        · rw [e2, ← hn, R.ok_bind]; simp only; rw [e3]
        · rw [At.cons_iff, At.snoc_iff]
          refine ⟨?_, a2.upd u3 (fun j h1 h2 => by simp only [List.length_cons] at *; omega), g3⟩
          rw [u3.out _ (by simp at *; omega), u2.out _ (by unfold Seg; omega)]; exact g1
        · have := SS.snoc_left hlt (A := []) (B := b :: B) (a := h) (SS.self sB) hh (by simp)
          have this2 : SS lt (h :: b :: B) (b :: B ++ [h]) := this
          refine SS.cons_left this2 ?_
          intro z hz
          rcases List.mem_cons.1 hz with rfl | hz
          · exact sL.head_le _ (by simp)
          · exact hall z (by simpa using hz)
      · rw [if_neg hn]
        obtain ⟨m2, Y, e2, a2, s2, u2⟩ := ih m1 (first + 1) mid last (lf + 1) llast lend L (b :: B) h aL1 aB1
          (by simp; omega) (by omega) (by omega) (by omega) (by omega)
          (by intro h; subst h; simp at hll; omega) (by simp) (by simp; omega) sL.tail sB hh
        refine ⟨m2, a :: Y, e2, ?_, SS.cons_left s2 ?_,
          (u1.trans u2).mono (fun j => by unfold Seg; simp at *; omega)⟩
        · rw [At.cons_iff]
          refine ⟨?_, a2⟩
          rw [u2.out _ (by unfold Seg; omega)]; exact g1
        · intro z hz
          rcases List.mem_append.1 hz with hz | hz
          · exact sL.head_le z hz
          · exact hall z hz

theorem imbLeft_spec (hlt : SWO lt) (m : Mem α) (first mid last tmp : Nat) (A B : List α) (hA : At m first (A ++ B))
    (hm : mid = first + A.length) (hl : last = mid + B.length) (ht : last ≤ tmp) (hc : tmp + A.length ≤ m.length)
    (sA : Srt lt A) (sB : Srt lt B) (h1 : 2 ≤ A.length) (h2 : 2 ≤ B.length)
    (hlow : ∀ a ∈ A.head?, ∀ b ∈ B.head?, lt b a = true) (hhigh : ∀ a ∈ A.getLast?, ∀ b ∈ B.getLast?, lt b a = true) :
    ∃ m' Y, imbLeft lt m first mid last tmp = .ok m' ∧ At m' first Y ∧ SS lt (A ++ B) Y ∧
      Upd m m' (fun j => Seg first last j ∨ Seg tmp (tmp + A.length) j) := by
  obtain ⟨pA, pB⟩ := At.append_iff.1 hA
  obtain h | ⟨L, h, rfl⟩ := snoc_cases A
  · subst h; simp at h1
  obtain hb | ⟨B0, c, hBc⟩ := snoc_cases B
  · subst hb; simp at h2
  have hhB : ∀ z ∈ B, lt z h = true := by
    rw [hBc] at sB hhigh ⊢
    exact sB.all_lt hlt (hhigh h (by simp) c (by simp))
  clear hBc B0
  match B, h2 with
  | b :: B, h2 =>
  have hlow' : ∀ z ∈ L ++ [h], lt b z = true := by
    match L, sA, hlow with
    | [], sA, hlow => intro z hz; simp at hz; subst hz; exact hlow z (by simp) b (by simp)
    | a :: L, sA, hlow => exact Srt.lt_all hlt sA (hlow a (by simp) b (by simp))
  unfold imbLeft
  simp only [List.length_append, List.length_cons, List.length_nil] at hm hl hc h1 h2
  obtain ⟨m1, e1, a1, u1⟩ := moveFwd_spec m first mid tmp (L ++ [h]) pA (by simp; omega) (by simp; omega) (by simp; omega)
  rw [← (show mid = first + (L ++ [h]).length by simp; omega)] at pB
  have pB1 : At m1 mid (b :: B) := pB.upd u1 (fun j h1 h2 => by unfold Seg; simp at *; omega)
  obtain ⟨hb, aB⟩ := At.cons_iff.1 pB1
  obtain ⟨m2, e2, u2, g2⟩ := mvTo_upd hb (by rw [u1.len]; omega : first < m1.length)
  obtain ⟨m3, Y, e3, a3, s3, u3⟩ := imbLeftLoop_spec hlt (last - first) m2 (first + 1) (mid + 1) last tmp (tmp + L.length) (tmp + L.length + 1)
    L B h (a1.upd u2 (fun j h1 h2 => by simp at *; omega)) (aB.upd u2 (fun j h1 h2 => by omega)) (by omega) rfl rfl (by omega) (by omega)
    (by intro h; subst h; simp at h1) (by intro h; subst h; simp at h2) (by omega) sA sB.tail (fun z hz => hhB z (by simp [hz]))
  refine ⟨m3, b :: Y, ?_, ?_, SS.cons_right hlt s3 hlow' sB.head_le, ((u1.trans u2).trans u3).mono (fun j => by simp; omega)⟩
  · rw [e1, R.ok_bind]; simp only
    rw [e2, R.ok_bind]
    rw [show tmp + (L ++ [h]).length = tmp + L.length + 1 by simp; omega]
    exact e3
  · rw [At.cons_iff]
    refine ⟨?_, a3⟩
    rw [u3.out _ (by unfold Seg; omega)]; exact g2

/-- the right part `l :: Q` sits in the buffer with its remaining end at `rl`, the left part `P` at `first`, the next
free slot is `last - 1` -/
theorem imbRightLoop_spec (hlt : SWO lt) (fuel : Nat) : ∀ (m : Mem α) (first mid last rf rl : Nat) (P Q : List α) (l : α),
    At m first P → At m rf (l :: Q) → P.length = mid + 1 - first → first ≤ mid → rl = rf + Q.length → Q ≠ [] →
    last = mid + 1 + (Q.length + 1) → last ≤ rf → P.length + Q.length ≤ fuel →
    Srt lt P → Srt lt (l :: Q) → (∀ z ∈ P, lt l z = true) →
    ∃ m' Y, imbRightLoop lt fuel m first mid last rf rl = .ok m' ∧ At m' first Y ∧ SS lt (P ++ (l :: Q)) Y ∧
      Upd m m' (fun j => Seg first last j ∨ Seg rf (rf + (Q.length + 1)) j) := by
  induction fuel with
  | zero =>
    intro m first mid last rf rl P Q h _ _ _ _ _ hL _ _ hf
    have := List.length_pos_iff.2 hL
    omega
  | succ fuel ih =>
    intro m first mid last rf rl P Q l aP aQ hP hfm hrl hQ hl hrf hf sP sQ hh
    have blen := aQ.le_length (by simp)
    simp only [List.length_cons] at blen
    obtain h | ⟨Q, b, rfl⟩ := snoc_cases Q
    · exact absurd h hQ
    obtain h | ⟨P, a, rfl⟩ := snoc_cases P
    · subst h; simp at hP; omega
    simp only [List.length_append, List.length_cons, List.length_nil] at hP hl hrl hf blen
    obtain ⟨aP', ha⟩ := At.snoc_iff.1 aP
    rw [← List.cons_append] at aQ sQ
    obtain ⟨aQ', hb⟩ := At.snoc_iff.1 aQ
    rw [show first + P.length = mid by omega] at ha
    rw [show rf + (l :: Q).length = rl by simp; omega] at hb
    unfold imbRightLoop
    rw [rd_of hb, R.ok_bind, rd_of ha, R.ok_bind]
    by_cases hc : lt b a = true
    · rw [if_pos hc]
      obtain ⟨m1, e1, u1, g1⟩ := mvTo_upd (d := last - 1) ha (by omega)
      rw [e1, R.ok_bind]
      have hall := sQ.all_lt hlt hc
      have aQ1 : At m1 rf (l :: Q ++ [b]) := aQ.upd u1 (fun j h1 h2 => by simp at h2; omega)
      by_cases hn : first = mid
      · rw [if_pos hn]
        have : P = [] := List.length_eq_zero_iff.1 (by omega)
        subst this
        have hb1 := (At.snoc_iff.1 aQ1).2
        rw [show rf + (l :: Q).length = rl by simp; omega] at hb1
        obtain ⟨m2, e2, u2, g2⟩ := mvTo_upd (d := last - 2) hb1 (by rw [u1.len]; omega)
        obtain ⟨m3, e3, a3, u3⟩ := moveBackward_spec' _ m2 rf rl (last - 2) (l :: Q) rfl
          ((At.snoc_iff.1 aQ1).1.upd u2 (fun j h1 h2 => by simp at h2; omega)) (by simp; omega) (by omega) (by simp; omega)
          (by rw [u2.len, u1.len]; omega)
        have hlast : last - 2 - (l :: Q).length = first := by simp; omega
        rw [hlast] at a3 u3
        refine ⟨m3, (l :: Q ++ [b]) ++ [a], ?_, ?_, SS.snoc_left hlt (A := []) (SS.nil_self sQ) hall (by simp),
          ((u1.trans u2).trans u3).mono (fun j => by simp; omega)⟩
        · rw [e2, R.ok_bind, e3]
        · rw [At.snoc_iff, At.snoc_iff]
          refine ⟨⟨a3, ?_⟩, ?_⟩
          · rw [u3.out _ (by unfold Seg; simp; omega), ← g2]; congr 1; simp; omega
          · rw [u3.out _ (by unfold Seg; simp; omega), u2.out _ (by simp; omega), ← g1]; congr 1; simp; omega
      · rw [if_neg hn]
        have hdec : decIt mid = .ok (mid - 1) := by unfold decIt; rw [if_neg (by omega)]
        rw [hdec, R.ok_bind]
        obtain ⟨m2, Y, e2, a2, s2, u2⟩ := ih m1 first (mid - 1) (last - 1) rf rl P (Q ++ [b]) l
          (aP'.upd u1 (fun j h1 h2 => by omega)) aQ1 (by omega) (by omega) (by simp; omega) (by simp) (by simp; omega) (by omega) (by simp; omega)
          sP.left sQ (fun z hz => hh z (by simp [hz]))
        refine ⟨m2, Y ++ [a], e2, ?_, SS.snoc_left hlt s2 hall sP.le_last,
          (u1.trans u2).mono (fun j => by simp; omega)⟩
        · rw [At.snoc_iff]
          refine ⟨a2, ?_⟩
          have hYl := s2.len
          simp at hYl
          rw [u2.out _ (by unfold Seg; simp; omega), ← g1]; congr 1; omega
    · rw [if_neg hc]
      have hc : lt b a = false := by simpa using hc
      obtain ⟨m1, e1, u1, g1⟩ := mvTo_upd (d := last - 1) hb (by omega)
      have hdec : decIt rl = .ok (rl - 1) := by unfold decIt; rw [if_neg (by omega)]
      rw [e1, R.ok_bind, hdec, R.ok_bind]
      have hall := sP.all_le hlt hc
      have aP1 : At m1 first (P ++ [a]) := aP.upd u1 (fun j h1 h2 => by simp at h2; omega)
      have aQ1 : At m1 rf (l :: Q) := aQ'.upd u1 (fun j h1 h2 => by simp at h2; omega)
      have hbound : ∀ z ∈ P ++ [a] ++ (l :: Q), lt b z = false := by
        intro z hz
        rcases List.mem_append.1 hz with hz | hz
        · exact hall z hz
        · exact sQ.le_last z hz
      by_cases hn : rf = rl - 1
      · rw [if_pos hn]
        have : Q = [] := List.length_eq_zero_iff.1 (by omega)
        subst this
        have ha1 := (At.snoc_iff.1 aP1).2
        rw [show first + P.length = mid by omega] at ha1
        obtain ⟨m2, e2, u2, g2⟩ := mvTo_upd (d := last - 2) ha1 (by rw [u1.len]; omega)
        obtain ⟨m3, e3, a3, u3⟩ := moveBackward_spec' _ m2 first mid (last - 2) P rfl
          ((At.snoc_iff.1 aP1).1.upd u2 (fun j h1 h2 => by simp at hl; omega)) (by omega) (by simp at hl; omega) (by simp at hl; omega)
          (by rw [u2.len, u1.len]; omega)
        simp only [List.length_nil] at hl hrl blen
        have hlast : last - 2 - P.length = first + 1 := by omega
        rw [hlast] at a3 u3
        have hl3 : m3[rf]? = some (some l) := by
          rw [u3.out _ (by unfold Seg; omega), u2.out _ (by omega)]
          exact (At.cons_iff.1 aQ1).1
        obtain ⟨m4, e4, u4, g4⟩ := mvTo_upd (d := first) hl3 (by rw [u3.len, u2.len, u1.len]; omega)
        refine ⟨m4, l :: (P ++ [a]) ++ [b], ?_, ?_, ?_,
          (((u1.trans u2).trans u3).trans u4).mono (fun j => by simp; omega)⟩
        · rw [e2, R.ok_bind, e3, R.ok_bind, e4]
        · rw [At.snoc_iff, At.cons_iff, At.snoc_iff]
          refine ⟨⟨g4, a3.upd u4 (fun j h1 h2 => by omega), ?_⟩, ?_⟩
          · rw [u4.out _ (by omega), u3.out _ (by unfold Seg; omega), ← g2]; congr 1; omega
          · rw [u4.out _ (by simp; omega), u3.out _ (by unfold Seg; simp; omega), u2.out _ (by simp; omega), ← g1]; congr 1; simp; omega
        · have := SS.cons_right hlt (A := P ++ [a]) (B := []) (SS.self_nil sP) hh (by simp)
          have := SS.snoc_right this hbound
          simpa using this
      · rw [if_neg hn]
        obtain ⟨m2, Y, e2, a2, s2, u2⟩ := ih m1 first mid (last - 1) rf (rl - 1) (P ++ [a]) Q l
          aP1 aQ1 (by simp; omega) (by omega) (by omega) (by intro h; subst h; simp at hrl; omega) (by omega) (by omega) (by simp; omega)
          sP sQ.left hh
        refine ⟨m2, Y ++ [b], e2, ?_, ?_,
          (u1.trans u2).mono (fun j => by simp; omega)⟩
        · rw [At.snoc_iff]
          refine ⟨a2, ?_⟩
          have hYl := s2.len
          simp at hYl
          rw [u2.out _ (by unfold Seg; omega), ← g1]; congr 1; omega
        · have := SS.snoc_right s2 hbound
          simpa using this

theorem imbRight_spec (hlt : SWO lt) (m : Mem α) (first mid last tmp : Nat) (A B : List α) (hA : At m first (A ++ B))
    (hm : mid = first + A.length) (hl : last = mid + B.length) (ht : last ≤ tmp) (hc : tmp + B.length ≤ m.length)
    (sA : Srt lt A) (sB : Srt lt B) (h1 : 2 ≤ A.length) (h2 : 2 ≤ B.length)
    (hlow : ∀ a ∈ A.head?, ∀ b ∈ B.head?, lt b a = true) (hhigh : ∀ a ∈ A.getLast?, ∀ b ∈ B.getLast?, lt b a = true) :
    ∃ m' Y, imbRight lt m first mid last tmp = .ok m' ∧ At m' first Y ∧ SS lt (A ++ B) Y ∧
      Upd m m' (fun j => Seg first last j ∨ Seg tmp (tmp + B.length) j) := by
  obtain ⟨pA, pB⟩ := At.append_iff.1 hA
  rw [← hm] at pB
  match A, B, h1, h2 with
  | a :: A', b :: Q, h1, h2 =>
  have hlow' : ∀ z ∈ a :: A', lt b z = true := Srt.lt_all hlt sA (hlow a (by simp) b (by simp))
  generalize hAA : a :: A' = A at *
  obtain h | ⟨L, h, rfl⟩ := snoc_cases A
  · subst h; simp at h1
  have hhB : ∀ z ∈ b :: Q, lt z h = true := by
    obtain hb | ⟨B0, c, hBc⟩ := snoc_cases (b :: Q)
    · simp at hb
    rw [hBc] at sB hhigh ⊢
    exact sB.all_lt hlt (hhigh h (by simp) c (by simp))
  unfold imbRight
  simp only [List.length_append, List.length_cons, List.length_nil] at hm hl hc h1 h2
  obtain ⟨m1, e1, a1, u1⟩ := moveFwd_spec m mid last tmp (b :: Q) pB (by simp; omega) (by simp; omega) (by simp; omega)
  have pA1 : At m1 first (L ++ [h]) := pA.upd u1 (fun j h1 h2 => by simp at *; omega)
  obtain ⟨aL, hh⟩ := At.snoc_iff.1 pA1
  rw [show first + L.length = mid - 1 by omega] at hh
  obtain ⟨m2, e2, u2, g2⟩ := mvTo_upd (d := last - 1) hh (by rw [u1.len]; omega)
  obtain ⟨m3, Y, e3, a3, s3, u3⟩ := imbRightLoop_spec hlt (last - first) m2 first (mid - 2) (last - 1) tmp (tmp + Q.length)
    L Q b (aL.upd u2 (fun j h1 h2 => by omega)) (a1.upd u2 (fun j h1 h2 => by simp at *; omega)) (by omega) (by omega) rfl
    (by intro h; subst h; simp at h2) (by omega) (by omega) (by omega) sA.left sB (fun z hz => hlow' z (by simp [hz]))
  refine ⟨m3, Y ++ [h], ?_, ?_, SS.snoc_left hlt s3 hhB sA.le_last, ((u1.trans u2).trans u3).mono (fun j => by simp; omega)⟩
  · rw [e1, R.ok_bind]; simp only
    rw [e2, R.ok_bind]
    rw [show tmp + (b :: Q).length - 1 = tmp + Q.length by simp]
    exact e3
  · rw [At.snoc_iff]
    refine ⟨a3, ?_⟩
    have := s3.len
    simp at this
    rw [u3.out _ (by unfold Seg; omega), ← g2]; congr 1; omega

end STL
