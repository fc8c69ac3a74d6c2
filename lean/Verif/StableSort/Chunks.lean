import Verif.StableSort.Bim

/-! Insertion-sorted chunks, chunked merging passes, and `stable_sort` itself. -/

namespace STL
variable {α : Type} {lt : α → α → Bool}

/-! ### insertion sort inside a larger memory -/

theorem rd_frame (a m t : Mem α) (i : Nat) (x : α) (h : rd m i = .ok x) : rd (a ++ m ++ t) (a.length + i) = .ok x := by
  unfold rd at h ⊢
  have : (a ++ m ++ t)[a.length + i]? = (m ++ t)[i]? := by
    rw [List.append_assoc, List.getElem?_append_right (by omega)]; congr 1; omega
  rw [this]
  by_cases hi : i < m.length
  · rw [List.getElem?_append_left hi]; exact h
  · rw [List.getElem?_eq_none (by omega)] at h; cases h

theorem set_frame (a m t : Mem α) (i : Nat) (x : Option α) (h : i < m.length) :
    (a ++ m ++ t).set (a.length + i) x = a ++ m.set i x ++ t := by
  rw [List.append_assoc, List.set_append_right _ _ (by omega), show a.length + i - a.length = i by omega,
    List.set_append_left _ _ h, List.append_assoc]

theorem wr_frame (a m t m' : Mem α) (i : Nat) (x : α) (h : wr m i x = .ok m') :
    wr (a ++ m ++ t) (a.length + i) x = .ok (a ++ m' ++ t) := by
  unfold wr at h ⊢
  split at h
  · rename_i hi
    cases h
    rw [if_pos (by simp; omega), set_frame _ _ _ _ _ hi]
  · cases h

theorem mv_frame (a m t m' : Mem α) (i : Nat) (x : α) (h : mv m i = .ok (x, m')) :
    mv (a ++ m ++ t) (a.length + i) = .ok (x, a ++ m' ++ t) := by
  unfold mv at h ⊢
  cases hr : rd m i with
  | error e => rw [hr] at h; cases h
  | ok y =>
    rw [hr, R.ok_bind] at h
    cases h
    have hi : i < m.length := by
      by_contra hc
      rw [rd, List.getElem?_eq_none (by omega)] at hr; cases hr
    rw [rd_frame a m t i x hr, R.ok_bind, set_frame _ _ _ _ _ hi]
    rfl

theorem mvTo_frame (a m t m' : Mem α) (i j : Nat) (h : mvTo m i j = .ok m') :
    mvTo (a ++ m ++ t) (a.length + i) (a.length + j) = .ok (a ++ m' ++ t) := by
  unfold mvTo at h ⊢
  cases hr : mv m j with
  | error e => rw [hr] at h; cases h
  | ok y =>
    obtain ⟨x, m1⟩ := y
    rw [hr, R.ok_bind] at h
    rw [mv_frame a m t m1 j x hr, R.ok_bind]
    exact wr_frame a m1 t m' i x h

theorem moveBackward_frame (a t : Mem α) (last : Nat) : ∀ (m m' : Mem α) (first dest : Nat), moveBackward m first last dest = .ok m' →
    first ≤ last → last ≤ dest → moveBackward (a ++ m ++ t) (a.length + first) (a.length + last) (a.length + dest) = .ok (a ++ m' ++ t) := by
  induction last with
  | zero =>
    intro m m' first dest h hf hd
    unfold moveBackward at h ⊢
    rw [dif_neg (by omega)] at h ⊢
    cases h; rfl
  | succ last ih =>
    intro m m' first dest h hf hd
    unfold moveBackward at h ⊢
    by_cases hc : first < last + 1
    · rw [dif_pos hc] at h
      rw [dif_pos (by omega)]
      cases hr : mvTo m (dest - 1) (last + 1 - 1) with
      | error e => rw [hr] at h; cases h
      | ok m1 =>
        rw [hr, R.ok_bind] at h
        have := mvTo_frame a m t m1 _ _ hr
        rw [show a.length + dest - 1 = a.length + (dest - 1) by omega, show a.length + (last + 1) - 1 = a.length + (last + 1 - 1) by omega,
          this, R.ok_bind]
        exact ih m1 m' first (dest - 1) h (by omega) (by omega)
    · rw [dif_neg hc] at h
      rw [dif_neg (by omega)]
      cases h; rfl

theorem isortInner_frame (a t : Mem α) (val : α) (h : Nat) : ∀ (m m' : Mem α) (h' : Nat), isortInner lt m val h = .ok (m', h') →
    isortInner lt (a ++ m ++ t) val (a.length + h) = .ok (a ++ m' ++ t, a.length + h') := by
  induction h with
  | zero => intro m m' h' he; cases he
  | succ h ih =>
    intro m m' h' he
    unfold isortInner at he
    show isortInner lt (a ++ m ++ t) val ((a.length + h) + 1) = _
    unfold isortInner
    cases hr : rd m h with
    | error e => rw [hr] at he; cases he
    | ok x =>
      rw [hr, R.ok_bind] at he
      rw [rd_frame a m t h x hr, R.ok_bind]
      by_cases hc : lt val x = true
      · rw [if_pos hc] at he ⊢
        cases hm : mvTo m (h + 1) h with
        | error e => rw [hm] at he; cases he
        | ok m1 =>
          rw [hm, R.ok_bind] at he
          have := mvTo_frame a m t m1 _ _ hm
          rw [show a.length + h + 1 = a.length + (h + 1) by omega, this, R.ok_bind]
          exact ih m1 m' h' he
      · rw [if_neg hc] at he ⊢
        cases he; rfl

theorem isortStep_frame (a t m m' : Mem α) (first mid : Nat) (hfm : first ≤ mid) (h : isortStep lt m first mid = .ok m') :
    isortStep lt (a ++ m ++ t) (a.length + first) (a.length + mid) = .ok (a ++ m' ++ t) := by
  unfold isortStep at h ⊢
  cases hr : mv m mid with
  | error e => rw [hr] at h; cases h
  | ok y =>
    obtain ⟨v, m1⟩ := y
    rw [hr, R.ok_bind] at h
    rw [mv_frame a m t m1 mid v hr, R.ok_bind]
    simp only at h ⊢
    cases hp : rd m1 first with
    | error e => rw [hp] at h; cases h
    | ok p =>
      rw [hp, R.ok_bind] at h
      rw [rd_frame a m1 t first p hp, R.ok_bind]
      by_cases hc : lt v p = true
      · rw [if_pos hc] at h ⊢
        cases hm : moveBackward m1 first mid (mid + 1) with
        | error e => rw [hm] at h; cases h
        | ok m2 =>
          rw [hm, R.ok_bind] at h
          have := moveBackward_frame a t mid m1 m2 first (mid + 1) hm hfm (by omega)
          rw [← Nat.add_assoc] at this
          rw [this, R.ok_bind]
          exact wr_frame a m2 t m' first v h
      · rw [if_neg hc] at h ⊢
        cases hm : isortInner lt m1 v mid with
        | error e => rw [hm] at h; cases h
        | ok y =>
          obtain ⟨m2, hole⟩ := y
          rw [hm, R.ok_bind] at h
          rw [isortInner_frame a t v mid m1 m2 hole hm, R.ok_bind]
          exact wr_frame a m2 t m' hole v h

theorem isortLoop_frame (a t : Mem α) (n : Nat) : ∀ (m m' : Mem α) (first mid last : Nat), n = last - mid → first ≤ mid →
    isortLoop lt m first mid last = .ok m' →
    isortLoop lt (a ++ m ++ t) (a.length + first) (a.length + mid) (a.length + last) = .ok (a ++ m' ++ t) := by
  induction n with
  | zero =>
    intro m m' first mid last hn hf h
    unfold isortLoop at h ⊢
    rw [dif_neg (by omega)] at h ⊢
    cases h; rfl
  | succ n ih =>
    intro m m' first mid last hn hf h
    unfold isortLoop at h ⊢
    rw [dif_pos (by omega)] at h ⊢
    cases hs : isortStep lt m first mid with
    | error e => rw [hs] at h; cases h
    | ok m1 =>
      rw [hs, R.ok_bind] at h
      rw [isortStep_frame a t m m1 first mid hf hs, R.ok_bind]
      exact ih m1 m' first (mid + 1) last (by omega) (by omega) h

theorem split_at {m : Mem α} {p : Nat} {X : List α} (h : At m p X) (hp : p + X.length ≤ m.length) :
    m = m.take p ++ full X ++ m.drop (p + X.length) := by
  have e : full X = (m.drop p).take X.length := by
    symm
    apply eq_full_of_at
    · intro i hi
      rw [Nat.zero_add, List.getElem?_take_of_lt hi, List.getElem?_drop]
      exact h i hi
    · simp; omega
  rw [e, List.append_assoc, ← List.drop_drop, List.take_append_drop, List.take_append_drop]

/-- `_Insertion_sort_unchecked` stably sorts its range. -/
theorem insertionSort_at (hlt : SWO lt) (m : Mem α) (first last : Nat) (X : List α) (h : At m first X) (hl : last = first + X.length) :
    ∃ m' Y, insertionSort lt m first last = .ok m' ∧ At m' first Y ∧ SS lt X Y ∧ Upd m m' (Seg first last) := by
  by_cases hX : X = []
  · subst hX; simp at hl; subst hl
    exact ⟨m, [], by unfold insertionSort; simp; rfl, At.nil _ _, SS.self (by simp), Upd.refl _ _⟩
  have hle := h.le_length hX
  obtain ⟨Y, e, hp, hst, hs⟩ := insertionSort_spec hlt 0 X.length X (Nat.le_refl _)
  have hpos := List.length_pos_iff.2 hX
  unfold insertionSort at e ⊢
  rw [if_pos hpos] at e
  rw [if_pos (by omega)]
  have := isortLoop_frame (m.take first) (m.drop (first + X.length)) _ (full X) (full Y) 0 (0 + 1) X.length rfl (by omega) e
  rw [← split_at h hle] at this
  have hlf : (m.take first).length = first := by simp; omega
  rw [hlf, ← hl] at this
  have hYl := hp.len
  refine ⟨_, Y, this, ?_, ⟨⟨hp.perm, hst⟩, sortedOn_all (by omega) hs⟩, ⟨?_, ?_⟩⟩
  · intro i hi
    rw [List.append_assoc, List.getElem?_append_right (by omega), hlf, List.getElem?_append_left (by simp; omega)]
    simp [full, hi]
  · simp; omega
  · intro j hj
    unfold Seg at hj
    by_cases h1 : j < first
    · rw [List.append_assoc, List.getElem?_append_left (by omega), List.getElem?_take_of_lt h1]
    · rw [List.getElem?_append_right (by simp; omega), List.getElem?_drop]
      congr 1; simp; omega

/-! ### chunks -/

/-- `X` consists of sorted chunks of length `c` (the last one possibly shorter). -/
inductive Chunks (lt : α → α → Bool) (c : Nat) : List α → Prop
  | last {X : List α} : X.length ≤ c → Srt lt X → Chunks lt c X
  | more {A R : List α} : A.length = c → Srt lt A → R ≠ [] → Chunks lt c R → Chunks lt c (A ++ R)

theorem Chunks.srt {c : Nat} {X : List α} (h : Chunks lt c X) (hc : X.length ≤ c) : Srt lt X := by
  cases h with
  | last _ h => exact h
  | more hA _ hR _ => have := List.length_pos_iff.2 hR; simp at hc; omega

theorem isortChunks_spec (hlt : SWO lt) (n : Nat) : ∀ (m : Mem α) (first last : Nat) (X : List α), At m first X → last = first + X.length →
    X.length = n →
    ∃ m' Y, isortChunks lt m first last n = .ok m' ∧ At m' first Y ∧ SEq lt X Y ∧ Chunks lt 32 Y ∧ Upd m m' (Seg first last) := by
  induction n using Nat.strongRecOn with
  | ind n ih =>
    intro m first last X hX hl hn
    unfold isortChunks
    by_cases h : 32 < n
    · rw [dif_pos h]
      have hXs : X = X.take 32 ++ X.drop 32 := by rw [List.take_append_drop]
      have hl1 : (X.take 32).length = 32 := by simp; omega
      have hl2 : (X.drop 32).length = n - 32 := by simp; omega
      generalize X.take 32 = A at *
      generalize X.drop 32 = B at *
      subst hXs
      obtain ⟨aA, aB⟩ := At.append_iff.1 hX
      obtain ⟨m1, Y, e1, a1, s1, u1⟩ := insertionSort_at hlt m first (first + 32) A aA (by omega)
      rw [e1, R.ok_bind]
      rw [hl1] at aB
      obtain ⟨m2, Z, e2, a2, s2, c2, u2⟩ := ih (n - 32) (by omega) m1 (first + 32) last B (aB.upd u1 (fun j _ _ => by unfold Seg; omega))
        (by omega) hl2
      have hYl := s1.len
      have hZl := s2.len
      refine ⟨m2, Y ++ Z, e2, ?_, s1.toSEq.append s2, Chunks.more (by omega) s1.srt (by intro hz; subst hz; simp at hZl; omega) c2,
        (u1.trans u2).mono (fun j => by unfold Seg; omega)⟩
      rw [At.append_iff]
      refine ⟨a1.upd u2 (fun j _ _ => by unfold Seg; omega), ?_⟩
      rw [hYl, hl1]; exact a2
    · rw [dif_neg h]
      obtain ⟨m1, Y, e1, a1, s1, u1⟩ := insertionSort_at hlt m first last X hX hl
      exact ⟨m1, Y, e1, a1, s1.toSEq, Chunks.last (by have := s1.len; omega) s1.srt, u1⟩

/-- One chunked merging pass. -/
theorem chunkedMerge_spec (hlt : SWO lt) (c : Nat) (hc : 0 < c) (n : Nat) : ∀ (m : Mem α) (first last dest : Nat) (X : List α),
    At m first X → last = first + X.length → X.length = n → (dest + X.length ≤ first ∨ last ≤ dest) → dest + X.length ≤ m.length →
    Chunks lt c X →
    ∃ m' Y, chunkedMerge lt m first last dest c n = .ok m' ∧ At m' dest Y ∧ SEq lt X Y ∧ Chunks lt (2 * c) Y ∧
      Upd m m' (fun j => Seg first last j ∨ Seg dest (dest + n) j) := by
  induction n using Nat.strongRecOn with
  | ind n ih =>
    intro m first last dest X hX hl hn hd hb hch
    unfold chunkedMerge
    by_cases h : c < n ∧ 0 < c
    · rw [dif_pos h]
      have main : ∀ (A B R : List α), X = A ++ (B ++ R) → A.length = c → B.length = min c (n - c) → Srt lt A → Srt lt B → B ≠ [] →
          (R = [] ∨ B.length = c) → Chunks lt c R → 
          ∃ m' Y, (do
              let (m, dest) ← mergeMove lt (c + min c (n - c)) m first (first + c) (first + c) (first + c + min c (n - c)) dest
              chunkedMerge lt m (first + c + min c (n - c)) last dest c (n - c - min c (n - c))) = .ok m' ∧ At m' dest Y ∧ SEq lt X Y ∧ Chunks lt (2 * c) Y ∧
            Upd m m' (fun j => Seg first last j ∨ Seg dest (dest + n) j) := by
        intro A B T hXe hA hB sA sB hBn hor hR
        subst hXe
        simp only [List.length_append] at *
        obtain ⟨aA, aBT⟩ := At.append_iff.1 hX
        obtain ⟨aB, aT⟩ := At.append_iff.1 aBT
        have HH := mergeMove_spec hlt (c + min c (n - c)) m first (first + c) (first + c) (first + c + min c (n - c)) dest A B aA
          (by rw [← hA]; exact aB) (by omega) (by omega) (by omega) (by intro hz; subst hz; simp at hA; omega) hBn (by omega) (by omega) (by omega) sA sB
        obtain ⟨m1, Y, e1, a1, s1, u1⟩ := HH
        rw [e1, R.ok_bind]
        have HH := ih (n - c - min c (n - c)) (by omega) m1 (first + c + min c (n - c)) last (dest + A.length + B.length) T
          (by rw [← hB, ← hA]; exact aT.upd u1 (fun j _ _ => by unfold Seg; omega)) (by omega) (by omega) (by omega) (by rw [u1.len]; omega) hR
        obtain ⟨m2, Z, e2, a2, s2, c2, u2⟩ := HH
        have hYl := s1.len
        have hZl := s2.len
        simp only [List.length_append] at hYl
        refine ⟨m2, Y ++ Z, e2, ?_, ?_, ?_, (u1.trans u2).mono (fun j => by unfold Seg; omega)⟩
        · rw [At.append_iff]
          refine ⟨a1.upd u2 (fun j _ _ => by unfold Seg; omega), ?_⟩
          rw [hYl, ← Nat.add_assoc]; exact a2
        · have := s1.toSEq.append s2
          simpa [List.append_assoc] using this
        · by_cases hRn : T = []
          · subst hRn
            have : Z = [] := List.length_eq_zero_iff.1 (by simpa using hZl)
            subst this
            rw [List.append_nil]
            exact Chunks.last (by omega) s1.srt
          · refine Chunks.more ?_ s1.srt (by intro hz; subst hz; simp at hZl; exact hRn (List.length_eq_zero_iff.1 hZl.symm)) c2
            rcases hor with h' | h'
            · exact absurd h' hRn
            · omega
      cases hch with
      | last h1 _ => omega
      | @more A R hA sA hRn hR =>
        have hRl := List.length_pos_iff.2 hRn
        cases hR with
        | last h1 sR =>
          simp only [List.length_append] at hn
          exact main A R [] (by simp) hA (by omega) sA sR hRn (Or.inl rfl) (Chunks.last (by simp) (by simp))
        | @more B R' hB sB hR'n hR' =>
          simp only [List.length_append] at hn
          exact main A B R' rfl hA (by omega) sA sB (by intro hz; subst hz; simp at hB; omega) (Or.inr hB) hR'
    · rw [dif_neg h]
      obtain ⟨m1, e1, a1, u1⟩ := moveFwd_spec m first last dest X hX hl (by omega) hb
      refine ⟨m1, X, by rw [e1]; rfl, a1, SEq.refl _, Chunks.last (by omega) (hch.srt (by omega)), u1.mono (fun j => by unfold Seg; omega)⟩

theorem bmsLoop_spec (hlt : SWO lt) (n : Nat) (fuel : Nat) : ∀ (m : Mem α) (first last tmp chunk : Nat) (X : List α),
    At m tmp X → X.length = n → last = first + n → last ≤ tmp → tmp + n ≤ m.length → 0 < chunk → Chunks lt (2 * chunk) X →
    n < chunk + fuel → chunk ≤ n →
    ∃ m' Y, bmsLoop lt fuel m first last n tmp chunk = .ok m' ∧ At m' first Y ∧ SS lt X Y ∧
      Upd m m' (fun j => Seg first last j ∨ Seg tmp (tmp + n) j) := by
  induction fuel with
  | zero =>
    intro m first last tmp chunk X hX hn hl ht hb hc hch hf hpos
    omega
  | succ fuel ih =>
    intro m first last tmp chunk X hX hn hl ht hb hc hch hf hpos
    unfold bmsLoop
    have HH := chunkedMerge_spec hlt (chunk * 2) (by omega) n m tmp (tmp + n) first X hX (by omega) hn (by omega) (by omega)
      (by rw [Nat.mul_comm]; exact hch)
    obtain ⟨m1, Y, e1, a1, s1, c1, u1⟩ := HH
    have hYl := s1.len
    simp only [e1, R.ok_bind]
    by_cases h : (n - 1) / 2 < chunk * 2
    · rw [if_pos h]
      exact ⟨m1, Y, rfl, a1, ⟨s1, c1.srt (by omega)⟩, u1.mono (fun j => by unfold Seg; omega)⟩
    · rw [if_neg h]
      have HH := chunkedMerge_spec hlt (chunk * 2 * 2) (by omega) n m1 first last tmp Y a1 (by omega) (by omega) (by omega) (by rw [u1.len]; omega)
        (by rw [show chunk * 2 * 2 = 2 * (chunk * 2) by omega]; exact c1)
      obtain ⟨m2, Z, e2, a2, s2, c2, u2⟩ := HH
      rw [e2, R.ok_bind]
      have hZl := s2.len
      have HH := ih m2 first last tmp (chunk * 2 * 2) Z a2 (by omega) hl ht (by rw [u2.len, u1.len]; omega) (by omega) c2 (by omega) (by omega)
      obtain ⟨m3, W, e3, a3, s3, u3⟩ := HH
      exact ⟨m3, W, e3, a3, SS.of_seq (s1.trans s2) s3, ((u1.trans u2).trans u3).mono (fun j => by unfold Seg; omega)⟩

theorem bufferedMergeSort_spec (hlt : SWO lt) (m : Mem α) (first last tmp cap n : Nat) (X : List α)
    (hX : At m first X) (hn : X.length = n) (hl : last = first + n) (ht : last ≤ tmp) (hb : tmp + cap ≤ m.length) (hcap : n ≤ cap) :
    ∃ m' Y, bufferedMergeSort lt m first last n tmp = .ok m' ∧ At m' first Y ∧ SS lt X Y ∧
      Upd m m' (fun j => Seg first last j ∨ Seg tmp (tmp + cap) j) := by
  unfold bufferedMergeSort
  obtain ⟨m1, Y, e1, a1, s1, c1, u1⟩ := isortChunks_spec hlt n m first last X hX (by omega) hn
  rw [e1, R.ok_bind]
  have hYl := s1.len
  by_cases h : n ≤ 32
  · rw [if_pos h]
    exact ⟨m1, Y, rfl, a1, ⟨s1, c1.srt (by omega)⟩, u1.mono (fun j => by unfold Seg; omega)⟩
  · rw [if_neg h]
    have HH := chunkedMerge_spec hlt 32 (by omega) n m1 first last tmp Y a1 (by omega) (by omega) (by omega) (by rw [u1.len]; omega) c1
    obtain ⟨m2, Z, e2, a2, s2, c2, u2⟩ := HH
    rw [e2, R.ok_bind]
    have hZl := s2.len
    have HH := bmsLoop_spec hlt n (n + 1) m2 first last tmp 32 Z a2 (by omega) hl ht (by rw [u2.len, u1.len]; omega) (by omega) c2 (by omega) (by omega)
    obtain ⟨m3, W, e3, a3, s3, u3⟩ := HH
    exact ⟨m3, W, e3, a3, SS.of_seq (s1.trans s2) s3, ((u1.trans u2).trans u3).mono (fun j => by unfold Seg; omega)⟩

theorem stableSortUnchecked_spec (hlt : SWO lt) (fuel : Nat) : ∀ (m : Mem α) (first last tmp cap n : Nat) (X : List α),
    At m first X → X.length = n → last = first + n → last ≤ tmp → tmp + cap ≤ m.length → n < fuel →
    ∃ m' Y, stableSortUnchecked lt fuel m first last n tmp cap = .ok m' ∧ At m' first Y ∧ SS lt X Y ∧
      Upd m m' (fun j => Seg first last j ∨ Seg tmp (tmp + cap) j) := by
  induction fuel with
  | zero => intro _ _ _ _ _ _ _ _ _ _ _ _ h; omega
  | succ fuel ih =>
    intro m first last tmp cap n X hX hn hl ht hb hf
    unfold stableSortUnchecked
    by_cases h : n ≤ 32
    · rw [if_pos h]
      obtain ⟨m1, Y, e1, a1, s1, u1⟩ := insertionSort_at hlt m first last X hX (by omega)
      exact ⟨m1, Y, e1, a1, s1, u1.mono (fun j => by unfold Seg; omega)⟩
    rw [if_neg h]
    have hXs : X = X.take (n - n / 2) ++ X.drop (n - n / 2) := by rw [List.take_append_drop]
    have hl1 : (X.take (n - n / 2)).length = n - n / 2 := by simp; omega
    have hl2 : (X.drop (n - n / 2)).length = n / 2 := by simp; omega
    generalize X.take (n - n / 2) = A at *
    generalize X.drop (n - n / 2) = B at *
    subst hXs
    obtain ⟨aA, aB⟩ := At.append_iff.1 hX
    rw [hl1] at aB
    have key : ∃ m2 Y Z, (if n - n / 2 ≤ cap then do
          let m ← bufferedMergeSort lt m first (first + (n - n / 2)) (n - n / 2) tmp
          bufferedMergeSort lt m (first + (n - n / 2)) last (n / 2) tmp
        else do
          let m ← stableSortUnchecked lt fuel m first (first + (n - n / 2)) (n - n / 2) tmp cap
          stableSortUnchecked lt fuel m (first + (n - n / 2)) last (n / 2) tmp cap : R (Mem α)) = .ok m2 ∧
        At m2 first (Y ++ Z) ∧ SS lt A Y ∧ SS lt B Z ∧ Upd m m2 (fun j => Seg first last j ∨ Seg tmp (tmp + cap) j) := by
      have comb : ∀ (f : Mem α → Nat → Nat → Nat → R (Mem α)),
          (∀ (m : Mem α) (first last n : Nat) (X : List α), At m first X → X.length = n → last = first + n → last ≤ tmp → tmp + cap ≤ m.length →
            X = A ∨ X = B → ∃ m' Y, f m first last n = .ok m' ∧ At m' first Y ∧ SS lt X Y ∧
              Upd m m' (fun j => Seg first last j ∨ Seg tmp (tmp + cap) j)) →
          ∃ m2 Y Z, (f m first (first + (n - n / 2)) (n - n / 2) >>= fun m => f m (first + (n - n / 2)) last (n / 2)) = .ok m2 ∧
            At m2 first (Y ++ Z) ∧ SS lt A Y ∧ SS lt B Z ∧ Upd m m2 (fun j => Seg first last j ∨ Seg tmp (tmp + cap) j) := by
        intro f hfs
        obtain ⟨m1, Y, e1, a1, s1, u1⟩ := hfs m first (first + (n - n / 2)) (n - n / 2) A aA hl1 rfl (by omega) hb (Or.inl rfl)
        obtain ⟨m2, Z, e2, a2, s2, u2⟩ := hfs m1 (first + (n - n / 2)) last (n / 2) B (aB.upd u1 (fun j _ _ => by unfold Seg; omega)) hl2
          (by omega) (by omega) (by rw [u1.len]; omega) (Or.inr rfl)
        have hYl := s1.len
        refine ⟨m2, Y, Z, by rw [e1, R.ok_bind, e2], ?_, s1, s2, (u1.trans u2).mono (fun j => by unfold Seg; omega)⟩
        rw [At.append_iff]
        refine ⟨a1.upd u2 (fun j _ _ => by unfold Seg; omega), ?_⟩
        rw [hYl, hl1]; exact a2
      by_cases hc : n - n / 2 ≤ cap
      · rw [if_pos hc]
        refine comb (fun m first last n => bufferedMergeSort lt m first last n tmp) ?_
        intro m first last n' X hX hn' hl ht hb hor
        exact bufferedMergeSort_spec hlt m first last tmp cap n' X hX hn' hl ht hb (by rcases hor with rfl | rfl <;> omega)
      · rw [if_neg hc]
        refine comb (fun m first last n => stableSortUnchecked lt fuel m first last n tmp cap) ?_
        intro m first last n' X hX hn' hl ht hb hor
        exact ih m first last tmp cap n' X hX hn' hl ht hb (by rcases hor with rfl | rfl <;> omega)
    obtain ⟨m2, Y, Z, e2, a2, s1, s2, u2⟩ := key
    have hYl := s1.len
    have hZl := s2.len
    simp only [e2, R.ok_bind]
    have HH := (bim_ok hlt tmp cap (2 * n + 1)).1 m2 first (first + (n - n / 2)) last (n - n / 2) (n / 2) Y Z a2 (by omega) (by omega) ht
      (by rw [u2.len]; omega) s1.srt s2.srt (by omega) (by omega) (by omega)
    obtain ⟨m3, W, e3, a3, s3, u3⟩ := HH
    exact ⟨m3, W, e3, a3, SS.of_seq (s1.toSEq.append s2.toSEq) s3, (u2.trans u3).mono (fun j => by unfold Seg; omega)⟩

theorem stableSort_spec (hlt : SWO lt) (m : Mem α) (first last tmp cap : Nat) (X : List α)
    (hX : At m first X) (hl : last = first + X.length) (ht : last ≤ tmp) (hb : tmp + cap ≤ m.length) :
    ∃ m' Y, stableSort lt m first last tmp cap = .ok m' ∧ At m' first Y ∧ SS lt X Y ∧
      Upd m m' (fun j => Seg first last j ∨ Seg tmp (tmp + cap) j) := by
  unfold stableSort
  simp only []
  by_cases h : last - first ≤ 32
  · rw [if_pos h]
    obtain ⟨m1, Y, e1, a1, s1, u1⟩ := insertionSort_at hlt m first last X hX hl
    exact ⟨m1, Y, e1, a1, s1, u1.mono (fun j => by unfold Seg; omega)⟩
  · rw [if_neg h]
    exact stableSortUnchecked_spec hlt _ m first last tmp cap (last - first) X hX (by omega) (by omega) ht hb (by omega)

end STL
