import Verif.VWrite.Core

/-! # remove and remove_copy -/

namespace STL.VWrite

open STL.VAlg (Cpu movemask full)

theorem wr_take {a x y : List Elem} {k : Nat} (h : k ≤ a.length) : (wr a k (x ++ y)).take (k + x.length) = a.take k ++ x := by
  have : (a.take k).length = k := by simp; omega
  unfold wr
  rw [← List.append_assoc, List.append_assoc, List.take_left' (by simp; omega)]

theorem wr_take' {a x : List Elem} {k : Nat} (h : k ≤ a.length) : (wr a k x).take (k + x.length) = a.take k ++ x := by
  have := wr_take (x := x) (y := []) h
  simpa using this

theorem wr_drop {a v : List Elem} {k n : Nat} (h : k ≤ a.length) (hn : k + v.length ≤ n) : (wr a k v).drop n = a.drop n := by
  have h1 : (a.take k ++ v).length = k + v.length := by simp; omega
  unfold wr
  obtain ⟨j, rfl⟩ := Nat.exists_eq_add_of_le hn
  rw [show k + v.length + j = (a.take k ++ v).length + j by rw [h1], List.drop_append]
  rw [List.drop_eq_nil_of_le (by omega), List.drop_drop, List.nil_append]
  congr 1
  omega

theorem take_le_of_take {a b : List Elem} {i j : Nat} (h : a.take j = b) (hi : i ≤ j) : a.take i = b.take i := by
  rw [← h, List.take_take, Nat.min_eq_left hi]

/-- In place: `g` has been written, the elements before `k` have been read. -/
structure Inv (a0 g : List Elem) (k : Nat) (a : List Elem) : Prop where
  len : a.length = a0.length
  gk : g.length ≤ k
  kl : k ≤ a0.length
  tk : a.take g.length = g
  dk : a.drop k = a0.drop k

theorem Inv.src {a0 g a : List Elem} {k c : Nat} (h : Inv a0 g k a) : (a.drop k).take c = (a0.drop k).take c := by rw [h.dk]

theorem Inv.step {T : Tr} {c : Nat} (hT : T.Ok c) {a0 g a : List Elem} {k : Nat} (h : Inv a0 g k a) (hk : k + c ≤ a0.length)
    (he : ∀ x ∈ a0, x.length = T.s) {bs : List Bool} (hb : bs.length = c) :
    let v := (a0.drop k).take c
    ∃ a', storeMasked T a (T.s * g.length) v (movemask 1 bs) = some (a', T.s * (g ++ keep bs v).length) ∧ Inv a0 (g ++ keep bs v) (k + c) a' ∧
      a' = wr a g.length (keep bs v ++ v.drop (keep bs v).length) := by
  intro v
  have hv : ∀ x ∈ v, x.length = T.s := fun x hx => he x (List.mem_of_mem_drop (List.mem_of_mem_take hx))
  have hl : v.length = c := by simp [v]; omega
  have hg := h.gk
  have hlen := h.len
  have hkl := hl ▸ keep_length_le bs v
  have hsz : (keep bs v ++ v.drop (keep bs v).length).length = c := by simp [hl]; omega
  refine ⟨_, ?_, ?_, rfl⟩
  · rw [storeMasked_some hT hv hl hb (by omega), List.length_append]
  · constructor
    · rw [wr_length (by omega)]; exact hlen
    · rw [List.length_append]; omega
    · exact hk
    · rw [List.length_append, wr_take (by omega), h.tk]
    · rw [wr_drop (by omega) (by omega), ← List.drop_drop, h.dk, List.drop_drop]

theorem full_eq {s c n : Nat} (hs : 0 < s) : full (s * n) (s * c) = s * (c * (n / c)) := by
  unfold full
  rw [Nat.mul_div_mul_left _ _ hs, Nat.mul_left_comm, ← Nat.mul_assoc, Nat.mul_comm s, Nat.mul_assoc, Nat.mul_comm]
  ac_rfl

theorem keep_filter (val : Elem) : ∀ (c : Nat) (v : List Elem), v.length = c →
    keep (List.zipWith (· == ·) v (List.replicate c val)) v = v.filter (fun x => x != val)
  | 0, [], _ => by simp [keep]
  | c + 1, x :: v, h => by
    have := keep_filter val c v (by simpa using h)
    simp only [List.replicate_succ, List.zipWith_cons_cons, keep, this, List.filter_cons]
    by_cases hx : x = val <;> simp [hx]

theorem take_add_filter {a0 : List Elem} {k c : Nat} {P : Elem → Bool} :
    (a0.take (k + c)).filter P = (a0.take k).filter P ++ ((a0.drop k).take c).filter P := by
  rw [List.take_add, List.filter_append]

theorem take_one {l : List Elem} {k : Nat} (h : k < l.length) : (l.drop k).take 1 = [l[k]] := by
  rw [List.drop_eq_getElem_cons h, List.take_succ_cons, List.take_zero]

theorem removeLoop_spec {T : Tr} {c : Nat} (hT : T.Ok c) {a0 : List Elem} (he : ∀ x ∈ a0, x.length = T.s) (val : Elem) :
    ∀ (m f k : Nat) (a : List Elem), m < f → k + c * (m + 1) ≤ a0.length → Inv a0 ((a0.take k).filter (· != val)) k a →
      ∃ a', removeLoop T val (T.s * (k + c * (m + 1))) f (T.s * k) (T.s * ((a0.take k).filter (· != val)).length) a =
          some (a', T.s * ((a0.take (k + c * (m + 1))).filter (· != val)).length) ∧
        Inv a0 ((a0.take (k + c * (m + 1))).filter (· != val)) (k + c * (m + 1)) a'
  | m, 0, k, a, hf, _, _ => by omega
  | m, f + 1, k, a, hf, hk, hI => by
    have hs := hT.s0
    have hc := hT.hc
    have hkc : k + c ≤ a0.length := by
      have : c ≤ c * (m + 1) := Nat.le_mul_of_pos_right c (Nat.succ_pos m)
      omega
    have hl : ((a0.drop k).take c).length = c := by simp; omega
    obtain ⟨a', e1, hI', _⟩ := hI.step hT hkc he (bs := List.zipWith (· == ·) ((a0.drop k).take c) (List.replicate c val)) (by simp; omega)
    rw [keep_filter val c _ hl, ← take_add_filter] at e1 hI'
    unfold removeLoop
    rw [hT.step, Nat.mul_div_cancel_left _ hs, ld_some hs (by rw [hI.len]; exact hkc), hI.src]
    simp only [Option.bind_eq_bind, Option.bind_some, mask, e1]
    rw [← Nat.mul_add]
    match m with
    | 0 =>
      rw [if_neg (by simp)]
      exact ⟨a', by simp, by simpa using hI'⟩
    | m + 1 =>
      have e2 : k + c * (m + 1 + 1) = k + c + c * (m + 1) := by rw [Nat.mul_succ c (m + 1)]; omega
      have hpos : 0 < c * (m + 1) := Nat.mul_pos hc (Nat.succ_pos m)
      rw [if_pos (by
        intro h
        have := Nat.eq_of_mul_eq_mul_left hs h
        omega)]
      rw [e2]
      exact removeLoop_spec hT he val m f (k + c) a' (by omega) (by omega) hI'

theorem removeScalar_spec {s : Nat} (hs : 0 < s) {a0 : List Elem} (val : Elem) :
    ∀ (n f k : Nat) (a : List Elem), n < f → k + n = a0.length → Inv a0 ((a0.take k).filter (· != val)) k a →
      ∃ a', removeScalar s val f (s * k) (s * ((a0.take k).filter (· != val)).length) a = some (a', s * (a0.filter (· != val)).length) ∧
        Inv a0 (a0.filter (· != val)) a0.length a'
  | n, 0, k, a, hf, _, _ => by omega
  | 0, f + 1, k, a, hf, hk, hI => by
    have hk : k = a0.length := by omega
    subst hk
    rw [List.take_length] at hI ⊢
    refine ⟨a, ?_, hI⟩
    unfold removeScalar
    rw [if_neg (by rw [hI.len]; simp)]
  | n + 1, f + 1, k, a, hf, hk, hI => by
    unfold removeScalar
    rw [if_pos (by
      rw [hI.len]
      intro h
      have := Nat.eq_of_mul_eq_mul_left hs h
      omega)]
    have hlen := hI.len
    have hgk := hI.gk
    have h1 := ld_some hs (a := a) (k := k) (c := 1) (by omega)
    have hv : (a.drop k).take 1 = [a0[k]] := by
      rw [hI.src, take_one (by omega)]
    rw [Nat.mul_one, hv] at h1
    have ht : (a0.take (k + 1)).filter (· != val) = (a0.take k).filter (· != val) ++ [a0[k]].filter (· != val) := by
      rw [take_add_filter]; congr 1
      rw [take_one (by omega)]
    simp only [Option.bind_eq_bind, h1, Option.bind_some]
    by_cases hx : a0[k] = val
    · rw [if_neg (by simp [hx])]
      have ht' : (a0.take (k + 1)).filter (· != val) = (a0.take k).filter (· != val) := by rw [ht]; simp [hx]
      have := removeScalar_spec hs val n f (k + 1) a (by omega) (by omega) ⟨hI.len, by rw [ht']; omega, by omega, by rw [ht', hI.tk], by
        rw [← List.drop_drop, hI.dk, List.drop_drop]⟩
      rw [ht'] at this
      simpa [Nat.mul_add] using this
    · rw [if_pos (by simpa using hx)]
      have ht' : (a0.take (k + 1)).filter (· != val) = (a0.take k).filter (· != val) ++ [a0[k]] := by rw [ht]; simp [hx]
      rw [st_some hs (by simp; omega)]
      simp only [Option.bind_some]
      have hI' : Inv a0 ((a0.take (k + 1)).filter (· != val)) (k + 1) (wr a ((a0.take k).filter (· != val)).length [a0[k]]) := by
        refine ⟨?_, ?_, by omega, ?_, ?_⟩
        · rw [wr_length (by simp; omega), hI.len]
        · rw [ht', List.length_append]; simp; omega
        · rw [ht', List.length_append, wr_take' (by omega), hI.tk]
        · rw [wr_drop (by omega) (by simp; omega), ← List.drop_drop, hI.dk, List.drop_drop]
      have := removeScalar_spec hs val n f (k + 1) _ (by omega) (by omega) hI'
      rw [ht', List.length_append] at this
      simpa [Nat.mul_add] using this

theorem Inv.init {a0 : List Elem} : Inv a0 [] 0 a0 := ⟨rfl, by simp, by simp, by simp, rfl⟩

theorem remove_spec (c : Cpu) {s : Nat} (hs : s = 1 ∨ s = 2 ∨ s = 4 ∨ s = 8) {a : List Elem} (he : ∀ x ∈ a, x.length = s) (val : Elem) :
    ∃ a', remove c s a val = some (a', s * (a.filter (· != val)).length) ∧ Inv a (a.filter (· != val)) a.length a' := by
  have hs0 : 0 < s := by omega
  have hsz : a.length ≤ s * a.length := Nat.le_mul_of_pos_left _ hs0
  unfold remove
  cases hp : pick c s (s * a.length) with
  | none =>
    have := removeScalar_spec hs0 (a0 := a) val a.length (s * a.length + 1) 0 a (by omega) (by omega) (by simpa using Inv.init)
    simp only [hp]
    simpa using this
  | some T =>
    obtain ⟨rfl, hst, n, hT⟩ := pick_some hs hp
    simp only [hp]
    rw [hT.step] at hst
    have hn : n ≤ a.length := Nat.le_of_mul_le_mul_left hst hs0
    obtain ⟨m, hm⟩ : ∃ m, a.length / n = m + 1 := ⟨a.length / n - 1, by have := Nat.div_pos hn hT.hc; omega⟩
    have hle : n * (m + 1) ≤ a.length := by rw [← hm]; exact Nat.mul_div_le _ _
    have hmf : m < T.s * a.length + 1 := by
      have := Nat.div_le_self a.length n
      omega
    obtain ⟨a1, e1, hI⟩ := removeLoop_spec hT he val m (T.s * a.length + 1) 0 a hmf (by omega) (by simpa using Inv.init)
    simp only [hT.step, full_eq hs0, hm]
    simp only [Nat.zero_add, Nat.mul_zero, List.take_zero, List.filter_nil, List.length_nil] at e1 hI
    rw [e1]
    simp only [Option.bind_eq_bind, Option.bind_some]
    exact removeScalar_spec hs0 val (a.length - n * (m + 1)) _ _ a1 (by omega) (by omega) hI

/-! ## remove_copy -/

/-- Copy: `g` is in the destination, the rest is as before. -/
structure InvD (d0 g d : List Elem) : Prop where
  len : d.length = d0.length
  gl : g.length ≤ d0.length
  eq : d = g ++ d0.drop g.length

theorem InvD.store {d0 g d x : List Elem} (h : InvD d0 g d) (hx : (g ++ x).length ≤ d0.length) : InvD d0 (g ++ x) (wr d g.length x) := by
  rw [List.length_append] at hx
  have h1 := h.len
  have h2 := h.gl
  refine ⟨by rw [wr_length (by omega), h1], by simp; omega, ?_⟩
  have e := h.eq
  rw [e, wr, List.take_left' rfl, List.drop_append, List.drop_eq_nil_of_le (by omega), List.drop_drop]
  simp only [List.nil_append, List.length_append]
  congr 2
  omega

theorem flush_some {s : Nat} (hs : 0 < s) {d0 g d b buf : List Elem} (h : InvD d0 g d) (hb : buf.take b.length = b) (hx : (g ++ b).length ≤ d0.length) :
    ∃ d', flush s buf (s * b.length) d (s * g.length) = some d' ∧ InvD d0 (g ++ b) d' := by
  have hle : b.length ≤ buf.length := by
    have := congrArg List.length hb
    simp at this; exact this
  refine ⟨_, ?_, h.store hx⟩
  have h1 := h.len
  rw [List.length_append] at hx
  unfold flush
  rw [if_pos (Nat.mul_le_mul_left _ hle), Nat.mul_div_cancel_left _ hs, hb, st_some hs (by omega)]

/-- A store into the buffer. -/
theorem buf_step {T : Tr} {c : Nat} (hT : T.Ok c) {b buf v : List Elem} (hb : buf.take b.length = b) (hl : b.length + c ≤ buf.length)
    (hv : ∀ x ∈ v, x.length = T.s) (hvl : v.length = c) {bs : List Bool} (hbs : bs.length = c) :
    ∃ buf', storeMasked T buf (T.s * b.length) v (movemask 1 bs) = some (buf', T.s * (b ++ keep bs v).length) ∧ buf'.length = buf.length ∧
      buf'.take (b ++ keep bs v).length = b ++ keep bs v := by
  have hkl := hvl ▸ keep_length_le bs v
  have hsz : (keep bs v ++ v.drop (keep bs v).length).length = c := by simp [hvl]; omega
  refine ⟨wr buf b.length (keep bs v ++ v.drop (keep bs v).length), ?_, ?_, ?_⟩
  · rw [storeMasked_some hT hv hvl hbs (by omega), List.length_append]
  · exact wr_length (by omega)
  · rw [List.length_append, wr_take (by omega), hb]

theorem removeCopyLoop_spec {T : Tr} {c : Nat} (hT : T.Ok c) {a0 : List Elem} (he : ∀ x ∈ a0, x.length = T.s) (val : Elem) {d0 : List Elem}
    (hd0 : (a0.filter (· != val)).length ≤ d0.length) :
    ∀ (m f k : Nat) (buf b d g : List Elem), m < f → k + c * (m + 1) ≤ a0.length → g ++ b = (a0.take k).filter (· != val) → InvD d0 g d →
      T.s * buf.length = 512 → buf.take b.length = b → T.s * b.length < 512 - T.step →
      ∃ d', removeCopyLoop T a0 val (T.s * (k + c * (m + 1))) f (T.s * k) buf (T.s * b.length) d (T.s * g.length) =
          some (d', T.s * ((a0.take (k + c * (m + 1))).filter (· != val)).length) ∧
        InvD d0 ((a0.take (k + c * (m + 1))).filter (· != val)) d'
  | m, 0, k, buf, b, d, g, hf, _, _, _, _, _, _ => by omega
  | m, f + 1, k, buf, b, d, g, hf, hk, hgb, hD, hbl, hbt, hblt => by
    have hs := hT.s0
    have hc := hT.hc
    have h32 := hT.step32
    have hstep := hT.step
    have hkc : k + c ≤ a0.length := by
      have : c ≤ c * (m + 1) := Nat.le_mul_of_pos_right c (Nat.succ_pos m)
      omega
    have hl : ((a0.drop k).take c).length = c := by simp; omega
    have hv : ∀ x ∈ (a0.drop k).take c, x.length = T.s := fun x hx => he x (List.mem_of_mem_drop (List.mem_of_mem_take hx))
    have hroom : b.length + c ≤ buf.length := by
      have : T.s * (b.length + c) ≤ T.s * buf.length := by rw [Nat.mul_add, hbl]; omega
      exact Nat.le_of_mul_le_mul_left this hs
    obtain ⟨buf', e1, hbl', hbt'⟩ := buf_step hT hbt hroom hv hl (bs := List.zipWith (· == ·) ((a0.drop k).take c) (List.replicate c val)) (by simp; omega)
    rw [keep_filter val c _ hl] at e1 hbt'
    generalize hb' : b ++ List.filter (fun x => x != val) ((a0.drop k).take c) = b' at e1 hbt'
    have hgb' : g ++ b' = (a0.take (k + c)).filter (· != val) := by
      rw [take_add_filter, ← hgb, List.append_assoc, hb']
    have hpre : ∀ j, ((a0.take j).filter (· != val)).length ≤ d0.length := fun j =>
      le_trans ((List.take_sublist j a0).filter _).length_le hd0
    unfold removeCopyLoop
    rw [hT.step, Nat.mul_div_cancel_left _ hs, ld_some hs hkc]
    simp only [Option.bind_eq_bind, Option.bind_some, mask, e1, bufSize]
    rw [← Nat.mul_add T.s k c]
    by_cases hfl : 512 - T.s * c ≤ T.s * b'.length
    · rw [if_pos hfl]
      obtain ⟨d', ed, hD'⟩ := flush_some hs hD hbt' (by rw [hgb']; exact hpre _)
      rw [ed]
      simp only [Option.map_some, Option.bind_some]
      rw [← Nat.mul_add, ← List.length_append]
      match m with
      | 0 =>
        rw [if_neg (by simp)]
        obtain ⟨d'', ed', hD''⟩ := flush_some hs hD' (b := []) (buf := buf') (by simp) (by simpa using hD'.gl)
        simp only [List.length_nil, Nat.mul_zero, List.append_nil] at ed' hD''
        rw [ed']
        refine ⟨d'', ?_, by rw [hgb'] at hD''; simpa using hD''⟩
        rw [hgb']; simp
      | m + 1 =>
        have e2 : k + c * (m + 1 + 1) = k + c + c * (m + 1) := by rw [Nat.mul_succ c (m + 1)]; omega
        have hpos : 0 < c * (m + 1) := Nat.mul_pos hc (Nat.succ_pos m)
        rw [if_pos (by
          intro h
          have := Nat.eq_of_mul_eq_mul_left hs h
          omega), e2]
        have := removeCopyLoop_spec hT he val hd0 m f (k + c) buf' [] d' (g ++ b') (by omega) (by omega) (by simpa using hgb') hD' (by rw [hbl', hbl]) (by simp)
          (by simp; omega)
        simpa using this
    · rw [if_neg hfl]
      match m with
      | 0 =>
        rw [if_neg (by simp)]
        obtain ⟨d', ed, hD'⟩ := flush_some hs hD hbt' (by rw [hgb']; exact hpre _)
        rw [ed]
        refine ⟨d', ?_, by rw [hgb'] at hD'; simpa using hD'⟩
        simp only [Option.map_some, Nat.zero_add, Nat.mul_one]
        rw [← Nat.mul_add, ← List.length_append, hgb']
      | m + 1 =>
        have e2 : k + c * (m + 1 + 1) = k + c + c * (m + 1) := by rw [Nat.mul_succ c (m + 1)]; omega
        have hpos : 0 < c * (m + 1) := Nat.mul_pos hc (Nat.succ_pos m)
        rw [if_pos (by
          intro h
          have := Nat.eq_of_mul_eq_mul_left hs h
          omega), e2]
        exact removeCopyLoop_spec hT he val hd0 m f (k + c) buf' b' d g (by omega) (by omega) hgb' hD (by rw [hbl', hbl]) hbt' (by omega)

theorem removeCopyScalar_spec {s : Nat} (hs : 0 < s) {a0 : List Elem} (val : Elem) {d0 : List Elem} (hd0 : (a0.filter (· != val)).length ≤ d0.length) :
    ∀ (n f k : Nat) (d : List Elem), n < f → k + n = a0.length → InvD d0 ((a0.take k).filter (· != val)) d →
      ∃ d', removeCopyScalar s a0 val f (s * k) d (s * ((a0.take k).filter (· != val)).length) = some (d', s * (a0.filter (· != val)).length) ∧
        InvD d0 (a0.filter (· != val)) d'
  | n, 0, k, d, hf, _, _ => by omega
  | 0, f + 1, k, d, hf, hk, hI => by
    have hk : k = a0.length := by omega
    subst hk
    rw [List.take_length] at hI ⊢
    refine ⟨d, ?_, hI⟩
    unfold removeCopyScalar
    rw [if_neg (by simp)]
  | n + 1, f + 1, k, d, hf, hk, hI => by
    unfold removeCopyScalar
    rw [if_pos (by
      intro h
      have := Nat.eq_of_mul_eq_mul_left hs h
      omega)]
    have h1 := ld_some hs (a := a0) (k := k) (c := 1) (by omega)
    have hv : (a0.drop k).take 1 = [a0[k]] := by
      rw [take_one (by omega)]
    rw [Nat.mul_one, hv] at h1
    have ht : (a0.take (k + 1)).filter (· != val) = (a0.take k).filter (· != val) ++ [a0[k]].filter (· != val) := by
      rw [take_add_filter]; congr 1
      rw [take_one (by omega)]
    simp only [Option.bind_eq_bind, h1, Option.bind_some]
    by_cases hx : a0[k] = val
    · rw [if_neg (by simp [hx])]
      have ht' : (a0.take (k + 1)).filter (· != val) = (a0.take k).filter (· != val) := by rw [ht]; simp [hx]
      have := removeCopyScalar_spec hs val hd0 n f (k + 1) d (by omega) (by omega) (by rw [ht']; exact hI)
      rw [ht'] at this
      simpa [Nat.mul_add] using this
    · rw [if_pos (by simpa using hx)]
      have ht' : (a0.take (k + 1)).filter (· != val) = (a0.take k).filter (· != val) ++ [a0[k]] := by rw [ht]; simp [hx]
      have hroom : ((a0.take k).filter (· != val) ++ [a0[k]]).length ≤ d0.length := by
        rw [← ht']; exact le_trans ((List.take_sublist _ a0).filter _).length_le hd0
      have hlen := hI.len
      rw [st_some hs (by rw [← List.length_append, hlen]; exact hroom)]
      simp only [Option.bind_some]
      have := removeCopyScalar_spec hs val hd0 n f (k + 1) _ (by omega) (by omega) (by rw [ht']; exact hI.store hroom)
      rw [ht', List.length_append] at this
      simpa [Nat.mul_add] using this

theorem InvD.init {d0 : List Elem} : InvD d0 [] d0 := ⟨rfl, by simp, by simp⟩

theorem removeCopy_spec (c : Cpu) {s : Nat} (hs : s = 1 ∨ s = 2 ∨ s = 4 ∨ s = 8) {a : List Elem} (he : ∀ x ∈ a, x.length = s) (val : Elem)
    {buf d : List Elem} (hbuf : s * buf.length = 512) (hd : (a.filter (· != val)).length ≤ d.length) :
    removeCopy c s buf a val d = some (a.filter (· != val) ++ d.drop (a.filter (· != val)).length, s * (a.filter (· != val)).length) := by
  have hs0 : 0 < s := by omega
  have hsz : a.length ≤ s * a.length := Nat.le_mul_of_pos_left _ hs0
  suffices h : ∃ d', removeCopy c s buf a val d = some (d', s * (a.filter (· != val)).length) ∧ InvD d (a.filter (· != val)) d' by
    obtain ⟨d', e, hD⟩ := h
    rw [e, hD.eq]
  unfold removeCopy
  cases hp : pick c s (s * a.length) with
  | none =>
    have := removeCopyScalar_spec hs0 (a0 := a) val hd a.length (s * a.length + 1) 0 d (by omega) (by omega) (by simpa using InvD.init)
    simp only [hp]
    simpa using this
  | some T =>
    obtain ⟨rfl, hst, n, hT⟩ := pick_some hs hp
    simp only [hp]
    rw [hT.step] at hst
    have hn : n ≤ a.length := Nat.le_of_mul_le_mul_left hst hs0
    obtain ⟨m, hm⟩ : ∃ m, a.length / n = m + 1 := ⟨a.length / n - 1, by have := Nat.div_pos hn hT.hc; omega⟩
    have hle : n * (m + 1) ≤ a.length := by rw [← hm]; exact Nat.mul_div_le _ _
    have hmf : m < T.s * a.length + 1 := by
      have := Nat.div_le_self a.length n
      omega
    have h32 := hT.step32
    obtain ⟨a1, e1, hI⟩ := removeCopyLoop_spec hT he val hd m (T.s * a.length + 1) 0 buf [] d [] hmf (by omega) (by simp) InvD.init hbuf (by simp) (by simp; omega)
    simp only [hT.step, full_eq hs0, hm]
    simp only [Nat.zero_add, Nat.mul_zero, List.length_nil] at e1 hI
    rw [e1]
    simp only [Option.bind_eq_bind, Option.bind_some]
    exact removeCopyScalar_spec hs0 val hd (a.length - n * (m + 1)) _ _ a1 (by omega) (by omega) hI

end STL.VWrite
