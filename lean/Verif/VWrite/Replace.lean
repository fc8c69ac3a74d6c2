import Verif.VWrite.Remove
import Verif.VAlg.Find

/-! # replace, replace_copy and swap_ranges -/

namespace STL.VWrite

open STL.VAlg (Cpu full Sz tailN tail_eq tailN_le tailMask)

/-- `old` is replaced by `new`. -/
def mp (old new x : Elem) : Elem := if x = old then new else x

theorem wr_set {a : List Elem} {k : Nat} (hk : k < a.length) (x : Elem) (v : List Elem) : wr (a.set k x) (k + 1) v = wr a k (x :: v) := by
  have h1 : (a.set k x).drop (k + 1 + v.length) = a.drop (k + 1 + v.length) := List.drop_set_of_lt (by omega)
  have h2 : (a.set k x).take (k + 1) = a.take k ++ [x] := by
    rw [List.take_succ_eq_append_getElem (by simpa using hk), List.take_set_of_le (by omega), List.getElem_set_self]
  unfold wr
  rw [h1, h2, List.length_cons, show k + 1 + v.length = k + (v.length + 1) by omega]
  simp

theorem wr_nil {a : List Elem} {k : Nat} : wr a k [] = a := by simp [wr]

theorem mst_false : ∀ (q : Nat) (a : List Elem) (k : Nat) (ys : List Elem), mst a k (List.replicate q false) ys = some a
  | 0, a, k, ys => by simp [mst]
  | q + 1, a, k, [] => by simp [List.replicate_succ, mst]
  | q + 1, a, k, y :: ys => by
    rw [List.replicate_succ, mst]; simp [mst_false q]

theorem mst_rep : ∀ (r q : Nat) (a : List Elem) (k : Nat) (ys : List Elem), r ≤ ys.length → k + r ≤ a.length →
    mst a k (List.replicate r true ++ List.replicate q false) ys = some (wr a k (ys.take r))
  | 0, q, a, k, ys, _, _ => by rw [List.replicate_zero, List.nil_append, mst_false, List.take_zero, wr_nil]
  | r + 1, q, a, k, [], h, _ => by simp at h
  | r + 1, q, a, k, y :: ys, h, hk => by
    rw [List.replicate_succ, List.cons_append, mst, if_pos rfl, if_pos (by omega)]
    rw [mst_rep r q (a.set k y) (k + 1) ys (by simpa using h) (by simp; omega), wr_set (by omega), List.take_succ_cons]

theorem tailMask_eq {s r : Nat} (hs : 0 < s) (hr : r ≤ 32 / s) : tailMask s (s * r) = List.replicate r true ++ List.replicate (32 / s - r) false := by
  unfold tailMask
  apply List.ext_getElem
  · simp; omega
  · intro i h1 h2
    simp only [List.getElem_map, List.getElem_range, List.getElem_append, List.length_replicate, List.getElem_replicate]
    by_cases h : i < r
    · simp [h, hs]
    · simp [h, hs]

theorem blend_eq (old new : Elem) : ∀ (c : Nat) (x : List Elem), x.length = c → blend x (List.replicate c new) (x.map (· == old)) = x.map (mp old new)
  | 0, [], _ => by simp [blend]
  | c + 1, y :: x, h => by
    have := blend_eq old new c x (by simpa using h)
    unfold blend at this ⊢
    simp only [List.replicate_succ, List.zip_cons_cons, List.map_cons, List.zipWith_cons_cons, this]
    congr 1
    by_cases hy : y = old <;> simp [mp, hy]

theorem copy_step {a0 d0 d : List Elem} {k r : Nat} {f : Elem → Elem} (hk : k + r ≤ a0.length) (hd : a0.length ≤ d0.length) (h : InvD d0 ((a0.take k).map f) d) :
    InvD d0 ((a0.take (k + r)).map f) (wr d k (((a0.drop k).take r).map f)) := by
  have hl : ((a0.take k).map f).length = k := by simp; omega
  have e : (a0.take (k + r)).map f = (a0.take k).map f ++ ((a0.drop k).take r).map f := by rw [List.take_add, List.map_append]
  have := h.store (x := ((a0.drop k).take r).map f) (by rw [← e]; simp; omega)
  rwa [← e, hl] at this

theorem replaceCopyLoop_spec {s c : Nat} (hs : 0 < s) (hc : 0 < c) {a0 d0 : List Elem} (old new : Elem) (hd : a0.length ≤ d0.length) :
    ∀ (m f k : Nat) (d : List Elem), m < f → k + c * (m + 1) ≤ a0.length → InvD d0 ((a0.take k).map (mp old new)) d →
      ∃ d', replaceCopyLoop s (s * c) a0 old new (s * (k + c * (m + 1))) f (s * k) d = some (s * (k + c * (m + 1)), d') ∧
        InvD d0 ((a0.take (k + c * (m + 1))).map (mp old new)) d'
  | m, 0, k, d, hf, _, _ => by omega
  | m, f + 1, k, d, hf, hk, hI => by
    have hkc : k + c ≤ a0.length := by
      have : c ≤ c * (m + 1) := Nat.le_mul_of_pos_right c (Nat.succ_pos m)
      omega
    have hl : ((a0.drop k).take c).length = c := by simp; omega
    have hI' := copy_step hkc hd hI
    have hlen := hI.len
    unfold replaceCopyLoop
    rw [Nat.mul_div_cancel_left _ hs, ld_some hs hkc]
    simp only [Option.bind_eq_bind, Option.bind_some]
    rw [blend_eq old new c _ hl, st_some hs (by rw [List.length_map, hl]; omega)]
    simp only [Option.bind_some]
    rw [← Nat.mul_add]
    match m with
    | 0 =>
      rw [if_neg (by simp)]
      exact ⟨_, by simp; rfl, by simpa using hI'⟩
    | m + 1 =>
      have e2 : k + c * (m + 1 + 1) = k + c + c * (m + 1) := by rw [Nat.mul_succ c (m + 1)]; omega
      have hpos : 0 < c * (m + 1) := Nat.mul_pos hc (Nat.succ_pos m)
      rw [if_pos (by
        intro h
        have := Nat.eq_of_mul_eq_mul_left hs h
        omega), e2]
      exact replaceCopyLoop_spec hs hc old new hd m f (k + c) _ (by omega) (by omega) hI'

theorem replaceCopyScalar_spec {s : Nat} (hs : 0 < s) {a0 d0 : List Elem} (old new : Elem) (hd : a0.length ≤ d0.length) :
    ∀ (n f k : Nat) (d : List Elem), n < f → k + n = a0.length → InvD d0 ((a0.take k).map (mp old new)) d →
      ∃ d', replaceCopyScalar s a0 old new f (s * k) d = some d' ∧ InvD d0 (a0.map (mp old new)) d'
  | n, 0, k, d, hf, _, _ => by omega
  | 0, f + 1, k, d, hf, hk, hI => by
    have hk : k = a0.length := by omega
    subst hk
    rw [List.take_length] at hI
    unfold replaceCopyScalar
    rw [if_neg (by simp)]
    exact ⟨d, rfl, hI⟩
  | n + 1, f + 1, k, d, hf, hk, hI => by
    have hI' := copy_step (r := 1) (by omega) hd hI
    have hlen := hI.len
    have h1 := ld_some hs (a := a0) (k := k) (c := 1) (by omega)
    rw [Nat.mul_one, take_one (by omega)] at h1
    rw [take_one (by omega)] at hI'
    unfold replaceCopyScalar
    rw [if_pos (by
      intro h
      have := Nat.eq_of_mul_eq_mul_left hs h
      omega)]
    simp only [Option.bind_eq_bind, h1, Option.bind_some]
    have e : (if [a0[k]] = [old] then [new] else [a0[k]]) = [a0[k]].map (mp old new) := by
      by_cases h : a0[k] = old <;> simp [mp, h]
    rw [e, st_some hs (by simp; omega)]
    simp only [Option.bind_some]
    rw [show s * k + s = s * (k + 1) by rw [Nat.mul_succ]]
    exact replaceCopyScalar_spec hs old new hd n f (k + 1) _ (by omega) (by omega) hI'

theorem mld_some {s k r : Nat} (hs : Sz s) {a : List Elem} (h : k + r ≤ a.length) (hr : s * r ≤ 32) :
    mld s a (s * k) (s * r) = some ((a.drop k).take r ++ List.replicate (32 / s - r) (List.replicate s 0)) := by
  have hs0 : 0 < s := hs.pos
  have h1 : s * k + s * r ≤ s * a.length := by rw [← Nat.mul_add]; exact Nat.mul_le_mul_left _ h
  have h2 : (32 - s * r) / s = 32 / s - r := by
    have := hs.v32
    conv => lhs; rw [← this]
    rw [← Nat.mul_sub, Nat.mul_div_cancel_left _ hs0]
  simp [mld, h1, hr, h2, Nat.mul_div_cancel_left _ hs0]

theorem tail_le {s n : Nat} (hs : Sz s) : tailN s n ≤ 32 / s := by
  have := (tailN_le (n := n) hs).2.1
  rw [Nat.le_div_iff_mul_le hs.pos, Nat.mul_comm]; exact this

theorem replaceCopyTail_spec {s : Nat} (hs : Sz s) {a0 d0 : List Elem} (old new : Elem) (hd : a0.length ≤ d0.length) {k : Nat} {d : List Elem}
    (hk : k = 32 / s * (a0.length / (32 / s))) (hI : InvD d0 ((a0.take k).map (mp old new)) d) :
    ∃ d', replaceCopyTail s a0 old new (s * k) d = some (s * (k + tailN s a0.length), d') ∧ InvD d0 ((a0.take (k + tailN s a0.length)).map (mp old new)) d' := by
  have hs0 : 0 < s := hs.pos
  obtain ⟨t1, t2, _⟩ := tailN_le (n := a0.length) hs
  rw [Nat.mul_comm, ← hk] at t1
  have t3 := tail_le (n := a0.length) hs
  unfold replaceCopyTail
  rw [tail_eq hs]
  generalize tailN s a0.length = r at *
  simp only []
  by_cases h0 : r = 0
  · subst h0
    exact ⟨d, by simp, by simpa using hI⟩
  · rw [if_pos (by
      intro h
      rcases Nat.mul_eq_zero.1 h with h | h <;> omega)]
    have hlen := hI.len
    rw [mld_some hs t1 t2]
    simp only [Option.bind_eq_bind, Option.bind_some]
    have hl : ((a0.drop k).take r ++ List.replicate (32 / s - r) (List.replicate s 0)).length = 32 / s := by simp; omega
    rw [blend_eq old new _ _ hl, tailMask_eq hs0 t3, Nat.mul_div_cancel_left _ hs0, mst_rep _ _ _ _ _ (by rw [List.length_map, hl]; exact t3) (by omega)]
    simp only [Option.bind_some]
    rw [List.map_append, List.take_left' (by simp; omega), ← Nat.mul_add]
    exact ⟨_, rfl, copy_step t1 hd hI⟩

theorem replaceCopy_spec (c : Cpu) {s : Nat} (hs : Sz s) {a d : List Elem} (old new : Elem) (hd : a.length ≤ d.length) :
    replaceCopy c s a old new d = some (a.map (mp old new) ++ d.drop a.length) := by
  have hs0 : 0 < s := hs.pos
  have hsz : a.length ≤ s * a.length := Nat.le_mul_of_pos_left _ hs0
  suffices h : ∃ d', replaceCopy c s a old new d = some d' ∧ InvD d (a.map (mp old new)) d' by
    obtain ⟨d', e, hD⟩ := h
    rw [e, hD.eq, List.length_map]
  have h0 : InvD d ((a.take 0).map (mp old new)) d := by simpa using InvD.init
  have main : ∀ v, 0 < v → full (s * a.length) (s * v) ≠ 0 → ∃ d', replaceCopyLoop s (s * v) a old new (full (s * a.length) (s * v)) (s * a.length + 1) 0 d =
      some (s * (v * (a.length / v)), d') ∧ InvD d ((a.take (v * (a.length / v))).map (mp old new)) d' := by
    intro v hv hne
    rw [full_eq hs0] at hne ⊢
    obtain ⟨m, hm⟩ : ∃ m, a.length / v = m + 1 := ⟨a.length / v - 1, by
      have : a.length / v ≠ 0 := by intro h; rw [h] at hne; simp at hne
      have := Nat.pos_of_ne_zero this
      exact (Nat.sub_add_cancel this).symm⟩
    have hle : v * (m + 1) ≤ a.length := by rw [← hm]; exact Nat.mul_div_le _ _
    have := Nat.div_le_self a.length v
    have := replaceCopyLoop_spec hs0 hv old new hd m (s * a.length + 1) 0 d (by omega) (by omega) h0
    rw [hm]
    simpa using this
  unfold replaceCopy
  simp only []
  split
  · next h =>
    obtain ⟨d1, e1, hI1⟩ := main (32 / s) (by rcases hs with rfl | rfl | rfl | rfl <;> decide) (by rw [hs.v32]; exact h.1)
    rw [hs.v32] at e1
    obtain ⟨d2, e2, hI2⟩ := replaceCopyTail_spec hs old new hd rfl hI1
    simp only [Option.bind_eq_bind, e1, e2, Option.bind_some]
    obtain ⟨t1, _, t4⟩ := tailN_le (n := a.length) hs
    rw [Nat.mul_comm] at t1 t4
    split
    · next h4 =>
      rw [t4 h4, List.take_length] at hI2
      exact ⟨d2, rfl, hI2⟩
    · exact replaceCopyScalar_spec hs0 old new hd (a.length - (32 / s * (a.length / (32 / s)) + tailN s a.length)) _ _ d2 (by omega) (by omega) hI2
  · split
    · next h =>
      obtain ⟨d1, e1, hI1⟩ := main (16 / s) (by rcases hs with rfl | rfl | rfl | rfl <;> decide) (by rw [hs.v16]; exact h.1)
      rw [hs.v16] at e1
      simp only [Option.bind_eq_bind, e1, Option.bind_some]
      have hle := Nat.mul_div_le a.length (16 / s)
      exact replaceCopyScalar_spec hs0 old new hd (a.length - 16 / s * (a.length / (16 / s))) _ _ d1 (by omega) (by omega) hI1
    · have := replaceCopyScalar_spec hs0 old new hd a.length (s * a.length + 1) 0 d (by omega) (by omega) h0
      simpa using this

/-! ## replace -/

theorem mst_replace (old new : Elem) (q : Nat) (r : List Elem) : ∀ (v l : List Elem),
    mst (l ++ v ++ r) l.length (v.map (old == ·) ++ List.replicate q false) (List.replicate (v.length + q) new) = some (l ++ v.map (mp old new) ++ r)
  | [], l => by simp [mst_false]
  | x :: v, l => by
    rw [List.map_cons, List.cons_append, List.length_cons, show v.length + 1 + q = v.length + q + 1 by omega, List.replicate_succ, mst]
    by_cases h : x = old
    · have hset : (l ++ x :: v ++ r).set l.length new = (l ++ [new]) ++ v ++ r := by simp
      have := mst_replace old new q r v (l ++ [new])
      rw [List.length_append] at this
      rw [if_pos (by simp [h]), if_pos (by simp), hset]
      rw [show l.length + 1 = l.length + [new].length by rfl, this]
      simp [mp, h]
    · have := mst_replace old new q r v (l ++ [x])
      rw [List.length_append] at this
      rw [if_neg (by simpa using fun h' => h h'.symm), show l ++ x :: v ++ r = l ++ [x] ++ v ++ r by simp]
      rw [show l.length + 1 = l.length + [x].length by rfl, this]
      simp [mp, h]

theorem mst_step (old new : Elem) (q : Nat) {a0 : List Elem} {k c : Nat} (hk : k + c ≤ a0.length) :
    mst ((a0.take k).map (mp old new) ++ a0.drop k) k (((a0.drop k).take c).map (old == ·) ++ List.replicate q false) (List.replicate (c + q) new) =
      some ((a0.take (k + c)).map (mp old new) ++ a0.drop (k + c)) := by
  have := mst_replace old new q (a0.drop (k + c)) ((a0.drop k).take c) ((a0.take k).map (mp old new))
  have h1 : ((a0.take k).map (mp old new)).length = k := by simp; omega
  have h2 : ((a0.drop k).take c).length = c := by simp; omega
  have h3 : (a0.drop k).take c ++ a0.drop (k + c) = a0.drop k := by
    rw [show a0.drop (k + c) = (a0.drop k).drop c by rw [List.drop_drop], List.take_append_drop]
  rw [h1, h2, List.append_assoc, h3, ← List.map_append, ← List.take_add] at this
  exact this

theorem replaceLoop_spec {s c : Nat} (hs : 0 < s) (hc : 0 < c) (h32 : 32 = s * c) {a0 : List Elem} (old new : Elem) :
    ∀ (m f k : Nat), m < f → k + c * m ≤ a0.length →
      replaceLoop s old new (s * (k + c * m)) f (s * k) ((a0.take k).map (mp old new) ++ a0.drop k) =
        some (s * (k + c * m), (a0.take (k + c * m)).map (mp old new) ++ a0.drop (k + c * m))
  | m, 0, k, hf, _ => by omega
  | 0, f + 1, k, hf, hk => by
    unfold replaceLoop
    rw [if_neg (by simp)]; simp
  | m + 1, f + 1, k, hf, hk => by
    have e2 : k + c * (m + 1) = k + c + c * m := by rw [Nat.mul_succ c m]; omega
    have hl : ((a0.take k).map (mp old new)).length = k := by simp; omega
    have hdrop : ((a0.take k).map (mp old new) ++ a0.drop k).drop k = a0.drop k := by
      rw [List.drop_left' hl]
    have hst := mst_step old new 0 (a0 := a0) (k := k) (c := c) (by omega)
    simp only [List.replicate_zero, List.append_nil, Nat.add_zero] at hst
    unfold replaceLoop
    rw [if_pos (by
      intro h
      have := Nat.eq_of_mul_eq_mul_left hs h
      omega)]
    rw [h32, ld_some hs (by simp; omega), hdrop]
    simp only [Option.bind_eq_bind, Option.bind_some, Nat.mul_div_cancel_left _ hs]
    rw [hst]
    simp only [Option.bind_some]
    rw [← Nat.mul_add, e2]
    exact replaceLoop_spec hs hc h32 old new m f (k + c) (by omega) (by omega)

theorem replaceScalar_spec {s : Nat} (hs : 0 < s) {a0 : List Elem} (old new : Elem) :
    ∀ (n f k : Nat), n < f → k + n = a0.length →
      replaceScalar s old new f (s * k) ((a0.take k).map (mp old new) ++ a0.drop k) = some (a0.map (mp old new))
  | n, 0, k, hf, _ => by omega
  | 0, f + 1, k, hf, hk => by
    have hk : k = a0.length := by omega
    subst hk
    unfold replaceScalar
    rw [if_neg (by simp)]; simp
  | n + 1, f + 1, k, hf, hk => by
    have hl : ((a0.take k).map (mp old new)).length = k := by simp; omega
    have hlen : ((a0.take k).map (mp old new) ++ a0.drop k).length = a0.length := by simp; omega
    have hdrop : ((a0.take k).map (mp old new) ++ a0.drop k).drop k = a0.drop k := by
      rw [List.drop_left' hl]
    have h1 := ld_some hs (a := (a0.take k).map (mp old new) ++ a0.drop k) (k := k) (c := 1) (by omega)
    rw [Nat.mul_one, hdrop, take_one (by omega)] at h1
    have hnext : (a0.take (k + 1)).map (mp old new) ++ a0.drop (k + 1) = (a0.take k).map (mp old new) ++ [mp old new a0[k]] ++ a0.drop (k + 1) := by
      rw [List.take_succ_eq_append_getElem (by omega), List.map_append]; rfl
    have ih := replaceScalar_spec (a0 := a0) hs old new n f (k + 1) (by omega) (by omega)
    unfold replaceScalar
    rw [if_pos (by
      rw [hlen]
      intro h
      have := Nat.eq_of_mul_eq_mul_left hs h
      omega)]
    simp only [Option.bind_eq_bind, h1, Option.bind_some]
    by_cases h : a0[k] = old
    · rw [if_pos (by rw [h]), st_some hs (by rw [hlen]; simp; omega)]
      simp only [Option.bind_some]
      rw [show s * k + s = s * (k + 1) by rw [Nat.mul_succ], ← ih, hnext]
      congr 1
      rw [wr, List.take_left' hl, ← List.drop_drop, hdrop, List.drop_drop]
      simp [mp, h]
    · rw [if_neg (by simpa using h)]
      rw [show s * k + s = s * (k + 1) by rw [Nat.mul_succ], ← ih, hnext]
      congr 1
      rw [List.drop_eq_getElem_cons (by omega)]
      simp [mp, h]

theorem and_18 (n : Nat) : (8 * n) &&& 0x18 = 8 * (n % 4) := by
  have h1 : (8 * n) &&& 31 = (8 * n) % 32 := Nat.and_two_pow_sub_one_eq_mod _ 5
  have h2 : (8 * n) &&& 0x18 = ((8 * n) % 32) &&& 0x18 := by rw [← h1, Nat.and_assoc]; rfl
  rw [h2, show (8 * n) % 32 = 8 * (n % 4) by omega]
  have hy : ∀ y < 4, (8 * y) &&& 0x18 = 8 * y := by decide
  exact hy _ (Nat.mod_lt _ (by omega))

theorem replace_spec (c : Cpu) {s : Nat} (hs : s = 4 ∨ s = 8) {a : List Elem} (old new : Elem) :
    replace c s a old new = some (a.map (mp old new)) := by
  have hS : Sz s := by rcases hs with rfl | rfl <;> simp [Sz]
  have hs0 : 0 < s := hS.pos
  have hsz : a.length ≤ s * a.length := Nat.le_mul_of_pos_left _ hs0
  unfold replace
  simp only []
  split
  · have hv : 0 < 32 / s := by rcases hs with rfl | rfl <;> decide
    have h32 := hS.v32
    have hle := Nat.mul_div_le a.length (32 / s)
    have hdl := Nat.div_le_self a.length (32 / s)
    have e1 := replaceLoop_spec hs0 hv h32.symm (a0 := a) old new (a.length / (32 / s)) (s * a.length + 1) 0 (by omega) (by omega)
    have e2 : full (s * a.length) 32 = s * (32 / s * (a.length / (32 / s))) := by
      conv => lhs; rw [← h32]
      rw [full_eq hs0]
    have e3 : (s * a.length) &&& (if s = 8 then 0x18 else 0x1C) = s * (a.length % (32 / s)) := by
      rcases hs with rfl | rfl
      · rw [if_neg (by omega), STL.VAlg.and_1C]; omega
      · rw [if_pos rfl, and_18]
    simp only [List.take_zero, List.map_nil, List.drop_zero, List.nil_append, Nat.zero_add, Nat.mul_zero] at e1
    rw [e2, e1, e3]
    simp only [Option.bind_eq_bind, Option.bind_some]
    have hmod := Nat.div_add_mod a.length (32 / s)
    have hlt := Nat.mod_lt a.length hv
    generalize hK : 32 / s * (a.length / (32 / s)) = K at *
    generalize hR : a.length % (32 / s) = r at *
    by_cases h0 : r = 0
    · subst h0
      rw [if_neg (by simp)]
      rw [show K = a.length by omega]; simp
    · rw [if_pos (by
        intro h
        rcases Nat.mul_eq_zero.1 h with h | h <;> omega)]
      have hl : ((a.take K).map (mp old new)).length = K := by simp; omega
      have hr32 : s * r ≤ 32 := by
        calc s * r ≤ s * (32 / s) := Nat.mul_le_mul_left _ (by omega)
          _ = 32 := h32
      rw [mld_some hS (by simp; omega) hr32, List.drop_left' hl]
      simp only [Option.bind_some]
      rw [tailMask_eq hs0 (by omega), Nat.mul_div_cancel_left _ hs0, List.map_append, List.zipWith_append (by simp; omega)]
      have z1 : List.zipWith (· && ·) (((a.drop K).take r).map (old == ·)) (List.replicate r true) = ((a.drop K).take r).map (old == ·) := by
        apply List.ext_getElem
        · simp
        · intro i h1 h2; simp
      have z2 : List.zipWith (· && ·) ((List.replicate (32 / s - r) (List.replicate s 0)).map (old == ·)) (List.replicate (32 / s - r) false) = List.replicate (32 / s - r) false := by
        apply List.ext_getElem
        · simp
        · intro i h1 h2; simp
      rw [z1, z2]
      have := mst_step old new (32 / s - r) (a0 := a) (k := K) (c := r) (by omega)
      rw [show r + (32 / s - r) = 32 / s by omega, show K + r = a.length by omega] at this
      rw [this]
      simp
  · have := replaceScalar_spec hs0 (a0 := a) old new a.length (s * a.length + 1) 0 (by omega) (by omega)
    simpa using this

/-! ## swap_ranges -/

/-- The first `k` elements are exchanged. -/
def sw (k : Nat) (a b : List Elem) : List Elem := b.take k ++ a.drop k

theorem sw_length {k : Nat} {a b : List Elem} (ha : k ≤ a.length) (hb : k ≤ b.length) : (sw k a b).length = a.length := by simp [sw]; omega

theorem sw_step {k c : Nat} {a b : List Elem} (ha : k + c ≤ a.length) (hb : k + c ≤ b.length) :
    wr (sw k a b) k ((b.drop k).take c) = sw (k + c) a b := by
  have h1 : (b.take k).length = k := by simp; omega
  have h2 : ((b.drop k).take c).length = c := by simp; omega
  have h3 : (b.take k ++ a.drop k).drop (k + c) = a.drop (k + c) := by
    rw [List.drop_append, h1, List.drop_eq_nil_of_le (by omega), List.nil_append, List.drop_drop]
    congr 1; omega
  unfold wr sw
  rw [List.take_left' h1, h2, h3, List.take_add]

theorem sw_drop {k : Nat} {a b : List Elem} (hb : k ≤ b.length) : (sw k a b).drop k = a.drop k := by
  have h1 : (b.take k).length = k := by simp; omega
  rw [sw, List.drop_left' h1]

theorem swapLoop_spec {c : Nat} (hc : 0 < c) {a b : List Elem} :
    ∀ (m f k : Nat), m < f → k + c * (m + 1) ≤ a.length → k + c * (m + 1) ≤ b.length →
      swapLoop c (k + c * (m + 1)) f k (sw k a b) (sw k b a) = some (k + c * (m + 1), sw (k + c * (m + 1)) a b, sw (k + c * (m + 1)) b a)
  | m, 0, k, hf, _, _ => by omega
  | m, f + 1, k, hf, hka, hkb => by
    have : c ≤ c * (m + 1) := Nat.le_mul_of_pos_right c (Nat.succ_pos m)
    have ha : k + c ≤ a.length := by omega
    have hb : k + c ≤ b.length := by omega
    have la := sw_length (a := a) (b := b) (k := k) (by omega) (by omega)
    have lb := sw_length (a := b) (b := a) (k := k) (by omega) (by omega)
    have e1 := ld_some (s := 1) (by omega) (a := sw k a b) (k := k) (c := c) (by omega)
    have e2 := ld_some (s := 1) (by omega) (a := sw k b a) (k := k) (c := c) (by omega)
    rw [sw_drop (by omega)] at e1 e2
    have e3 := st_some (s := 1) (by omega) (a := sw k a b) (k := k) (v := (b.drop k).take c) (by simp; omega)
    have e4 := st_some (s := 1) (by omega) (a := sw k b a) (k := k) (v := (a.drop k).take c) (by simp; omega)
    rw [sw_step (by omega) (by omega)] at e3 e4
    simp only [Nat.one_mul] at e1 e2 e3 e4
    unfold swapLoop
    simp only [Option.bind_eq_bind, e1, e2, e3, e4, Option.bind_some]
    match m with
    | 0 => rw [if_neg (by simp)]; simp
    | m + 1 =>
      have e2 : k + c * (m + 1 + 1) = k + c + c * (m + 1) := by rw [Nat.mul_succ c (m + 1)]; omega
      have hpos : 0 < c * (m + 1) := Nat.mul_pos hc (Nat.succ_pos m)
      rw [e2, if_pos (by omega)]
      exact swapLoop_spec hc m f (k + c) (by omega) (by omega) (by omega)

theorem swapStep_spec {V : Nat} (hV : 0 < V) (use : Bool) {n k : Nat} {a b : List Elem} (hk : k ≤ n) (ha : n ≤ a.length) (hb : n ≤ b.length) :
    ∃ k', k' ≤ n ∧ swapStep V use n k (sw k a b) (sw k b a) = some (k', sw k' a b, sw k' b a) := by
  unfold swapStep
  split
  · next h =>
    obtain ⟨m, hm⟩ : ∃ m, (n - k) / V = m + 1 := ⟨(n - k) / V - 1, by have := Nat.div_pos h.1 hV; omega⟩
    have hle : V * (m + 1) ≤ n - k := by rw [← hm]; exact Nat.mul_div_le _ _
    have := Nat.div_le_self (n - k) V
    rw [full, hm, Nat.mul_comm]
    exact ⟨k + V * (m + 1), by omega, swapLoop_spec hV m (n + 1) k (by omega) (by omega) (by omega)⟩
  · exact ⟨k, hk, rfl⟩

theorem swapScalar_spec {n : Nat} {a b : List Elem} (ha : n ≤ a.length) (hb : n ≤ b.length) :
    ∀ (j f k : Nat), j < f → k + j = n → swapScalar n f k (sw k a b) (sw k b a) = some (sw n a b, sw n b a)
  | j, 0, k, hf, _ => by omega
  | 0, f + 1, k, hf, hk => by
    unfold swapScalar
    rw [if_neg (by omega), show k = n by omega]
  | j + 1, f + 1, k, hf, hk => by
    have la := sw_length (a := a) (b := b) (k := k) (by omega) (by omega)
    have lb := sw_length (a := b) (b := a) (k := k) (by omega) (by omega)
    have e1 := ld_some (s := 1) (by omega) (a := sw k a b) (k := k) (c := 1) (by omega)
    have e2 := ld_some (s := 1) (by omega) (a := sw k b a) (k := k) (c := 1) (by omega)
    rw [sw_drop (by omega)] at e1 e2
    have e3 := st_some (s := 1) (by omega) (a := sw k a b) (k := k) (v := (b.drop k).take 1) (by simp; omega)
    have e4 := st_some (s := 1) (by omega) (a := sw k b a) (k := k) (v := (a.drop k).take 1) (by simp; omega)
    rw [sw_step (by omega) (by omega)] at e3 e4
    simp only [Nat.one_mul] at e1 e2 e3 e4
    unfold swapScalar
    rw [if_pos (by omega)]
    simp only [Option.bind_eq_bind, e1, e2, e3, e4, Option.bind_some]
    exact swapScalar_spec ha hb j f (k + 1) (by omega) (by omega)

theorem swapRanges_spec (c : Cpu) {n : Nat} {a b : List Elem} (ha : n ≤ a.length) (hb : n ≤ b.length) :
    swapRanges c n a b = some (sw n a b, sw n b a) := by
  have z1 : a = sw 0 a b := by simp [sw]
  have z2 : b = sw 0 b a := by simp [sw]
  obtain ⟨k1, h1, e1⟩ := swapStep_spec (V := 32) (by omega) c.avx2 (Nat.zero_le n) ha hb
  obtain ⟨k2, h2, e2⟩ := swapStep_spec (V := 16) (by omega) c.sse42 h1 ha hb
  obtain ⟨k3, h3, e3⟩ := swapStep_spec (V := 8) (by omega) true h2 ha hb
  rw [← z1, ← z2] at e1
  unfold swapRanges
  simp only [Option.bind_eq_bind, e1, e2, e3, Option.bind_some]
  exact swapScalar_spec ha hb (n - k3) (n + 1) k3 (by omega) (by omega)

end STL.VWrite
