import Verif.VAlg.Find
import Mathlib.Algebra.BigOperators.Group.List.Basic

/-! # count. Proofs only. -/

namespace STL.VAlg

theorem sad_sum : ∀ (n : Nat) (v : List Nat), v.length = 8 * n → (sad n v).sum = v.sum
  | 0, v, h => by
    have : v = [] := List.eq_nil_of_length_eq_zero (by omega)
    subst this; rfl
  | n + 1, v, h => by
    unfold sad
    rw [List.sum_cons, sad_sum n (v.drop 8) (by simp; omega), ← List.sum_append, List.take_append_drop]

theorem reduce4Avx_eq (v : List Nat) (hl : v.length = 8) (hm : ∀ x ∈ v, x ≤ 0x1FFFFFFF) : reduce4Avx v = v.sum := by
  match v, hl with
  | [a, b, c, d, e, f, g, h], _ =>
    simp only [List.mem_cons, List.not_mem_nil, or_false, forall_eq_or_imp, forall_eq] at hm
    simp [reduce4Avx, haddAvx, haddSse, hadd, permute3120]
    omega

theorem reduce4Sse_eq (v : List Nat) (hl : v.length = 4) (hm : ∀ x ∈ v, x ≤ 0x1FFFFFFF) : reduce4Sse v = v.sum := by
  match v, hl with
  | [a, b, c, d], _ =>
    simp only [List.mem_cons, List.not_mem_nil, or_false, forall_eq_or_imp, forall_eq] at hm
    simp [reduce4Sse, haddSse, hadd]
    omega

theorem reduceAvx_eq {s size : Nat} (hs : Sz s) (v : List Nat) (hl : v.length = 32 / s) (hm : ∀ x ∈ v, x ≤ maxCount s size) : reduceAvx s v % 2 ^ 64 = v.sum % 2 ^ 64 := by
  rcases hs with rfl | rfl | rfl | rfl
  · simp [reduceAvx, sad_sum 4 v (by omega)]
  · have hm' : ∀ x ∈ v, x ≤ 0x7FFF := hm
    have he : reduceAvx 2 v = reduce4Avx ((haddAvx 16 v).take 4 ++ ((haddAvx 16 v).drop 8).take 4) := rfl
    rw [he]
    congr 1
    match v, hl with
    | [x0, x1, x2, x3, x4, x5, x6, x7, y0, y1, y2, y3, y4, y5, y6, y7], _ =>
      clear hm
      simp only [List.mem_cons, List.not_mem_nil, or_false, forall_eq_or_imp, forall_eq] at hm'
      rw [reduce4Avx_eq]
      · simp [haddAvx, haddSse, hadd]
        omega
      · simp [haddAvx, haddSse, hadd]
      · simp [haddAvx, haddSse, hadd]
        omega
  · have he : reduceAvx 4 v = reduce4Avx v := rfl
    rw [he, reduce4Avx_eq v hl hm]
  · simp [reduceAvx]

theorem reduceSse_eq {s size : Nat} (hs : Sz s) (v : List Nat) (hl : v.length = 16 / s) (hm : ∀ x ∈ v, x ≤ maxCount s size) : reduceSse s v % 2 ^ 64 = v.sum % 2 ^ 64 := by
  rcases hs with rfl | rfl | rfl | rfl
  · simp [reduceSse, sad_sum 2 v (by omega)]
  · have hm' : ∀ x ∈ v, x ≤ 0x7FFF := hm
    have he : reduceSse 2 v = reduce4Sse ((haddSse 16 v).take 4) := rfl
    rw [he]
    congr 1
    match v, hl with
    | [x0, x1, x2, x3, x4, x5, x6, x7], _ =>
      clear hm
      simp only [List.mem_cons, List.not_mem_nil, or_false, forall_eq_or_imp, forall_eq] at hm'
      rw [reduce4Sse_eq]
      · simp [haddSse, hadd]
        omega
      · rfl
      · simp [haddSse, hadd]
        omega
  · have he : reduceSse 4 v = reduce4Sse v := rfl
    rw [he, reduce4Sse_eq v hl hm]
  · simp [reduceSse]

theorem subLane_eq {w x : Nat} (m : Bool) (h : x + 1 < 2 ^ w) : subLane w x m = x + m.toNat := by
  unfold subLane
  cases m with
  | false => simp [Nat.mod_eq_of_lt (by omega : x < 2 ^ w)]
  | true =>
    simp only [if_true, Bool.toNat_true]
    rw [show x + 2 ^ w - (2 ^ w - 1) = x + 1 by omega, Nat.mod_eq_of_lt h]

theorem zip_sum {w t : Nat} (ht : t + 1 < 2 ^ w) : ∀ (cv : List Nat) (bs : List Bool), cv.length = bs.length → (∀ x ∈ cv, x ≤ t) →
    (List.zipWith (subLane w) cv bs).sum = cv.sum + bs.count true ∧ ∀ x ∈ List.zipWith (subLane w) cv bs, x ≤ t + 1
  | [], [], _, _ => by simp
  | x :: cv, b :: bs, hl, hm => by
    obtain ⟨h1, h2⟩ := zip_sum ht cv bs (by simpa using hl) (fun y hy => hm y (List.mem_cons_of_mem _ hy))
    have hx := hm x List.mem_cons_self
    have e := subLane_eq b (by omega : x + 1 < 2 ^ w)
    have hb : b.toNat ≤ 1 := Bool.toNat_le b
    simp only [List.zipWith_cons_cons, List.sum_cons, h1, e]
    constructor
    · cases b <;> simp <;> omega
    · intro y hy
      rcases List.mem_cons.1 hy with rfl | hy
      · omega
      · exact h2 y hy
  | [], _ :: _, hl, _ => by simp at hl
  | _ :: _, [], hl, _ => by simp at hl

theorem count_map_beq (val : Nat) (l : List Nat) : (l.map (· == val)).count true = l.count val := by
  induction l with
  | nil => rfl
  | cons x l ih =>
    rw [List.map_cons, List.count_cons, ih, List.count_cons]
    by_cases h : x = val <;> simp [h]

theorem count_take (a : List Nat) (val k c : Nat) : (a.take (k + c)).count val = (a.take k).count val + ((a.drop k).take c).count val := by
  rw [List.take_add, List.count_append]

theorem countInner_spec {s c M : Nat} (hs : 1 ≤ s) (hc : 1 ≤ c) {a : List Nat} (val : Nat) {k' : Nat} (hk' : k' ≤ a.length) (hM : M < 2 ^ (8 * s)) :
    ∀ (f n k t : Nat) (cv : List Nat), n < f → k' = k + (n + 1) * c → cv.length = c → (∀ x ∈ cv, x ≤ t) → t + n + 1 ≤ M →
      ∃ cv', countInner s (s * c) a val (s * k') f (s * k) cv = some (s * k', cv') ∧ cv'.length = c ∧ (∀ x ∈ cv', x ≤ M) ∧ cv'.sum + (a.take k).count val = cv.sum + (a.take k').count val
  | 0, n, k, t, cv, h, _, _, _, _ => by omega
  | f + 1, n, k, t, cv, hn, hk, hl, hm, ht => by
    have hkc : k + c ≤ k' := by rw [hk, Nat.add_mul]; omega
    unfold countInner
    rw [ld_some hs (by omega : k + c ≤ a.length)]
    simp only [Option.bind_eq_bind, Option.bind_some]
    obtain ⟨z1, z2⟩ := zip_sum (w := 8 * s) (t := t) (by omega) cv (((a.drop k).take c).map (· == val)) (by simp; omega) hm
    rw [count_map_beq] at z1
    have zl : (List.zipWith (subLane (8 * s)) cv (((a.drop k).take c).map (· == val))).length = c := by simp; omega
    have hct := count_take a val k c
    generalize List.zipWith (subLane (8 * s)) cv (((a.drop k).take c).map (· == val)) = cv2 at *
    have e1 : s * k + s * c = s * (k + c) := by ring
    rw [e1]
    cases n with
    | zero =>
      have : k' = k + c := by rw [hk]; ring
      rw [this, if_neg (by simp)]
      exact ⟨cv2, rfl, zl, fun x hx => le_trans (z2 x hx) (by omega), by omega⟩
    | succ n =>
      have hkk : k' = (k + c) + (n + 1) * c := by rw [hk]; ring
      have hne : s * (k + c) ≠ s * k' := by
        intro h
        have := Nat.eq_of_mul_eq_mul_left hs h
        have : 1 * 1 ≤ (n + 1) * c := Nat.mul_le_mul (by omega) hc
        omega
      rw [if_pos hne]
      obtain ⟨cv', g1, g2, g3, g4⟩ := countInner_spec hs hc val hk' hM f n (k + c) (t + 1) cv2 (by omega) hkk zl z2 (by omega)
      exact ⟨cv', g1, g2, g3, by omega⟩

theorem maxCount_pos {s size : Nat} (hs : Sz s) (h : 1 ≤ size) : 1 ≤ maxCount s size := by
  unfold maxCount; split_ifs <;> omega

theorem maxCount_lt {s size : Nat} (hs : Sz s) (h : size < 2 ^ 64) : maxCount s size < 2 ^ (8 * s) := by
  rcases hs with rfl | rfl | rfl | rfl <;> simp [maxCount]
  exact h

theorem countOuter_spec {s c : Nat} (hs : Sz s) (hc : 1 ≤ c) {a : List Nat} (val : Nat) (h64 : s * a.length < 2 ^ 64) {red : List Nat → Nat}
    (hred : ∀ size v, v.length = c → (∀ x ∈ v, x ≤ maxCount s size) → red v % 2 ^ 64 = v.sum % 2 ^ 64) :
    ∀ (f q k res : Nat), q ≤ f → 1 ≤ q → k + q * c ≤ a.length → res = (a.take k).count val →
      countOuter s (s * c) red a val f (s * k) (s * (q * c)) res = some (s * (k + q * c), (a.take (k + q * c)).count val)
  | 0, q, k, res, h, h', _, _ => by omega
  | f + 1, q, k, res, hf, hq, hk, hr => by
    have h1 := hs.pos
    have hlen : a.length ≤ s * a.length := Nat.le_mul_of_pos_left _ h1
    have hqc : 1 * 1 ≤ q * c := Nat.mul_le_mul hq hc
    have hsz : s * (q * c) ≤ s * a.length := Nat.mul_le_mul_left _ (by omega)
    have hsz1 : 1 * 1 ≤ s * (q * c) := Nat.mul_le_mul h1 (by omega)
    have hM1 := maxCount_pos (size := s * (q * c)) hs hsz1
    have hM2 := maxCount_lt (size := s * (q * c)) hs (by omega)
    have hred' := hred (s * (q * c))
    unfold countOuter
    simp only
    generalize maxCount s (s * (q * c)) = M at *
    have hport : (if s * (q * c) < M * (s * c) then s * (q * c) else M * (s * c)) = s * (min q M * c) := by
      rw [show M * (s * c) = s * (M * c) by ring]
      by_cases hqM : q < M
      · rw [if_pos, Nat.min_eq_left (by omega)]
        exact Nat.mul_lt_mul_of_pos_left (Nat.mul_lt_mul_of_pos_right hqM hc) h1
      · rw [if_neg, Nat.min_eq_right (by omega)]
        exact Nat.not_lt.2 (Nat.mul_le_mul_left _ (Nat.mul_le_mul_right _ (by omega)))
    rw [hport]
    obtain ⟨n, hn⟩ : ∃ n, min q M = n + 1 := ⟨min q M - 1, by omega⟩
    have hnq : (n + 1) * c ≤ q * c := Nat.mul_le_mul_right _ (by omega)
    have hnc : n + 1 ≤ s * ((n + 1) * c) := le_trans (Nat.le_mul_of_pos_right _ hc) (Nat.le_mul_of_pos_left _ h1)
    rw [hn, Nat.mul_div_cancel_left c h1, ← Nat.mul_add]
    obtain ⟨cv', g1, g2, g3, g4⟩ := countInner_spec (k' := k + (n + 1) * c) h1 hc val (le_trans (Nat.add_le_add_left hnq _) hk) hM2 (s * ((n + 1) * c) + 1) n k 0 (List.replicate c 0) (by omega) rfl (by simp) (by simp) (by omega)
    rw [g1]
    simp only [Option.bind_eq_bind, Option.bind_some]
    have hres : (res + red cv') % 2 ^ 64 = (a.take (k + (n + 1) * c)).count val := by
      rw [Nat.add_mod, hred' cv' g2 g3, ← Nat.add_mod, hr]
      have : (a.take (k + (n + 1) * c)).count val ≤ a.length := le_trans List.count_le_length (by simp)
      rw [List.sum_replicate] at g4
      simp at g4
      rw [Nat.mod_eq_of_lt (by omega)]; omega
    rw [hres, ← Nat.mul_sub]
    by_cases hqn : q = n + 1
    · subst hqn
      rw [if_pos (by simp)]
    · obtain ⟨r, hr'⟩ : ∃ r, q = n + 1 + r := ⟨q - (n + 1), by omega⟩
      have e : q * c = (n + 1) * c + r * c := by rw [hr']; ring
      have hr1 : 1 * 1 ≤ r * c := Nat.mul_le_mul (by omega) hc
      rw [show q * c - (n + 1) * c = r * c by omega, if_neg (Nat.ne_of_gt (Nat.mul_pos h1 (by omega)))]
      rw [countOuter_spec hs hc val h64 hred f r (k + (n + 1) * c) _ (by omega) (by omega) (by omega) rfl, e, Nat.add_assoc]

theorem countP_mul {s : Nat} (hs : 1 ≤ s) (F : Nat → Bool) : ∀ c, (List.range (s * c)).countP (fun i => F (i / s)) = s * (List.range c).countP F
  | 0 => by simp
  | c + 1 => by
    rw [Nat.mul_add, Nat.mul_one, List.range_add, List.countP_append, countP_mul hs F c, List.range_succ, List.countP_append, Nat.mul_add]
    congr 1
    rw [List.countP_map]
    have : ∀ i ∈ List.range s, ((fun i => F (i / s)) ∘ fun x => s * c + x) i = F c := by
      intro i hi
      simp only [Function.comp]
      rw [Nat.mul_add_div hs, Nat.div_eq_of_lt (List.mem_range.1 hi), Nat.add_zero]
    cases hF : F c with
    | true =>
      rw [List.countP_eq_length.2 (fun i hi => by rw [this i hi, hF])]
      simp [hF]
    | false =>
      rw [List.countP_eq_zero.2 (fun i hi => by rw [this i hi, hF]; simp)]
      simp [hF]

theorem range_getD (bs : List Bool) : (List.range bs.length).countP (fun i => bs.getD i false) = bs.count true := by
  have : bs = (List.range bs.length).map (fun i => bs.getD i false) := by
    apply List.ext_getElem (by simp)
    intro i h1 h2
    simp [List.getD_eq_getElem?_getD, List.getElem?_eq_getElem h1]
  conv_rhs => rw [this, List.count, List.countP_map]
  congr 1
  funext i; simp [Function.comp]

theorem popcnt_movemask {s : Nat} (hs : Sz s) {bs : List Bool} (hl : bs.length = 32 / s) : popcnt (movemask s bs) / s = bs.count true := by
  unfold popcnt
  have h1 := hs.pos
  rw [show (fun i => (movemask s bs).testBit i) = (fun i => (fun j => bs.getD j false) (i / s)) from funext fun i => movemask_msk h1 bs i]
  have := countP_mul h1 (fun j => bs.getD j false) (32 / s)
  rw [hs.v32] at this
  rw [this, Nat.mul_div_cancel_left _ h1, ← hl, range_getD]

theorem countTail_spec {s : Nat} (hs : Sz s) {a : List Nat} (val : Nat) (h64 : s * a.length < 2 ^ 64) {k : Nat} (hk : k = a.length / (32 / s) * (32 / s)) :
    countTail s a val (s * k) ((a.take k).count val) = some (s * (k + tailN s a.length), (a.take (k + tailN s a.length)).count val) := by
  obtain ⟨t1, t2, _⟩ := tailN_le (n := a.length) hs
  have h1 := hs.pos
  have hlen : a.length ≤ s * a.length := Nat.le_mul_of_pos_left _ h1
  unfold countTail
  rw [tail_eq hs]
  simp only []
  by_cases h0 : s * tailN s a.length = 0
  · have : tailN s a.length = 0 := by
      rcases Nat.mul_eq_zero.1 h0 with h | h <;> omega
    rw [if_neg (by simp [h0]), this, Nat.add_zero]
  · rw [if_pos h0, mld_some hs (by omega : k + tailN s a.length ≤ a.length) t2]
    simp only [Option.bind_eq_bind, Option.bind_some]
    have hc' : tailN s a.length ≤ 32 / s := (Nat.le_div_iff_mul_le h1).2 (by rw [Nat.mul_comm]; exact t2)
    have hbs : List.zipWith (· && ·) (((a.drop k).take (tailN s a.length) ++ List.replicate (32 / s - tailN s a.length) 0).map (· == val)) (tailMask s (s * tailN s a.length))
        = ((a.drop k).take (tailN s a.length)).map (· == val) ++ List.replicate (32 / s - tailN s a.length) false := by
      apply List.ext_getElem (by simp [tailMask]; omega)
      intro i g1 g2
      have := and_tailMask hs t2 (bs := ((a.drop k).take (tailN s a.length) ++ List.replicate (32 / s - tailN s a.length) 0).map (· == val)) (by simp; omega) i
      rw [List.getD_eq_getElem?_getD, List.getElem?_eq_getElem g1] at this
      simp only [Option.getD_some] at this
      rw [this]
      by_cases hi : i < tailN s a.length
      · simp only [hi, decide_true, Bool.true_and, List.map_append]
        rw [List.getD_eq_getElem?_getD, List.getElem?_append_left (by simp; omega), List.getElem_append_left (by simp; omega), List.getElem?_eq_getElem (by simp; omega)]
        rfl
      · rw [List.getElem_append_right (by simp; omega)]
        simp [hi]
    rw [popcnt_movemask hs (by simp [tailMask]; omega), hbs, List.count_append, count_map_beq]
    have hz : (List.replicate (32 / s - tailN s a.length) false).count true = 0 := by simp [List.count_replicate]
    rw [hz, Nat.add_zero, ← count_take, Nat.mod_eq_of_lt, Nat.mul_add]
    have : (a.take (k + tailN s a.length)).count val ≤ a.length := le_trans List.count_le_length (by simp)
    omega

theorem countScalar_spec {s : Nat} (hs : 1 ≤ s) {a : List Nat} (val : Nat) (h64 : s * a.length < 2 ^ 64) : ∀ (f k : Nat), a.length - k < f → k ≤ a.length →
    countScalar s a val f (s * k) ((a.take k).count val) = some (a.count val)
  | 0, k, h, _ => by omega
  | f + 1, k, h, hk => by
    have hlen : a.length ≤ s * a.length := Nat.le_mul_of_pos_left _ hs
    unfold countScalar
    by_cases he : k = a.length
    · rw [if_neg (by simp [he]), he, List.take_length]
    · have hne : s * k ≠ s * a.length := fun h => he (Nat.eq_of_mul_eq_mul_left hs h)
      have hka : k < a.length := by omega
      rw [if_pos hne, ld1_some hs hka]
      simp only [Option.bind_eq_bind, Option.bind_some]
      have : (a.take (k + 1)).count val ≤ a.length := le_trans List.count_le_length (by simp)
      have e : (if [a[k]] = [val] then ((a.take k).count val + 1) % 2 ^ 64 else (a.take k).count val) = (a.take (k + 1)).count val := by
        rw [List.take_succ_eq_append_getElem hka, List.count_append] at this ⊢
        by_cases hv : a[k] = val
        · rw [if_pos (by simp [hv])]
          simp only [hv, List.count_singleton_self] at this ⊢
          exact Nat.mod_eq_of_lt (by omega)
        · rw [if_neg (by simp [hv])]
          simp [hv]
      rw [e, show s * k + s = s * (k + 1) by ring]
      exact countScalar_spec hs val h64 f (k + 1) (by omega) (by omega)

theorem count_eq {s : Nat} (c : Cpu) (hs : Sz s) (a : List Nat) (val : Nat) (h64 : s * a.length < 2 ^ 64) : count c s a val = some (a.count val) := by
  have h1 := hs.pos
  have hlen : a.length ≤ s * a.length := Nat.le_mul_of_pos_left _ h1
  have sc : ∀ k, k ≤ a.length → countScalar s a val (s * a.length + 1) (s * k) ((a.take k).count val) = some (a.count val) := fun k hk => countScalar_spec h1 val h64 _ k (by omega) hk
  have out : ∀ V cc (red : List Nat → Nat), 1 ≤ cc → V = s * cc → full (s * a.length) V ≠ 0 → (∀ size v, v.length = cc → (∀ x ∈ v, x ≤ maxCount s size) → red v % 2 ^ 64 = v.sum % 2 ^ 64) →
      countOuter s V red a val (s * a.length + 1) 0 (full (s * a.length) V) 0 = some (s * (a.length / cc * cc), (a.take (a.length / cc * cc)).count val) := by
    rintro V cc red hcc rfl hf hred
    rw [full_eq h1 rfl] at hf ⊢
    have hq : 1 ≤ a.length / cc := by
      rw [Nat.one_le_iff_ne_zero]
      intro this
      rw [this] at hf; simp at hf
    have hle : a.length / cc ≤ a.length := Nat.div_le_self _ _
    have := countOuter_spec hs hcc val h64 hred (s * a.length + 1) (a.length / cc) 0 0 (by omega) hq (by rw [Nat.zero_add]; exact Nat.div_mul_le_self _ _) (by simp)
    rw [Nat.mul_zero, Nat.zero_add] at this
    exact this
  unfold count
  simp only
  split
  · rename_i hc
    rw [out 32 (32 / s) _ (by rcases hs with rfl | rfl | rfl | rfl <;> decide) hs.v32.symm hc.1 (fun size v hl hm => reduceAvx_eq hs v hl hm)]
    simp only [Option.bind_eq_bind, Option.bind_some]
    rw [countTail_spec hs val h64 rfl]
    simp only [Option.bind_some]
    obtain ⟨t1, t2, t3⟩ := tailN_le (n := a.length) hs
    split
    · rename_i h4
      rw [t3 h4, List.take_length]
    · exact sc _ t1
  · split
    · rename_i hc
      rw [out 16 (16 / s) _ (by rcases hs with rfl | rfl | rfl | rfl <;> decide) hs.v16.symm hc.1 (fun size v hl hm => reduceSse_eq hs v hl hm)]
      simp only [Option.bind_eq_bind, Option.bind_some]
      exact sc _ (Nat.div_mul_le_self _ _)
    · have := sc 0 (by omega)
      rwa [Nat.mul_zero] at this

end STL.VAlg
