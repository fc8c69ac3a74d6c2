import Verif.VWrite.Model
import Verif.VAlg.Bits

/-! # Compressing a register through the tables -/

namespace STL.VWrite

open STL.VAlg (Cpu movemask full Msk movemask_msk)

/-- Overwrite a part of a list. -/
def wr (a : List Elem) (k : Nat) (v : List Elem) : List Elem := a.take k ++ v ++ a.drop (k + v.length)

theorem wr_length {a : List Elem} {k : Nat} {v : List Elem} (h : k + v.length ≤ a.length) : (wr a k v).length = a.length := by
  simp [wr]; omega

theorem ld_some {s : Nat} (hs : 0 < s) {a : List Elem} {k c : Nat} (h : k + c ≤ a.length) : ld s a (s * k) (s * c) = some ((a.drop k).take c) := by
  have : s * k + s * c ≤ s * a.length := by rw [← Nat.mul_add]; exact Nat.mul_le_mul_left _ h
  simp [ld, this, Nat.mul_div_cancel_left _ hs]

theorem st_some {s : Nat} (hs : 0 < s) {a : List Elem} {k : Nat} {v : List Elem} (h : k + v.length ≤ a.length) : st s a (s * k) v = some (wr a k v) := by
  have : s * k + s * v.length ≤ s * a.length := by rw [← Nat.mul_add]; exact Nat.mul_le_mul_left _ h
  simp [st, wr, this, Nat.mul_div_cancel_left _ hs]

theorem grp_cons {w : Nat} (hw : 0 < w) {x y : List Nat} (hx : x.length = w) : grp w (x ++ y) = x :: grp w y := by
  unfold grp
  have : (x ++ y).length / w = y.length / w + 1 := by
    rw [List.length_append, hx, Nat.add_comm, Nat.add_div_right _ hw]
  rw [this, List.range_succ_eq_map, List.map_cons, List.map_map]
  congr 1
  · simp [← hx]
  · apply List.map_congr_left
    intro i _
    have e : (i + 1) * w = x.length + i * w := by rw [hx, Nat.succ_mul, Nat.add_comm]
    simp only [Function.comp, Nat.succ_eq_add_one, e, List.drop_append]
    rw [List.drop_eq_nil_of_le (by omega)]
    simp

theorem grp_flatten {w : Nat} (hw : 0 < w) : ∀ ps : List (List Nat), (∀ x ∈ ps, x.length = w) → grp w ps.flatten = ps
  | [], _ => by simp [grp]
  | x :: ps, h => by
    rw [List.flatten_cons, grp_cons hw (h x (by simp)), grp_flatten hw ps (fun y hy => h y (by simp [hy]))]

theorem grp_props {w : Nat} (hw : 0 < w) : ∀ (e : Nat) (x : List Nat), x.length = e * w → (grp w x).flatten = x ∧ (grp w x).length = e ∧ ∀ y ∈ grp w x, y.length = w
  | 0, x, h => by
    have : x = [] := List.eq_nil_of_length_eq_zero (by simpa using h)
    subst this; simp [grp]
  | e + 1, x, h => by
    have hl : (x.take w).length = w := by rw [List.length_take, h, Nat.succ_mul]; omega
    have hd : (x.drop w).length = e * w := by rw [List.length_drop, h, Nat.succ_mul]; omega
    have e1 : grp w x = x.take w :: grp w (x.drop w) := by
      conv => lhs; rw [← List.take_append_drop w x]
      exact grp_cons hw hl
    obtain ⟨i1, i2, i3⟩ := grp_props hw e _ hd
    rw [e1]
    refine ⟨by simp [i1], by simp [i2], ?_⟩
    intro y hy
    rcases List.mem_cons.1 hy with rfl | hy
    · exact hl
    · exact i3 y hy

theorem flatten_getD {e : Nat} : ∀ (L : List (List (List Nat))) (h i : Nat), (∀ x ∈ L, x.length = e) → i < e →
    L.flatten.getD (h * e + i) [] = (L.getD h []).getD i []
  | [], h, i, _, _ => by simp
  | x :: L, 0, i, hL, hi => by
    have := hL x (by simp)
    rw [List.flatten_cons, Nat.zero_mul, Nat.zero_add, List.getD_append _ _ _ _ (by omega)]
    simp
  | x :: L, h + 1, i, hL, hi => by
    have hx := hL x (by simp)
    rw [List.flatten_cons, List.getD_append_right _ _ _ _ (by rw [hx, Nat.succ_mul]; omega)]
    have : (h + 1) * e + i - x.length = h * e + i := by rw [hx, Nat.succ_mul]; omega
    rw [this, flatten_getD L h i (fun y hy => hL y (by simp [hy])) hi]
    simp

/-- The elements whose bit is not set. -/
def keep : List Bool → List Elem → List Elem
  | b :: bs, x :: xs => if b then keep bs xs else x :: keep bs xs
  | _, _ => []

theorem keep_length_le : ∀ (bs : List Bool) (v : List Elem), (keep bs v).length ≤ v.length
  | [], v => by simp [keep]
  | _ :: _, [] => by simp [keep]
  | b :: bs, x :: xs => by
    have := keep_length_le bs xs
    simp only [keep]; split <;> simp <;> omega

/-- The facts about the parameters of a trait: `c` elements in a register. -/
structure Tr.Ok (T : Tr) (c : Nat) : Prop where
  hc : 0 < c
  hs : T.s = T.ew * T.w
  ew : 0 < T.ew
  w : 0 < T.w
  sizeH : T.sizeH = c * T.ew
  mul : T.mul = T.s
  sizeV : T.sizeV = 2 ^ c
  step : T.step = T.s * c
  step32 : T.step ≤ 32

theorem Tr.Ok.s0 {T : Tr} {c : Nat} (h : T.Ok c) : 0 < T.s := by rw [h.hs]; exact Nat.mul_pos h.ew h.w

theorem tblKeep_eq (ew vx : Nat) : ∀ n h, tblKeep ew vx h n =
    (((List.range' h n).filter fun i => !vx.testBit i).flatMap (shufPart ew), ((List.range' h n).filter fun i => !vx.testBit i).length)
  | 0, h => by simp [tblKeep]
  | n + 1, h => by
    have hb : (vx &&& (1 <<< h) = 0) ↔ vx.testBit h = false := by
      rw [Nat.one_shiftLeft, Nat.and_two_pow]
      cases vx.testBit h <;> simp
    simp only [tblKeep, List.range'_succ, tblKeep_eq ew vx n (h + 1)]
    by_cases hv : vx.testBit h = false
    · rw [if_pos (hb.2 hv)]; simp [hv]
    · rw [if_neg (fun h' => hv (hb.1 h'))]; simp at hv; simp [hv]

theorem tblFill_eq (ew : Nat) : ∀ n nx, tblFill ew nx n = (List.range' nx n).flatMap (shufPart ew)
  | 0, _ => by simp [tblFill]
  | n + 1, nx => by simp [tblFill, List.range'_succ, tblFill_eq ew n]

theorem shuffle_flatMap {ew w c : Nat} (hw : 0 < w) {v : List Elem} (hv : ∀ x ∈ v, x.length = ew * w) (hl : v.length = c) (idx : List Nat)
    (hi : ∀ h ∈ idx, h < c) (hew : 0 < ew) :
    grp (ew * w) (shuffle (grp w v.flatten) (idx.flatMap (shufPart ew))).flatten = idx.map fun h => v.getD h [] := by
  have h1 : grp w v.flatten = v.flatMap (grp w) := by
    have : v.flatten = (v.flatMap (grp w)).flatten := by
      clear hl hi
      induction v with
      | nil => rfl
      | cons x v ih =>
        simp only [List.flatten_cons, List.flatMap_cons, List.flatten_append]
        rw [(grp_props hw ew x (hv x (by simp))).1, ih (fun y hy => hv y (by simp [hy]))]
    rw [this, grp_flatten hw]
    intro y hy
    obtain ⟨x, hx, hy⟩ := List.mem_flatMap.1 hy
    exact (grp_props hw ew x (hv x hx)).2.2 y hy
  have hlen : (v.flatMap (grp w)).length = c * ew := by
    rw [← hl]; clear h1 hl hi
    induction v with
    | nil => simp
    | cons x v ih =>
      simp only [List.flatMap_cons, List.length_append, List.length_cons]
      rw [(grp_props hw ew x (hv x (by simp))).2.1, ih (fun y hy => hv y (by simp [hy])), Nat.succ_mul, Nat.add_comm]
  have h2 : shuffle (grp w v.flatten) (idx.flatMap (shufPart ew)) = idx.flatMap fun h => grp w (v.getD h []) := by
    rw [h1, shuffle, List.map_flatMap]
    apply List.flatMap_congr
    intro h hh
    have hc := hi h hh
    have hvh : (v.getD h []) ∈ v := by
      rw [List.getD_eq_getElem _ _ (by omega)]; exact List.getElem_mem _
    have g := grp_props hw ew _ (hv _ hvh)
    apply List.ext_getElem
    · rw [g.2.1]; simp [shufPart]
    · intro i hi1 hi2
      have hie : i < ew := by simpa [shufPart] using hi1
      have hb : h * ew + i < c * ew := by
        calc h * ew + i < h * ew + ew := by omega
          _ = (h + 1) * ew := by rw [Nat.succ_mul]
          _ ≤ c * ew := Nat.mul_le_mul_right _ hc
      simp only [shufPart, List.getElem_map, List.getElem_range]
      rw [hlen, Nat.mod_eq_of_lt hb, List.flatMap_def, flatten_getD _ _ _ _ hie]
      · have : (v.map (grp w)).getD h [] = grp w (v.getD h []) := by
          simp [List.getD_eq_getElem, hl, hc]
        rw [this, List.getD_eq_getElem _ _ hi2]
      · intro x hx
        obtain ⟨y, hy, rfl⟩ := List.mem_map.1 hx
        exact (grp_props hw ew y (hv y hy)).2.1
  rw [h2]
  have h3 : (idx.flatMap fun h => grp w (v.getD h [])).flatten = (idx.map fun h => v.getD h []).flatten := by
    clear h2
    induction idx with
    | nil => rfl
    | cons h idx ih =>
      have hc := hi h (by simp)
      have hvh : (v.getD h []) ∈ v := by
        rw [List.getD_eq_getElem _ _ (by omega)]; exact List.getElem_mem _
      simp only [List.flatMap_cons, List.flatten_append, List.map_cons, List.flatten_cons]
      rw [(grp_props hw ew _ (hv _ hvh)).1, ih (fun y hy => hi y (by simp [hy]))]
  rw [h3, grp_flatten (Nat.mul_pos hew hw)]
  intro x hx
  obtain ⟨h, hh, rfl⟩ := List.mem_map.1 hx
  have hc := hi h hh
  have hvh : (v.getD h []) ∈ v := by
    rw [List.getD_eq_getElem _ _ (by omega)]; exact List.getElem_mem _
  exact hv _ hvh

theorem keep_eq (B : Nat → Bool) (g : Nat → Elem) : ∀ n h, (((List.range' h n).filter fun i => !B i).map g) = keep ((List.range' h n).map B) ((List.range' h n).map g)
  | 0, h => by simp [keep]
  | n + 1, h => by
    simp only [List.range'_succ, List.map_cons, keep, List.filter_cons]
    rw [← keep_eq B g n (h + 1)]
    cases B h <;> simp

theorem map_getD_range {α} (d : α) (v : List α) : (List.range' 0 v.length).map (fun i => v.getD i d) = v := by
  apply List.ext_getElem
  · simp
  · intro i h1 h2
    simp [h2]

theorem map_getD_drop {v : List Elem} {k : Nat} : (List.range' k (v.length - k)).map (fun i => v.getD i []) = v.drop k := by
  apply List.ext_getElem
  · simp
  · intro i h1 h2
    simp at h2
    have : k + i < v.length := by omega
    simp [List.getD_eq_getElem, this]

theorem storeMasked_some {T : Tr} {c : Nat} (hT : T.Ok c) {v : List Elem} (hv : ∀ x ∈ v, x.length = T.s) (hl : v.length = c) {bs : List Bool}
    (hb : bs.length = c) {a : List Elem} {o : Nat} (ho : o + c ≤ a.length) :
    storeMasked T a (T.s * o) v (movemask 1 bs) = some (wr a o (keep bs v ++ v.drop (keep bs v).length), T.s * (o + (keep bs v).length)) := by
  have hm := movemask_msk (s := 1) (by omega) bs
  have hlt : movemask 1 bs < T.sizeV := by
    rw [hT.sizeV]
    have := hm.lt (by omega) (c := c) (fun i hi => by rw [List.getD_eq_default _ _ (by omega)])
    simpa using this
  have hbit : ∀ i, (movemask 1 bs).testBit i = bs.getD i false := by
    intro i
    have := hm i
    simpa using this
  unfold storeMasked
  rw [if_pos hlt]
  have hH : T.sizeH / T.ew = c := by rw [hT.sizeH, Nat.mul_div_cancel _ hT.ew]
  have hk : ((List.range' 0 c).filter fun i => !bs.getD i false).map (fun h => v.getD h []) = keep bs v := by
    rw [keep_eq (fun i => bs.getD i false)]
    congr 1
    · rw [← hb, map_getD_range]
    · rw [← hl, map_getD_range]
  have hkl : ((List.range' 0 c).filter fun i => !bs.getD i false).length = (keep bs v).length := by
    rw [← hk, List.length_map]
  have hkc : (keep bs v).length ≤ c := hl ▸ keep_length_le bs v
  simp only [mkTable, hH, tblKeep_eq, tblFill_eq, hbit, hkl]
  rw [← List.flatMap_append, hT.mul]
  have key := shuffle_flatMap (ew := T.ew) (w := T.w) hT.w (v := v) (by rw [← hT.hs]; exact hv) hl
    ((List.range' 0 c).filter (fun i => !bs.getD i false) ++ List.range' (keep bs v).length (c - (keep bs v).length)) (by
      intro h hh
      rcases List.mem_append.1 hh with hh | hh
      · have := List.mem_of_mem_filter hh
        simp [List.mem_range'_1] at this; omega
      · simp [List.mem_range'_1] at hh; omega) hT.ew
  rw [← hT.hs] at key
  rw [key, List.map_append, hk]
  have hd : (List.range' (keep bs v).length (c - (keep bs v).length)).map (fun h => v.getD h []) = v.drop (keep bs v).length := by
    rw [← hl]; exact map_getD_drop
  rw [hd, st_some hT.s0]
  · simp [Nat.mul_add, Nat.mul_comm]
  · simp; omega

theorem ok1 : sse1.Ok 8 := by constructor <;> decide
theorem ok2 : sse2.Ok 8 := by constructor <;> decide
theorem ok4 : sse4.Ok 4 := by constructor <;> decide
theorem ok8 : sse8.Ok 2 := by constructor <;> decide
theorem ok4a : avx4.Ok 8 := by constructor <;> decide
theorem ok8a : avx8.Ok 4 := by constructor <;> decide

theorem pick_some {c : Cpu} {s size : Nat} (hs : s = 1 ∨ s = 2 ∨ s = 4 ∨ s = 8) {T : Tr} (h : pick c s size = some T) :
    T.s = s ∧ T.step ≤ size ∧ ∃ n, T.Ok n := by
  rcases hs with rfl | rfl | rfl | rfl <;> simp [pick] at h
  · obtain ⟨⟨_, h1⟩, rfl⟩ := h; exact ⟨rfl, h1, _, ok1⟩
  · obtain ⟨⟨_, h1⟩, rfl⟩ := h; exact ⟨rfl, h1, _, ok2⟩
  · split at h
    · next hh => cases h; exact ⟨rfl, hh.2, _, ok4a⟩
    · split at h
      · next hh => cases h; exact ⟨rfl, hh.2, _, ok4⟩
      · cases h
  · split at h
    · next hh => cases h; exact ⟨rfl, hh.2, _, ok8a⟩
    · split at h
      · next hh => cases h; exact ⟨rfl, hh.2, _, ok8⟩
      · cases h

end STL.VWrite
