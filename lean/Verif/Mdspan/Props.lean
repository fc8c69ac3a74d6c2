import Verif.Mdspan.Extents

/-!
# C24: layout mappings of `<mdspan>`

`InBox exts idx`: `idx` has one component per extent and `0 ≤ idx[r] < exts[r]`. `vol exts` is the number of such indices. `t` is any integer type of at
least one bit; `t.max` is `numeric_limits<index_type>::max()`. Every theorem states that the evaluation succeeds, so none has undefined behaviour.
-/

namespace STL.Mds
open STL

variable {t : IT}

/-- What a user relies on of a mapping: `off` gives every index of the box an offset in `[0, size)`; different indices have different offsets. -/
structure IsMapping (exts : List Int) (off : List Int → R Int) (size : Int) : Prop where
  bound : ∀ idx, InBox exts idx → ∃ o, off idx = .ok o ∧ 0 ≤ o ∧ o < size
  inj : ∀ idx idx' o, InBox exts idx → InBox exts idx' → off idx = .ok o → off idx' = .ok o → idx = idx'

/-- Every offset is hit. -/
def Exhaustive (exts : List Int) (off : List Int → R Int) (size : Int) : Prop :=
  ∀ o, 0 ≤ o → o < size → ∃ idx, InBox exts idx ∧ off idx = .ok o

/-- Offset of an index through `stride(r)`: `Σ idx[r] * stride(r)`. -/
def ByStrides (exts : List Int) (off : List Int → R Int) (stride : Nat → R Int) : Prop :=
  ∃ ss : List Int, ss.length = exts.length ∧ (∀ r s, ss[r]? = some s → stride r = .ok s) ∧ ∀ idx, InBox exts idx → off idx = .ok (dot ss idx)

theorem leftIndex_val (hw : 1 ≤ t.w) {exts idx : List Int} (h : InBox exts idx) (hm : vol exts ≤ t.max) : leftIndex t exts idx = .ok (leftVal exts idx) := by
  unfold leftIndex
  rw [leftLoop_ok hw h (le_refl _) (le_refl _) (by omega) (by omega)]
  congr 1; omega

theorem rightIndex_val (hw : 1 ≤ t.w) {exts idx : List Int} (h : InBox exts idx) (hm : vol exts ≤ t.max) : rightIndex t exts idx = .ok (rightVal exts idx) := by
  unfold rightIndex
  rw [rightLoop_ok hw h (le_refl _) (by omega)]
  congr 1; omega

/-- `layout_left`: `required_span_size()` is the number of indices, the mapping is injective into `[0, required_span_size())` and exhaustive. The
precondition of the constructors is that the size of the index space is representable (`vol exts ≤ t.max`). For index types narrower than `int` an
extent 0 is excluded: there the product is computed in `int` and can overflow before the zero extent is reached. -/
theorem C24_layout_left (hw : 1 ≤ t.w) {exts : List Int} (h0 : ∀ e ∈ exts, 0 ≤ e) (hz : 32 ≤ t.w ∨ 0 ∉ exts) (hm : vol exts ≤ t.max) :
    ∃ size, spanSize t exts = .ok size ∧ size = vol exts ∧ IsMapping exts (leftIndex t exts) size ∧ Exhaustive exts (leftIndex t exts) size := by
  refine ⟨_, spanSize_ok hw h0 hz hm, rfl, ⟨fun idx h => ⟨_, leftIndex_val hw h hm, leftVal_bound h⟩, ?_⟩, ?_⟩
  · intro idx idx' o h h' e e'
    rw [leftIndex_val hw h hm] at e
    rw [leftIndex_val hw h' hm] at e'
    injection e with e
    injection e' with e'
    exact leftVal_inj h h' (by omega)
  · intro o h1 h2
    obtain ⟨idx, h3, h4⟩ := leftVal_surj h0 o h1 h2
    exact ⟨idx, h3, by rw [leftIndex_val hw h3 hm, h4]⟩

/-- `layout_right`: the same. -/
theorem C24_layout_right (hw : 1 ≤ t.w) {exts : List Int} (h0 : ∀ e ∈ exts, 0 ≤ e) (hz : 32 ≤ t.w ∨ 0 ∉ exts) (hm : vol exts ≤ t.max) :
    ∃ size, spanSize t exts = .ok size ∧ size = vol exts ∧ IsMapping exts (rightIndex t exts) size ∧ Exhaustive exts (rightIndex t exts) size := by
  refine ⟨_, spanSize_ok hw h0 hz hm, rfl, ⟨fun idx h => ⟨_, rightIndex_val hw h hm, rightVal_bound h⟩, ?_⟩, ?_⟩
  · intro idx idx' o h h' e e'
    rw [rightIndex_val hw h hm] at e
    rw [rightIndex_val hw h' hm] at e'
    injection e with e
    injection e' with e'
    exact rightVal_inj h h' (by omega)
  · intro o h1 h2
    obtain ⟨idx, h3, h4⟩ := rightVal_surj h0 o h1 h2
    exact ⟨idx, h3, by rw [rightIndex_val hw h3 hm, h4]⟩

/-- `layout_left` and `layout_right` agree with their `stride(r)`; `layout_left`'s first stride is 1, `layout_right`'s last. -/
theorem C24_strides_left (hw : 1 ≤ t.w) {exts : List Int} (h1 : ∀ e ∈ exts, 1 ≤ e) (hm : vol exts ≤ t.max) :
    ByStrides exts (leftIndex t exts) (leftStride t exts) ∧ leftStride t exts 0 = .ok 1 := by
  refine ⟨⟨(List.range exts.length).map fun r => vol (exts.take r), by simp, ?_, ?_⟩, by rw [leftStride_ok hw h1 hm]; simp [vol]⟩
  · intro r s hs
    rw [List.getElem?_map] at hs
    obtain ⟨k, hk, rfl⟩ := Option.map_eq_some_iff.1 hs
    obtain ⟨hlt, rfl⟩ := List.getElem?_eq_some_iff.1 hk
    rw [List.getElem_range]
    exact leftStride_ok hw h1 hm r
  · intro idx h
    rw [leftIndex_val hw h hm]
    have := leftVal_dot h (p := [])
    simpa [vol] using this

theorem C24_strides_right (hw : 1 ≤ t.w) {exts : List Int} (h1 : ∀ e ∈ exts, 1 ≤ e) (hm : vol exts ≤ t.max) :
    ByStrides exts (rightIndex t exts) (rightStride t exts) ∧ rightStride t exts (exts.length - 1) = .ok 1 := by
  refine ⟨⟨(List.range exts.length).map fun r => vol (exts.drop (r + 1)), by simp, ?_, ?_⟩, by
    rw [rightStride_ok hw h1 hm, List.drop_eq_nil_iff.2 (by omega)]; rfl⟩
  · intro r s hs
    rw [List.getElem?_map] at hs
    obtain ⟨k, hk, rfl⟩ := Option.map_eq_some_iff.1 hs
    obtain ⟨hlt, rfl⟩ := List.getElem?_eq_some_iff.1 hk
    rw [List.getElem_range]
    exact rightStride_ok hw h1 hm r
  · intro idx h
    rw [rightIndex_val hw h hm, rightVal_dot]
    exact h

/-- `layout_stride`, strides meeting the precondition: `required_span_size()` is `1 + Σ (extent - 1) * stride`, the mapping is injective into
`[0, required_span_size())`, and the last offset is reached (so the size is the least possible). -/
theorem C24_layout_stride (hw : 1 ≤ t.w) {exts strides : List Int} (hs : StridesOk exts strides) (he : ∀ e ∈ exts, 1 ≤ e ∧ e ≤ t.max) (hm : reqSize exts strides ≤ t.max) :
    ∃ size, strideSpan t exts strides = .ok size ∧ size = reqSize exts strides ∧ IsMapping exts (strideIndex t strides) size ∧
      (∀ idx, InBox exts idx → strideIndex t strides idx = .ok (dot strides idx)) ∧
      ∃ idx, InBox exts idx ∧ strideIndex t strides idx = .ok (size - 1) := by
  have hv : ∀ idx, InBox exts idx → strideIndex t strides idx = .ok (dot strides idx) := fun idx h => strideIndex_ok hw h hs.2.1 (by omega)
  refine ⟨_, strideSpan_ok hw hs.1 (fun e h => (he e h).1) hs.2.1 (fun e h => (he e h).2) hm, rfl, ⟨fun idx h => ⟨_, hv idx h, dot_bound h hs.2.1⟩, ?_⟩, hv, ?_⟩
  · intro idx idx' o h h' e e'
    rw [hv idx h] at e
    rw [hv idx' h'] at e'
    injection e with e
    injection e' with e'
    exact dot_inj hs h h' (by omega)
  · refine ⟨exts.map (· - 1), ?_, ?_⟩
    · have h1 : ∀ e ∈ exts, 1 ≤ e := fun e h => (he e h).1
      clear hv hm hs he
      induction exts with
      | nil => exact .nil
      | cons e es ih => exact .cons ⟨by have := h1 e (by simp); show 0 ≤ e - 1; omega, by show e - 1 < e; omega⟩ (ih fun x hx => h1 x (by simp [hx]))
    · have h1 : ∀ e ∈ exts, 1 ≤ e := fun e h => (he e h).1
      rw [hv]
      · congr 1
        have : ∀ (es ss : List Int), dot ss (es.map (· - 1)) = reqSize es ss - 1 := by
          intro es
          induction es with
          | nil => intro ss; cases ss <;> simp [dot, reqSize]
          | cons e es ih =>
            intro ss
            cases ss with
            | nil => simp [dot, reqSize]
            | cons s ss => simp only [List.map_cons, dot, reqSize]; rw [ih ss]; omega
        exact this exts strides
      · clear hv hm hs he
        induction exts with
        | nil => exact .nil
        | cons e es ih => exact .cons ⟨by have := h1 e (by simp); show 0 ≤ e - 1; omega, by show e - 1 < e; omega⟩ (ih fun x hx => h1 x (by simp [hx]))

/-- `is_exhaustive()` of `layout_stride` answers [mdspan.layout.stride.obs]/5: in some order of the dimensions the strides are exactly those of a
dense array. -/
theorem C24_is_exhaustive (hw : 1 ≤ t.w) {stat : List (Option Int)} {exts strides : List Int} (hst : stat.length = exts.length)
    (hcons : ∀ (r : Nat) (s : Int), stat[r]? = some (some s) → exts[r]? = some s)
    (hs : StridesOk exts strides) (he : ∀ e ∈ exts, 1 ≤ e ∧ e ≤ t.max) (hsm : ∀ s ∈ strides, s ≤ t.max) (hm : reqSize exts strides ≤ t.max) :
    ∃ b, isExhaustive t stat exts strides = .ok b ∧ (b = true ↔ ExactChain exts strides) := by
  have he1 : ∀ e ∈ exts, 1 ≤ e := fun e h => (he e h).1
  have hem : ∀ e ∈ exts, e ≤ t.max := fun e h => (he e h).2
  have hl := hs.1
  unfold isExhaustive
  have hz : stat.any (· == some 0) = false := by
    rw [Bool.eq_false_iff]
    intro hc
    rw [List.any_eq_true] at hc
    obtain ⟨x, hx, hx0⟩ := hc
    rw [beq_iff_eq] at hx0
    subst hx0
    obtain ⟨r, hr, hre⟩ := List.getElem_of_mem hx
    have := hcons r 0 (by rw [List.getElem?_eq_getElem hr, hre])
    have := he1 0 (List.mem_of_getElem? this)
    omega
  by_cases hn : stat = []
  · subst hn
    refine ⟨true, by simp, fun _ => ?_, fun _ => rfl⟩
    have : exts = [] := List.length_eq_zero_iff.1 hst.symm
    subst this
    exact ⟨[], by simp, by simp, .nil⟩
  · rw [if_neg (by rw [hz]; simp [hn])]
    have hne : exts ≠ [] := fun hc => hn (List.length_eq_zero_iff.1 (by rw [hst, hc]; rfl))
    split
    · rename_i e0 s0
      have := he1 e0 (by simp)
      refine ⟨_, rfl, ?_⟩
      simp only [Bool.or_eq_true, beq_iff_eq]
      constructor
      · rintro (h | h)
        · exact ⟨[(s0, e0)], by simp, by simpa using h, .singleton _⟩
        · omega
      · rintro ⟨ps, h1, h2, h3⟩
        have : ps = [(s0, e0)] := List.perm_singleton.1 h1
        subst this
        exact Or.inl (h2 (s0, e0) (by simp))
    · rename_i e0 e1 s0 s1
      have := he1 e0 (by simp)
      have := he1 e1 (by simp)
      refine ⟨_, rfl, ?_⟩
      simp only [Bool.or_eq_true, Bool.and_eq_true, beq_iff_eq]
      constructor
      · rintro (((⟨h1, h2⟩ | ⟨h1, h2⟩) | h) | h)
        · exact ⟨[(s0, e0), (s1, e1)], by simp, by simpa using h1, by simp [List.isChain_cons_cons, h1, h2]⟩
        · exact ⟨[(s1, e1), (s0, e0)], by simpa using List.Perm.swap .., by simpa using h1, by simp [List.isChain_cons_cons, h1, h2]⟩
        · omega
        · omega
      · rintro ⟨ps, h1, h2, h3⟩
        have hps : ps = [(s0, e0), (s1, e1)] ∨ ps = [(s1, e1), (s0, e0)] := by
          have hlen := h1.length_eq
          match ps, hlen with
          | [a, b], _ =>
            have h1' : [a, b].Perm [(s0, e0), (s1, e1)] := h1
            have ha : a ∈ [(s0, e0), (s1, e1)] := h1'.mem_iff.1 (by simp)
            rcases List.mem_cons.1 ha with ha | ha
            · subst ha
              have := List.perm_singleton.1 ((List.perm_cons _).1 h1')
              injection this with this
              left; rw [this]
            · have ha : a = (s1, e1) := by simpa using ha
              subst ha
              have := List.perm_singleton.1 ((List.perm_cons _).1 (h1'.trans (List.Perm.swap ..)))
              injection this with this
              right; rw [this]
        rcases hps with rfl | rfl
        · have h4 := h2 (s0, e0) (by simp)
          have h5 := (List.isChain_cons_cons.1 h3).1
          simp only at h4 h5
          rw [h4, one_mul] at h5
          tauto
        · have h4 := h2 (s1, e1) (by simp)
          have h5 := (List.isChain_cons_cons.1 h3).1
          simp only at h4 h5
          rw [h4, one_mul] at h5
          tauto
    · split
      · exact exhSpecial_ok hw hne hs he1 hsm
      · rename_i h1
        have h1' : (1 : Int) ∉ exts := by simpa using h1
        exact exhCommon_ok hw hs (fun e h => by
          have h2 := he1 e h
          have : e ≠ 1 := fun hc => h1' (hc ▸ h)
          omega) hem hm (by have := vol_le_req hs he1; omega)

/-- When `is_exhaustive()` is true every offset is hit; when every extent is at least 2 the converse holds too. (With an extent 1, whose stride never
matters, the standard wants `false` for some mappings that hit every offset.) -/
theorem C24_exhaustive_iff (hw : 1 ≤ t.w) {stat : List (Option Int)} {exts strides : List Int} (hst : stat.length = exts.length)
    (hcons : ∀ (r : Nat) (s : Int), stat[r]? = some (some s) → exts[r]? = some s)
    (hs : StridesOk exts strides) (he : ∀ e ∈ exts, 1 ≤ e ∧ e ≤ t.max) (hsm : ∀ s ∈ strides, s ≤ t.max) (hm : reqSize exts strides ≤ t.max) :
    (isExhaustive t stat exts strides = .ok true → Exhaustive exts (strideIndex t strides) (reqSize exts strides)) ∧
    ((∀ e ∈ exts, 2 ≤ e) → Exhaustive exts (strideIndex t strides) (reqSize exts strides) → isExhaustive t stat exts strides = .ok true) := by
  have hv : ∀ idx, InBox exts idx → strideIndex t strides idx = .ok (dot strides idx) := fun idx h => strideIndex_ok hw h hs.2.1 (by omega)
  have he1 : ∀ e ∈ exts, 1 ≤ e := fun e h => (he e h).1
  obtain ⟨b, h1, h2⟩ := C24_is_exhaustive hw hst hcons hs he hsm hm
  constructor
  · intro h
    rw [h1] at h
    injection h with h
    intro o ho1 ho2
    obtain ⟨idx, i1, i2⟩ := surj_of_eq hs (fun e h => by have := he1 e h; omega) (exact_vol hs.1 (h2.1 h)) o ho1 ho2
    exact ⟨idx, i1, by rw [hv idx i1, i2]⟩
  · intro he2 hex
    rw [h1]
    congr 1
    apply h2.2
    apply exact_of_vol hs he2
    apply eq_of_surj hs he1
    intro o ho1 ho2
    obtain ⟨idx, i1, i2⟩ := hex o ho1 ho2
    rw [hv idx i1] at i2
    injection i2 with i2
    exact ⟨idx, i1, i2⟩

/-- With a zero extent `is_exhaustive()` can only be true (index types at least as wide as `int`). -/
theorem C24_exhaustive_zero (hw : 32 ≤ t.w) {stat : List (Option Int)} {exts strides : List Int} (hl : strides.length = exts.length) (hz : 0 ∈ exts) {b : Bool}
    (h : isExhaustive t stat exts strides = .ok b) : b = true := by
  unfold isExhaustive at h
  split at h
  · injection h with h; exact h.symm
  · split at h
    · injection h with h
      rw [← h]
      simp at hz
      simp [← hz]
    · injection h with h
      rw [← h]
      simp at hz
      rcases hz with hz | hz <;> simp [← hz]
    · split at h
      · unfold exhSpecial at h
        rw [if_pos (by rw [any_zero]; exact hz)] at h
        injection h with h; exact h.symm
      · unfold exhCommon fwdProd at h
        rw [List.take_length, fwdLoop_has_zero hw exts hz, R.ok_bind, R.ok_bind] at h
        have hc : t.conv 0 = 0 := conv_ok (by omega) (le_refl 0) (by
          unfold IT.max
          have h1 : (0 : Int) < 2 ^ (t.w - 1) := by positivity
          have h2 : (0 : Int) < 2 ^ t.w := by positivity
          split <;> omega)
        cases hr : strideSpan t exts strides with
        | error e => rw [hr] at h; cases h
        | ok v =>
          rw [hr, R.ok_bind] at h
          injection h with h
          rw [← h, hc]; simp

/-- The debug checks accept exactly the precondition: strides meeting it are accepted, and for signed index types and types narrower than `int`
accepted strides meet it. -/
theorem C24_stride_check (hw : 1 ≤ t.w) {exts strides : List Int} (hl : strides.length = exts.length) (hp : ∀ s ∈ strides, 1 ≤ s ∧ s ≤ t.max) (he : ∀ e ∈ exts, 1 ≤ e) :
    (StridesOk exts strides → chainCheck t exts strides = .ok true) ∧ (t.sg = true ∨ t.w < 32 → chainCheck t exts strides = .ok true → StridesOk exts strides) :=
  ⟨fun h => chainCheck_complete hw h (fun e h => by have := he e h; omega) fun s hs => (hp s hs).2,
   fun h => chainCheck_sound h hl (fun s hs => (hp s hs).1) fun hz => by have := he 0 hz; omega⟩

/-- `extents` built from one value per dynamic extent: `extent(r)` is the static value or the corresponding argument. -/
theorem C24_extents_dynamic {stat : List (Option Int)} {args : List Int} (hl : args.length = rankDynamic stat) :
    ∃ e, Ext.make stat args = .ok e ∧ ∀ r, r < stat.length → ∃ v, (fill stat args)[r]? = some v ∧ e.extent r = .ok v :=
  ⟨⟨stat, args⟩, by unfold Ext.make; rw [if_pos hl], fun _ hr => extent_fill hl hr⟩

/-- `extents` built from one value per extent (which must agree with the static ones): `extent(r)` is the `r`-th argument. -/
theorem C24_extents_all {stat : List (Option Int)} {args : List Int} (hl : args.length = stat.length)
    (hs : ∀ (r : Nat) (s : Int), stat[r]? = some (some s) → args[r]? = some s) :
    ∃ e, Ext.make stat args = .ok e ∧ ∀ r, r < stat.length → ∃ v, args[r]? = some v ∧ e.extent r = .ok v := by
  obtain ⟨d, h1, h2, h3⟩ := gets_ok args stat 0 (by omega) (by simpa using hs)
  have hf : ∀ r, r < stat.length → ∃ v, args[r]? = some v ∧ (⟨stat, d⟩ : Ext).extent r = .ok v := by
    intro r hr
    obtain ⟨v, h4, h5⟩ := extent_fill h2 hr
    rw [h3] at h4
    exact ⟨v, by simpa using h4, h5⟩
  unfold Ext.make
  by_cases hd : args.length = rankDynamic stat
  · rw [if_pos hd]
    refine ⟨⟨stat, args⟩, rfl, ?_⟩
    have hall : ∀ (ss : List (Option Int)) (as : List Int), rankDynamic ss = ss.length → as.length = ss.length → fill ss as = as := by
      intro ss
      induction ss with
      | nil => intro as _ h; rw [List.length_eq_zero_iff.1 h]; rfl
      | cons s ss ih =>
        intro as h1 h2
        cases s with
        | some s =>
          rw [rankDynamic_cons_some] at h1
          have : rankDynamic ss ≤ ss.length := List.countP_le_length
          simp at h1; omega
        | none =>
          rw [rankDynamic_cons_none] at h1
          cases as with
          | nil => simp at h2
          | cons a as =>
            unfold fill
            rw [ih as (by simpa using h1) (by simpa using h2)]
    intro r hr
    obtain ⟨v, h4, h5⟩ := extent_fill hd hr
    rw [hall stat args (by omega) hl] at h4
    exact ⟨v, h4, h5⟩
  · rw [if_neg hd, if_pos hl, h1]
    exact ⟨⟨stat, d⟩, rfl, hf⟩

/-! ## The hypotheses are met -/

def i32 : IT := ⟨true, 32⟩

/-- A transposed 2 × 3 × 4 array with padding. -/
theorem ex_strides : StridesOk [2, 3, 4] [1, 8, 2] :=
  ⟨rfl, by decide, [(1, 2), (2, 4), (8, 3)], by decide, by simp [List.isChain_cons_cons]⟩

example : ∃ size, spanSize i32 [2, 3, 4] = .ok size ∧ size = vol [2, 3, 4] ∧ IsMapping [2, 3, 4] (leftIndex i32 [2, 3, 4]) size ∧ Exhaustive [2, 3, 4] (leftIndex i32 [2, 3, 4]) size :=
  C24_layout_left (by decide) (by decide) (Or.inl (by decide)) (by decide)
example : ∃ size, spanSize i32 [2, 3, 4] = .ok size ∧ size = vol [2, 3, 4] ∧ IsMapping [2, 3, 4] (rightIndex i32 [2, 3, 4]) size ∧ Exhaustive [2, 3, 4] (rightIndex i32 [2, 3, 4]) size :=
  C24_layout_right (by decide) (by decide) (Or.inl (by decide)) (by decide)
example := C24_strides_left (t := i32) (exts := [2, 3, 4]) (by decide) (by decide) (by decide)
example := C24_strides_right (t := i32) (exts := [2, 3, 4]) (by decide) (by decide) (by decide)
example := C24_layout_stride (t := i32) (by decide) ex_strides (by decide) (by decide)
example := C24_is_exhaustive (t := i32) (stat := [none, some 3, none]) (by decide) (by decide) (fun r s h => by
  match r with
  | 0 => simp at h
  | 1 => simpa using h
  | 2 => simp at h
  | r + 3 => simp at h) ex_strides (by decide) (by decide) (by decide)
example := C24_extents_dynamic (stat := [none, some 3, none]) (args := [2, 4]) rfl
example := C24_extents_all (stat := [none, some 3, none]) (args := [2, 3, 4]) rfl (fun r s h => by
  match r with
  | 0 => simp at h
  | 1 => simpa using h
  | 2 => simp at h
  | r + 3 => simp at h)

end STL.Mds
