import Verif.Mdspan.Proofs
import Mathlib.Data.List.Chain
import Mathlib.Data.Fintype.EquivFin

/-! # `layout_stride` and `extents`: proofs -/

namespace STL.Mds
open STL

variable {t : IT}

/-- The precondition on strides ([mdspan.layout.stride.cons]/4.3): positive, and in some order of the dimensions each stride is at least the
previous stride times the previous extent. -/
def StridesOk (exts strides : List Int) : Prop :=
  strides.length = exts.length ∧ (∀ s ∈ strides, 1 ≤ s) ∧
  ∃ ps : List (Int × Int), ps.Perm (strides.zip exts) ∧ ps.IsChain fun a b => a.1 * a.2 ≤ b.1

/-- `REQUIRED-SPAN-SIZE(e, s)` when no extent is zero. -/
def reqSize : List Int → List Int → Int
  | e :: es, s :: ss => (e - 1) * s + reqSize es ss
  | _, _ => 1

theorem reqSize_pos : ∀ {exts strides : List Int}, (∀ e ∈ exts, 1 ≤ e) → (∀ s ∈ strides, 1 ≤ s) → 1 ≤ reqSize exts strides
  | [], [], _, _ => by simp [reqSize]
  | [], _ :: _, _, _ => by simp [reqSize]
  | _ :: _, [], _, _ => by simp [reqSize]
  | e :: es, s :: ss, he, hs => by
    have := reqSize_pos (exts := es) (strides := ss) (fun x hx => he x (by simp [hx])) (fun x hx => hs x (by simp [hx]))
    unfold reqSize
    have : 0 ≤ (e - 1) * s := mul_nonneg (by have := he e (by simp); omega) (by have := hs s (by simp); omega)
    omega

theorem dot_bound : ∀ {exts idx : List Int}, InBox exts idx → ∀ {strides : List Int}, (∀ s ∈ strides, 1 ≤ s) → 0 ≤ dot strides idx ∧ dot strides idx < reqSize exts strides
  | _, _, .nil, [], _ => by simp [dot, reqSize]
  | _, _, .nil, _ :: _, _ => by simp [dot, reqSize]
  | _, _, .cons _ _, [], _ => by simp [dot, reqSize]
  | _, _, .cons (a := e) (b := i) h hs, s :: ss, hp => by
    have := dot_bound hs (strides := ss) fun x hx => hp x (by simp [hx])
    have h1 := hp s (by simp)
    unfold dot reqSize
    have h2 : 0 ≤ i * s := mul_nonneg h.1 (by omega)
    have h3 : i * s ≤ (e - 1) * s := mul_le_mul_of_nonneg_right (by omega) (by omega)
    omega

theorem strideFold_ok (hw : 1 ≤ t.w) : ∀ {exts idx : List Int}, InBox exts idx → ∀ {strides : List Int}, (∀ s ∈ strides, 1 ≤ s) → reqSize exts strides ≤ t.max + 1 →
    strideFold t strides idx = .ok (dot strides idx)
  | _, _, .nil, [], _, _ => by simp [dot, strideFold]
  | _, _, .nil, _ :: _, _, _ => by simp [dot, strideFold]
  | _, _, .cons _ _, [], _, _ => by simp [dot, strideFold]
  | _, _, .cons (a := e) (b := i) (l₁ := es) (l₂ := is) h hs, s :: ss, hp, hm => by
    have hb := dot_bound hs (strides := ss) fun x hx => hp x (by simp [hx])
    have h1 := hp s (by simp)
    have h2 : 0 ≤ i * s := mul_nonneg h.1 (by omega)
    have h3 : i * s ≤ (e - 1) * s := mul_le_mul_of_nonneg_right (by omega) (by omega)
    unfold reqSize at hm
    unfold strideFold
    rw [arith_ok hw h2 (by omega), R.ok_bind, strideFold_ok hw hs (fun x hx => hp x (by simp [hx])) (by omega), R.ok_bind, arith_ok hw (by omega) (by omega)]
    rfl

theorem strideIndex_ok (hw : 1 ≤ t.w) {exts idx strides : List Int} (h : InBox exts idx) (hs : ∀ s ∈ strides, 1 ≤ s) (hm : reqSize exts strides ≤ t.max + 1) :
    strideIndex t strides idx = .ok (dot strides idx) := by
  have hb := dot_bound h hs
  unfold strideIndex
  rw [strideFold_ok hw h hs hm, R.ok_bind, conv_ok hw hb.1 (by omega)]

theorem reqLoop_ok (hw : 1 ≤ t.w) : ∀ {exts strides : List Int}, exts.length = strides.length → (∀ e ∈ exts, 1 ≤ e) → (∀ s ∈ strides, 1 ≤ s) → ∀ {r : Int}, 0 ≤ r → r + (reqSize exts strides - 1) ≤ t.max →
    (∀ e ∈ exts, e ≤ t.max) → reqLoop t exts strides r = .ok (r + (reqSize exts strides - 1))
  | [], [], _, _, _, r, _, _, _ => by simp [reqLoop, reqSize]
  | [], _ :: _, hl, _, _, r, _, _, _ => by simp at hl
  | _ :: _, [], hl, _, _, r, _, _, _ => by simp at hl
  | e :: es, s :: ss, hl, he, hs, r, h0, hm, hem => by
    have h1 := he e (by simp)
    have h2 := hs s (by simp)
    have h3 := hem e (by simp)
    have hes : ∀ x ∈ es, 1 ≤ x := fun x hx => he x (by simp [hx])
    have hss : ∀ x ∈ ss, 1 ≤ x := fun x hx => hs x (by simp [hx])
    have hr := reqSize_pos hes hss
    have hp : 0 ≤ (e - 1) * s := mul_nonneg (by omega) (by omega)
    unfold reqSize at hm
    unfold reqLoop
    rw [if_neg (by omega), arith_ok hw (by omega) (by omega), R.ok_bind, arith_ok hw hp (by omega), R.ok_bind, arith_ok hw (by omega) (by omega), R.ok_bind, conv_ok hw (by omega) (by omega),
      reqLoop_ok hw (by simpa using hl) hes hss (by omega) (by omega) (fun x hx => hem x (by simp [hx]))]
    conv_rhs => unfold reqSize
    congr 1; omega

theorem strideSpan_ok (hw : 1 ≤ t.w) {exts strides : List Int} (hl : strides.length = exts.length) (he : ∀ e ∈ exts, 1 ≤ e) (hs : ∀ s ∈ strides, 1 ≤ s) (hem : ∀ e ∈ exts, e ≤ t.max) (hm : reqSize exts strides ≤ t.max) :
    strideSpan t exts strides = .ok (reqSize exts strides) := by
  unfold strideSpan
  rw [reqLoop_ok hw hl.symm he hs (by omega) (by omega) hem]
  congr 1; omega

/-! ## Uniqueness -/

structure Quad where
  s : Int
  e : Int
  i : Int
  j : Int

def quad : List Int → List Int → List Int → List Int → List Quad
  | s :: ss, e :: es, i :: is, j :: js => ⟨s, e, i, j⟩ :: quad ss es is js
  | _, _, _, _ => []

theorem quad_props : ∀ {exts idx : List Int}, InBox exts idx → ∀ {jdx : List Int}, InBox exts jdx → ∀ {strides : List Int}, strides.length = exts.length → (∀ s ∈ strides, 1 ≤ s) →
    (quad strides exts idx jdx).map (fun q => (q.s, q.e)) = strides.zip exts ∧ ((quad strides exts idx jdx).map fun q => q.i * q.s).sum = dot strides idx ∧
    ((quad strides exts idx jdx).map fun q => q.j * q.s).sum = dot strides jdx ∧ (∀ q ∈ quad strides exts idx jdx, 1 ≤ q.s ∧ 0 ≤ q.i ∧ q.i < q.e ∧ 0 ≤ q.j ∧ q.j < q.e) ∧
    ((∀ q ∈ quad strides exts idx jdx, q.i = q.j) → idx = jdx)
  | _, _, .nil, _, .nil, [], _, _ => by simp [quad, dot]
  | _, _, .nil, _, .nil, _ :: _, h, _ => by simp at h
  | _, _, .cons _ _, _, .cons _ _, [], h, _ => by simp at h
  | _, _, .cons (a := e) (b := i) h hs, _, .cons (b := j) h' hs', s :: ss, hl, hp => by
    obtain ⟨a1, a2, a3, a4, a5⟩ := quad_props hs hs' (strides := ss) (by simpa using hl) (fun x hx => hp x (by simp [hx]))
    refine ⟨by simp [quad, a1], by simp [quad, dot, a2], by simp [quad, dot, a3], ?_, ?_⟩
    · intro q hq
      unfold quad at hq
      rcases List.mem_cons.1 hq with rfl | hq
      · exact ⟨hp s (by simp), h.1, h.2, h'.1, h'.2⟩
      · exact a4 q hq
    · intro hq
      unfold quad at hq
      have h1 := hq _ (List.mem_cons_self ..)
      simp only at h1
      rw [h1, a5 fun q hq' => hq q (List.mem_cons_of_mem _ hq')]

/-- A permutation of the image comes from a permutation. -/
theorem perm_lift {κ κ' : Type} (f : κ → κ') {m ps : List κ'} (h : m.Perm ps) : ∀ l : List κ, l.map f = m → ∃ l' : List κ, l'.Perm l ∧ l'.map f = ps := by
  induction h with
  | nil => intro l hl; exact ⟨l, .refl _, hl⟩
  | cons x _ ih =>
    intro l hl
    cases l with
    | nil => cases hl
    | cons a l =>
      simp only [List.map_cons, List.cons.injEq] at hl
      obtain ⟨l', h1, h2⟩ := ih l hl.2
      exact ⟨a :: l', h1.cons a, by simp [h2, hl.1]⟩
  | swap x y l0 =>
    intro l hl
    match l, hl with
    | a :: b :: l, hl =>
      simp only [List.map_cons, List.cons.injEq] at hl
      exact ⟨b :: a :: l, .swap .., by simp [hl.1, hl.2.1, hl.2.2]⟩
  | trans _ _ ih1 ih2 =>
    intro l hl
    obtain ⟨l1, h1, h2⟩ := ih1 l hl
    obtain ⟨l2, h3, h4⟩ := ih2 l1 h2
    exact ⟨l2, h3.trans h1, h4⟩

theorem desc_lt (g : Quad → Int) : ∀ (a : Quad) (l : List Quad), (a :: l).IsChain (fun a b => b.s * b.e ≤ a.s) → (∀ q ∈ a :: l, 1 ≤ q.s ∧ 0 ≤ g q ∧ g q < q.e) →
    0 ≤ ((a :: l).map fun q => g q * q.s).sum ∧ ((a :: l).map fun q => g q * q.s).sum < a.s * a.e
  | a, [], _, h => by
    have := h a (by simp)
    simp
    constructor
    · exact mul_nonneg this.2.1 (by omega)
    · nlinarith
  | a, b :: l, hc, h => by
    rw [List.isChain_cons_cons] at hc
    obtain ⟨h1, h2⟩ := desc_lt g b l hc.2 fun q hq => h q (by simp [List.mem_cons.1 hq])
    have := h a (by simp)
    rw [List.map_cons, List.sum_cons]
    have h3 : 0 ≤ g a * a.s := mul_nonneg this.2.1 (by omega)
    have h4 : g a * a.s ≤ (a.e - 1) * a.s := mul_le_mul_of_nonneg_right (by omega) (by omega)
    have := hc.1
    constructor
    · omega
    · nlinarith

theorem desc_inj : ∀ (l : List Quad), l.IsChain (fun a b => b.s * b.e ≤ a.s) → (∀ q ∈ l, 1 ≤ q.s ∧ 0 ≤ q.i ∧ q.i < q.e ∧ 0 ≤ q.j ∧ q.j < q.e) →
    (l.map fun q => q.i * q.s).sum = (l.map fun q => q.j * q.s).sum → ∀ q ∈ l, q.i = q.j
  | [], _, _, _ => by simp
  | a :: l, hc, h, he => by
    have ha := h a (by simp)
    have hrest : ∀ g : Quad → Int, (∀ q ∈ a :: l, 0 ≤ g q ∧ g q < q.e) → 0 ≤ (l.map fun q => g q * q.s).sum ∧ (l.map fun q => g q * q.s).sum < a.s := by
      intro g hg
      cases l with
      | nil => simp; omega
      | cons b l =>
        rw [List.isChain_cons_cons] at hc
        obtain ⟨h1, h2⟩ := desc_lt g b l hc.2 fun q hq => ⟨(h q (by simp [List.mem_cons.1 hq])).1, hg q (by simp [List.mem_cons.1 hq])⟩
        exact ⟨h1, by have := hc.1; omega⟩
    obtain ⟨r1, r2⟩ := hrest (fun q => q.i) fun q hq => ⟨(h q hq).2.1, (h q hq).2.2.1⟩
    obtain ⟨r3, r4⟩ := hrest (fun q => q.j) fun q hq => ⟨(h q hq).2.2.2.1, (h q hq).2.2.2.2⟩
    rw [List.map_cons, List.map_cons, List.sum_cons, List.sum_cons] at he
    have h1 : a.i = a.j := by
      have h1 : (a.s * a.i + (l.map fun q => q.i * q.s).sum) / a.s = (a.s * a.j + (l.map fun q => q.j * q.s).sum) / a.s := by
        rw [mul_comm a.s a.i, mul_comm a.s a.j, he]
      rw [Int.mul_add_ediv_left _ _ (by omega), Int.mul_add_ediv_left _ _ (by omega), Int.ediv_eq_zero_of_lt r1 r2, Int.ediv_eq_zero_of_lt r3 r4] at h1
      omega
    intro q hq
    rcases List.mem_cons.1 hq with rfl | hq
    · exact h1
    · refine desc_inj l (List.IsChain.tail hc) (fun q hq => h q (by simp [hq])) ?_ q hq
      rw [h1] at he; omega

theorem dot_inj {exts strides idx jdx : List Int} (hs : StridesOk exts strides) (h : InBox exts idx) (h' : InBox exts jdx) (he : dot strides idx = dot strides jdx) : idx = jdx := by
  obtain ⟨hl, hp, ps, hperm, hch⟩ := hs
  obtain ⟨a1, a2, a3, a4, a5⟩ := quad_props h h' hl hp
  obtain ⟨l', p1, p2⟩ := perm_lift (fun q : Quad => (q.s, q.e)) hperm.symm _ a1
  refine a5 fun q hq => ?_
  have hch' : l'.reverse.IsChain (fun a b => b.s * b.e ≤ a.s) := by
    rw [List.isChain_reverse]
    rw [← p2, List.isChain_map] at hch
    exact hch
  have hrev : l'.reverse.Perm (quad strides exts idx jdx) := (List.reverse_perm l').trans p1
  refine desc_inj l'.reverse hch' (fun q hq => a4 q (hrev.mem_iff.1 hq)) ?_ q (hrev.mem_iff.2 hq)
  rw [(hrev.map _).sum_eq, (hrev.map _).sum_eq, a2, a3, he]

/-! ## Exhaustiveness -/

theorem surj_of_eq {exts strides : List Int} (hs : StridesOk exts strides) (h : ∀ e ∈ exts, 0 ≤ e) (he : reqSize exts strides = vol exts) :
    ∀ off, 0 ≤ off → off < reqSize exts strides → ∃ idx, InBox exts idx ∧ dot strides idx = off := by
  classical
  have hn := vol_nonneg h
  have hch : ∀ k : Fin (vol exts).toNat, ∃ idx, InBox exts idx ∧ leftVal exts idx = (k.1 : Int) := fun k => leftVal_surj h _ (by omega) (by have := k.2; omega)
  let g : Fin (vol exts).toNat → Fin (vol exts).toNat := fun k =>
    ⟨(dot strides (hch k).choose).toNat, by
      have hb := dot_bound (hch k).choose_spec.1 hs.2.1
      omega⟩
  have hg : Function.Injective g := by
    intro k k' hk
    have b1 := dot_bound (hch k).choose_spec.1 hs.2.1
    have b2 := dot_bound (hch k').choose_spec.1 hs.2.1
    have hk' : (dot strides (hch k).choose).toNat = (dot strides (hch k').choose).toNat := congrArg Fin.val hk
    have hd := dot_inj hs (hch k).choose_spec.1 (hch k').choose_spec.1 (by omega)
    have e1 := (hch k).choose_spec.2
    have e2 := (hch k').choose_spec.2
    rw [hd] at e1
    apply Fin.ext
    omega
  have hsur := Finite.injective_iff_surjective.1 hg
  intro off h0 h1
  obtain ⟨k, hk⟩ := hsur ⟨off.toNat, by omega⟩
  refine ⟨(hch k).choose, (hch k).choose_spec.1, ?_⟩
  have hk' : (dot strides (hch k).choose).toNat = off.toNat := congrArg Fin.val hk
  have b1 := dot_bound (hch k).choose_spec.1 hs.2.1
  omega

theorem eq_of_surj {exts strides : List Int} (hs : StridesOk exts strides) (h : ∀ e ∈ exts, 1 ≤ e)
    (hsur : ∀ off, 0 ≤ off → off < reqSize exts strides → ∃ idx, InBox exts idx ∧ dot strides idx = off) : reqSize exts strides = vol exts := by
  classical
  have h0 : ∀ e ∈ exts, 0 ≤ e := fun e he => by have := h e he; omega
  have hn := vol_nonneg h0
  have hr := reqSize_pos h hs.2.1
  have hch : ∀ k : Fin (vol exts).toNat, ∃ idx, InBox exts idx ∧ leftVal exts idx = (k.1 : Int) := fun k => leftVal_surj h0 _ (by omega) (by have := k.2; omega)
  let g : Fin (vol exts).toNat → Fin (reqSize exts strides).toNat := fun k =>
    ⟨(dot strides (hch k).choose).toNat, by
      have hb := dot_bound (hch k).choose_spec.1 hs.2.1
      omega⟩
  have hg : Function.Injective g := by
    intro k k' hk
    have b1 := dot_bound (hch k).choose_spec.1 hs.2.1
    have b2 := dot_bound (hch k').choose_spec.1 hs.2.1
    have hk' : (dot strides (hch k).choose).toNat = (dot strides (hch k').choose).toNat := congrArg Fin.val hk
    have hd := dot_inj hs (hch k).choose_spec.1 (hch k').choose_spec.1 (by omega)
    have e1 := (hch k).choose_spec.2
    have e2 := (hch k').choose_spec.2
    rw [hd] at e1
    apply Fin.ext
    omega
  have hgs : Function.Surjective g := by
    intro k
    obtain ⟨idx, h1, h2⟩ := hsur (k.1 : Int) (by omega) (by have := k.2; omega)
    have hb := leftVal_bound h1
    refine ⟨⟨(leftVal exts idx).toNat, by omega⟩, ?_⟩
    apply Fin.ext
    show (dot strides (hch _).choose).toNat = k.1
    have e := (hch ⟨(leftVal exts idx).toNat, by omega⟩).choose_spec
    have : (hch ⟨(leftVal exts idx).toNat, by omega⟩).choose = idx := leftVal_inj e.1 h1 (by rw [e.2]; simp only; omega)
    rw [this, h2]; simp
  have hc := Fintype.card_of_bijective ⟨hg, hgs⟩
  simp at hc
  omega

/-- A chain is sorted, so sorting finds it. -/
theorem chain_sorted {ps : List (Int × Int)} (h1 : ∀ p ∈ ps, 1 ≤ p.1 ∧ 1 ≤ p.2) (hc : ps.IsChain fun a b => a.1 * a.2 ≤ b.1) : ps.Pairwise (fun a b => pairLe a b = true) := by
  have hc' : ps.IsChain (fun a b => pairLe a b = true) := by
    induction ps with
    | nil => exact .nil
    | cons a l ih =>
      cases l with
      | nil => exact .singleton _
      | cons b l =>
        rw [List.isChain_cons_cons] at hc ⊢
        refine ⟨?_, ih (fun p hp => h1 p (by simp [List.mem_cons.1 hp])) hc.2⟩
        have ha := h1 a (by simp)
        have hb := h1 b (by simp)
        unfold pairLe
        simp only [Bool.or_eq_true, decide_eq_true_eq, Bool.and_eq_true, beq_iff_eq]
        have h3 := hc.1
        have h4 : a.1 ≤ a.1 * a.2 := by nlinarith
        rcases lt_or_eq_of_le (by omega : a.1 ≤ b.1) with h5 | h5
        · exact Or.inl h5
        · right
          refine ⟨h5, ?_⟩
          have : a.2 = 1 := by nlinarith
          omega
  have : Trans (fun a b : Int × Int => pairLe a b = true) (fun a b => pairLe a b = true) (fun a b => pairLe a b = true) := by
    constructor
    intro a b c hab hbc
    unfold pairLe at *
    simp only [Bool.or_eq_true, decide_eq_true_eq, Bool.and_eq_true, beq_iff_eq] at *
    omega
  exact List.isChain_iff_pairwise.1 hc'

theorem sort_eq {ps qs : List (Int × Int)} (h1 : ∀ p ∈ ps, 1 ≤ p.1 ∧ 1 ≤ p.2) (hc : ps.IsChain fun a b => a.1 * a.2 ≤ b.1) (hp : ps.Perm qs) : qs.mergeSort pairLe = ps := by
  have hs := List.pairwise_mergeSort (le := pairLe) (by
      intro a b c hab hbc
      unfold pairLe at *
      simp only [Bool.or_eq_true, decide_eq_true_eq, Bool.and_eq_true, beq_iff_eq] at *
      omega) (by
      intro a b
      unfold pairLe
      simp only [Bool.or_eq_true, decide_eq_true_eq, Bool.and_eq_true, beq_iff_eq]
      omega) qs
  refine List.Perm.eq_of_pairwise (le := fun a b => pairLe a b = true) ?_ hs (chain_sorted h1 hc) ((List.mergeSort_perm qs pairLe).trans hp.symm)
  intro a b _ _ hab hba
  unfold pairLe at hab hba
  simp only [Bool.or_eq_true, decide_eq_true_eq, Bool.and_eq_true, beq_iff_eq] at hab hba
  exact Prod.ext (by omega) (by omega)

theorem zip_pos {exts strides : List Int} (he : ∀ e ∈ exts, 1 ≤ e) (hs : ∀ s ∈ strides, 1 ≤ s) : ∀ p ∈ strides.zip exts, 1 ≤ p.1 ∧ 1 ≤ p.2 := by
  intro p hp
  obtain ⟨h1, h2⟩ := List.of_mem_zip hp
  exact ⟨hs _ h1, he _ h2⟩

/-- Sums and products over the pairs. -/
theorem zip_sum : ∀ {exts strides : List Int}, strides.length = exts.length → ((strides.zip exts).map fun p => (p.2 - 1) * p.1).sum + 1 = reqSize exts strides ∧ ((strides.zip exts).map fun p => p.2).prod = vol exts
  | [], [], _ => by simp [reqSize, vol]
  | [], _ :: _, h => by simp at h
  | _ :: _, [], h => by simp at h
  | e :: es, s :: ss, h => by
    obtain ⟨h1, h2⟩ := zip_sum (exts := es) (strides := ss) (by simpa using h)
    rw [List.zip_cons_cons, List.map_cons, List.map_cons, List.sum_cons, List.prod_cons, h2]
    rw [vol_cons]
    unfold reqSize
    exact ⟨by simp only; omega, rfl⟩

theorem exh_chain_sum : ∀ (a : Int × Int) (l : List (Int × Int)), (a :: l).IsChain (fun a b => b.1 = a.1 * a.2) →
    a.1 + ((a :: l).map fun p => (p.2 - 1) * p.1).sum = a.1 * ((a :: l).map fun p => p.2).prod
  | a, [], _ => by simp; ring
  | a, b :: l, hc => by
    rw [List.isChain_cons_cons] at hc
    have := exh_chain_sum b l hc.2
    rw [List.map_cons, List.sum_cons, List.map_cons (f := fun p : Int × Int => p.2) (a := a), List.prod_cons, ← mul_assoc, ← hc.1, ← this, hc.1]
    ring

theorem exhLoop_ok (hw : 1 ≤ t.w) : ∀ (a : Int × Int) (l : List (Int × Int)), (a :: l).IsChain (fun a b => a.1 * a.2 ≤ b.1) → (∀ p ∈ a :: l, 1 ≤ p.1 ∧ 1 ≤ p.2 ∧ p.1 ≤ t.max) →
    ∃ b, exhLoop t a l = .ok b ∧ (b = true ↔ (a :: l).IsChain (fun a b => b.1 = a.1 * a.2))
  | a, [], _, _ => ⟨true, rfl, by simp⟩
  | a, b :: l, hc, h => by
    rw [List.isChain_cons_cons] at hc
    have ha := h a (by simp)
    have hb := h b (by simp)
    have hpos : 0 ≤ a.1 * a.2 := mul_nonneg (by omega) (by omega)
    unfold exhLoop
    rw [arith_ok hw hpos (by omega), R.ok_bind]
    rw [List.isChain_cons_cons]
    by_cases hne : b.1 = a.1 * a.2
    · obtain ⟨b', h1, h2⟩ := exhLoop_ok hw b l hc.2 fun p hp => h p (by simp [List.mem_cons.1 hp])
      refine ⟨b', by simp only [ne_eq, hne, not_true, if_false]; exact h1, ?_⟩
      rw [h2]; tauto
    · exact ⟨false, by simp [hne], by simp; tauto⟩

theorem chainLoop_ok (hw : 1 ≤ t.w) : ∀ (a : Int × Int) (l : List (Int × Int)), (a :: l).IsChain (fun a b => a.1 * a.2 ≤ b.1) → (∀ p ∈ a :: l, 1 ≤ p.1 ∧ 1 ≤ p.2 ∧ p.1 ≤ t.max) → chainLoop t a l = .ok true
  | a, [], _, _ => rfl
  | a, b :: l, hc, h => by
    rw [List.isChain_cons_cons] at hc
    have ha := h a (by simp)
    have hb := h b (by simp)
    have hpos : 0 ≤ a.1 * a.2 := mul_nonneg (by omega) (by omega)
    unfold chainLoop
    rw [arith_ok hw hpos (by omega), R.ok_bind, if_pos hc.1]
    exact chainLoop_ok hw b l hc.2 fun p hp => h p (by simp [List.mem_cons.1 hp])

/-- Types whose arithmetic does not wrap. -/
theorem arith_exact (h : t.sg = true ∨ t.w < 32) {v r : Int} (he : t.arith v = .ok r) : r = v := by
  unfold IT.arith at he
  split at he
  · unfold chkI chkS at he; split at he
    · injection he with he; exact he.symm
    · cases he
  · have hs : t.sg = true := by tauto
    rw [if_pos hs] at he
    unfold chkS at he; split at he
    · injection he with he; exact he.symm
    · cases he

theorem chainLoop_sound (h : t.sg = true ∨ t.w < 32) : ∀ (a : Int × Int) (l : List (Int × Int)), chainLoop t a l = .ok true → (a :: l).IsChain (fun a b => a.1 * a.2 ≤ b.1)
  | a, [], _ => .singleton _
  | a, b :: l, he => by
    unfold chainLoop at he
    cases hp : t.arith (a.1 * a.2) with
    | error e => rw [hp] at he; cases he
    | ok p =>
      rw [hp, R.ok_bind] at he
      have := arith_exact h hp
      subst this
      split at he
      · rename_i hge
        exact List.isChain_cons_cons.2 ⟨hge, chainLoop_sound h b l he⟩
      · cases he

theorem any_zero {exts : List Int} : exts.any (· == 0) = true ↔ 0 ∈ exts := by
  simp

theorem chainCheck_complete (hw : 1 ≤ t.w) {exts strides : List Int} (hs : StridesOk exts strides) (he : ∀ e ∈ exts, 0 ≤ e) (hm : ∀ s ∈ strides, s ≤ t.max) : chainCheck t exts strides = .ok true := by
  unfold chainCheck
  split
  · rfl
  · rename_i hz
    rw [any_zero] at hz
    have he1 : ∀ e ∈ exts, 1 ≤ e := fun e h => by
      have := he e h
      have : e ≠ 0 := fun hc => hz (hc ▸ h)
      omega
    obtain ⟨hl, hp, ps, hperm, hch⟩ := hs
    have hpos : ∀ p ∈ ps, 1 ≤ p.1 ∧ 1 ≤ p.2 := fun p h => zip_pos he1 hp p (hperm.mem_iff.1 h)
    rw [sort_eq hpos hch hperm]
    cases ps with
    | nil => rfl
    | cons a l =>
      exact chainLoop_ok hw a l hch fun p h => ⟨(hpos p h).1, (hpos p h).2, hm _ (List.of_mem_zip (hperm.mem_iff.1 h)).1⟩

theorem chainCheck_sound (h : t.sg = true ∨ t.w < 32) {exts strides : List Int} (hl : strides.length = exts.length) (hp : ∀ s ∈ strides, 1 ≤ s) (hz : 0 ∉ exts) (hc : chainCheck t exts strides = .ok true) :
    StridesOk exts strides := by
  unfold chainCheck at hc
  rw [if_neg (by rw [any_zero]; exact hz)] at hc
  refine ⟨hl, hp, (strides.zip exts).mergeSort pairLe, List.mergeSort_perm _ _, ?_⟩
  cases hms : (strides.zip exts).mergeSort pairLe with
  | nil => exact .nil
  | cons a l =>
    rw [hms] at hc
    exact chainLoop_sound h a l hc

/-- [mdspan.layout.stride.obs]/5: in some order of the dimensions, the first stride is 1 and each stride is the previous one times the previous extent. -/
def ExactChain (exts strides : List Int) : Prop :=
  ∃ ps : List (Int × Int), ps.Perm (strides.zip exts) ∧ (∀ a ∈ ps.head?, a.1 = 1) ∧ ps.IsChain fun a b => b.1 = a.1 * a.2

theorem exact_weak {ps : List (Int × Int)} (h : ps.IsChain fun a b => b.1 = a.1 * a.2) : ps.IsChain fun a b => a.1 * a.2 ≤ b.1 :=
  h.imp fun _ _ h => h.symm.le

theorem exact_vol {exts strides : List Int} (hl : strides.length = exts.length) (h : ExactChain exts strides) : reqSize exts strides = vol exts := by
  obtain ⟨ps, hperm, h1, hc⟩ := h
  obtain ⟨z1, z2⟩ := zip_sum hl
  rw [← (hperm.map _).sum_eq] at z1
  rw [← (hperm.map _).prod_eq] at z2
  cases ps with
  | nil => simp at z1 z2; omega
  | cons a l =>
    have := exh_chain_sum a l hc
    rw [h1 a (by simp), z2] at this
    omega

/-- When no extent is 1 and the sizes agree, the chain is exact. -/
theorem exact_of_sum : ∀ (l : List (Int × Int)) (a : Int × Int) (P : Int), 1 ≤ P → P ≤ a.1 → (∀ p ∈ a :: l, 2 ≤ p.2) → (a :: l).IsChain (fun a b => a.1 * a.2 ≤ b.1) →
    P * ((a :: l).map fun p => p.2).prod ≤ P + ((a :: l).map fun p => (p.2 - 1) * p.1).sum ∧
    (P + ((a :: l).map fun p => (p.2 - 1) * p.1).sum = P * ((a :: l).map fun p => p.2).prod → a.1 = P ∧ (a :: l).IsChain fun a b => b.1 = a.1 * a.2)
  | [], a, P, hP, hPa, h2, _ => by
    have h3 := h2 a (by simp)
    simp only [List.map_cons, List.map_nil, List.prod_cons, List.prod_nil, List.sum_cons, List.sum_nil]
    refine ⟨by nlinarith, fun h => ⟨?_, .singleton _⟩⟩
    have : (a.2 - 1) * (a.1 - P) = 0 := by linarith
    rcases mul_eq_zero.1 this with h | h <;> omega
  | b :: l, a, P, hP, hPa, h2, hc => by
    have h3 := h2 a (by simp)
    rw [List.isChain_cons_cons] at hc
    have hb : P * a.2 ≤ b.1 := by nlinarith [hc.1]
    obtain ⟨i1, i2⟩ := exact_of_sum l b (P * a.2) (by nlinarith) hb (fun p hp => h2 p (by simp [List.mem_cons.1 hp])) hc.2
    rw [List.map_cons (f := fun p : Int × Int => p.2) (a := a), List.map_cons (f := fun p : Int × Int => (p.2 - 1) * p.1) (a := a), List.prod_cons, List.sum_cons]
    generalize ((b :: l).map fun p => p.2).prod = Q at *
    generalize ((b :: l).map fun p => (p.2 - 1) * p.1).sum = S at *
    have hn : 0 ≤ (a.2 - 1) * (a.1 - P) := mul_nonneg (by omega) (by omega)
    refine ⟨by nlinarith, fun h => ?_⟩
    have hz : (a.2 - 1) * (a.1 - P) = 0 := by nlinarith
    have ha : a.1 = P := by rcases mul_eq_zero.1 hz with h | h <;> omega
    obtain ⟨j1, j2⟩ := i2 (by nlinarith)
    exact ⟨ha, List.isChain_cons_cons.2 ⟨by rw [j1, ha], j2⟩⟩

theorem exact_of_vol {exts strides : List Int} (hs : StridesOk exts strides) (h2 : ∀ e ∈ exts, 2 ≤ e) (hv : reqSize exts strides = vol exts) : ExactChain exts strides := by
  obtain ⟨hl, hp, ps, hperm, hch⟩ := hs
  obtain ⟨z1, z2⟩ := zip_sum hl
  rw [← (hperm.map _).sum_eq] at z1
  rw [← (hperm.map _).prod_eq] at z2
  cases ps with
  | nil => exact ⟨[], hperm, by simp, .nil⟩
  | cons a l =>
    have hm : ∀ p ∈ a :: l, 1 ≤ p.1 ∧ 2 ≤ p.2 := fun p h => by
      obtain ⟨q1, q2⟩ := List.of_mem_zip (hperm.mem_iff.1 h)
      exact ⟨hp _ q1, h2 _ q2⟩
    obtain ⟨_, i2⟩ := exact_of_sum l a 1 (by omega) (hm a (by simp)).1 (fun p h => (hm p h).2) hch
    obtain ⟨j1, j2⟩ := i2 (by rw [z2]; omega)
    exact ⟨_, hperm, by simpa using j1, j2⟩

theorem exhSpecial_ok (hw : 1 ≤ t.w) {exts strides : List Int} (hne : exts ≠ []) (hs : StridesOk exts strides) (he : ∀ e ∈ exts, 1 ≤ e) (hm : ∀ s ∈ strides, s ≤ t.max) :
    ∃ b, exhSpecial t exts strides = .ok b ∧ (b = true ↔ ExactChain exts strides) := by
  unfold exhSpecial
  rw [if_neg (by rw [any_zero]; intro hc; have := he 0 hc; omega)]
  obtain ⟨hl, hp, ps, hperm, hch⟩ := hs
  have hpos : ∀ p ∈ ps, 1 ≤ p.1 ∧ 1 ≤ p.2 := fun p h => zip_pos he hp p (hperm.mem_iff.1 h)
  have hsort := sort_eq hpos hch hperm
  rw [hsort]
  have huniq : ∀ qs : List (Int × Int), qs.Perm (strides.zip exts) → (qs.IsChain fun a b => b.1 = a.1 * a.2) → qs = ps := fun qs h1 h2 => by
    rw [← hsort, sort_eq (fun p h => zip_pos he hp p (h1.mem_iff.1 h)) (exact_weak h2) h1]
  cases ps with
  | nil =>
    exfalso
    have := hperm.length_eq
    simp [hl] at this
    exact hne (List.length_eq_zero_iff.1 this.symm)
  | cons a l =>
    simp only
    by_cases h1 : a.1 = 1
    · obtain ⟨b, e1, e2⟩ := exhLoop_ok hw a l hch fun p h => ⟨(hpos p h).1, (hpos p h).2, hm _ (List.of_mem_zip (hperm.mem_iff.1 h)).1⟩
      refine ⟨b, by rw [if_neg (by simpa using h1)]; exact e1, e2.trans ⟨fun h => ⟨_, hperm, by simpa using h1, h⟩, ?_⟩⟩
      rintro ⟨qs, q1, _, q3⟩
      rw [← huniq qs q1 q3]; exact q3
    · refine ⟨false, by rw [if_pos (by simpa using h1)], by simp, ?_⟩
      rintro ⟨qs, q1, q2, q3⟩
      rw [huniq qs q1 q3] at q2
      exact absurd (q2 a (by simp)) h1

theorem exhCommon_ok (hw : 1 ≤ t.w) {exts strides : List Int} (hs : StridesOk exts strides) (he : ∀ e ∈ exts, 2 ≤ e) (hem : ∀ e ∈ exts, e ≤ t.max) (hr : reqSize exts strides ≤ t.max) (hv : vol exts ≤ t.max) :
    ∃ b, exhCommon t exts strides = .ok b ∧ (b = true ↔ ExactChain exts strides) := by
  have he1 : ∀ e ∈ exts, 1 ≤ e := fun e h => by have := he e h; omega
  have hvp := vol_ge_one he1
  unfold exhCommon
  have hsp := spanSize_ok hw (exts := exts) (fun e h => by have := he e h; omega) (Or.inr fun h => by have := he 0 h; omega) hv
  unfold spanSize at hsp
  rw [hsp, R.ok_bind, strideSpan_ok hw hs.1 he1 hs.2.1 hem hr, R.ok_bind]
  refine ⟨_, rfl, ?_⟩
  simp only [Bool.or_eq_true, beq_iff_eq]
  constructor
  · intro h
    exact exact_of_vol hs he (by omega)
  · intro h
    exact Or.inl (exact_vol hs.1 h).symm

/-- `vol ≤ reqSize` under the precondition: an injection of the box into the offsets. -/
theorem vol_le_req {exts strides : List Int} (hs : StridesOk exts strides) (h : ∀ e ∈ exts, 1 ≤ e) : vol exts ≤ reqSize exts strides := by
  classical
  have h0 : ∀ e ∈ exts, 0 ≤ e := fun e he => by have := h e he; omega
  have hr := reqSize_pos h hs.2.1
  have hch : ∀ k : Fin (vol exts).toNat, ∃ idx, InBox exts idx ∧ leftVal exts idx = (k.1 : Int) := fun k => leftVal_surj h0 _ (by omega) (by have := k.2; omega)
  let g : Fin (vol exts).toNat → Fin (reqSize exts strides).toNat := fun k =>
    ⟨(dot strides (hch k).choose).toNat, by
      have hb := dot_bound (hch k).choose_spec.1 hs.2.1
      omega⟩
  have hg : Function.Injective g := by
    intro k k' hk
    have b1 := dot_bound (hch k).choose_spec.1 hs.2.1
    have b2 := dot_bound (hch k').choose_spec.1 hs.2.1
    have hk' : (dot strides (hch k).choose).toNat = (dot strides (hch k').choose).toNat := congrArg Fin.val hk
    have hd := dot_inj hs (hch k).choose_spec.1 (hch k').choose_spec.1 (by omega)
    have e1 := (hch k).choose_spec.2
    have e2 := (hch k').choose_spec.2
    rw [hd] at e1
    apply Fin.ext
    omega
  have := Fintype.card_le_of_injective g hg
  simp at this
  omega

end STL.Mds
