import Verif.Engines.Lcg
import Verif.Engines.Circ
import Mathlib.Data.BitVec

/-! # C51: subtract_with_carry_engine (proofs) -/

namespace STL.Engines

/-- The `static_assert` on the template arguments; `_Ty` has at most 64 digits. -/
structure SwcP.Ok (p : SwcP) (D : Nat) : Prop where
  hs : 0 < p.s
  hsr : p.s < p.r
  hw : 0 < p.w
  hwD : p.w ≤ D
  hD : D ≤ 64

/-- Specification, N4950 [rand.eng.sub]/2: the state is `X_{i-r}, …, X_{i-1}` and the carry;
`Y = X_{i-s} - X_{i-r} - c`. -/
def swcY (p : SwcP) (st : List Nat × Nat) : Int :=
  (st.1.getD (p.r - p.s) 0 : Int) - (st.1.getD 0 0 : Int) - (st.2 : Int)

/-- Specification, N4950 [rand.eng.sub]/2: `X_i = Y mod 2^w`, and `c` becomes 1 exactly if `Y < 0`. -/
def swcStep (p : SwcP) (st : List Nat × Nat) : List Nat × Nat :=
  (st.1.tail ++ [(swcY p st % (2 ^ p.w : Int)).toNat], if swcY p st < 0 then 1 else 0)

/-- The generator's value is the newest `X`. -/
def swcOut (st : List Nat × Nat) : Nat := st.1.getLastD 0

/-- The state an engine writes to a stream, as numbers. -/
def Swc.view {D : Nat} (p : SwcP) (e : Swc D) : Option (List Nat × Nat) :=
  (e.save p).map fun s => (s.1.map BitVec.toNat, s.2)

/-- The engine between calls. -/
structure SwcOk {D : Nat} (p : SwcP) (e : Swc D) : Prop where
  buf : CircOk p.r e.buf
  val : ∀ j, j < p.r → ∀ v, e.buf.at p.r j = some v → v.toNat < 2 ^ p.w
  carry : e.carry ≤ 1

theorem mx_toNat {p : SwcP} {D : Nat} (hp : p.Ok D) : (p.mx D).toNat = if p.w = D then 0 else 2 ^ p.w := by
  have e : ((1#D) <<< (p.w - 1)) <<< 1 = BitVec.ofNat D (2 ^ p.w) := by
    rw [← BitVec.shiftLeft_add]
    rw [show p.w - 1 + 1 = p.w by have := hp.hw; omega]
    apply BitVec.eq_of_toNat_eq
    have hD : 1 < 2 ^ D := Nat.one_lt_two_pow (by have := hp.hw; have := hp.hwD; omega)
    rw [BitVec.toNat_shiftLeft, BitVec.toNat_ofNat, BitVec.toNat_ofNat, Nat.mod_eq_of_lt hD, Nat.one_shiftLeft]
  unfold SwcP.mx
  rw [e, BitVec.toNat_ofNat]
  split
  · next h => rw [h, Nat.mod_self]
  · next h => exact Nat.mod_eq_of_lt (Nat.pow_lt_pow_right (by decide) (by have := hp.hwD; omega))

theorem mx_eq {p : SwcP} {D : Nat} (hp : p.Ok D) : p.mx D = BitVec.ofNat D (2 ^ p.w) := by
  apply BitVec.eq_of_toNat_eq
  rw [mx_toNat hp, BitVec.toNat_ofNat]
  split
  · next h => rw [h, Nat.mod_self]
  · next h => exact (Nat.mod_eq_of_lt (Nat.pow_lt_pow_right (by decide) (by have := hp.hwD; omega))).symm

theorem setx_arith {p : SwcP} {D : Nat} (hp : p.Ok D) (xis xir : BitVec D) (c : Nat)
    (h1 : xis.toNat < 2 ^ p.w) (h2 : xir.toNat < 2 ^ p.w) (hc : c ≤ 1) :
    let under := decide (xis.toNat < xir.toNat) || decide ((xis - xir).toNat < c)
    let y : Int := (xis.toNat : Int) - (xir.toNat : Int) - (c : Int)
    (under = true ↔ y < 0) ∧
      (if under then xis - xir - BitVec.ofNat D c + p.mx D else xis - xir - BitVec.ofNat D c).toNat
        = (y % (2 ^ p.w : Int)).toNat := by
  intro under y
  have hQ : 2 ^ p.w ≤ 2 ^ D := Nat.pow_le_pow_right (by decide) hp.hwD
  have hQ2 : 2 ≤ 2 ^ p.w := by
    have := Nat.pow_le_pow_right (show 0 < 2 by decide) hp.hw
    simpa using this
  have hiff : under = true ↔ y < 0 := by
    show (decide (xis.toNat < xir.toNat) || decide ((xis - xir).toNat < c)) = true ↔ _
    simp only [Bool.or_eq_true, decide_eq_true_eq]
    by_cases hlt : xis.toNat < xir.toNat
    · simp only [hlt, true_or, true_iff]
      omega
    · simp only [hlt, false_or]
      rw [BitVec.toNat_sub_of_le (by rw [BitVec.le_def]; omega)]
      omega
  refine ⟨hiff, ?_⟩
  have hcast : (2 ^ p.w : Int) = ((2 ^ p.w : Nat) : Int) := by push_cast; rfl
  rw [hcast]
  by_cases hu : under = true
  · rw [if_pos hu]
    have hy := hiff.1 hu
    have hz : (y % ((2 ^ p.w : Nat) : Int)).toNat = 2 ^ p.w + xis.toNat - xir.toNat - c := by
      have : y % ((2 ^ p.w : Nat) : Int) = y + ((2 ^ p.w : Nat) : Int) := by
        rw [← Int.add_emod_right, Int.emod_eq_of_lt (by omega) (by omega)]
      rw [this]
      omega
    rw [hz]
    have hb : xis - xir - BitVec.ofNat D c + p.mx D = BitVec.ofNat D (2 ^ p.w + xis.toNat - xir.toNat - c) := by
      have e1 : BitVec.ofNat D (2 ^ p.w + xis.toNat - xir.toNat - c) + xir + BitVec.ofNat D c
          = p.mx D + xis := by
        rw [mx_eq hp]
        conv_lhs => rw [show xir = BitVec.ofNat D xir.toNat by simp]
        conv_rhs => rw [show xis = BitVec.ofNat D xis.toNat by simp]
        rw [← BitVec.ofNat_add, ← BitVec.ofNat_add, ← BitVec.ofNat_add]
        congr 1
        simp only [BitVec.toNat_ofNat, BitVec.ofNat_toNat, BitVec.setWidth_eq]
        omega
      rw [show xis - xir - BitVec.ofNat D c + p.mx D = (p.mx D + xis) - xir - BitVec.ofNat D c by ring, ← e1]
      ring
    rw [hb, BitVec.toNat_ofNat]
    exact Nat.mod_eq_of_lt (by omega)
  · rw [if_neg hu]
    have hy : ¬ y < 0 := fun h => hu (hiff.2 h)
    have hz : (y % ((2 ^ p.w : Nat) : Int)).toNat = xis.toNat - xir.toNat - c := by
      rw [Int.emod_eq_of_lt (by omega) (by omega)]
      omega
    rw [hz]
    have hcD : c % 2 ^ D = c := Nat.mod_eq_of_lt (by omega)
    have e1 : (xis - xir).toNat = xis.toNat - xir.toNat :=
      BitVec.toNat_sub_of_le (by rw [BitVec.le_def]; omega)
    rw [BitVec.toNat_sub_of_le (by rw [BitVec.le_def, BitVec.toNat_ofNat, hcD, e1]; omega), e1,
      BitVec.toNat_ofNat, hcD]

theorem view_some {D : Nat} {p : SwcP} {e : Swc D} (he : SwcOk p e) :
    ∃ h, e.view p = some (h, e.carry) ∧ h.length = p.r ∧
      ∀ j, j < p.r → h[j]? = (e.buf.at p.r j).map BitVec.toNat := by
  obtain ⟨l, h1, h2, h3⟩ := he.buf.save_some
  refine ⟨l.map BitVec.toNat, ?_, by simp [h2], ?_⟩
  · unfold Swc.view Swc.save
    rw [h1]
    rfl
  · intro j hj
    rw [List.getElem?_map, h3 j hj]

theorem swc_next {D : Nat} {p : SwcP} (hp : p.Ok D) {e : Swc D} (he : SwcOk p e) {st : List Nat × Nat}
    (hv : e.view p = some st) :
    ∃ x e', e.next p = some (x, e') ∧ SwcOk p e' ∧ e'.view p = some (swcStep p st) ∧
      x.toNat = swcOut (swcStep p st) := by
  obtain ⟨h, hvs, hlen, hat⟩ := view_some he
  rw [hvs] at hv
  obtain rfl := (Option.some.inj hv)
  obtain ⟨hb, hval, hc⟩ := he
  obtain ⟨h0, h1, h2, h3⟩ := hb
  obtain ⟨ps, psr, pw, pwD, pD⟩ := hp
  have hbase : ∀ j, e.buf.base p.r j = if j + e.buf.idx < p.r then j + e.buf.idx + p.r else j + e.buf.idx - p.r :=
    fun _ => rfl
  -- the two words read
  unfold Swc.next
  simp only []
  generalize hix : (if 2 * p.r ≤ e.buf.idx then 0 else e.buf.idx) = ix
  have hixc : (e.buf.idx = 2 * p.r ∧ ix = 0) ∨ (e.buf.idx < 2 * p.r ∧ ix = e.buf.idx) := by
    rw [← hix]; split <;> omega
  have hixlt : ix < 2 * p.r := by omega
  have hi1 : (if ix < p.s then ix + 2 * p.r - p.s else ix - p.s) = e.buf.base p.r (p.r - p.s) := by
    rw [hbase]
    repeat' split
    all_goals omega
  have hi2 : (if ix < p.s then ix + p.r else if ix < p.r then ix + p.r else ix - p.r) = e.buf.base p.r 0 := by
    rw [hbase]
    repeat' split
    all_goals omega
  rw [hi1, hi2]
  obtain ⟨xis, hxis⟩ : ∃ v, e.buf.at p.r (p.r - p.s) = some v := CircOk.at_some ⟨h0, h1, h2, h3⟩ _ (by omega)
  obtain ⟨xir, hxir⟩ : ∃ v, e.buf.at p.r 0 = some v := CircOk.at_some ⟨h0, h1, h2, h3⟩ _ (by omega)
  have r1 : e.buf.ax[e.buf.base p.r (p.r - p.s)]? = some xis := hxis
  have r2 : e.buf.ax[e.buf.base p.r 0]? = some xir := hxir
  simp only [r1, r2, Option.bind_some]
  have g1 : h.getD (p.r - p.s) 0 = xis.toNat := by
    rw [List.getD_eq_getElem?_getD, hat _ (by omega), hxis]; rfl
  have g2 : h.getD 0 0 = xir.toNat := by
    rw [List.getD_eq_getElem?_getD, hat _ (by omega), hxir]; rfl
  obtain ⟨hu, hx⟩ := setx_arith (p := p) ⟨ps, psr, pw, pwD, pD⟩ xis xir e.carry (hval _ (by omega) _ hxis)
    (hval _ (by omega) _ hxir) hc
  unfold Swc.setx
  simp only []
  rw [wr_some _ (by omega)]
  simp only [Option.map_some, Option.bind_some]
  rw [List.getElem?_set_self (by omega)]
  simp only [Option.map_some]
  have hy : swcY p (h, e.carry) = (xis.toNat : Int) - (xir.toNat : Int) - (e.carry : Int) := by
    unfold swcY
    rw [g1, g2]
  generalize hunder : (decide (xis.toNat < xir.toNat) || decide ((xis - xir).toNat < e.carry)) = under at hu hx ⊢
  generalize hnewx : (if under then xis - xir - BitVec.ofNat D e.carry + p.mx D
    else xis - xir - BitVec.ofNat D e.carry) = newx at hx ⊢
  rw [← hy] at hu hx
  have hcar : (if under = true then 1 else 0) = if swcY p (h, e.carry) < 0 then 1 else 0 := by
    by_cases hh : under = true
    · rw [if_pos hh, if_pos (hu.1 hh)]
    · rw [if_neg hh, if_neg (fun hn => hh (hu.2 hn))]
  have hnlt : newx.toNat < 2 ^ p.w := by
    rw [hx]
    have hcast : (2 ^ p.w : Int) = ((2 ^ p.w : Nat) : Int) := by push_cast; rfl
    rw [hcast]
    have := Int.emod_lt_of_pos (swcY p (h, e.carry)) (b := ((2 ^ p.w : Nat) : Int))
      (by exact_mod_cast Nat.pow_pos (by decide))
    have h00 := Int.emod_nonneg (swcY p (h, e.carry)) (b := ((2 ^ p.w : Nat) : Int))
      (by have : 0 < 2 ^ p.w := Nat.pow_pos (by decide)
          omega)
    omega
  refine ⟨newx, ⟨⟨ix + 1, e.buf.ax.set ix newx⟩, if under = true then 1 else 0⟩, rfl, ?_, ?_, ?_⟩
  rotate_left 2
  · rw [hx]
    unfold swcOut swcStep
    simp
  all_goals
    have hbase' : ∀ j, Circ.base p.r (⟨ix + 1, e.buf.ax.set ix newx⟩ : Circ D) j
        = if j + (ix + 1) < p.r then j + (ix + 1) + p.r else j + (ix + 1) - p.r := fun _ => rfl
    have hatold : ∀ j, j + 1 < p.r → Circ.at p.r (⟨ix + 1, e.buf.ax.set ix newx⟩ : Circ D) j = e.buf.at p.r (j + 1) := by
      intro j hj
      unfold Circ.at
      have hbb : Circ.base p.r (⟨ix + 1, e.buf.ax.set ix newx⟩ : Circ D) j = e.buf.base p.r (j + 1) := by
        rw [hbase', hbase]
        repeat' split
        all_goals omega
      rw [hbb]
      apply List.getElem?_set_ne
      rw [hbase]
      repeat' split
      all_goals omega
    have hatnew : Circ.at p.r (⟨ix + 1, e.buf.ax.set ix newx⟩ : Circ D) (p.r - 1) = some newx := by
      unfold Circ.at
      have hbb : Circ.base p.r (⟨ix + 1, e.buf.ax.set ix newx⟩ : Circ D) (p.r - 1) = ix := by
        rw [hbase']
        split <;> omega
      rw [hbb]
      exact List.getElem?_set_self (by omega)
    have hok : CircOk p.r (⟨ix + 1, e.buf.ax.set ix newx⟩ : Circ D) :=
      ⟨h0, by simp [h1], by simp, Nat.succ_le_of_lt hixlt⟩
    have hok2 : SwcOk p (⟨⟨ix + 1, e.buf.ax.set ix newx⟩, if under = true then 1 else 0⟩ : Swc D) := by
      refine ⟨hok, ?_, by show (if under = true then 1 else 0) ≤ 1; split <;> omega⟩
      intro j hj v hjv
      by_cases hlast : j + 1 < p.r
      · exact hval _ hlast v ((hatold j hlast).symm.trans hjv)
      · have : j = p.r - 1 := by omega
        subst this
        have := hatnew.symm.trans hjv
        rw [← Option.some.inj this]
        exact hnlt
  · exact hok2
  · obtain ⟨h', hvs', hlen', hat'⟩ := view_some hok2
    rw [hvs']
    unfold swcStep
    congr 1
    refine Prod.ext ?_ hcar
    show h' = h.tail ++ [(swcY p (h, e.carry) % 2 ^ p.w).toNat]
    apply List.ext_getElem?
    intro j
    by_cases hj : j + 1 < p.r
    · rw [hat' j (by omega), List.getElem?_append_left (by simp; omega), List.getElem?_tail, hat (j + 1) hj]
      exact congrArg _ (hatold j hj)
    · by_cases hj2 : j = p.r - 1
      · rw [hat' j (by omega), List.getElem?_append_right (by simp; omega), hj2, List.length_tail, hlen, Nat.sub_self]
        rw [show Circ.at p.r (⟨⟨ix + 1, e.buf.ax.set ix newx⟩, if under = true then 1 else 0⟩ : Swc D).buf (p.r - 1)
          = some newx from hatnew]
        simp [hx]
      · rw [List.getElem?_eq_none (by omega), List.getElem?_eq_none (by simp; omega)]

theorem swc_run {D : Nat} {p : SwcP} (hp : p.Ok D) (k : Nat) : ∀ {e : Swc D}, SwcOk p e → ∀ {st : List Nat × Nat},
    e.view p = some st →
    ∃ outs e', e.run p k = some (outs, e') ∧ SwcOk p e' ∧ e'.view p = some ((swcStep p)^[k] st) ∧
      outs.map BitVec.toNat = (List.range k).map fun i => swcOut ((swcStep p)^[i + 1] st) := by
  induction k with
  | zero => intro e he st hv; exact ⟨[], e, rfl, he, hv, rfl⟩
  | succ k ih =>
    intro e he st hv
    obtain ⟨x, e1, hn, he1, hv1, hx⟩ := swc_next hp he hv
    obtain ⟨outs, e2, hr, he2, hv2, ho⟩ := ih he1 hv1
    refine ⟨x :: outs, e2, ?_, he2, ?_, ?_⟩
    · rw [Swc.run, hn]
      simp only [Option.bind_some]
      rw [hr]
      rfl
    · rw [hv2, Function.iterate_succ_apply]
    · rw [List.map_cons, ho, hx, List.range_succ_eq_map, List.map_cons, List.map_map]
      congr 1

end STL.Engines
