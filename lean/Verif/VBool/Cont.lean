import Verif.VBool.CopyMain
import Verif.VBool.VecModel
import Verif.VBool.Spec

/-!
The container operations against lists.
-/

namespace STL.VBool

/-- The vector holds the sequence `l`: as many words as needed, unused bits of the last word are zero. -/
structure Rep (v : Vb) (l : List Bool) : Prop where
  size : v.size = l.length
  words : v.n = nw v.size
  bits : ∀ i, i < 32 * v.n → bit v.m i = l.getD i false

theorem nw_bounds (c : Nat) : c ≤ 32 * nw c ∧ 32 * nw c < c + 32 := by unfold nw; omega
theorem nw_mono {a b : Nat} (h : a ≤ b) : nw a ≤ nw b := by unfold nw; omega

theorem one_bit (o k : Nat) (ho : o < 32) : ((1#32) <<< o).getLsbD k = decide (k = o) := by
  rw [shl_bit]
  have h1 : ∀ j, (1#32).getLsbD j = decide (j = 0) := by intro j; simp
  rw [h1]
  by_cases h : k = o
  · subst h; simp [ho]
  · by_cases h2 : o ≤ k
    · simp [h, h2]; intro _; omega
    · simp [h, h2]

theorem mask_bit (r : Nat) (hr : r < 32) (k : Nat) : (((1#32) <<< r) - 1#32).getLsbD k = decide (k < r) := by
  have h : ∀ r, r < 32 → ((1#32) <<< r) - 1#32 = ~~~(ones <<< r) := by decide
  rw [h r hr]
  bitsimp []
  by_cases c1 : k < r
  · bitfin
  · by_cases c2 : k < 32 <;> bitfin

theorem and_one (x : Word) (o : Nat) (ho : o < 32) : decide (x &&& ((1#32) <<< o) ≠ 0#32) = x.getLsbD o := by
  by_cases h : x.getLsbD o = true
  · rw [h]
    apply decide_eq_true
    intro hc
    have := congrArg (fun w => w.getLsbD o) hc
    simp only [BitVec.getLsbD_and, one_bit o o ho, h, BitVec.getLsbD_zero] at this
    simp at this
  · have h' : x.getLsbD o = false := by simpa using h
    rw [h']
    apply decide_eq_false
    intro hc
    apply hc
    apply BitVec.eq_of_getLsbD_eq
    intro j hj
    simp only [BitVec.getLsbD_and, one_bit o j ho, BitVec.getLsbD_zero]
    by_cases hjo : j = o
    · subst hjo; simp [h']
    · simp [hjo]

theorem getBit_eq (n : Nat) (m : Mem) (i : Nat) (h : i < 32 * n) : getBit n m (It.at i) = some (bit m i) := by
  rw [at_eq]
  unfold getBit
  simp only [bind, pure, ld_eq m (show i / 32 < n by omega), shl_eq _ (show i % 32 < 32 by omega), Option.bind_some]
  rw [and_one _ _ (by omega)]
  rfl

theorem setBit_eq (n : Nat) (m : Mem) (i : Nat) (b : Bool) (h : i < 32 * n) :
    ∃ m', setBit n m (It.at i) b = some m' ∧ ∀ j, bit m' j = if j = i then b else bit m j := by
  rw [at_eq]
  unfold setBit
  simp only [bind, ld_eq m (show i / 32 < n by omega), shl_eq _ (show i % 32 < 32 by omega), Option.bind_some,
    st_eq m _ (show i / 32 < n by omega)]
  refine ⟨_, rfl, ?_⟩
  intro j
  have e : 32 * (i / 32) + i % 32 = i := by omega
  generalize hq : i / 32 = q at *
  generalize hr : i % 32 = r at *
  have hr32 : r < 32 := by omega
  rw [bit_upd]
  cases b
  · simp only [Bool.false_eq_true, if_false]
    bitsimp [one_bit r _ hr32]
    by_cases c1 : j = i
    · bitfin
    · by_cases c2 : j < 32 * q
      · bitfin
      · by_cases c3 : j < 32 * q + 32 <;> bitfin
  · simp only [if_true]
    bitsimp [one_bit r _ hr32]
    by_cases c1 : j = i
    · bitfin
    · by_cases c2 : j < 32 * q
      · bitfin
      · by_cases c3 : j < 32 * q + 32 <;> bitfin

theorem copyBack_moved (n : Nat) : ∀ (cnt s d : Nat) (m : Mem), cnt ≤ s → s ≤ d → d ≤ 32 * n →
    ∃ m', copyBack n cnt s d m = some m' ∧ Moved m m' (s - cnt) (d - cnt) cnt := by
  intro cnt
  induction cnt with
  | zero => intro s d m _ _ _; exact ⟨m, rfl, Moved.refl _ _ _⟩
  | succ cnt ih =>
    intro s d m h1 h2 h3
    obtain ⟨m1, e1, b1⟩ := setBit_eq n m (d - 1) (bit m (s - 1)) (by omega)
    obtain ⟨m', e2, b2⟩ := ih (s - 1) (d - 1) m1 (by omega) (by omega) (by omega)
    refine ⟨m', ?_, ?_⟩
    · rw [copyBack, getBit_eq _ _ _ (by omega), Option.bind_some, e1, Option.bind_some, e2]
    · intro i
      rw [b2 i, b1 i, b1 (s - 1 - cnt + _)]
      by_cases c1 : i < d - (cnt + 1)
      · bitfin
      · by_cases c2 : i < d - 1
        · bitfin
        · by_cases c3 : i = d - 1 <;> bitfin

theorem putBits_eq (n : Nat) : ∀ (l : List Bool) (d : Nat) (m : Mem), d + l.length ≤ 32 * n →
    ∃ m', putBits n l d m = some m' ∧
      ∀ i, bit m' i = if d ≤ i ∧ i < d + l.length then l.getD (i - d) false else bit m i := by
  intro l
  induction l with
  | nil => intro d m _; exact ⟨m, rfl, fun i => by rw [if_neg (by simp)]⟩
  | cons b l ih =>
    intro d m h
    rw [List.length_cons] at h
    obtain ⟨m1, e1, b1⟩ := setBit_eq n m d b (by omega)
    obtain ⟨m', e2, b2⟩ := ih (d + 1) m1 (by omega)
    refine ⟨m', ?_, ?_⟩
    · rw [putBits, e1, Option.bind_some, e2]
    · intro i
      rw [b2 i, b1 i, List.length_cons]
      by_cases c1 : i = d
      · subst c1
        rw [if_neg (by omega), if_pos rfl, if_pos (by omega), Nat.sub_self]; rfl
      · rw [if_neg c1]
        by_cases c2 : d + 1 ≤ i ∧ i < d + 1 + l.length
        · rw [if_pos c2, if_pos (by omega), show i - d = (i - (d + 1)) + 1 by omega]; rfl
        · rw [if_neg c2, if_neg (by omega)]

/-- `_Trim` establishes the representation. -/
theorem trim_rep (mx : Nat) (v : Vb) (l : List Bool) (hmx : l.length ≤ mx) (hn : nw l.length ≤ v.n)
    (hb : ∀ i, i < l.length → bit v.m i = l.getD i false) :
    ∃ v', Vb.trim mx v l.length = some v' ∧ Rep v' l := by
  have hnb := nw_bounds l.length
  unfold Vb.trim
  rw [if_neg (by omega)]
  have hmin : (if nw l.length < v.n then nw l.length else v.n) = nw l.length := by split <;> omega
  simp only [hmin]
  by_cases hz : 0 < l.length % 32
  · have hw : nw l.length - 1 = l.length / 32 := by unfold nw; omega
    have hw1 : 1 ≤ nw l.length := by omega
    simp only [hz, if_true, bind, pure, shl_eq _ (show l.length % 32 < 32 by omega), sub_eq hw1, Option.bind_some,
      ld_eq v.m (show nw l.length - 1 < nw l.length by omega), st_eq v.m _ (show nw l.length - 1 < nw l.length by omega)]
    refine ⟨_, rfl, ⟨rfl, rfl, ?_⟩⟩
    intro i hi
    simp only at hi
    rw [hw]
    have e : 32 * (l.length / 32) + l.length % 32 = l.length := by omega
    bitsimp [mask_bit (l.length % 32) (by omega)]
    by_cases hl : i < l.length
    · rw [← hb i hl]
      by_cases c1 : i < 32 * (l.length / 32) <;> bitfin
    · have : l.getD i false = false := by
        rw [List.getD_eq_getElem?_getD, List.getElem?_eq_none (by omega)]; rfl
      rw [this]
      bitfin
  · rw [if_neg hz]
    refine ⟨_, rfl, ⟨rfl, rfl, ?_⟩⟩
    intro i hi
    simp only at hi
    exact hb i (by omega)

theorem Rep.getD_ge {l : List Bool} {i : Nat} (h : l.length ≤ i) : l.getD i false = false := by
  rw [List.getD_eq_getElem?_getD, List.getElem?_eq_none (by omega)]; rfl

theorem getD_mid (l r : List Bool) (off i : Nat) (ho : off ≤ l.length) :
    (l.take off ++ r ++ l.drop off).getD i false =
      if i < off then l.getD i false else if i < off + r.length then r.getD (i - off) false
      else l.getD (i - r.length) false := by
  simp only [List.getD_eq_getElem?_getD, List.getElem?_append, List.length_append, List.length_take, List.getElem?_take,
    List.getElem?_drop, Nat.min_eq_left ho]
  by_cases c1 : i < off
  · simp [c1, show i < off + r.length by omega]
  · by_cases c2 : i < off + r.length
    · simp [c1, c2]
    · simp only [c1, c2, if_false]
      congr 2; omega

theorem getD_cut (l : List Bool) (a b i : Nat) (hab : a ≤ b) (hb : b ≤ l.length) :
    (l.take a ++ l.drop b).getD i false = if i < a then l.getD i false else l.getD (i + (b - a)) false := by
  simp only [List.getD_eq_getElem?_getD, List.getElem?_append, List.length_take, List.getElem?_take,
    List.getElem?_drop, Nat.min_eq_left (show a ≤ l.length by omega)]
  by_cases c1 : i < a
  · simp [c1]
  · simp only [c1, if_false]
    congr 2; omega

theorem getD_rep (c : Nat) (b : Bool) (i : Nat) (h : i < c) : (List.replicate c b).getD i false = b := by
  simp [List.getD_eq_getElem?_getD, List.getElem?_replicate, h]

/-- The gap opened by `_Insert_x`. -/
theorem insertX_eq (mx : Nat) (v : Vb) (l : List Bool) (hr : Rep v l) (hmx : l.length ≤ mx) (off count : Nat)
    (ho : off ≤ l.length) :
    if l.length + count ≤ mx then
      ∃ v', v.insertX mx off count = some (.ok v') ∧ v'.size = l.length + count ∧ v'.n = nw (l.length + count) ∧
        (∀ i, i < 32 * v'.n → ¬ (off ≤ i ∧ i < off + count) →
          bit v'.m i = if i < off then l.getD i false else l.getD (i - count) false)
    else v.insertX mx off count = some (.tooLong v) := by
  have hsz := hr.size
  unfold Vb.insertX
  by_cases hc : count = 0
  · subst hc
    rw [if_pos (by omega)]
    refine ⟨v, by simp, by simpa using hsz, by rw [hr.words, hsz]; rfl, ?_⟩
    intro i hi _
    rw [hr.bits i hi]
    split <;> rfl
  · rw [if_pos hc]
    by_cases hlen : l.length + count ≤ mx
    · rw [if_pos hlen, if_neg (by omega)]
      have hnb := nw_bounds (v.size + count)
      have hnb0 := nw_bounds v.size
      have hwb : ∀ i, i < 32 * nw (v.size + count) → bit (v.resizeWords (nw (v.size + count))).m i = l.getD i false := by
        intro i hi
        unfold Vb.resizeWords bit
        simp only
        by_cases hp : i / 32 < v.n
        · rw [if_pos hp]; exact hr.bits i (by omega)
        · rw [if_neg hp, Rep.getD_ge]
          · simp
          · have := hr.words; omega
      by_cases hz : v.size = 0
      · rw [if_pos hz]
        refine ⟨_, rfl, by show count = l.length + count; omega, ?_, ?_⟩
        · simp only [Vb.resizeWords]; rw [hsz]
        · intro i hi hni
          simp only [Vb.resizeWords] at hi
          have := hwb i hi
          simp only at this ⊢
          rw [this]
          have hoff : off = 0 := by omega
          rw [if_neg (by omega), Rep.getD_ge (by omega), Rep.getD_ge (by omega)]
      · rw [if_neg hz]
        have hn : (v.resizeWords (nw (v.size + count))).n = nw (v.size + count) := rfl
        obtain ⟨m', e, hm⟩ := copyBack_moved (v.resizeWords (nw (v.size + count))).n (v.size - off) v.size (v.size + count)
          (v.resizeWords (nw (v.size + count))).m (by omega) (by omega) (by rw [hn]; omega)
        rw [e]
        refine ⟨_, rfl, by simp [hsz], by rw [← hsz]; exact hn, ?_⟩
        intro i hi hni
        simp only [hn] at hi ⊢
        rw [hm i, hwb i hi]
        by_cases c1 : i < off
        · rw [if_neg (by omega), if_pos c1]
        · rw [if_neg c1]
          by_cases c2 : i < v.size + count
          · rw [if_pos (by omega), hwb _ (by omega)]
            congr 1; omega
          · rw [if_neg (by omega), Rep.getD_ge (by omega), Rep.getD_ge (by omega)]
    · rw [if_neg hlen, if_pos (by omega)]

theorem add_at (off count : Nat) : (It.at off).add count = It.at (off + count) := by
  rw [at_eq, at_eq]
  simp only [It.add]
  congr 1 <;> omega

theorem insertN_rep (mx : Nat) (v : Vb) (l : List Bool) (hr : Rep v l) (hmx : l.length ≤ mx) (off count : Nat)
    (val : Bool) (ho : off ≤ l.length) :
    if l.length + count ≤ mx then
      ∃ v', v.insertN mx off count val = some (.ok v') ∧ Rep v' (l.take off ++ List.replicate count val ++ l.drop off)
    else v.insertN mx off count val = some (.tooLong v) := by
  have h := insertX_eq mx v l hr hmx off count ho
  unfold Vb.insertN
  split at h
  · next hlen =>
    obtain ⟨v', e, h1, h2, h3⟩ := h
    rw [if_pos hlen, e, Option.bind_some, add_at]
    have hnb := nw_bounds (l.length + count)
    obtain ⟨m', e2, hf⟩ := fillVb_filled v'.n v'.m off (off + count) val (by omega) (by rw [h2]; omega)
    simp only []
    rw [e2]
    refine ⟨_, rfl, ⟨?_, ?_, ?_⟩⟩
    · simp [h1]; omega
    · simp [h1, h2]
    · intro i hi
      simp only at hi ⊢
      rw [hf i, getD_mid _ _ _ _ ho, List.length_replicate]
      by_cases c : off ≤ i ∧ i < off + count
      · rw [if_pos c, if_neg (by omega), if_pos (by omega), getD_rep _ _ _ (by omega)]
      · rw [if_neg c, h3 i hi c]
        by_cases c1 : i < off
        · rw [if_pos c1, if_pos c1]
        · rw [if_neg c1, if_neg c1, if_neg (by omega)]
  · next hlen => rw [if_neg hlen, h]; rfl

theorem insertRange_rep (mx : Nat) (v : Vb) (l : List Bool) (hr : Rep v l) (hmx : l.length ≤ mx) (off : Nat)
    (r : List Bool) (ho : off ≤ l.length) :
    if l.length + r.length ≤ mx then
      ∃ v', v.insertRange mx off r = some (.ok v') ∧ Rep v' (l.take off ++ r ++ l.drop off)
    else v.insertRange mx off r = some (.tooLong v) := by
  have h := insertX_eq mx v l hr hmx off r.length ho
  unfold Vb.insertRange
  split at h
  · next hlen =>
    obtain ⟨v', e, h1, h2, h3⟩ := h
    rw [if_pos hlen, e, Option.bind_some]
    have hnb := nw_bounds (l.length + r.length)
    obtain ⟨m', e2, hf⟩ := putBits_eq v'.n r off v'.m (by rw [h2]; omega)
    simp only []
    rw [e2]
    refine ⟨_, rfl, ⟨?_, ?_, ?_⟩⟩
    · simp [h1]; omega
    · simp [h1, h2]
    · intro i hi
      simp only at hi ⊢
      rw [hf i, getD_mid _ _ _ _ ho]
      by_cases c : off ≤ i ∧ i < off + r.length
      · rw [if_pos c, if_neg (by omega), if_pos (by omega)]
      · rw [if_neg c, h3 i hi c]
        by_cases c1 : i < off
        · rw [if_pos c1, if_pos c1]
        · rw [if_neg c1, if_neg c1, if_neg (by omega)]
  · next hlen => rw [if_neg hlen, h]; rfl

theorem at_inj {a b : Nat} : It.at a = It.at b ↔ a = b := by
  constructor
  · intro h; rw [at_eq, at_eq] at h; injection h with h1 h2; omega
  · rintro rfl; rfl

theorem diff_at (a b : Nat) : (It.at a).diff (It.at b) = a - b := by
  rw [at_eq, at_eq]; unfold It.diff; simp only; omega

theorem eraseAux (ce : Bool) (mx : Nat) (v : Vb) (l : List Bool) (hr : Rep v l) (hmx : l.length ≤ mx) (a b : Nat)
    (hab : a ≤ b) (hb : b ≤ l.length) :
    ∃ m', copyVb ce v.n v.m (It.at b) (It.at v.size) (It.at a) = some m' ∧
      ∀ sz, sz = l.length - (b - a) → ∃ v', Vb.trim mx ⟨v.n, m', v.size⟩ sz = some v' ∧ Rep v' (l.take a ++ l.drop b) := by
  have hsz := hr.size
  have hw := hr.words
  have hnb := nw_bounds v.size
  obtain ⟨m', e, hm⟩ := copyVb_moved ce v.n v.m b v.size a (by omega) (by omega) (by omega) (by omega)
  refine ⟨m', e, ?_⟩
  intro sz hsz'
  have hlen : (l.take a ++ l.drop b).length = sz := by simp; omega
  rw [← hlen]
  refine trim_rep mx _ _ (by omega) (by simp only [hw]; apply nw_mono; omega) ?_
  intro i hi
  simp only
  rw [hm i, getD_cut _ _ _ _ hab hb]
  by_cases c1 : i < a
  · rw [if_neg (by omega), if_pos c1, hr.bits i (by omega)]
  · rw [if_pos (by omega), if_neg c1, hr.bits _ (by omega)]
    congr 1; omega

theorem erase_rep (ce : Bool) (mx : Nat) (v : Vb) (l : List Bool) (hr : Rep v l) (hmx : l.length ≤ mx) (a b : Nat)
    (hab : a ≤ b) (hb : b ≤ l.length) : ∃ v', v.erase ce mx a b = some v' ∧ Rep v' (l.take a ++ l.drop b) := by
  unfold Vb.erase
  by_cases h : a = b
  · subst h
    rw [if_neg (by simp), List.take_append_drop]
    exact ⟨v, rfl, hr⟩
  · rw [if_pos (by rw [ne_eq, at_inj]; exact h)]
    obtain ⟨m', e, hm⟩ := eraseAux ce mx v l hr hmx a b hab hb
    simp only [bind, e, Option.bind_some]
    apply hm
    have hsz := hr.size
    rw [diff_at, add_at, diff_at]; omega

theorem erase1_rep (ce : Bool) (mx : Nat) (v : Vb) (l : List Bool) (hr : Rep v l) (hmx : l.length ≤ mx) (off : Nat)
    (ho : off < l.length) : ∃ v', v.erase1 ce mx off = some v' ∧ Rep v' (l.take off ++ l.drop (off + 1)) := by
  unfold Vb.erase1
  obtain ⟨m', e, hm⟩ := eraseAux ce mx v l hr hmx off (off + 1) (by omega) (by omega)
  have hsz := hr.size
  simp only [bind, e, Option.bind_some, sub_eq (show 1 ≤ v.size by omega)]
  apply hm
  omega

theorem clear_rep (v : Vb) : Rep v.clear [] := ⟨rfl, by simp [Vb.clear, nw], fun i hi => by simp [Vb.clear] at hi⟩

theorem flip_rep (mx : Nat) (v : Vb) (l : List Bool) (hr : Rep v l) (hmx : l.length ≤ mx) :
    ∃ v', v.flip mx = some v' ∧ Rep v' (l.map (fun b => !b)) := by
  unfold Vb.flip
  have hsz := hr.size
  have hw := hr.words
  have hnb := nw_bounds v.size
  have hlen : v.size = (l.map (fun b => !b)).length := by simp [hsz]
  rw [hlen]
  refine trim_rep mx _ _ (by simpa using hmx) ?_ ?_
  · rw [List.length_map, ← hsz]; exact Nat.le_of_eq hw.symm
  · intro i hi
    simp only [List.length_map] at hi
    have := hr.bits i (by omega)
    unfold bit at this ⊢
    simp only
    rw [not_bit, this]
    simp [List.getD_eq_getElem?_getD, hi]
    omega

theorem make_rep (mx count : Nat) (val : Bool) (h : count ≤ mx) :
    ∃ v, Vb.make mx count val = some v ∧ Rep v (List.replicate count val) := by
  unfold Vb.make
  have := trim_rep mx ⟨nw count, fun _ => if val then ones else 0#32, 0⟩ (List.replicate count val) (by simpa using h)
    (by simp) (by
      intro i hi
      simp only [List.length_replicate] at hi
      rw [getD_rep _ _ _ hi]
      unfold bit
      simp only
      rw [fv_bit]
      simp; omega)
  simpa using this

theorem get_eq (v : Vb) (l : List Bool) (hr : Rep v l) (i : Nat) (h : i < l.length) : v.get i = some (l[i]) := by
  have hsz := hr.size
  have hw := hr.words
  have hnb := nw_bounds v.size
  unfold Vb.get
  rw [getBit_eq _ _ _ (by omega), hr.bits i (by omega)]
  simp [List.getD_eq_getElem?_getD, h]

theorem set_rep (v : Vb) (l : List Bool) (hr : Rep v l) (i : Nat) (b : Bool) (h : i < l.length) :
    ∃ v', v.set i b = some v' ∧ Rep v' (l.set i b) := by
  have hsz := hr.size
  have hw := hr.words
  have hnb := nw_bounds v.size
  unfold Vb.set
  obtain ⟨m', e, hm⟩ := setBit_eq v.n v.m i b (by omega)
  rw [e]
  refine ⟨_, rfl, ⟨by simp [hsz], by simp [hw], ?_⟩⟩
  intro j hj
  simp only at hj ⊢
  rw [hm j]
  simp only [List.getD_eq_getElem?_getD, List.getElem?_set]
  by_cases c : j = i
  · subst c; simp [h]
  · rw [if_neg c, if_neg (by omega), hr.bits j hj, List.getD_eq_getElem?_getD]

theorem resize_rep (ce : Bool) (mx : Nat) (v : Vb) (l : List Bool) (hr : Rep v l) (hmx : l.length ≤ mx) (size : Nat)
    (val : Bool) :
    if size ≤ mx then ∃ v', v.resize ce mx size val = some (.ok v') ∧
      Rep v' (l.take size ++ List.replicate (size - l.length) val)
    else v.resize ce mx size val = some (.tooLong v) := by
  have hsz := hr.size
  unfold Vb.resize
  by_cases c : v.size < size
  · rw [if_pos c]
    have h := insertN_rep mx v l hr hmx v.size (size - v.size) val (by omega)
    by_cases h2 : size ≤ mx
    · rw [if_pos h2]
      rw [if_pos (by omega)] at h
      obtain ⟨v', e, hv⟩ := h
      refine ⟨v', e, ?_⟩
      rw [hsz] at hv
      simp only [List.take_length, List.drop_length, List.append_nil] at hv
      rw [List.take_of_length_le (by omega)]
      exact hv
    · rw [if_neg h2]
      rw [if_neg (by omega)] at h
      exact h
  · rw [if_neg c, if_pos (by omega)]
    have hz : size - l.length = 0 := by omega
    rw [hz, List.replicate_zero, List.append_nil]
    by_cases c2 : size < v.size
    · rw [if_pos c2]
      obtain ⟨v', e, hv⟩ := erase_rep ce mx v l hr hmx size v.size (by omega) (by omega)
      rw [e]
      refine ⟨v', rfl, ?_⟩
      rw [hsz] at hv
      simpa using hv
    · rw [if_neg c2]
      refine ⟨v, rfl, ?_⟩
      rw [List.take_of_length_le (by omega)]
      exact hr

theorem assignN_rep (mx : Nat) (v : Vb) (count : Nat) (val : Bool) :
    if count ≤ mx then ∃ v', v.assignN mx count val = some (.ok v') ∧ Rep v' (List.replicate count val)
    else v.assignN mx count val = some (.tooLong v.clear) := by
  have h := insertN_rep mx v.clear [] (clear_rep v) (by simp) 0 count val (by simp)
  unfold Vb.assignN
  simpa using h

theorem eq_iff (v w : Vb) (l r : List Bool) (hv : Rep v l) (hw : Rep w r) : v.eq w = decide (l = r) := by
  unfold Vb.eq
  have h1 := hv.size
  have h2 := hw.size
  have h3 := nw_bounds v.size
  by_cases h : l = r
  · subst h
    have hs : v.size = w.size := by omega
    have hn : v.n = w.n := by rw [hv.words, hw.words, hs]
    rw [decide_eq_true rfl, decide_eq_true hs, Bool.true_and, List.all_eq_true]
    intro p hp
    have hp' : p < v.n := by simpa using hp
    apply decide_eq_true
    apply BitVec.eq_of_getLsbD_eq
    intro j hj
    have e1 : (v.m p).getLsbD j = bit v.m (32 * p + j) := by
      have := word_bit v.m p j; unfold rdw at this; rw [this]; simp [hj]
    have e2 : (w.m p).getLsbD j = bit w.m (32 * p + j) := by
      have := word_bit w.m p j; unfold rdw at this; rw [this]; simp [hj]
    rw [e1, e2, hv.bits _ (by omega), hw.bits _ (by omega)]
  · rw [decide_eq_false h]
    by_cases hs : v.size = w.size
    · rw [decide_eq_true hs, Bool.true_and]
      by_contra hc
      rw [Bool.not_eq_false, List.all_eq_true] at hc
      apply h
      apply List.ext_getElem (by omega)
      intro i hi1 hi2
      have hwn := hv.words
      have hwn2 := hw.words
      rw [← hs] at hwn2
      have hp := hc (i / 32) (by simp; omega)
      have hp' : v.m (i / 32) = w.m (i / 32) := by simpa using hp
      have b1 := hv.bits i (by omega)
      have b2 := hw.bits i (by omega)
      unfold bit at b1 b2
      rw [hp', b2] at b1
      simpa [List.getD_eq_getElem?_getD, hi1, hi2] using b1.symm
    · rw [decide_eq_false hs, Bool.false_and]

end STL.VBool
