import Verif.VBool.Cont

/-!
`_Find_vbool`, `_Count_vbool`, the comparison.
-/

namespace STL.VBool

/-! ## model -/

/-- `_Countr_zero`: the number of zero bits below the lowest set bit (32 if there is none). -/
def ctz (w : Word) : Nat := ((List.range 32).find? fun j => w.getLsbD j).getD 32
/-- `_Popcount`. -/
def popcount (w : Word) : Nat := (List.range 32).countP fun j => w.getLsbD j
/-- `_Val ? x : ~x`. -/
def sel (val : Bool) (x : Word) : Word := if val then x else ~~~x

/-- stl/inc/vector:3766-3772: the loop over whole words; the second part is `_TotalCount`. -/
def findLoop (n : Nat) (m : Mem) (val : Bool) : (cnt p tot : Nat) → Option (Option Nat × Nat)
  | 0, _, tot => some (none, tot)
  | cnt + 1, p, tot => do
    let x ← ld n m p
    let c := ctz (sel val x)
    if c ≠ 32 then some (some (tot + c), tot) else findLoop n m val cnt (p + 1) (tot + 32)

/-- stl/inc/vector:3774-3781: the last word. -/
def findLast (n : Nat) (m : Mem) (f l : It) (val : Bool) (tot : Nat) : Option It :=
  if l.off ≠ 0 then do
    let k ← sub 32 l.off
    let lsm ← shr ones k
    let x ← ld n m l.ptr
    let c := ctz (sel val x &&& lsm)
    if c ≠ 32 then some (f.add (tot + c)) else some l
  else some l

/-- stl/inc/vector:3735-3784 `_Find_vbool`. -/
def findVb (n : Nat) (m : Mem) (f l : It) (val : Bool) : Option It :=
  if f = l then some f else do
    let fsm ← shl ones f.off
    if f.ptr = l.ptr then
      let k ← sub 32 l.off
      let lsm ← shr ones k
      let x ← ld n m f.ptr
      let c := ctz (sel val x &&& (fsm &&& lsm))
      if c = 32 then some l else (sub c f.off).map f.add
    else
      let x ← ld n m f.ptr
      let c := ctz (sel val x &&& fsm)
      if c ≠ 32 then (sub c f.off).map f.add
      else
        let tot ← sub 32 f.off
        let cnt ← sub l.ptr (f.ptr + 1)
        let r ← findLoop n m val cnt (f.ptr + 1) tot
        match r.1 with
        | some q => some (f.add q)
        | none => findLast n m f l val r.2

/-- stl/inc/vector:3812-3816: ones in whole words. -/
def countLoop (n : Nat) (m : Mem) : (cnt p acc : Nat) → Option Nat
  | 0, _, acc => some acc
  | cnt + 1, p, acc => (ld n m p).bind fun x => countLoop n m cnt (p + 1) (acc + popcount x)

/-- stl/inc/vector:3820-3824: the last word. -/
def countLast (n : Nat) (m : Mem) (l : It) (val : Bool) (acc : Nat) : Option Nat :=
  if l.off ≠ 0 then do
    let k ← sub 32 l.off
    let lsm ← shr ones k
    let x ← ld n m l.ptr
    pure (acc + popcount (sel val x &&& lsm))
  else some acc

/-- stl/inc/vector:3786-3829 `_Count_vbool`. -/
def countVb (n : Nat) (m : Mem) (f l : It) (val : Bool) : Option Nat :=
  if f = l then some 0 else do
    let fsm ← shl ones f.off
    if f.ptr = l.ptr then
      let k ← sub 32 l.off
      let lsm ← shr ones k
      let x ← ld n m f.ptr
      pure (popcount (sel val x &&& (fsm &&& lsm)))
    else
      let x ← ld n m f.ptr
      let acc := popcount (sel val x &&& fsm)
      let words ← sub l.ptr (f.ptr + 1)
      let ones ← countLoop n m words (f.ptr + 1) 0
      let rest ← sub (words * 32) ones
      countLast n m l val (acc + if val then ones else rest)

/-- stl/inc/vector:2310-2335 `_Vbase_compare_three_way`. -/
def cmpWord (a b : Word) : Ordering :=
  let diff := a ^^^ b
  if diff = 0#32 then .eq
  else if a &&& ((1#32) <<< ctz diff) = 0#32 then .lt else .gt

/-- `lexicographical_compare_three_way` over `cnt` words from `p`. -/
def cmpWords (v w : Mem) : (cnt p : Nat) → Ordering
  | 0, _ => .eq
  | cnt + 1, p => match cmpWord (v p) (w p) with
    | .eq => cmpWords v w cnt (p + 1)
    | r => r

/-- stl/inc/vector:2338-2361 `operator<=>` on `vector<bool>`. -/
def Vb.cmp (v w : Vb) : Ordering :=
  match cmpWords v.m w.m (min v.n w.n) 0 with
  | .eq => compare v.size w.size
  | r => r

/-! ## proofs: find -/

theorem ctz_le (w : Word) : ctz w ≤ 32 := by
  unfold ctz
  cases h : (List.range 32).find? fun j => w.getLsbD j with
  | none => simp
  | some a => have := List.mem_of_find?_eq_some h; simp at this; simp; omega

theorem ctz_below (w : Word) (j : Nat) (h : j < ctz w) : w.getLsbD j = false := by
  unfold ctz at h
  cases hf : (List.range 32).find? fun j => w.getLsbD j with
  | none =>
    rw [hf] at h
    have := List.find?_eq_none.mp hf j (by simp at h ⊢; omega)
    simpa using this
  | some a =>
    rw [hf] at h
    simp at h
    rw [List.find?_range_eq_some] at hf
    simpa using hf.2.2 j h

theorem ctz_at (w : Word) (h : ctz w ≠ 32) : w.getLsbD (ctz w) = true := by
  unfold ctz at h ⊢
  cases hf : (List.range 32).find? fun j => w.getLsbD j with
  | none => rw [hf] at h; simp at h
  | some a => simp; simpa using List.find?_some hf

theorem sel_bit (val : Bool) (m : Mem) (p k : Nat) :
    (sel val (rdw m p)).getLsbD k = (decide (k < 32) && (bit m (32 * p + k) == val)) := by
  unfold sel
  cases val
  · simp only [Bool.false_eq_true, if_false, not_bit, word_bit]
    by_cases h : k < 32 <;> simp [h]
  · simp only [if_true, word_bit]; simp

/-- `q` is the first position of `val` in `[a, b)`, or `b`. -/
def First (m : Mem) (val : Bool) (a b q : Nat) : Prop :=
  a ≤ q ∧ q ≤ b ∧ (∀ i, a ≤ i → i < q → bit m i ≠ val) ∧ (q < b → bit m q = val)

theorem findLoop_eq (n : Nat) (m : Mem) (val : Bool) : ∀ (cnt p tot : Nat), p + cnt ≤ n →
    ∃ r, findLoop n m val cnt p tot = some r ∧
      match r.1 with
      | some q => tot ≤ q ∧ First m val (32 * p) (32 * (p + cnt)) (32 * p + (q - tot)) ∧ q < tot + 32 * cnt
      | none => r.2 = tot + 32 * cnt ∧ ∀ i, 32 * p ≤ i → i < 32 * (p + cnt) → bit m i ≠ val := by
  intro cnt
  induction cnt with
  | zero => intro p tot _; exact ⟨_, rfl, by simp, fun i h1 h2 => by omega⟩
  | succ cnt ih =>
    intro p tot h
    simp only [findLoop, ld_eq m (show p < n by omega), bind, Option.bind_some]
    have hle := ctz_le (sel val (rdw m p))
    have hb : ∀ i, 32 * p ≤ i → i < 32 * p + ctz (sel val (rdw m p)) → bit m i ≠ val := by
      intro i h1 h2
      have := ctz_below (sel val (rdw m p)) (i - 32 * p) (by omega)
      rw [sel_bit, decide_eq_true (by omega), Bool.true_and, show 32 * p + (i - 32 * p) = i by omega] at this
      simpa using this
    by_cases hc : ctz (sel val (rdw m p)) = 32
    · rw [if_neg (by omega)]
      obtain ⟨r, e, hr⟩ := ih (p + 1) (tot + 32) (by omega)
      refine ⟨r, e, ?_⟩
      cases hr1 : r.1 with
      | some q =>
        rw [hr1] at hr
        obtain ⟨h1, ⟨h2, h3, h4, h5⟩, h6⟩ := hr
        refine ⟨by omega, ⟨by omega, by omega, ?_, ?_⟩, by omega⟩
        · intro i hi1 hi2
          by_cases hi : i < 32 * (p + 1)
          · exact hb i hi1 (by omega)
          · exact h4 i (by omega) (by omega)
        · intro _
          rw [show 32 * p + (q - tot) = 32 * (p + 1) + (q - (tot + 32)) by omega]
          exact h5 (by omega)
      | none =>
        rw [hr1] at hr
        refine ⟨by omega, ?_⟩
        intro i hi1 hi2
        by_cases hi : i < 32 * (p + 1)
        · exact hb i hi1 (by omega)
        · exact hr.2 i (by omega) (by omega)
    · rw [if_pos hc]
      refine ⟨_, rfl, by simp, ?_, by simp; omega⟩
      have hat := ctz_at (sel val (rdw m p)) hc
      rw [sel_bit] at hat
      simp only [Nat.add_sub_cancel_left]
      refine ⟨by omega, by omega, hb, ?_⟩
      intro _
      simp at hat
      exact hat.2

theorem findVb_first (n : Nat) (m : Mem) (a b : Nat) (val : Bool) (hab : a ≤ b) (hb : b ≤ 32 * n) :
    ∃ q, findVb n m (It.at a) (It.at b) val = some (It.at q) ∧ First m val a b q := by
  obtain ⟨F, fo, hf, hfo⟩ : ∃ F fo, a = 32 * F + fo ∧ fo < 32 := ⟨a / 32, a % 32, by omega, by omega⟩
  obtain ⟨L, lo, hl', hlo⟩ : ∃ F fo, b = 32 * F + fo ∧ fo < 32 := ⟨b / 32, b % 32, by omega, by omega⟩
  have hadd : ∀ c, It.add ⟨F, fo⟩ c = It.at (a + c) := by
    intro c; rw [← add_at, hf, at_mk _ _ hfo]
  have hlit : (⟨L, lo⟩ : It) = It.at b := by rw [hl', at_mk _ _ hlo]
  have hfit : (⟨F, fo⟩ : It) = It.at a := by rw [hf, at_mk _ _ hfo]
  rw [← hlit, ← hfit]
  unfold findVb
  by_cases hz : a = b
  · rw [if_pos (by rw [hfit, hlit, hz])]
    exact ⟨a, by rw [hfit], by omega, by omega, fun i h1 h2 => by omega, fun h => by omega⟩
  · rw [if_neg (by rw [hfit, hlit, at_inj]; exact hz)]
    by_cases hFL : F = L
    · subst hFL
      simp only [shl_eq _ hfo, if_true, sub_eq (show lo ≤ 32 by omega), shr_eq _ (show 32 - lo < 32 by omega),
        ld_eq m (show F < n by omega), bind, Option.bind_some]
      generalize hw : sel val (rdw m F) &&& (ones <<< fo &&& ones >>> (32 - lo)) = w
      have hbit : ∀ k, w.getLsbD k = (decide (fo ≤ k) && decide (k < lo) && (bit m (32 * F + k) == val)) := by
        intro k
        rw [← hw]
        bitsimp [sel_bit]
        by_cases c1 : fo ≤ k <;> by_cases c2 : k < lo <;> by_cases c3 : k < 32 <;> bitfin
      have hbel : ∀ i, a ≤ i → i < b → i < 32 * F + ctz w → bit m i ≠ val := by
        intro i h1 h2 h3
        have := ctz_below w (i - 32 * F) (by omega)
        rw [hbit, decide_eq_true (by omega), decide_eq_true (by omega), show 32 * F + (i - 32 * F) = i by omega] at this
        simpa using this
      have hle := ctz_le w
      by_cases hc : ctz w = 32
      · rw [if_pos hc]
        exact ⟨b, by rw [hlit], by omega, by omega, fun i h1 h2 => hbel i h1 h2 (by omega), fun h => by omega⟩
      · rw [if_neg hc]
        have hat := ctz_at w hc
        rw [hbit] at hat
        simp at hat
        rw [sub_eq (by omega)]
        refine ⟨a + (ctz w - fo), by simp [hadd], by omega, by omega, fun i h1 h2 => hbel i h1 (by omega) (by omega), ?_⟩
        intro _
        rw [show a + (ctz w - fo) = 32 * F + ctz w by omega]; exact hat.2
    · simp only [shl_eq _ hfo, hFL, if_false, ld_eq m (show F < n by omega), bind, Option.bind_some]
      generalize hw : sel val (rdw m F) &&& (ones <<< fo) = w
      have hbit : ∀ k, w.getLsbD k = (decide (fo ≤ k) && decide (k < 32) && (bit m (32 * F + k) == val)) := by
        intro k
        rw [← hw]
        bitsimp [sel_bit]
        by_cases c1 : fo ≤ k <;> by_cases c3 : k < 32 <;> bitfin
      have hbel : ∀ i, a ≤ i → i < 32 * F + ctz w → bit m i ≠ val := by
        intro i h1 h3
        have hle := ctz_le w
        have := ctz_below w (i - 32 * F) (by omega)
        rw [hbit, decide_eq_true (by omega), decide_eq_true (by omega), show 32 * F + (i - 32 * F) = i by omega] at this
        simpa using this
      have hle := ctz_le w
      by_cases hc : ctz w = 32
      · rw [if_neg (by omega), sub_eq (by omega), sub_eq (by omega)]
        simp only [Option.bind_some]
        obtain ⟨r, e, hr⟩ := findLoop_eq n m val (L - (F + 1)) (F + 1) (32 - fo) (by omega)
        rw [e]
        simp only [Option.bind_some]
        cases hr1 : r.1 with
        | some q =>
          rw [hr1] at hr
          obtain ⟨h1, ⟨h2, h3, h4, h5⟩, h6⟩ := hr
          refine ⟨a + q, by simp only [hadd], by omega, by omega, ?_, ?_⟩
          · intro i hi1 hi2
            by_cases hi : i < 32 * (F + 1)
            · exact hbel i hi1 (by omega)
            · exact h4 i (by omega) (by omega)
          · intro _
            rw [show a + q = 32 * (F + 1) + (q - (32 - fo)) by omega]
            exact h5 (by omega)
        | none =>
          rw [hr1] at hr
          obtain ⟨h1, h2⟩ := hr
          have hpre : ∀ i, a ≤ i → i < 32 * L → bit m i ≠ val := by
            intro i hi1 hi2
            by_cases hi : i < 32 * (F + 1)
            · exact hbel i hi1 (by omega)
            · exact h2 i (by omega) (by omega)
          simp only [findLast]
          by_cases hlz : lo = 0
          · rw [if_neg (by omega)]
            exact ⟨b, by rw [hlit], by omega, by omega, fun i h1 h2 => hpre i h1 (by omega), fun h => by omega⟩
          · rw [if_pos hlz]
            simp only [sub_eq (show lo ≤ 32 by omega), shr_eq _ (show 32 - lo < 32 by omega),
              ld_eq m (show L < n by omega), bind, Option.bind_some]
            generalize hw2 : sel val (rdw m L) &&& (ones >>> (32 - lo)) = w2
            have hbit2 : ∀ k, w2.getLsbD k = (decide (k < lo) && (bit m (32 * L + k) == val)) := by
              intro k
              rw [← hw2]
              bitsimp [sel_bit]
              by_cases c1 : k < lo <;> by_cases c3 : k < 32 <;> bitfin
            have hbel2 : ∀ i, a ≤ i → i < b → i < 32 * L + ctz w2 → bit m i ≠ val := by
              intro i h1 h2 h3
              by_cases hi : i < 32 * L
              · exact hpre i h1 hi
              · have := ctz_below w2 (i - 32 * L) (by omega)
                rw [hbit2, decide_eq_true (by omega), show 32 * L + (i - 32 * L) = i by omega] at this
                simpa using this
            have hle2 := ctz_le w2
            by_cases hc2 : ctz w2 = 32
            · rw [if_neg (by omega)]
              exact ⟨b, by rw [hlit], by omega, by omega, fun i h1 h2 => hbel2 i h1 h2 (by omega), fun h => by omega⟩
            · rw [if_pos hc2]
              have hat := ctz_at w2 hc2
              rw [hbit2] at hat
              simp at hat
              refine ⟨a + (r.2 + ctz w2), by rw [hadd], by omega, by omega,
                fun i h1 h2 => hbel2 i h1 (by omega) (by omega), ?_⟩
              intro _
              rw [show a + (r.2 + ctz w2) = 32 * L + ctz w2 by omega]; exact hat.2
      · rw [if_pos hc]
        have hat := ctz_at w hc
        rw [hbit] at hat
        simp at hat
        rw [sub_eq (by omega)]
        refine ⟨a + (ctz w - fo), by simp [hadd], by omega, by omega, fun i h1 h2 => hbel i h1 (by omega), ?_⟩
        intro _
        rw [show a + (ctz w - fo) = 32 * F + ctz w by omega]; exact hat.2

/-! ## proofs: count -/

/-- How many of the bits `[a, b)` are `val`. -/
def Cnt (m : Mem) (val : Bool) (a b : Nat) : Nat := (List.range' a (b - a)).countP fun i => bit m i == val

theorem Cnt_split (m : Mem) (val : Bool) {a b c : Nat} (h1 : a ≤ b) (h2 : b ≤ c) :
    Cnt m val a c = Cnt m val a b + Cnt m val b c := by
  unfold Cnt
  rw [← List.countP_append]
  congr 1
  have := List.range'_append_1 (s := a) (m := b - a) (n := c - b)
  rw [show a + (b - a) = b by omega, show b - a + (c - b) = c - a by omega] at this
  exact this.symm

theorem Cnt_nil (m : Mem) (val : Bool) (a : Nat) : Cnt m val a a = 0 := by simp [Cnt]

theorem Cnt_compl (m : Mem) (a b : Nat) : Cnt m true a b + Cnt m false a b = b - a := by
  unfold Cnt
  have := List.length_eq_countP_add_countP (fun i => bit m i == true) (l := List.range' a (b - a))
  rw [List.length_range'] at this
  refine Eq.trans ?_ this.symm
  congr 1
  apply List.countP_congr
  intro i _
  cases bit m i <;> simp

theorem popcount_eq (m : Mem) (val : Bool) (p lo hi : Nat) (h1 : lo ≤ hi) (h2 : hi ≤ 32) (w : Word)
    (hw : ∀ k, w.getLsbD k = (decide (lo ≤ k) && decide (k < hi) && (bit m (32 * p + k) == val))) :
    popcount w = Cnt m val (32 * p + lo) (32 * p + hi) := by
  unfold popcount Cnt
  have e : List.range 32 = List.range' 0 lo ++ (List.range' lo (hi - lo) ++ List.range' hi (32 - hi)) := by
    have a1 := List.range'_append_1 (s := lo) (m := hi - lo) (n := 32 - hi)
    rw [show lo + (hi - lo) = hi by omega] at a1
    have a2 := List.range'_append_1 (s := 0) (m := lo) (n := hi - lo + (32 - hi))
    rw [Nat.zero_add] at a2
    rw [a1, a2, List.range_eq_range']
    congr 1; omega
  rw [e, List.countP_append, List.countP_append]
  have z1 : (List.range' 0 lo).countP (fun j => w.getLsbD j) = 0 := by
    rw [List.countP_eq_zero]
    intro k hk
    rw [List.mem_range'_1] at hk
    rw [hw, decide_eq_false (by omega)]; simp
  have z2 : (List.range' hi (32 - hi)).countP (fun j => w.getLsbD j) = 0 := by
    rw [List.countP_eq_zero]
    intro k hk
    rw [List.mem_range'_1] at hk
    rw [hw, decide_eq_false (show ¬ k < hi by omega)]; simp
  rw [z1, z2, Nat.zero_add, Nat.add_zero]
  have e2 : List.range' (32 * p + lo) (32 * p + hi - (32 * p + lo)) = (List.range' lo (hi - lo)).map (32 * p + ·) := by
    rw [List.map_add_range']
    congr 1; omega
  rw [e2, List.countP_map]
  apply List.countP_congr
  intro k hk
  rw [List.mem_range'_1] at hk
  rw [hw, decide_eq_true (by omega), decide_eq_true (by omega)]
  simp

theorem countLoop_eq (n : Nat) (m : Mem) : ∀ (cnt p acc : Nat), p + cnt ≤ n →
    countLoop n m cnt p acc = some (acc + Cnt m true (32 * p) (32 * (p + cnt))) := by
  intro cnt
  induction cnt with
  | zero => intro p acc _; simp [countLoop, Cnt_nil]
  | succ cnt ih =>
    intro p acc h
    rw [countLoop, ld_eq _ (by omega), Option.bind_some, ih _ _ (by omega)]
    have := popcount_eq m true p 0 32 (by omega) (by omega) (rdw m p) (by
      intro k; rw [word_bit]; simp)
    rw [this, Cnt_split m true (a := 32 * p) (b := 32 * (p + 1)) (c := 32 * (p + (cnt + 1))) (by omega) (by omega)]
    congr 1
    rw [show 32 * p + 32 = 32 * (p + 1) by omega, show p + 1 + cnt = p + (cnt + 1) by omega, Nat.add_zero]
    omega

theorem countVb_eq (n : Nat) (m : Mem) (a b : Nat) (val : Bool) (hab : a ≤ b) (hb : b ≤ 32 * n) :
    countVb n m (It.at a) (It.at b) val = some (Cnt m val a b) := by
  obtain ⟨F, fo, hf, hfo⟩ : ∃ F fo, a = 32 * F + fo ∧ fo < 32 := ⟨a / 32, a % 32, by omega, by omega⟩
  obtain ⟨L, lo, hl', hlo⟩ : ∃ F fo, b = 32 * F + fo ∧ fo < 32 := ⟨b / 32, b % 32, by omega, by omega⟩
  subst hf hl'
  rw [at_mk _ _ hfo, at_mk _ _ hlo]
  unfold countVb
  by_cases hz : 32 * F + fo = 32 * L + lo
  · have : F = L ∧ fo = lo := by omega
    obtain ⟨rfl, rfl⟩ := this
    simp [Cnt_nil]
  · rw [if_neg (by intro h; injection h with h1 h2; omega)]
    by_cases hFL : F = L
    · subst hFL
      simp only [shl_eq _ hfo, if_true, sub_eq (show lo ≤ 32 by omega), shr_eq _ (show 32 - lo < 32 by omega),
        ld_eq m (show F < n by omega), bind, pure, Option.bind_some]
      congr 1
      apply popcount_eq m val F fo lo (by omega) (by omega)
      intro k
      bitsimp [sel_bit]
      by_cases c1 : fo ≤ k <;> by_cases c2 : k < lo <;> by_cases c3 : k < 32 <;> bitfin
    · have hp1 : popcount (sel val (rdw m F) &&& (ones <<< fo)) = Cnt m val (32 * F + fo) (32 * F + 32) := by
        apply popcount_eq m val F fo 32 (by omega) (by omega)
        intro k
        bitsimp [sel_bit]
        by_cases c1 : fo ≤ k <;> by_cases c3 : k < 32 <;> bitfin
      have hc := Cnt_compl m (32 * (F + 1)) (32 * L)
      have e1 : F + 1 + (L - (F + 1)) = L := by omega
      have hacc : (if val = true then Cnt m true (32 * (F + 1)) (32 * L)
          else (L - (F + 1)) * 32 - Cnt m true (32 * (F + 1)) (32 * L)) = Cnt m val (32 * (F + 1)) (32 * L) := by
        cases val
        · simp only [Bool.false_eq_true, if_false]; omega
        · simp
      simp only [shl_eq _ hfo, hFL, if_false, ld_eq m (show F < n by omega), sub_eq (show F + 1 ≤ L by omega), bind,
        Option.bind_some, countLoop_eq n m (L - (F + 1)) (F + 1) 0 (by omega), e1, Nat.zero_add]
      rw [sub_eq (show Cnt m true (32 * (F + 1)) (32 * L) ≤ (L - (F + 1)) * 32 by omega), Option.bind_some, hacc, hp1]
      have e2 : Cnt m val (32 * F + fo) (32 * F + 32) + Cnt m val (32 * (F + 1)) (32 * L) =
          Cnt m val (32 * F + fo) (32 * L) := by
        rw [show 32 * F + 32 = 32 * (F + 1) by omega]
        rw [← Cnt_split m val (by omega) (by omega)]
      rw [e2]
      unfold countLast
      by_cases hlz : lo = 0
      · simp [hlz]
      · simp only [ne_eq, hlz, not_false_eq_true, if_true, sub_eq (show lo ≤ 32 by omega),
          shr_eq _ (show 32 - lo < 32 by omega), ld_eq m (show L < n by omega), bind, pure, Option.bind_some]
        rw [popcount_eq m val L 0 lo (by omega) (by omega) (sel val (rdw m L) &&& (ones >>> (32 - lo))) (by
          intro k
          bitsimp [sel_bit]
          by_cases c2 : k < lo <;> by_cases c3 : k < 32 <;> bitfin)]
        rw [Nat.add_zero, ← Cnt_split m val (by omega) (by omega)]

/-! ## proofs: comparison -/

theorem cmpWord_spec (a b : Word) :
    (cmpWord a b = .eq ∧ a = b) ∨
    (cmpWord a b ≠ .eq ∧ ∃ j, j < 32 ∧ (∀ k, k < j → a.getLsbD k = b.getLsbD k) ∧ a.getLsbD j ≠ b.getLsbD j ∧
      (cmpWord a b = if a.getLsbD j then .gt else .lt)) := by
  unfold cmpWord
  simp only []
  by_cases h : a ^^^ b = 0#32
  · left
    exact ⟨by rw [if_pos h], BitVec.xor_eq_zero_iff.mp h⟩
  · right
    rw [if_neg h]
    have hle := ctz_le (a ^^^ b)
    have hne : ctz (a ^^^ b) ≠ 32 := by
      intro hc
      apply h
      apply BitVec.eq_of_getLsbD_eq
      intro i hi
      rw [ctz_below _ i (by omega)]; simp
    have hat := ctz_at _ hne
    have hlt : ctz (a ^^^ b) < 32 := by omega
    have hand := and_one a (ctz (a ^^^ b)) hlt
    have hbel := ctz_below (a ^^^ b)
    have hx : ∀ k, (a ^^^ b).getLsbD k = (a.getLsbD k ^^ b.getLsbD k) := fun k => BitVec.getLsbD_xor
    generalize ctz (a ^^^ b) = c at *
    have hif : (if a &&& ((1#32) <<< c) = 0#32 then Ordering.lt else .gt) = if a.getLsbD c then .gt else .lt := by
      rw [← hand]
      by_cases hz : a &&& ((1#32) <<< c) = 0#32 <;> simp [hz]
    rw [hif]
    refine ⟨by split <;> simp, c, hlt, ?_, ?_, rfl⟩
    · intro k hk
      have := hbel k hk
      rw [hx] at this
      revert this
      cases a.getLsbD k <;> cases b.getLsbD k <;> simp
    · rw [hx] at hat
      intro hc
      rw [hc] at hat
      simp at hat

/-- The first difference in `[a, b)` decides. -/
theorem cmpWords_spec (v w : Mem) : ∀ (cnt p : Nat),
    (cmpWords v w cnt p = .eq ∧ ∀ i, 32 * p ≤ i → i < 32 * (p + cnt) → bit v i = bit w i) ∨
    (cmpWords v w cnt p ≠ .eq ∧ ∃ q, 32 * p ≤ q ∧ q < 32 * (p + cnt) ∧
      (∀ i, 32 * p ≤ i → i < q → bit v i = bit w i) ∧ bit v q ≠ bit w q ∧
      cmpWords v w cnt p = if bit v q then .gt else .lt) := by
  intro cnt
  induction cnt with
  | zero => intro p; left; exact ⟨rfl, fun i h1 h2 => by omega⟩
  | succ cnt ih =>
    intro p
    have hb : ∀ (m : Mem) (i : Nat), 32 * p ≤ i → i < 32 * p + 32 → bit m i = (m p).getLsbD (i - 32 * p) := by
      intro m i h1 h2
      unfold bit
      rw [show i / 32 = p by omega, show i % 32 = i - 32 * p by omega]
    rcases cmpWord_spec (v p) (w p) with ⟨h1, h2⟩ | ⟨h1, j, hj, hk, hne, hres⟩
    · have hst : cmpWords v w (cnt + 1) p = cmpWords v w cnt (p + 1) := by simp only [cmpWords, h1]
      rw [hst]
      have heq : ∀ i, 32 * p ≤ i → i < 32 * p + 32 → bit v i = bit w i := by
        intro i a1 a2; rw [hb v i a1 a2, hb w i a1 a2, h2]
      rcases ih (p + 1) with ⟨g1, g2⟩ | ⟨g1, q, q1, q2, q3, q4, q5⟩
      · left
        refine ⟨g1, fun i a1 a2 => ?_⟩
        by_cases c : i < 32 * p + 32
        · exact heq i a1 c
        · exact g2 i (by omega) (by omega)
      · right
        refine ⟨g1, q, by omega, by omega, fun i a1 a2 => ?_, q4, q5⟩
        by_cases c : i < 32 * p + 32
        · exact heq i a1 c
        · exact q3 i (by omega) (by omega)
    · right
      have hst : cmpWords v w (cnt + 1) p = cmpWord (v p) (w p) := by
        simp only [cmpWords]
      rw [hst]
      refine ⟨h1, 32 * p + j, by omega, by omega, ?_, ?_, ?_⟩
      · intro i a1 a2
        rw [hb v i a1 (by omega), hb w i a1 (by omega)]
        exact hk _ (by omega)
      · rw [hb v _ (by omega) (by omega), hb w _ (by omega) (by omega), Nat.add_sub_cancel_left]; exact hne
      · rw [hb v _ (by omega) (by omega), Nat.add_sub_cancel_left]; exact hres

open Spec

theorem lex_diff : ∀ (q : Nat) (l r : List Bool), (∀ k, k < q → l.getD k false = r.getD k false) →
    l.getD q false ≠ r.getD q false → lexCmp l r = if l.getD q false then .gt else .lt := by
  intro q
  induction q with
  | zero =>
    intro l r _ hne
    cases l with
    | nil =>
      cases r with
      | nil => simp at hne
      | cons b r => simp [lexCmp]
    | cons a l =>
      cases r with
      | nil => simp at hne; simp [lexCmp, hne]
      | cons b r =>
        simp at hne
        cases a <;> cases b <;> simp_all [lexCmp]
  | succ q ih =>
    intro l r hk hne
    cases l with
    | nil =>
      cases r with
      | nil => simp at hne
      | cons b r => simp [lexCmp]
    | cons a l =>
      cases r with
      | nil =>
        have : (a :: l).getD (q + 1) false = true := by
          have h0 : ([] : List Bool).getD (q + 1) false = false := rfl
          rw [h0] at hne
          simpa using hne
        rw [this]; rfl
      | cons b r =>
        have h0 : a = b := by simpa using hk 0 (by omega)
        subst h0
        have := ih l r (fun k hk' => by simpa using hk (k + 1) (by omega)) (by simpa using hne)
        simp only [lexCmp, if_true, this]
        simp

theorem lex_prefix : ∀ (l r : List Bool), (∀ k, k < l.length → k < r.length → l.getD k false = r.getD k false) →
    lexCmp l r = compare l.length r.length := by
  intro l
  induction l with
  | nil =>
    intro r _
    cases r with
    | nil => rfl
    | cons b r => simp [lexCmp]; symm; rw [Nat.compare_eq_lt]; omega
  | cons a l ih =>
    intro r h
    cases r with
    | nil => simp [lexCmp]; symm; rw [Nat.compare_eq_gt]; omega
    | cons b r =>
      have h0 : a = b := by simpa using h 0 (by simp) (by simp)
      subst h0
      simp only [lexCmp, if_true]
      rw [ih r (fun k h1 h2 => by simpa using h (k + 1) (by simpa using h1) (by simpa using h2))]
      simp only [List.length_cons]
      rcases Nat.lt_trichotomy l.length r.length with c | c | c
      · rw [Nat.compare_eq_lt.mpr c, Nat.compare_eq_lt.mpr (by omega)]
      · rw [Nat.compare_eq_eq.mpr c, Nat.compare_eq_eq.mpr (by omega)]
      · rw [Nat.compare_eq_gt.mpr c, Nat.compare_eq_gt.mpr (by omega)]

theorem cmp_eq (v w : Vb) (l r : List Bool) (hv : Rep v l) (hw : Rep w r) : v.cmp w = lexCmp l r := by
  unfold Vb.cmp
  have hn1 := nw_bounds v.size
  have hn2 := nw_bounds w.size
  have s1 := hv.size
  have s2 := hw.size
  have w1 := hv.words
  have w2 := hw.words
  rcases cmpWords_spec v.m w.m (min v.n w.n) 0 with ⟨g1, g2⟩ | ⟨g1, q, q1, q2, q3, q4, q5⟩
  · rw [g1]
    simp only []
    rw [s1, s2, lex_prefix]
    intro k h1 h2
    rw [← hv.bits k (by omega), ← hw.bits k (by omega)]
    exact g2 k (by omega) (by omega)
  · have hq : (match cmpWords v.m w.m (min v.n w.n) 0 with
        | .eq => compare v.size w.size
        | x => x) = cmpWords v.m w.m (min v.n w.n) 0 := by
      cases hc : cmpWords v.m w.m (min v.n w.n) 0 with
      | eq => exact absurd hc g1
      | lt => rfl
      | gt => rfl
    rw [hq, q5, hv.bits q (by omega)]
    symm
    apply lex_diff
    · intro k hk
      rw [← hv.bits k (by omega), ← hw.bits k (by omega)]
      exact q3 k (by omega) hk
    · rw [← hv.bits q (by omega), ← hw.bits q (by omega)]
      exact q4

end STL.VBool
