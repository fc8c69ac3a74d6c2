import Verif.VBool.Search

/-!
C53: `vector<bool>` is a sequence of bits.
-/

namespace STL.VBool

open Spec

/-- Runs one operation: the vector after it and whether `length_error` was thrown. -/
def applyOp (ce : Bool) (mx : Nat) (v : Vb) : Op → Option (Vb × Bool)
  | .insertN off count val => (v.insertN mx off count val).map res
  | .insertRange off l => (v.insertRange mx off l).map res
  | .erase a b => (v.erase ce mx a b).map (·, false)
  | .eraseAt off => (v.erase1 ce mx off).map (·, false)
  | .resize size val => (v.resize ce mx size val).map res
  | .clear => some (v.clear, false)
  | .flip => (v.flip mx).map (·, false)
  | .assignN count val => (v.assignN mx count val).map res
  | .set i b => (v.set i b).map (·, false)
where
  res : Res → Vb × Bool
    | .ok v => (v, false)
    | .tooLong v => (v, true)

/-- Runs a history. -/
def runOps (ce : Bool) (mx : Nat) (v : Vb) : List Op → Option (Vb × List Bool)
  | [] => some (v, [])
  | op :: ops => (applyOp ce mx v op).bind fun r => (runOps ce mx r.1 ops).map fun q => (q.1, r.2 :: q.2)

theorem step_len (mx : Nat) (l : List Bool) (h : l.length ≤ mx) (op : Op) (hv : op.valid l) :
    (op.step mx l).1.length ≤ mx := by
  cases op <;> simp only [Op.step, Op.valid] at * <;> (try split) <;> simp <;> omega

theorem applyOp_rep (ce : Bool) (mx : Nat) (v : Vb) (l : List Bool) (hr : Rep v l) (hmx : l.length ≤ mx) (op : Op)
    (hv : op.valid l) : ∃ v', applyOp ce mx v op = some (v', (op.step mx l).2) ∧ Rep v' (op.step mx l).1 := by
  cases op with
  | insertN off count val =>
    have h := insertN_rep mx v l hr hmx off count val hv
    simp only [applyOp, Op.step]
    split at h
    · next c => obtain ⟨v', e, h'⟩ := h; rw [e, if_pos c]; exact ⟨v', rfl, h'⟩
    · next c => rw [h, if_neg c]; exact ⟨v, rfl, hr⟩
  | insertRange off r =>
    have h := insertRange_rep mx v l hr hmx off r hv
    simp only [applyOp, Op.step]
    split at h
    · next c => obtain ⟨v', e, h'⟩ := h; rw [e, if_pos c]; exact ⟨v', rfl, h'⟩
    · next c => rw [h, if_neg c]; exact ⟨v, rfl, hr⟩
  | erase a b =>
    obtain ⟨v', e, h'⟩ := erase_rep ce mx v l hr hmx a b hv.1 hv.2
    exact ⟨v', by simp only [applyOp, e]; rfl, h'⟩
  | eraseAt off =>
    obtain ⟨v', e, h'⟩ := erase1_rep ce mx v l hr hmx off hv
    exact ⟨v', by simp only [applyOp, e]; rfl, h'⟩
  | resize size val =>
    have h := resize_rep ce mx v l hr hmx size val
    simp only [applyOp, Op.step]
    split at h
    · next c => obtain ⟨v', e, h'⟩ := h; rw [e, if_pos c]; exact ⟨v', rfl, h'⟩
    · next c => rw [h, if_neg c]; exact ⟨v, rfl, hr⟩
  | clear => exact ⟨v.clear, rfl, clear_rep v⟩
  | flip =>
    obtain ⟨v', e, h'⟩ := flip_rep mx v l hr hmx
    exact ⟨v', by simp only [applyOp, e]; rfl, h'⟩
  | assignN count val =>
    have h := assignN_rep mx v count val
    simp only [applyOp, Op.step]
    split at h
    · next c => obtain ⟨v', e, h'⟩ := h; rw [e, if_pos c]; exact ⟨v', rfl, h'⟩
    · next c => rw [h, if_neg c]; exact ⟨v.clear, rfl, clear_rep v⟩
  | set i b =>
    obtain ⟨v', e, h'⟩ := set_rep v l hr i b hv
    exact ⟨v', by simp only [applyOp, e]; rfl, h'⟩

theorem runOps_rep (ce : Bool) (mx : Nat) (l l' : List Bool) (ops : List Op) (thr : List Bool)
    (hrun : Run mx l ops l' thr) : ∀ v, Rep v l → l.length ≤ mx →
    ∃ v', runOps ce mx v ops = some (v', thr) ∧ Rep v' l' ∧ l'.length ≤ mx := by
  induction hrun with
  | nil l => intro v hr hmx; exact ⟨v, rfl, hr, hmx⟩
  | @cons l op ops l' thr hval _ ih =>
    intro v hr hmx
    obtain ⟨v1, e1, h1⟩ := applyOp_rep ce mx v l hr hmx op hval
    obtain ⟨v2, e2, h2, h3⟩ := ih v1 h1 (step_len mx l hmx op hval)
    exact ⟨v2, by simp only [runOps, e1, Option.bind_some, e2]; rfl, h2, h3⟩

/-- **C53 (copy)**: copying the bits `[f, l)` to `d` within one array of words, when the destination does not start
inside `(f, l)`, never leaves the array nor shifts too far, moves exactly these bits (as they were before the call) and
changes no other bit; at run time and in constant evaluation alike, for all alignments. -/
theorem C53_copy (ce : Bool) (n : Nat) (m : Mem) (f l d : Nat) (hfl : f ≤ l) (hl : l ≤ 32 * n)
    (hd : d + (l - f) ≤ 32 * n) (ho : d ≤ f ∨ l ≤ d) :
    ∃ m', copyVb ce n m (It.at f) (It.at l) (It.at d) = some m' ∧
      ∀ i, bit m' i = if d ≤ i ∧ i < d + (l - f) then bit m (f + (i - d)) else bit m i :=
  copyVb_moved ce n m f l d hfl hl hd ho

/-- Overlapping, across words, with a shift to the right: 65 bits from 5 to 2. -/
example : (copyVb true 3 (fun p => if p = 0 then 0xFFFF00E5#32 else 0x12345678#32) (It.at 5) (It.at 70) (It.at 2)).map
    (fun m => (m 0, m 1, m 2)) = some (0x1FFFE01D#32, 0x02468ACF#32, 0x1234567F#32) := by decide
/-- The same source by bytes to a place apart. -/
example : (copyVb false 6 (fun p => if p = 0 then 0xFFFF00E5#32 else 0x12345678#32) (It.at 5) (It.at 70) (It.at 101)).map
    (fun m => (m 3, m 4, m 5)) = some (0xFFFF00F8#32, 0x12345678#32, 0x12345678#32) := by decide

/-- **C53 (fill)**: filling `[a, b)` sets exactly these bits. -/
theorem C53_fill (n : Nat) (m : Mem) (a b : Nat) (val : Bool) (hab : a ≤ b) (hb : b ≤ 32 * n) :
    ∃ m', fillVb n m (It.at a) (It.at b) val = some m' ∧
      ∀ i, bit m' i = if a ≤ i ∧ i < b then val else bit m i :=
  fillVb_filled n m a b val hab hb

/-- **C53 (history)**: a vector built with `count` copies of `val` and then put through any history of operations with
valid positions behaves as the list: the same operations throw `length_error`, the size is the length of the list and
every element reads as that of the list. -/
theorem C53_history (ce : Bool) (mx count : Nat) (val : Bool) (hc : count ≤ mx) (ops : List Op) (l' thr : List Bool)
    (hrun : Run mx (List.replicate count val) ops l' thr) :
    ∃ v v', Vb.make mx count val = some v ∧ runOps ce mx v ops = some (v', thr) ∧ v'.size = l'.length ∧
      ∀ i (h : i < l'.length), v'.get i = some l'[i] := by
  obtain ⟨v, e, hr⟩ := make_rep mx count val hc
  obtain ⟨v', e', hr', _⟩ := runOps_rep ce mx _ _ _ _ hrun v hr (by simpa using hc)
  exact ⟨v, v', e, e', hr'.size, fun i h => get_eq v' l' hr' i h⟩

/-- A history with a throw: 40 ones, five zeros into the middle, flip, cut, an insertion that is too long, a write. -/
example : ∃ l', Run 100 (List.replicate 40 true)
    [.insertN 30 5 false, .flip, .erase 2 33, .insertN 1 90 true, .eraseAt 0, .set 1 false, .resize 4 true] l'
    [false, false, false, true, false, false, false] ∧ l' = [false, false, true, false] :=
  ⟨_, .cons (by simp [Op.valid]) <| .cons trivial <| .cons (by simp [Op.valid, Op.step]) <|
    .cons (by simp [Op.valid, Op.step]) <| .cons (by simp [Op.valid, Op.step]) <|
    .cons (by simp [Op.valid, Op.step]) <| .cons trivial <| .nil _, by decide⟩

/-- **C53 (equality)**: vectors that come from two histories compare equal exactly when the sequences are equal,
whatever the storage held before. -/
theorem C53_equality (ce : Bool) (mx c1 c2 : Nat) (b1 b2 : Bool) (h1 : c1 ≤ mx) (h2 : c2 ≤ mx) (o1 o2 : List Op)
    (l1 l2 t1 t2 : List Bool) (r1 : Run mx (List.replicate c1 b1) o1 l1 t1)
    (r2 : Run mx (List.replicate c2 b2) o2 l2 t2) :
    ∃ v w, (Vb.make mx c1 b1).bind (runOps ce mx · o1) = some (v, t1) ∧
      (Vb.make mx c2 b2).bind (runOps ce mx · o2) = some (w, t2) ∧ v.eq w = decide (l1 = l2) := by
  obtain ⟨v, e, hr⟩ := make_rep mx c1 b1 h1
  obtain ⟨v', e', hr', _⟩ := runOps_rep ce mx _ _ _ _ r1 v hr (by simpa using h1)
  obtain ⟨w, f, hs⟩ := make_rep mx c2 b2 h2
  obtain ⟨w', f', hs', _⟩ := runOps_rep ce mx _ _ _ _ r2 w hs (by simpa using h2)
  exact ⟨v', w', by rw [e, Option.bind_some, e'], by rw [f, Option.bind_some, f'], eq_iff v' w' l1 l2 hr' hs'⟩

/-- The hypotheses hold for two different histories that end in the same sequence. -/
example : ∃ l1 l2 t1 t2, Run 50 (List.replicate 33 true) [.erase 1 33] l1 t1 ∧ Run 50 (List.replicate 0 true) [.insertN 0 1 true] l2 t2 ∧
    l1 = l2 :=
  ⟨_, _, _, _, .cons (by simp [Op.valid]) <| .nil _, .cons (by simp [Op.valid]) <| .nil _, by decide⟩

/-- **C53 (order)**: vectors that come from two histories are ordered as the sequences are, lexicographically. -/
theorem C53_order (ce : Bool) (mx c1 c2 : Nat) (b1 b2 : Bool) (h1 : c1 ≤ mx) (h2 : c2 ≤ mx) (o1 o2 : List Op)
    (l1 l2 t1 t2 : List Bool) (r1 : Run mx (List.replicate c1 b1) o1 l1 t1)
    (r2 : Run mx (List.replicate c2 b2) o2 l2 t2) :
    ∃ v w, (Vb.make mx c1 b1).bind (runOps ce mx · o1) = some (v, t1) ∧
      (Vb.make mx c2 b2).bind (runOps ce mx · o2) = some (w, t2) ∧ v.cmp w = lexCmp l1 l2 := by
  obtain ⟨v, e, hr⟩ := make_rep mx c1 b1 h1
  obtain ⟨v', e', hr', _⟩ := runOps_rep ce mx _ _ _ _ r1 v hr (by simpa using h1)
  obtain ⟨w, f, hs⟩ := make_rep mx c2 b2 h2
  obtain ⟨w', f', hs', _⟩ := runOps_rep ce mx _ _ _ _ r2 w hs (by simpa using h2)
  exact ⟨v', w', by rw [e, Option.bind_some, e'], by rw [f, Option.bind_some, f'], cmp_eq v' w' l1 l2 hr' hs'⟩

/-- **C53 (find)**: finding `val` in `[a, b)` gives the first position that has it, or `b`. -/
theorem C53_find (n : Nat) (m : Mem) (a b : Nat) (val : Bool) (hab : a ≤ b) (hb : b ≤ 32 * n) :
    ∃ q, findVb n m (It.at a) (It.at b) val = some (It.at q) ∧ a ≤ q ∧ q ≤ b ∧
      (∀ i, a ≤ i → i < q → bit m i ≠ val) ∧ (q < b → bit m q = val) :=
  findVb_first n m a b val hab hb

example : findVb 3 (fun p => if p = 2 then 0x10#32 else 0#32) (It.at 3) (It.at 70) true = some (It.at 68) := by decide

/-- **C53 (count)**: counting `val` in `[a, b)` gives the number of positions that have it. -/
theorem C53_count (n : Nat) (m : Mem) (a b : Nat) (val : Bool) (hab : a ≤ b) (hb : b ≤ 32 * n) :
    countVb n m (It.at a) (It.at b) val = some ((List.range' a (b - a)).countP fun i => bit m i == val) :=
  countVb_eq n m a b val hab hb

example : countVb 3 (fun _ => 0xF0F0F0F0#32) (It.at 5) (It.at 70) false = some 32 := by decide

end STL.VBool
