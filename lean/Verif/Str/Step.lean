import Verif.Str.Rest

/-! # Every operation keeps the invariant and does what the specification says. Proofs only. -/

namespace STL.Str
open STL
variable {α : Type} {P : Par α} {w w1 : W α} {s : St α} {k l n : Nat} {q : Ptr α} {Z : List α}

theorem atSize_atSize {a b : Nat} : atSize (atSize w k a) k b = atSize w k b := by
  unfold atSize
  simp

theorem sat_resizeOverwrite {op : List (Option α) → List α} (I : Inv P w s) (hop : ∀ zs, zs.length = n → (op zs).length ≤ n) :
    Does P (resizeOverwrite P k n op) w fun s' out => edit' P s s' k n (fun Y => ∃ zs : List (Option α), zs.length = n ∧
      zs.take (s k).X.length = (((s k).X.take n).map some) ∧ Y = op zs) out := by
  have O := I.own k
  have O1 := O.le
  have O2 := O.mx
  unfold resizeOverwrite
  refine Does.get ?_
  rw [show w.ss k = ⟨(s k).loc, (s k).X.length, (s k).cap⟩ by rw [← O.size, ← O.res, ← O.ptr]]
  unfold overwriteRoom
  dsimp only
  by_cases h : (s k).cap < n
  · rw [if_pos h]
    refine Sat.then (sat_reserveBy I h) (fun e w' h' => ?_) ?_
    · refine ⟨s, h'.1, ?_⟩
      unfold edit'
      rcases h'.2 with ⟨h1, h2⟩ | ⟨h1, h2⟩
      · rw [if_pos h2]
        exact ⟨by rw [h1], rfl⟩
      · rw [if_neg (by omega)]
        exact Or.inr ⟨by rw [h1], h, rfl⟩
    · rintro _ w' ⟨hm, cap, b, h1, h2, h3, h4, _, h5⟩
      have e1 : updS s k ⟨(s k).X, cap, some b⟩ k = ⟨(s k).X, cap, some b⟩ := updS_same
      refine (sat_overwrite (s := updS s k ⟨(s k).X, cap, some b⟩) (k := k) (n := n) (op := op) (by rw [e1]; exact h5) (by rw [e1]; exact h1) hop).mono ?_ fun _ _ h => absurd h id
      rintro _ w2 ⟨zs, z1, z2, z3⟩
      rw [e1, updS_updS] at z3
      rw [e1] at z2
      refine ⟨_, z3, edit_none hm ⟨zs, z1, z2, rfl⟩ ?_ rfl⟩
      unfold room
      rw [if_neg (by omega)]
      exact ⟨⟨b, rfl, h4⟩, h1, h2⟩
  · rw [if_neg h]
    refine Sat.bind (Sat.setSize ?_)
    refine (sat_overwrite (s := s) (k := k) (n := n) (op := op) ?_ (by omega) hop).mono ?_ fun _ _ h => absurd h id
    · have : atSize (atSize w k n) k (s k).X.length = w := by rw [atSize_atSize, atSize_self O.size]
      unfold atSize at this
      unfold atSize
      rw [this]
      exact I
    rintro _ w2 ⟨zs, z1, z2, z3⟩
    refine ⟨_, z3, edit_none (by omega) ⟨zs, z1, z2, rfl⟩ ?_ rfl⟩
    unfold room
    rw [if_pos (by omega)]
    exact ⟨rfl, rfl⟩

/-! ## Access -/

theorem sat_rd1 (I : Inv P w s) {i : Nat} {x : α} (h : ((s k).X ++ [P.nul])[i]? = some x) {Q : α → W α → Prop} {E : Exc → W α → Prop} (hQ : Q x w) :
    Sat (rd1 ((s k).at k) i) w Q E := by
  have O1 := (I.own k).le
  have hi : i < ((s k).X ++ [P.nul]).length := by
    rcases Nat.lt_or_ge i ((s k).X ++ [P.nul]).length with h1 | h1
    · exact h1
    · rw [List.getElem?_eq_none h1] at h
      cases h
  simp only [List.length_append, List.length_singleton] at hi
  unfold rd1
  refine Sat.bind (Sat.rdBlk (I.rd (by omega)) fun f hf => ?_)
  have : f 0 = some x := by
    rw [hf 0 (by omega)]
    simp only [val]
    rw [I.chr (by omega)]
    exact h
  rw [this]
  exact Sat.pure' hQ

theorem sat_at (I : Inv P w s) {i : Nat} : Sat (at_ P k i) w (fun x w' => w' = w ∧ (s k).X[i]? = some x) fun e w' => e = .outOfRange ∧ w' = w ∧ (s k).X[i]? = none := by
  unfold at_
  refine Sat.get ?_
  rw [(I.own k).size]
  refine Sat.ite (fun h => Sat.throw ⟨rfl, rfl, List.getElem?_eq_none h⟩) fun h => Sat.bind (Sat.myptr I.mode' ?_)
  rw [I.at_eq]
  have hi : i < (s k).X.length := by omega
  exact sat_rd1 I (x := (s k).X[i]) (by rw [List.getElem?_append_left hi, List.getElem?_eq_getElem hi]) ⟨rfl, List.getElem?_eq_getElem hi⟩

theorem sat_index (I : Inv P w s) {i : Nat} (hi : i ≤ (s k).X.length) :
    Sat (index P k i) w (fun x w' => w' = w ∧ ((s k).X ++ [P.nul])[i]? = some x) fun _ _ => False := by
  unfold index
  refine Sat.bind (Sat.myptr I.mode' ?_)
  rw [I.at_eq]
  have h1 : i < ((s k).X ++ [P.nul]).length := by simp; omega
  exact sat_rd1 I (x := ((s k).X ++ [P.nul])[i]) (List.getElem?_eq_getElem h1) ⟨rfl, List.getElem?_eq_getElem h1⟩

theorem sat_store (I : Inv P w s) {i : Nat} {ch : α} (hi : i < (s k).X.length) :
    Does P (store P k i ch) w fun s' out => out = .none ∧ s' = updS s k ⟨(s k).X.set i ch, (s k).cap, (s k).loc⟩ := by
  have O := I.own k
  have O1 := O.le
  unfold store
  refine Sat.bind (Sat.myptr I.mode' ?_)
  rw [I.at_eq]
  refine Sat.set1 (I.wr (by omega)) ⟨_, ?_, rfl, rfl⟩
  have := I.inPlace (k := k) (Y := (s k).X.set i ch) (C := blk w.cel ((s k).at k) i 1 fun _ => some ch) (by simp; omega) ?_ ?_
  · rw [List.length_set] at this
    have e := atSize_self O.size
    unfold atSize at e
    have e2 : updF w.ss k { w.ss k with size := (s k).X.length } = w.ss := congrArg W.ss e
    rw [e2] at this
    exact this
  · intro q hq
    rw [blk_ne hq]
  · intro j hj
    rw [List.length_set] at hj
    rw [blk_at]
    have := I.chr (k := k) (i := j) hj
    grind

/-! ## Sources -/

theorem sat_resolve (I : Inv P w s) {q : Src α} (h : srcOk s q) {f : Ptr α × Nat → M α Unit} {F : St α → Out α → Prop}
    (hf : ∀ p n, IsSrc P s p n (srcVal P s q) → (∀ l i, p = .at ((s l).at l) i → q = .str l i n) → Does P (f (p, n)) w F) :
    Does P (resolve P q >>= f) w F := by
  cases q with
  | arr xs => exact Sat.bind (Sat.pure' (hf _ _ ⟨rfl, Or.inl rfl⟩ fun l i h => by cases h))
  | str l i n =>
    unfold srcOk at h
    unfold resolve
    refine Sat.bind (Sat.bind (Sat.myptr I.mode' (Sat.pure' ?_)))
    rw [I.at_eq]
    refine hf _ _ ⟨?_, Or.inr ⟨l, i, rfl, h, rfl⟩⟩ ?_
    · unfold srcVal
      simp
      omega
    · intro l' i' h
      injection h with h1 h2
      have : l' = l := Classical.byContradiction fun hn => I.at_ne hn h1.symm
      rw [this, h2]

theorem sat_resolveStr (I : Inv P w s) {l off n : Nat} {f : Ptr α × Nat → M α Unit} {F : St α → Out α → Prop}
    (hf : off ≤ (s l).X.length → ∀ d, d = min n ((s l).X.length - off) → IsSrc P s (.at ((s l).at l) off) d (sub (s l).X off n) → Does P (f (.at ((s l).at l) off, d)) w F) :
    Does P (resolveStr P l off n >>= f) w fun s' out => inside (s l).X off s s' out (F s' out) := by
  have O := I.own l
  unfold resolveStr
  refine Sat.bind (Sat.get ?_)
  refine Sat.ite (fun h => Sat.throw ⟨s, I, ?_⟩) fun h => ?_
  · rw [O.size] at h
    dsimp only
    unfold inside
    rw [if_pos h]
    exact ⟨rfl, rfl⟩
  · rw [O.size] at h
    refine Sat.bind (Sat.myptr I.mode' (Sat.pure' ?_))
    rw [I.at_eq]
    unfold clamp
    rw [O.size]
    have hh := hf (by omega) _ rfl ?_
    · refine Does.mono (G := fun s' out => inside (s l).X off s s' out (F s' out)) hh fun s' out h' => ?_
      unfold inside
      rw [if_neg h]
      exact h'
    · have h2 : sub (s l).X off n = (((s l).X.drop off).take (min n ((s l).X.length - off))) := by
        unfold sub
        rcases Nat.le_total n ((s l).X.length - off) with h | h
        · rw [Nat.min_eq_left h]
        · rw [Nat.min_eq_right h, List.take_of_length_le (by simp; omega), List.take_of_length_le (by simp)]
      rw [h2]
      exact isSrc_at (by omega)

/-! ## One operation -/

/-- What has to be shown for an operation without a result. -/
theorem Does.step {m : M α Unit} {F : St α → Out α → Prop} (h : Does P m w F) :
    ∃ w' out s', outcome (fun (_ : Unit) => .none) (m w) = some (w', out) ∧ Inv P w' s' ∧ F s' out := by
  unfold Does Sat at h
  cases hm : m w with
  | ok b w' =>
    rw [hm] at h
    obtain ⟨s', h1, h2⟩ := h
    exact ⟨w', _, s', rfl, h1, h2⟩
  | exc e w' =>
    rw [hm] at h
    obtain ⟨s', h1, h2⟩ := h
    exact ⟨w', _, s', rfl, h1, h2⟩
  | ub =>
    rw [hm] at h
    exact absurd h id

theorem step_ok (I : Inv P w s) {op : Op α} (hp : pre P s op) :
    ∃ w' out s', step P w op = some (w', out) ∧ Inv P w' s' ∧ sem P s op s' out := by
  cases op with
  | newN k n ch => exact (sat_ctorN I hp).step
  | newPtr k q =>
    obtain ⟨h1, h2, h3⟩ := hp
    refine (sat_resolve I h2 (f := fun r => ctorPtr P k r.1 r.2) (F := fun s' out => edit P s s' k (srcVal P s q) out) fun p n hs hl => sat_ctorPtr I h1 hs (hs.outer I fun i hi => ?_)).step
    have hi : p = .at (.small k) i := hi
    have h4 := hl k i (by rw [hi, at_empty h1])
    rw [h4] at h3
    exact h3 rfl
  | newCopy k l => exact (sat_ctorCopy I hp.1 hp.2).step
  | newIter k xs => exact (sat_ctorIter I hp).step
  | newMove k l =>
    refine Does.step (F := fun s' out => out = .none ∧ s' = updS (updS s l (Ent.empty P)) k (s l)) ?_
    exact (sat_takeContents I hp.1 hp.2).mono (fun _ _ h => ⟨_, h, rfl, rfl⟩) fun _ _ h => absurd h id
  | newSubstr k l off n => exact (sat_ctorSubstr I hp.1 hp.2).step
  | newConcat k l m => exact (sat_concat I hp.1 hp.2.1 hp.2.2).step
  | newConcatMove k l m => exact (sat_concatMove I hp.1 hp.2.1 hp.2.2.1 hp.2.2.2).step
  | destroy k =>
    refine Does.step (F := fun s' out => out = .none ∧ s' = updS s k (Ent.empty P)) ?_
    exact (sat_tidy (I.open k)).mono (fun _ _ h => ⟨_, h, rfl, rfl⟩) fun _ _ h => absurd h id
  | append k q => exact (sat_resolve I hp (f := fun r => append P k r.1 r.2) (F := fun s' out => edit P s s' k ((s k).X ++ srcVal P s q) out) fun p n hs _ => sat_append I hs).step
  | appendStr k l off n =>
    exact (sat_resolveStr I (f := fun r => append P k r.1 r.2) (F := fun s' out => edit P s s' k ((s k).X ++ sub (s l).X off n) out) fun _ d _ hs => sat_append I hs).step
  | appendN k n ch => exact (sat_appendN I).step
  | pushBack k ch => exact (sat_pushBack I).step
  | assign k q => exact (sat_resolve I hp (f := fun r => assign P k r.1 r.2) (F := fun s' out => edit P s s' k (srcVal P s q) out) fun p n hs _ => sat_assign I hs).step
  | assignStr k l off n =>
    exact (sat_resolveStr I (f := fun r => assign P k r.1 r.2) (F := fun s' out => edit P s s' k (sub (s l).X off n) out) fun _ d _ hs => sat_assign I hs).step
  | assignN k n ch => exact (sat_assignN I).step
  | assignChar k ch => exact (sat_assignChar I hp).step
  | copyAssign k l => exact (sat_copyAssign I).step
  | moveAssign k l => exact (sat_moveAssign I).step
  | insert lo k off q =>
    exact (sat_resolve I hp (f := fun r => insert P lo k off r.1 r.2) (F := fun s' out => inside (s k).X off s s' out (edit P s s' k (replaced (s k).X off 0 (srcVal P s q)) out))
      fun p n hs _ => sat_insert I hs).step
  | insertStr lo k off l roff n =>
    exact (sat_resolveStr I (f := fun r => insert P lo k off r.1 r.2) (F := fun s' out => inside (s k).X off s s' out (edit P s s' k (replaced (s k).X off 0 (sub (s l).X roff n)) out))
      fun _ d _ hs => sat_insert I hs).step
  | insertN k off n ch => exact (sat_insertN I).step
  | replace lo k off nx q =>
    exact (sat_resolve I hp.1 (f := fun r => replace P lo k off nx r.1 r.2) (F := fun s' out => inside (s k).X off s s' out (edit P s s' k (replaced (s k).X off nx (srcVal P s q)) out))
      fun p n hs hl => sat_replace I hs fun i hi => hp.2 k i n (hl k i hi)).step
  | replaceStr lo k off nx l roff n =>
    refine (sat_resolveStr I (f := fun r => replace P lo k off nx r.1 r.2) (F := fun s' out => inside (s k).X off s s' out (edit P s s' k (replaced (s k).X off nx (sub (s l).X roff n)) out))
      fun _ d hd hs => sat_replace I hs fun i hi => ?_).step
    injection hi with h1 h2
    have : l = k := Classical.byContradiction fun hn => I.at_ne hn h1
    have hp : ¬straddles (s k) k off nx l roff (min n ((s l).X.length - roff)) := hp
    subst this
    rw [hd, ← h2]
    exact hp
  | replaceN k off nx n ch => exact (sat_replaceN I).step
  | eraseFrom k off => exact (sat_eraseFrom I).step
  | erase k off n => exact (sat_erase I).step
  | clear k => exact (sat_clear I).step
  | popBack k => exact (sat_popBack I).step
  | resize k n ch => exact (sat_resize I).step
  | resizeOverwrite k n op => exact (sat_resizeOverwrite I hp).step
  | reserve k n => exact (sat_reserve I).step
  | reserve0 k => exact (sat_reserve0 I).step
  | reserve17 k n => exact (sat_reserve17 I).step
  | shrink k => exact (sat_shrink I).step
  | swap k l => exact (sat_swap I).step
  | «at» k i =>
    have h := sat_at I (k := k) (i := i)
    unfold Sat at h
    unfold step sem
    dsimp only
    cases hm : at_ P k i w with
    | ok x w' =>
      rw [hm] at h
      refine ⟨w', .val x, s, rfl, by rw [h.1]; exact I, rfl, ?_⟩
      rw [h.2]
    | exc e w' =>
      rw [hm] at h
      refine ⟨w', .exc e, s, rfl, by rw [h.2.1]; exact I, rfl, ?_⟩
      rw [h.2.2, h.1]
    | ub =>
      rw [hm] at h
      exact absurd h id
  | index k i =>
    have h := sat_index I (k := k) (i := i) hp
    unfold Sat at h
    unfold step sem
    dsimp only
    cases hm : index P k i w with
    | ok x w' =>
      rw [hm] at h
      refine ⟨w', .val x, s, rfl, by rw [h.1]; exact I, rfl, fun y hy => ?_⟩
      rw [h.2] at hy
      cases hy
      rfl
    | exc e w' =>
      rw [hm] at h
      exact absurd h id
    | ub =>
      rw [hm] at h
      exact absurd h id
  | store k i ch => exact (sat_store I hp).step
  | size k => exact ⟨w, _, s, rfl, I, rfl, by rw [(I.own k).size]⟩
  | capacity k => exact ⟨w, _, s, rfl, I, rfl, by rw [(I.own k).res]⟩

/-! ## Whole programs -/

theorem start_inv {ans : List (Option Nat)} : Inv P (start P ans) fun _ => Ent.empty P := by
  refine ⟨fun k => ⟨rfl, rfl, rfl, ?_, ?_, P.le, ?_, rfl, ?_⟩, ?_, ?_, fun _ _ => rfl⟩
  · simp [Ent.empty]
  · simp [Ent.empty]
  · simp [Ent.empty]
  · intro i hi
    simp only [Ent.empty, List.length_nil, Nat.le_zero] at hi
    subst hi
    rfl
  · intro k l b h
    cases h
  · intro b h
    exact absurd rfl h

theorem run_ok : ∀ (c : Client α) {w : W α} {s : St α}, Inv P w s → Legal P s c → ∃ w' tr s', run P w c = some (w', tr) ∧ SpecRun P s c tr s' ∧ Inv P w' s'
  | .done, w, s, I, _ => ⟨w, [], s, rfl, .done, I⟩
  | .call op k, w, s, I, hl => by
    obtain ⟨w1, out, s1, h1, h2, h3⟩ := step_ok I hl.1
    obtain ⟨w2, tr, s2, h4, h5, h6⟩ := run_ok (k out) h2 (hl.2 _ _ h3)
    refine ⟨w2, (op, out) :: tr, s2, ?_, .call hl.1 h3 h5, h6⟩
    simp [run, h1, h4]

end STL.Str
