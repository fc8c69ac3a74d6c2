import Verif.Random.Good

/-! # `shuffle` applies a uniformly chosen permutation. Proofs only. -/

namespace STL.Rnd
open STL

variable {E : Eng} {α : Type}

/-- exchange two elements -/
def sw (a : List α) (i j : Nat) : List α := if j = i then a else match a[i]?, a[j]? with
  | some x, some y => (a.set i y).set j x
  | _, _ => a

theorem sw_len (a : List α) (i j : Nat) : (sw a i j).length = a.length := by
  unfold sw; split
  · rfl
  · split <;> simp

theorem sw_get (a : List α) {i j : Nat} (hi : i < a.length) (hj : j < a.length) (p : Nat) :
    (sw a i j)[p]? = if p = i then a[j]? else if p = j then a[i]? else a[p]? := by
  unfold sw
  split
  · rename_i h; subst h; split_ifs <;> simp_all
  · rename_i h
    rw [List.getElem?_eq_getElem hi, List.getElem?_eq_getElem hj]
    simp only
    rw [List.getElem?_set, List.getElem?_set]
    simp only [List.length_set]
    by_cases h1 : p = j
    · subst h1; rw [if_pos rfl, if_pos hj]; simp [h]
    · by_cases h2 : p = i
      · subst h2; rw [if_neg (by omega), if_pos rfl, if_pos hi, if_pos rfl]
      · rw [if_neg (by omega), if_neg (by omega), if_neg h2, if_neg h1]

theorem sw_sw (a : List α) {i j : Nat} (hi : i < a.length) (hj : j < a.length) : sw (sw a i j) i j = a := by
  apply List.ext_getElem?
  intro p
  rw [sw_get _ (by rw [sw_len]; exact hi) (by rw [sw_len]; exact hj), sw_get _ hi hj, sw_get _ hi hj, sw_get _ hi hj]
  split_ifs <;> simp_all

theorem sw_perm (a : List α) {i j : Nat} (hi : i < a.length) (hj : j < a.length) : (sw a i j).Perm a := by
  unfold sw
  split
  · rfl
  · rw [List.getElem?_eq_getElem hi, List.getElem?_eq_getElem hj]
    exact List.set_set_perm hi hj

/-- Fisher-Yates with given choices. -/
def fy (i : Nat) : List Nat → List α → List α
  | [], a => a
  | j :: js, a => fy (i + 1) js (sw a i j)

theorem fy_len : ∀ (js : List Nat) (i : Nat) (a : List α), (fy i js a).length = a.length
  | [], _, _ => rfl
  | j :: js, i, a => by unfold fy; rw [fy_len js, sw_len]

theorem fy_snoc : ∀ (js : List Nat) (i j : Nat) (a : List α), fy i (js ++ [j]) a = sw (fy i js a) (i + js.length) j
  | [], _, _, _ => by simp [fy]
  | j0 :: js, i, j, a => by
    rw [List.cons_append]; unfold fy; rw [fy_snoc js]
    congr 1; simp; omega

/-- valid choices from `i` on -/
def Vch (i : Nat) (js : List Nat) : Prop := ∀ k (h : k < js.length), js[k] ≤ i + k

theorem Vch_snoc {i : Nat} {js : List Nat} {j : Nat} : Vch i (js ++ [j]) ↔ Vch i js ∧ j ≤ i + js.length := by
  unfold Vch
  constructor
  · intro h
    refine ⟨fun k hk => ?_, ?_⟩
    · have := h k (by simp; omega); rwa [List.getElem_append_left hk] at this
    · have := h js.length (by simp); simpa using this
  · rintro ⟨h1, h2⟩ k hk
    rcases Nat.lt_or_ge k js.length with hlt | hge
    · rw [List.getElem_append_left hlt]; exact h1 k hlt
    · have : k = js.length := by simp at hk; omega
      subst this; simpa using h2

theorem Vch_cons {i : Nat} {js : List Nat} {j : Nat} : Vch i (j :: js) ↔ j ≤ i ∧ Vch (i + 1) js := by
  unfold Vch
  constructor
  · intro h
    refine ⟨by have := h 0 (by simp); simpa using this, fun k hk => ?_⟩
    have := h (k + 1) (by simpa using hk); simp at this; omega
  · rintro ⟨h1, h2⟩ k hk
    cases k with
    | zero => simpa using h1
    | succ k => have := h2 k (by simpa using hk); simp; omega

theorem snoc_cases (js : List Nat) {m : Nat} (h : js.length = m + 1) : ∃ js' j, js = js' ++ [j] ∧ js'.length = m := by
  have hne : js ≠ [] := by intro hc; subst hc; cases h
  exact ⟨js.dropLast, js.getLast hne, (List.dropLast_append_getLast hne).symm, by simp [h]⟩

/-- Fisher-Yates permutes, and leaves the tail alone. -/
theorem fy_perm : ∀ (m : Nat) (js : List Nat) (a : List α), js.length = m → m + 1 ≤ a.length → Vch 1 js → (fy 1 js a).Perm a ∧ ∀ p, m < p → (fy 1 js a)[p]? = a[p]?
  | 0, js, a, h, _, _ => by
    have : js = [] := List.length_eq_zero_iff.1 h
    subst this; exact ⟨List.Perm.refl _, fun _ _ => rfl⟩
  | m + 1, js, a, h, hl, hv => by
    obtain ⟨js', j, rfl, hm⟩ := snoc_cases js h
    obtain ⟨v1, v2⟩ := Vch_snoc.1 hv
    obtain ⟨p1, p2⟩ := fy_perm m js' a hm (by omega) v1
    have hlen := fy_len js' 1 a
    rw [fy_snoc, hm]
    have hi : 1 + m < (fy 1 js' a).length := by omega
    have hj : j < (fy 1 js' a).length := by omega
    refine ⟨(sw_perm _ hi hj).trans p1, fun p hp => ?_⟩
    rw [sw_get _ hi hj, if_neg (by omega), if_neg (by omega), p2 p (by omega)]

theorem fy_inj : ∀ (m : Nat) (js js' : List Nat) (a : List α), a.Nodup → js.length = m → js'.length = m → m + 1 ≤ a.length → Vch 1 js → Vch 1 js' → fy 1 js a = fy 1 js' a → js = js'
  | 0, js, js', a, _, h, h', _, _, _, _ => by rw [List.length_eq_zero_iff.1 h, List.length_eq_zero_iff.1 h']
  | m + 1, js, js', a, hnd, h, h', hl, hv, hv', he => by
    obtain ⟨ks, j, rfl, hm⟩ := snoc_cases js h
    obtain ⟨ks', j', rfl, hm'⟩ := snoc_cases js' h'
    obtain ⟨v1, v2⟩ := Vch_snoc.1 hv
    obtain ⟨v1', v2'⟩ := Vch_snoc.1 hv'
    obtain ⟨p1, p2⟩ := fy_perm m ks a hm (by omega) v1
    obtain ⟨p1', p2'⟩ := fy_perm m ks' a hm' (by omega) v1'
    have hlen := fy_len ks 1 a
    have hlen' := fy_len ks' 1 a
    rw [fy_snoc, fy_snoc, hm, hm'] at he
    have hi : 1 + m < (fy 1 ks a).length := by omega
    have hj : j < (fy 1 ks a).length := by omega
    have hi' : 1 + m < (fy 1 ks' a).length := by omega
    have hj' : j' < (fy 1 ks' a).length := by omega
    have hz : (fy 1 ks a)[1 + m]? = a[1 + m]? := p2 _ (by omega)
    have hz' : (fy 1 ks' a)[1 + m]? = a[1 + m]? := p2' _ (by omega)
    have e1 : (sw (fy 1 ks a) (1 + m) j)[j]? = a[1 + m]? := by
      rw [sw_get _ hi hj]
      by_cases hc : j = 1 + m
      · rw [if_pos hc, hc, hz]
      · rw [if_neg hc, if_pos rfl, hz]
    have e2 : (sw (fy 1 ks a) (1 + m) j)[j']? = a[1 + m]? := by
      rw [he, sw_get _ hi' hj']
      by_cases hc : j' = 1 + m
      · rw [if_pos hc, hc, hz']
      · rw [if_neg hc, if_pos rfl, hz']
    have hnd2 : (sw (fy 1 ks a) (1 + m) j).Nodup := ((sw_perm _ hi hj).trans p1).nodup_iff.2 hnd
    have hjj : j = j' := by
      have hl1 : j < (sw (fy 1 ks a) (1 + m) j).length := by rw [sw_len]; exact hj
      exact (List.getElem?_inj hl1 hnd2).1 (e1.trans e2.symm)
    subst hjj
    have hb : fy 1 ks a = fy 1 ks' a := by
      rw [← sw_sw (fy 1 ks a) hi hj, he, sw_sw _ hi' hj']
    rw [fy_inj m ks ks' a hnd hm hm' (by omega) v1 v1' hb]

theorem fy_surj : ∀ (m : Nat) (a c : List α), a.Nodup → c.Perm a → m + 1 ≤ a.length → (∀ p, m < p → c[p]? = a[p]?) → ∃ js, js.length = m ∧ Vch 1 js ∧ fy 1 js a = c
  | 0, a, c, hnd, hp, hl, ht => by
    refine ⟨[], rfl, fun k hk => by simp at hk, ?_⟩
    show a = c
    cases a with
    | nil => simp at hl
    | cons x a =>
      cases c with
      | nil => have := hp.length_eq; simp at this
      | cons y c =>
        have : c = a := by
          apply List.ext_getElem?
          intro p
          have := ht (p + 1) (by omega); simpa using this
        subst this
        have : [y].Perm [x] := (List.perm_append_right_iff c).1 hp
        rw [List.singleton_perm_singleton.1 this]
  | m + 1, a, c, hnd, hp, hl, ht => by
    have hlc := hp.length_eq
    have hmem : a[1 + m]'(by omega) ∈ c := hp.mem_iff.2 (List.getElem_mem _)
    obtain ⟨j, hj, he⟩ := List.mem_iff_getElem.1 hmem
    have hjm : j ≤ 1 + m := by
      by_contra hc
      have h1 := ht j (by omega)
      rw [List.getElem?_eq_getElem hj, List.getElem?_eq_getElem (by omega), Option.some_inj] at h1
      have := hnd.getElem_inj_iff.1 (h1.symm.trans he)
      omega
    have hi : 1 + m < c.length := by omega
    have hge : c[j]? = a[1 + m]? := by rw [List.getElem?_eq_getElem hj, List.getElem?_eq_getElem (by omega), he]
    have htail : ∀ p, m < p → (sw c (1 + m) j)[p]? = a[p]? := by
      intro p hpm
      rw [sw_get _ hi hj]
      split_ifs with c1 c2
      · rw [c1]; exact hge
      · omega
      · exact ht p (by omega)
    obtain ⟨js, h1, h2, h3⟩ := fy_surj m a (sw c (1 + m) j) hnd ((sw_perm _ hi hj).trans hp) (by omega) htail
    refine ⟨js ++ [j], by simp [h1], Vch_snoc.2 ⟨h2, by omega⟩, ?_⟩
    rw [fy_snoc, h1, h3, sw_sw c hi hj]

/-- The readers of the choices. -/
theorem choices_good (o : E.Ok) : ∀ (m i : Nat), i + m < 2 ^ E.W → ∃ f : Rdr (List Nat), Good E f (fun js => js.length = m ∧ Vch i js) (m * (2 * E.W)) ∧
    ∀ (a : List α) l, a.length = i + m → (∀ e ∈ l, E.V e) → shuffleLoop E a m i l = toG ((f l).map fun x => (fy i x.1 a, x.2))
  | 0, i, _ => by
    refine ⟨fun l => some ([], l), ⟨?_, ⟨fun _ _ p => p, ?_⟩, ?_, ?_, ?_⟩, ?_⟩
    · intro l b r h
      simp only [Option.some.injEq, Prod.mk.injEq] at h
      exact ⟨[], by simp [h.2], fun r' => by simp [h.1]⟩
    · rintro b b' ⟨hb, _⟩ ⟨hb', _⟩ p hp h
      have e1 := List.length_eq_zero_iff.1 hb
      have e2 := List.length_eq_zero_iff.1 hb'
      subst e1 e2
      exact ⟨hp, rfl, h, rfl⟩
    · intro l b r _ h
      simp only [Option.some.injEq, Prod.mk.injEq] at h
      rw [← h.1]; exact ⟨rfl, fun k hk => by simp at hk⟩
    · rintro b ⟨hb, _⟩
      exact ⟨[], by simp, by rw [List.length_eq_zero_iff.1 hb]⟩
    · intro l _ h; cases h
    · intro a l ha hV
      unfold shuffleLoop; rw [if_neg (by omega)]; rfl
  | m + 1, i, hlt => by
    obtain ⟨f, hf, hfe⟩ := gen_good o (s := i + 1) (by omega) (by omega)
    obtain ⟨g, hg, hge⟩ := choices_good o m (i + 1) (by omega)
    refine ⟨fun l => (seqR f g l).map fun x => ((fun y : Nat × List Nat => y.1 :: y.2) x.1, x.2), ?_, ?_⟩
    · refine ((hf.seq hg).mono (by ring_nf; omega)).map_inj (fun y : Nat × List Nat => y.1 :: y.2) _ ?_ ?_ ?_
      · rintro ⟨j, js⟩ ⟨h1, h2, h3⟩
        exact ⟨by simpa using h2, Vch_cons.2 ⟨by simp only at h1; omega, h3⟩⟩
      · rintro js ⟨h1, h2⟩
        cases js with
        | nil => cases h1
        | cons j js =>
          obtain ⟨h3, h4⟩ := Vch_cons.1 h2
          exact ⟨(j, js), ⟨by simp only; omega, by simpa using h1, h4⟩, rfl⟩
      · rintro ⟨j, js⟩ ⟨j', js'⟩ _ _ h
        simp only [List.cons.injEq] at h
        rw [h.1, h.2]
    · intro a l ha hV
      unfold shuffleLoop
      rw [if_pos (by omega), hfe l hV]
      unfold seqR
      cases hfl : f l with
      | none => simp only [hfl]; rfl
      | some x =>
        obtain ⟨j, r⟩ := x
        have hj := hf.bound _ _ _ hV hfl
        obtain ⟨p, e1, _⟩ := hf.reads _ _ _ hfl
        have hVr : ∀ e ∈ r, E.V e := fun e he => hV e (by rw [e1]; simp [he])
        simp only [hfl]
        show (if j = i then _ else _) = _
        have hsw : (if j = i then shuffleLoop E a m (i + 1) r else match a[i]?, a[j]? with
            | some x, some y => shuffleLoop E ((a.set i y).set j x) m (i + 1) r
            | _, _ => .error .ub) = shuffleLoop E (sw a i j) m (i + 1) r := by
          unfold sw
          split
          · rfl
          · rw [List.getElem?_eq_getElem (by omega : i < a.length), List.getElem?_eq_getElem (by omega : j < a.length)]
        refine hsw.trans ?_
        rw [hge (sw a i j) r (by rw [sw_len]; omega) hVr]
        cases g r with
        | none => rfl
        | some y => rfl

theorem shuffle_good (o : E.Ok) {a : List α} (hnd : a.Nodup) (hlen : a.length < 2 ^ E.W) : ∃ f : Rdr (List α), Good E f (fun b => b.Perm a) (a.length * (2 * E.W)) ∧
    ∀ l, (∀ e ∈ l, E.V e) → shuffle E a l = toG (f l) := by
  cases a with
  | nil =>
    refine ⟨fun l => some ([], l), ⟨?_, ⟨fun _ _ p => p, ?_⟩, ?_, ?_, ?_⟩, ?_⟩
    · intro l b r h
      simp only [Option.some.injEq, Prod.mk.injEq] at h
      exact ⟨[], by simp [h.2], fun r' => by simp [h.1]⟩
    · rintro b b' hb hb' p hp h
      have e1 := hb.eq_nil
      have e2 := hb'.eq_nil
      subst e1 e2
      exact ⟨hp, rfl, h, rfl⟩
    · intro l b r _ h
      simp only [Option.some.injEq, Prod.mk.injEq] at h
      rw [← h.1]
    · rintro b hb
      exact ⟨[], by simp, by rw [hb.eq_nil]⟩
    · intro l _ h; cases h
    · intro l _; rfl
  | cons x a =>
    obtain ⟨f, hf, hfe⟩ := choices_good (α := α) o a.length 1 (by simp at hlen; omega)
    refine ⟨fun l => (f l).map fun y => ((fun js => fy 1 js (x :: a)) y.1, y.2), ?_, ?_⟩
    · refine (hf.mono (by simp; ring_nf; omega)).map_inj (fun js => fy 1 js (x :: a)) _ ?_ ?_ ?_
      · rintro js ⟨h1, h2⟩
        exact (fy_perm a.length js (x :: a) h1 (by simp) h2).1
      · intro c hc
        obtain ⟨js, h1, h2, h3⟩ := fy_surj a.length (x :: a) c hnd hc (by simp) (by
          intro p hp
          have := hc.length_eq
          rw [List.getElem?_eq_none (by simp at this; omega), List.getElem?_eq_none (by simp; omega)])
        exact ⟨js, ⟨h1, h2⟩, h3⟩
      · rintro js js' ⟨h1, h2⟩ ⟨h3, h4⟩ h
        exact fy_inj a.length js js' (x :: a) hnd h1 h3 (by simp) h2 h4 h
    · intro l hV
      have hone := hfe (x :: a) l (by simp; omega) hV
      unfold shuffle
      rw [← hone]
      -- one more unit of fuel than needed
      have hfuel : ∀ (f i : Nat) (b : List α) (l : List Nat), b.length ≤ i + f → shuffleLoop E b (f + 1) i l = shuffleLoop E b f i l := by
        intro f
        induction f with
        | zero =>
          intro i b l hb
          unfold shuffleLoop
          rw [if_neg (by omega), if_neg (by omega)]
        | succ f ih =>
          intro i b l hb
          conv_lhs => unfold shuffleLoop
          conv_rhs => unfold shuffleLoop
          split
          · cases gen E (i + 1) l with
            | error e => rfl
            | ok r =>
              simp only [G.ok_bind]
              split
              · exact ih _ _ _ (by omega)
              · split
                · exact ih _ _ _ (by simp; omega)
                · rfl
          · rfl
      exact hfuel a.length 1 (x :: a) l (by simp)

/-! ## Any elements -/

theorem shuffleLoop_map {β : Type} (g : α → β) : ∀ (f i : Nat) (a : List α) (l : List Nat),
    shuffleLoop E (a.map g) f i l = (shuffleLoop E a f i l).map fun x => (x.1.map g, x.2)
  | 0, i, a, l => by
    unfold shuffleLoop
    simp only [List.length_map]
    split <;> rfl
  | f + 1, i, a, l => by
    unfold shuffleLoop
    simp only [List.length_map]
    split
    · cases gen E (i + 1) l with
      | error e => rfl
      | ok r =>
        simp only [G.ok_bind]
        split
        · exact shuffleLoop_map g f (i + 1) a r.2
        · simp only [List.getElem?_map]
          cases hi : a[i]? with
          | none => rfl
          | some x =>
            cases hj : a[r.1]? with
            | none => rfl
            | some y =>
              simp only [Option.map_some]
              rw [← List.map_set, ← List.map_set]
              exact shuffleLoop_map g f (i + 1) _ r.2
    · rfl

theorem shuffle_map {β : Type} (g : α → β) (a : List α) (l : List Nat) : shuffle E (a.map g) l = (shuffle E a l).map fun x => (x.1.map g, x.2) := by
  unfold shuffle; rw [List.length_map]; exact shuffleLoop_map g _ _ _ _

end STL.Rnd
