import Verif.Path.CompareProof

/-! # `path::iterator`. Proofs only. -/

namespace STL.Path
open Spec (slash plain)

/-- The iterators of the elements of a relative path that begins at `off`. -/
def relItems (off : Nat) (r : Text) : List It :=
  if r = [] then []
  else ⟨off, r.takeWhile plain⟩ ::
    if r.dropWhile plain = [] then []
    else if h : (r.dropWhile plain).dropWhile slash = [] then [⟨off + r.length - 1, []⟩]
    else relItems (off + (r.length - ((r.dropWhile plain).dropWhile slash).length)) ((r.dropWhile plain).dropWhile slash)
termination_by r.length
decreasing_by
  next h1 h2 =>
  have e1 : (r.dropWhile plain).length ≤ r.length := (List.dropWhile_suffix _).length_le
  have e2 : ((r.dropWhile plain).dropWhile slash).length < (r.dropWhile plain).length := by
    cases h : r.dropWhile plain with
    | nil => exact absurd h h2
    | cons c q =>
      have hc : slash c = true := by
        have := List.head_dropWhile_not plain (l := r) h2
        simp only [h, List.head_cons, plain_eq, Bool.not_eq_false'] at this
        simpa using this
      rw [List.dropWhile_cons_of_pos hc]
      exact Nat.lt_succ_of_le (List.dropWhile_suffix _).length_le
  omega

theorem relItems_nil (off : Nat) : relItems off [] = [] := by rw [relItems]; simp

/-- A text that does not begin with a slash, cut into its first name, the slashes after it, and the rest. -/
theorem cut (r : Text) (hne : r ≠ []) (hr : ∀ c ∈ r.head?, slash c = false) : ∃ run sl q : Text, r = run ++ sl ++ q ∧ run ≠ [] ∧ (∀ c ∈ run, slash c = false) ∧
    (∀ c ∈ sl, slash c = true) ∧ (∀ c ∈ q.head?, slash c = false) ∧ (sl = [] → q = []) ∧ r.takeWhile plain = run ∧ r.dropWhile plain = sl ++ q ∧
    (r.dropWhile plain).dropWhile slash = q := by
  refine ⟨r.takeWhile plain, (r.dropWhile plain).takeWhile slash, (r.dropWhile plain).dropWhile slash, ?_, ?_, fun c => mem_takeWhile_plain, fun c => List.mem_takeWhile_imp,
    ?_, ?_, rfl, ?_, rfl⟩
  · rw [List.append_assoc, List.takeWhile_append_dropWhile, List.takeWhile_append_dropWhile]
  · cases r with
    | nil => exact absurd rfl hne
    | cons c r => rw [List.takeWhile_cons_of_pos (by simp [plain_eq, hr c rfl])]; simp
  · intro c hc
    cases h : (r.dropWhile plain).dropWhile slash with
    | nil => rw [h] at hc; cases hc
    | cons d q =>
      rw [h] at hc
      cases hc
      have := List.head_dropWhile_not slash (l := r.dropWhile plain) (by rw [h]; simp)
      simpa [h] using this
  · intro h
    cases hd : r.dropWhile plain with
    | nil => rfl
    | cons c q =>
      have hc : slash c = true := by
        have := List.head_dropWhile_not plain (l := r) (by rw [hd]; simp)
        simp only [hd, List.head_cons, plain_eq, Bool.not_eq_false'] at this
        simpa using this
      rw [hd, List.takeWhile_cons_of_pos hc] at h
      cases h
  · rw [List.takeWhile_append_dropWhile]

theorem relItems_names (n : Nat) : ∀ (r : Text) (off : Nat), r.length ≤ n → (relItems off r).map (·.elem) = Spec.names r := by
  induction n with
  | zero =>
    intro r off h
    obtain rfl := List.length_eq_zero_iff.1 (Nat.le_zero.1 h)
    rw [relItems_nil, names_nil]; rfl
  | succ n ih =>
    intro r off h
    rw [relItems, Spec.names]
    by_cases hne : r = []
    · simp [hne]
    · rw [if_neg hne, if_neg hne]
      by_cases h1 : r.dropWhile plain = []
      · simp [h1]
      · rw [if_neg h1, if_neg h1]
        by_cases h2 : (r.dropWhile plain).dropWhile slash = []
        · simp [h2]
        · rw [dif_neg h2, if_neg h2, List.map_cons, ih]
          have e1 : (r.dropWhile plain).length ≤ r.length := (List.dropWhile_suffix _).length_le
          have e2 : ((r.dropWhile plain).dropWhile slash).length < (r.dropWhile plain).length := by
            cases h : r.dropWhile plain with
            | nil => exact absurd h h1
            | cons c q =>
              have hc : slash c = true := by
                have := List.head_dropWhile_not plain (l := r) h1
                simp only [h, List.head_cons, plain_eq, Bool.not_eq_false'] at this
                simpa using this
              rw [List.dropWhile_cons_of_pos hc]
              exact Nat.lt_succ_of_le (List.dropWhile_suffix _).length_le
          omega

/-- `next` and `prev` walk along the list, and on to `end`. -/
def Chain (s : Text) : List It → Prop
  | [] => True
  | [a] => next s a = .ok (endIt s) ∧ prev s (endIt s) = .ok a
  | a :: b :: l => next s a = .ok b ∧ prev s b = .ok a ∧ Chain s (b :: l)

theorem drop_len {s r : Text} {off : Nat} (h : s.drop off = r) (ho : off ≤ s.length) : s.length = off + r.length := by
  rw [← h]; simp; omega

theorem rdc_drop {s : Text} {i : Nat} {c : WChar} {q : Text} (h : s.drop i = c :: q) : rdc s i = .ok c := by
  have : s[i]? = some c := by
    rw [← List.head?_drop, h]; rfl
  simp [rdc, this]

theorem nextLoop_name {s : Text} {q : Text} (hq : q ≠ []) (hp : ∀ c ∈ q.head?, slash c = false) : ∀ (sl : Text) (fuel pos : Nat), s.drop pos = sl ++ q → pos ≤ s.length →
    (∀ c ∈ sl, slash c = true) → sl.length < fuel → nextLoop s fuel pos = .ok ⟨pos + sl.length, q.takeWhile plain⟩ := by
  intro sl
  induction sl with
  | nil =>
    intro fuel pos h1 h2 h3 h4
    cases fuel with
    | zero => simp at h4
    | succ fuel =>
      cases q with
      | nil => exact absurd rfl hq
      | cons c q =>
        unfold nextLoop
        rw [rdc_drop h1, R.ok_bind, isSlash_eq, if_neg (by simp [hp c rfl]), findIf_ok _ _ _ h2, R.ok_bind, h1]
        have e : (fun c => !isSlash c) = plain := rfl
        rw [e]
        show Except.ok _ = _
        congr 2
        rw [sub, List.drop_take, h1]
        simp only [Nat.add_sub_cancel_left]
        exact (List.prefix_iff_eq_take.1 (List.takeWhile_prefix plain)).symm
  | cons c sl ih =>
    intro fuel pos h1 h2 h3 h4
    cases fuel with
    | zero => simp at h4
    | succ fuel =>
      unfold nextLoop
      have hl := drop_len h1 h2
      have hq' : 0 < q.length := List.length_pos_iff.2 hq
      simp only [List.length_append, List.length_cons] at hl h4
      rw [rdc_drop h1, R.ok_bind, isSlash_eq, if_pos (h3 c List.mem_cons_self), if_neg (by omega)]
      rw [ih fuel (pos + 1) (by rw [← List.drop_drop, h1]; rfl) (by omega) (fun d hd => h3 d (List.mem_cons_of_mem _ hd)) (by omega)]
      simp only [List.length_cons]
      congr 2
      omega

theorem nextLoop_magic {s : Text} : ∀ (sl : Text) (fuel pos : Nat), s.drop pos = sl → sl ≠ [] → pos ≤ s.length →
    (∀ c ∈ sl, slash c = true) → sl.length < fuel → nextLoop s fuel pos = .ok ⟨s.length - 1, []⟩ := by
  intro sl
  induction sl with
  | nil => intro fuel pos h1 h2; exact absurd rfl h2
  | cons c sl ih =>
    intro fuel pos h1 h2 h3 h4 h5
    cases fuel with
    | zero => simp at h5
    | succ fuel =>
      unfold nextLoop
      have hl := drop_len h1 h3
      simp only [List.length_cons] at hl h5
      rw [rdc_drop h1, R.ok_bind, isSlash_eq, if_pos (h4 c List.mem_cons_self)]
      by_cases hs : sl = []
      · subst hs
        simp only [List.length_nil] at hl
        rw [if_pos (by omega)]
        show Except.ok _ = _
        congr 2
        omega
      · have := List.length_pos_iff.2 hs
        rw [if_neg (by omega)]
        exact ih fuel (pos + 1) (by rw [← List.drop_drop, h1]; rfl) hs (by omega) (fun d hd => h4 d (List.mem_cons_of_mem _ hd)) (by omega)

theorem nextRel_name {s sl q : Text} {pos : Nat} (h1 : s.drop pos = sl ++ q) (h2 : pos ≤ s.length) (hq : q ≠ []) (hp : ∀ c ∈ q.head?, slash c = false)
    (h3 : ∀ c ∈ sl, slash c = true) : nextRel s pos = .ok ⟨pos + sl.length, q.takeWhile plain⟩ := by
  have hl := drop_len h1 h2
  have hq' : 0 < q.length := List.length_pos_iff.2 hq
  rw [List.length_append] at hl
  unfold nextRel
  rw [if_neg (by omega), if_neg (by omega)]
  exact nextLoop_name hq hp sl _ pos h1 h2 h3 (by omega)

theorem nextRel_magic {s sl : Text} {pos : Nat} (h1 : s.drop pos = sl) (h2 : pos ≤ s.length) (h3 : ∀ c ∈ sl, slash c = true) (hs : sl ≠ []) :
    nextRel s pos = .ok ⟨s.length - 1, []⟩ := by
  have hl := drop_len h1 h2
  have := List.length_pos_iff.2 hs
  unfold nextRel
  rw [if_neg (by omega), if_neg (by omega)]
  exact nextLoop_magic sl _ pos h1 hs h2 h3 (by omega)

theorem nextRel_end (s : Text) : nextRel s s.length = .ok (endIt s) := by
  unfold nextRel
  rw [if_neg (by omega), if_pos rfl]
  rfl

/-- `next` from an element that is not the root-name before a root-directory. -/
theorem next_rel {s : Text} {it : It} (h0 : it.pos = 0 → Spec.rootName s = [] ∨ Spec.rootDir s = [])
    (h1 : it.pos ≠ 0 → it.pos < s.length ∧ it.elem ≠ []) : next s it = nextRel s (it.pos + it.elem.length) := by
  unfold next
  by_cases hp : it.pos = 0
  · rw [if_pos hp, findRootNameEnd_ok, R.ok_bind, findNotSlash_ok, R.ok_bind, if_neg, hp, Nat.zero_add]
    rintro ⟨a, b⟩
    rcases h0 hp with h | h
    · rw [h] at a; exact a rfl
    · unfold rootLen at b
      rw [h] at b
      exact b rfl
  · obtain ⟨h2, h3⟩ := h1 hp
    rw [if_neg hp, rdc_ok _ _ h2, R.ok_bind]
    split
    · rw [if_neg (by rw [List.length_eq_zero_iff]; exact h3)]
    · rfl

theorem dropWhile_rev (x run : Text) (hr : run ≠ []) (h : ∀ c ∈ run, slash c = false) : (run.reverse ++ x).dropWhile slash = run.reverse ++ x := by
  cases hh : run.reverse with
  | nil => exact absurd (List.reverse_eq_nil_iff.1 hh) hr
  | cons c l =>
    rw [List.cons_append, List.dropWhile_cons_of_neg]
    have : c ∈ run := List.mem_reverse.1 (by rw [hh]; exact List.mem_cons_self)
    simp [h c this]

/-- The filename before `pos`. -/
theorem prevName_ok {s x run sl : Text} {d pos : Nat} (hd : d ≤ pos) (hp : pos ≤ s.length) (h : (s.take pos).drop d = x ++ run ++ sl) (hr : run ≠ [])
    (h1 : ∀ c ∈ run, slash c = false) (h2 : ∀ c ∈ sl, slash c = true) (hx : ∀ c ∈ x.getLast?, slash c = true) :
    prevName s d pos = .ok ⟨d + x.length, run⟩ := by
  unfold prevName
  rw [backWhile_ok _ _ _ _ hd hp, R.ok_bind, h]
  have e1 : (x ++ run ++ sl).reverse.dropWhile isSlash = run.reverse ++ x.reverse := by
    rw [List.reverse_append, List.dropWhile_append_of_pos (by intro c hc; exact h2 c (List.mem_reverse.1 hc)), List.reverse_append]
    exact dropWhile_rev _ _ hr h1
  rw [e1]
  have hl : (x ++ run ++ sl).length = pos - d := by rw [← h]; simp; omega
  simp only [List.length_append] at hl
  have e2 : d + (run.reverse ++ x.reverse).length = d + x.length + run.length := by simp; omega
  rw [e2, backWhile_ok _ _ _ _ (by omega) (by omega), R.ok_bind]
  have e3 : (s.take (d + x.length + run.length)).drop d = x ++ run := by
    have : s.take (d + x.length + run.length) = (s.take pos).take (d + x.length + run.length) := by
      rw [List.take_take]; congr 1; omega
    rw [this, List.drop_take, h]
    rw [List.take_left' (by simp; omega)]
  have e4 : (x ++ run).reverse.dropWhile (fun c => !isSlash c) = x.reverse := by
    rw [List.reverse_append, List.dropWhile_append_of_pos (by intro c hc; simp [isSlash_eq, h1 c (List.mem_reverse.1 hc)])]
    cases hh : x.reverse with
    | nil => rfl
    | cons c l =>
      rw [List.dropWhile_cons_of_neg]
      have : c ∈ x.getLast? := by
        have := congrArg List.head? hh
        rw [List.head?_reverse] at this
        rw [this]; rfl
      simp [isSlash_eq, hx c this]
  rw [e3, e4]
  show Except.ok _ = _
  congr 1
  simp only [List.length_reverse]
  congr 1
  have e5 : sub s (d + x.length) (d + x.length + run.length) = ((s.take (d + x.length + run.length)).drop d).drop x.length := by
    rw [sub, List.drop_drop]
  rw [e5, e3, List.drop_left]

/-- `prev` from an element of the relative path, not the first, and not from `end` after a slash. -/
theorem prev_rel {s : Text} {it : It} (h1 : rootLen s < it.pos) (h2 : it.pos = s.length → ∃ c ∈ s.getLast?, slash c = false) :
    prev s it = prevName s (rootLen s) it.pos := by
  unfold prev
  rw [findRootNameEnd_ok, R.ok_bind, findNotSlash_ok, R.ok_bind, if_neg (by omega), if_neg (by unfold rootLen at h1; omega)]
  by_cases hl : it.pos = s.length
  · obtain ⟨c, hc, hs⟩ := h2 hl
    rw [if_pos hl, if_neg (by omega)]
    have hlt : it.pos - 1 < s.length := by omega
    rw [rdc_ok _ _ hlt, R.ok_bind]
    have : s[it.pos - 1] = c := by
      rw [List.getLast?_eq_getElem?] at hc
      have h3 : s[s.length - 1]? = some c := hc
      have h4 : it.pos - 1 = s.length - 1 := by omega
      rw [← h4, List.getElem?_eq_getElem hlt] at h3
      exact Option.some.inj h3
    rw [this, isSlash_eq, if_neg (by simp [hs])]
  · rw [if_neg hl]

theorem prev_magic {s : Text} (h1 : rootLen s < s.length) {c : WChar} (hc : c ∈ s.getLast?) (hs : slash c = true) :
    prev s (endIt s) = .ok ⟨s.length - 1, []⟩ := by
  unfold prev
  rw [findRootNameEnd_ok, R.ok_bind, findNotSlash_ok, R.ok_bind]
  have hp : (endIt s).pos = s.length := rfl
  rw [if_neg (by omega), if_neg (by unfold rootLen at h1; omega), if_pos hp, if_neg (by omega)]
  have hlt : (endIt s).pos - 1 < s.length := by omega
  rw [rdc_ok _ _ hlt, R.ok_bind]
  have : s[(endIt s).pos - 1] = c := by
    rw [List.getLast?_eq_getElem?] at hc
    have h3 : s[s.length - 1]? = some c := hc
    have h5 : s[s.length - 1]? = some s[(endIt s).pos - 1] := List.getElem?_eq_getElem hlt
    rw [h5] at h3
    exact Option.some.inj h3
  rw [this, isSlash_eq, if_pos hs]
  rfl

theorem next_magic {s : Text} {i : Nat} (h0 : 0 < i) (h : i + 1 = s.length) {c : WChar} (hc : c ∈ s.getLast?) (hs : slash c = true) :
    next s ⟨i, []⟩ = .ok (endIt s) := by
  unfold next
  dsimp only
  have hlt : i < s.length := by omega
  rw [if_neg (by omega), rdc_ok _ _ hlt, R.ok_bind]
  have : s[i] = c := by
    rw [List.getLast?_eq_getElem?] at hc
    have h4 : s.length - 1 = i := by omega
    rw [h4] at hc
    have h3 : s[i]? = some c := hc
    rw [List.getElem?_eq_getElem hlt] at h3
    exact Option.some.inj h3
  rw [this, isSlash_eq, if_pos hs, if_pos (by rfl), h]
  rfl

theorem getLast?_app (a : Text) {b : Text} (h : b ≠ []) : (a ++ b).getLast? = b.getLast? := by
  rw [List.getLast?_append, List.getLast?_eq_some_getLast h]
  rfl

theorem getLast?_drop {s r : Text} {off : Nat} (h : s.drop off = r) (hr : r ≠ []) : s.getLast? = r.getLast? := by
  rw [← List.take_append_drop off s, h, getLast?_app _ hr]

/-- The elements of the relative path. -/
theorem chain_rel (s : Text) (n : Nat) : ∀ (r x : Text) (off : Nat), r.length ≤ n → s.drop off = r → r ≠ [] → (∀ c ∈ r.head?, slash c = false) → off = rootLen s + x.length →
    (s.take off).drop (rootLen s) = x → (∀ c ∈ x.getLast?, slash c = true) → off ≤ s.length → (off = 0 → Spec.rootName s = [] ∨ Spec.rootDir s = []) →
    Chain s (relItems off r) ∧ ((relItems off r).head? = some ⟨off, r.takeWhile plain⟩) ∧ (relItems off r).Pairwise (fun a b => a.pos < b.pos) ∧
      ∀ it ∈ relItems off r, off ≤ it.pos ∧ it.pos < s.length := by
  induction n with
  | zero =>
    intro r x off h hr hne
    exact absurd (List.length_eq_zero_iff.1 (Nat.le_zero.1 h)) hne
  | succ n ih =>
    intro r x off hn hr hne hp ho hx hxl hol h0
    obtain ⟨run, sl, q, e0, c1, c2, c3, c4, c5, c6, c7, c8⟩ := cut r hne hp
    have hlen := drop_len hr hol
    have hrl : 0 < run.length := List.length_pos_iff.2 c1
    have e0l : r.length = run.length + sl.length + q.length := by
      have := congrArg List.length e0
      simpa only [List.length_append] using this
    -- the text up to the end of a part of `r`
    have htake : ∀ y z, r = y ++ z → (s.take (off + y.length)).drop (rootLen s) = x ++ y := by
      intro y z hy
      have : s.take (off + y.length) = s.take off ++ y := by
        rw [List.take_add, hr, hy, List.take_left]
      rw [this, List.drop_append_of_le_length (by simp; omega), hx]
    have hn1 : next s ⟨off, run⟩ = nextRel s (off + run.length) := next_rel (it := ⟨off, run⟩) h0 (fun _ => ⟨by show off < _; omega, c1⟩)
    have hd1 : s.drop (off + run.length) = sl ++ q := by
      rw [← List.drop_drop, hr, e0, List.append_assoc, List.drop_left]
    rw [relItems, if_neg hne, c6, c8, c7]
    by_cases hsl : sl = []
    · have hq : q = [] := c5 hsl
      subst hsl hq
      simp only [List.append_nil] at *
      subst e0
      rw [if_pos trivial]
      have hend : off + r.length = s.length := by omega
      refine ⟨⟨?_, ?_⟩, rfl, List.pairwise_singleton _ _, ?_⟩
      · rw [hn1, hend]
        exact nextRel_end s
      · rw [prev_rel (it := endIt s) (by show rootLen s < s.length; omega)]
        · refine (prevName_ok (x := x) (run := r) (sl := []) (by show rootLen s ≤ s.length; omega) (Nat.le_refl _) ?_ c1 c2 (by simp) hxl).trans ?_
          · have := htake r [] (by simp)
            rw [hend] at this
            simpa using this
          · rw [← ho]
        · intro _
          rw [getLast?_drop hr c1, List.getLast?_eq_some_getLast c1]
          exact ⟨_, rfl, c2 _ (List.getLast_mem c1)⟩
      · intro it hit
        obtain rfl := List.mem_singleton.1 hit
        exact ⟨Nat.le_refl _, by show off < _; omega⟩
    · have hsl' : 0 < sl.length := List.length_pos_iff.2 hsl
      rw [if_neg (by simp [hsl])]
      by_cases hq : q = []
      · subst hq
        simp only [List.append_nil, List.length_nil, Nat.add_zero] at *
        rw [dif_pos trivial]
        have hlast : ∃ c ∈ s.getLast?, slash c = true := by
          rw [getLast?_drop hr hne, e0, getLast?_app _ hsl, List.getLast?_eq_some_getLast hsl]
          exact ⟨_, rfl, c3 _ (List.getLast_mem hsl)⟩
        obtain ⟨c, hc, hcs⟩ := hlast
        have hm : off + r.length - 1 = s.length - 1 := by omega
        rw [hm]
        refine ⟨⟨?_, ?_, ?_, ?_⟩, rfl, ?_, ?_⟩
        · rw [hn1]
          exact nextRel_magic hd1 (by omega) c3 hsl
        · rw [prev_rel (it := ⟨s.length - 1, []⟩) (by show rootLen s < s.length - 1; omega) (by intro h; exact absurd h (by show s.length - 1 ≠ s.length; omega))]
          refine (prevName_ok (x := x) (run := run) (sl := sl.dropLast) (by show rootLen s ≤ s.length - 1; omega) (by show s.length - 1 ≤ _; omega) ?_ c1 c2 (fun c hc => c3 c ((List.dropLast_sublist _).mem hc)) hxl).trans ?_
          · have := htake (run ++ sl.dropLast) [sl.getLast hsl] (by rw [e0, List.append_assoc, List.dropLast_concat_getLast])
            have e : off + (run ++ sl.dropLast).length = s.length - 1 := by simp; omega
            rw [e] at this
            rw [List.append_assoc]
            exact this
          · rw [← ho]
        · exact next_magic (by omega) (by omega) hc hcs
        · exact prev_magic (by omega) hc hcs
        · rw [List.pairwise_cons]
          refine ⟨?_, List.pairwise_singleton _ _⟩
          intro a ha
          obtain rfl := List.mem_singleton.1 ha
          show off < s.length - 1
          omega
        · intro it hit
          rcases List.mem_cons.1 hit with rfl | hit
          · exact ⟨Nat.le_refl _, by show off < _; omega⟩
          · obtain rfl := List.mem_singleton.1 hit
            exact ⟨by show off ≤ s.length - 1; omega, by show s.length - 1 < _; omega⟩
      · have hq' : 0 < q.length := List.length_pos_iff.2 hq
        rw [dif_neg hq]
        have hoff : off + (r.length - q.length) = off + (run ++ sl).length := by rw [List.length_append]; omega
        rw [hoff]
        have hd2 : s.drop (off + (run ++ sl).length) = q := by rw [← List.drop_drop, hr, e0, List.drop_left]
        have hx2 := htake (run ++ sl) q (by rw [e0])
        obtain ⟨i1, i2, i3, i4⟩ := ih q (x ++ (run ++ sl)) (off + (run ++ sl).length) (by omega) hd2 hq c4
          (by simp only [List.length_append]; omega) hx2
          (by
            intro c hc
            rw [← List.append_assoc, getLast?_app _ hsl, List.getLast?_eq_some_getLast hsl] at hc
            cases hc
            exact c3 _ (List.getLast_mem hsl)) (by rw [List.length_append]; omega) (by intro h; rw [List.length_append] at h; omega)
        cases hit : relItems (off + (run ++ sl).length) q with
        | nil => rw [hit] at i2; cases i2
        | cons b l =>
          rw [hit] at i1 i2 i3 i4
          cases i2
          refine ⟨⟨?_, ?_, i1⟩, rfl, ?_, ?_⟩
          · rw [hn1, nextRel_name hd1 (by omega) hq c4 c3, List.length_append, Nat.add_assoc]
          · rw [prev_rel (it := ⟨off + (run ++ sl).length, q.takeWhile plain⟩) (by show rootLen s < off + (run ++ sl).length; rw [List.length_append]; omega)
              (by intro h; exact absurd h (by show off + (run ++ sl).length ≠ s.length; rw [List.length_append]; omega))]
            refine (prevName_ok (x := x) (run := run) (sl := sl) (by show rootLen s ≤ off + (run ++ sl).length; omega) (by show off + (run ++ sl).length ≤ _; rw [List.length_append]; omega) ?_ c1 c2 c3 hxl).trans ?_
            · rw [List.append_assoc]; exact hx2
            · rw [← ho]
          · rw [List.pairwise_cons]
            refine ⟨fun a ha => ?_, i3⟩
            have := (i4 a ha).1
            rw [List.length_append] at this
            show off < a.pos
            omega
          · intro it hm
            rcases List.mem_cons.1 hm with rfl | hm
            · exact ⟨Nat.le_refl _, by show off < _; omega⟩
            · have := i4 it hm
              exact ⟨by omega, this.2⟩

/-- All iterators of a path. -/
def items (s : Text) : List It :=
  (if Spec.rootName s = [] then [] else [⟨0, Spec.rootName s⟩]) ++ (if Spec.rootDir s = [] then [] else [⟨(Spec.rootName s).length, Spec.rootDir s⟩]) ++
    relItems (rootLen s) (Spec.relative s)

theorem items_elements (s : Text) : (items s).map (·.elem) = Spec.elements s := by
  unfold items Spec.elements
  rw [List.map_append, List.map_append, relItems_names _ _ _ (Nat.le_refl _)]
  congr 2
  · split <;> rfl
  · split <;> rfl

theorem prev_dir {s : Text} {it : It} (h : Spec.rootDir s ≠ []) (hp : it.pos = rootLen s) : prev s it = .ok ⟨(Spec.rootName s).length, Spec.rootDir s⟩ := by
  unfold prev
  have := List.length_pos_iff.2 h
  rw [findRootNameEnd_ok, R.ok_bind, findNotSlash_ok, R.ok_bind, if_pos ⟨by unfold rootLen; omega, hp⟩]
  show Except.ok _ = _
  congr 2
  rw [sub, ← rootPath_eq_take, List.drop_left]

theorem prev_name {s : Text} {it : It} (h : Spec.rootName s ≠ []) (hp : it.pos = (Spec.rootName s).length) : prev s it = .ok ⟨0, Spec.rootName s⟩ := by
  unfold prev
  have := List.length_pos_iff.2 h
  rw [findRootNameEnd_ok, R.ok_bind, findNotSlash_ok, R.ok_bind, if_neg (by unfold rootLen; omega), if_pos ⟨by omega, hp⟩]
  show Except.ok _ = _
  congr 2
  rw [sub, rootName_eq_take]
  rfl

theorem nextRel_start (s : Text) (hr : Spec.relative s ≠ []) : nextRel s (rootLen s) = .ok ⟨rootLen s, (Spec.relative s).takeWhile plain⟩ :=
  (nextRel_name (sl := []) (q := Spec.relative s) (by rw [← relative_eq_drop]; rfl) (rootLen_le s) hr (relative_head' s) (by simp))

/-- One more element in front. -/
theorem Chain.cons {s : Text} {a : It} {l : List It} (h : Chain s l) (hn : next s a = .ok (l.head?.getD (endIt s))) (hp : prev s (l.head?.getD (endIt s)) = .ok a) :
    Chain s (a :: l) := by
  cases l with
  | nil => exact ⟨hn, hp⟩
  | cons b l => exact ⟨hn, hp, h⟩

/-- The relative part, also if it is empty. -/
theorem chain_rel' (s : Text) :
    Chain s (relItems (rootLen s) (Spec.relative s)) ∧ (relItems (rootLen s) (Spec.relative s)).Pairwise (fun a b => a.pos < b.pos) ∧
      (∀ it ∈ relItems (rootLen s) (Spec.relative s), rootLen s ≤ it.pos ∧ it.pos < s.length) ∧
      nextRel s (rootLen s) = .ok ((relItems (rootLen s) (Spec.relative s)).head?.getD (endIt s)) ∧
      ((relItems (rootLen s) (Spec.relative s)).head?.getD (endIt s)).pos = rootLen s := by
  by_cases hr : Spec.relative s = []
  · rw [hr, relItems_nil]
    have hl := length_eq s
    rw [hr] at hl
    simp only [List.length_nil, Nat.add_zero] at hl
    refine ⟨trivial, List.Pairwise.nil, (by simp), ?_, hl⟩
    rw [← hl]
    exact nextRel_end s
  · obtain ⟨h1, h2, h3, h4⟩ := chain_rel s _ (Spec.relative s) [] (rootLen s) (Nat.le_refl _) (relative_eq_drop s).symm hr (relative_head' s) (by simp)
      (by rw [List.drop_eq_nil_of_le]; simp) (by simp) (rootLen_le s) (by
        intro h
        unfold rootLen at h
        have : (Spec.rootName s).length = 0 := by omega
        exact .inl (List.length_eq_zero_iff.1 this))
    refine ⟨h1, h3, h4, ?_, ?_⟩
    · rw [h2, nextRel_start s hr]; rfl
    · rw [h2]; rfl

theorem chain_items (s : Text) : Chain s (items s) ∧ (items s).Pairwise (fun a b => a.pos < b.pos) ∧ (∀ it ∈ items s, it.pos < s.length) ∧
    begin s = .ok ((items s).head?.getD (endIt s)) := by
  have hlen := rootLen_le s
  have hlen' : rootLen s = (Spec.rootName s).length + (Spec.rootDir s).length := rfl
  obtain ⟨r1, r2, r3, r4, r5⟩ := chain_rel' s
  unfold items begin
  rw [findRootNameEnd_ok, R.ok_bind, findNotSlash_ok]
  simp only [R.ok_bind]
  by_cases hn : Spec.rootName s = [] <;> by_cases hd : Spec.rootDir s = []
  · rw [if_pos hn, if_pos hd, if_pos (by rw [hn]; rfl)]
    rw [hn, hd] at hlen'
    simp only [List.length_nil, Nat.add_zero] at hlen'
    rw [if_pos hlen'.symm]
    refine ⟨r1, r2, fun it h => (r3 it h).2, ?_⟩
    have e : Spec.relative s = s := by rw [relative_eq_drop, hlen']; rfl
    rw [hlen', findIf_ok _ _ _ (Nat.zero_le _), R.ok_bind]
    have ef : (fun c => !isSlash c) = plain := rfl
    rw [ef]
    simp only [List.nil_append, Nat.zero_add, List.drop_zero]
    have es : sub s 0 (s.takeWhile plain).length = s.takeWhile plain := by
      rw [sub, List.drop_zero]
      exact (List.prefix_iff_eq_take.1 (List.takeWhile_prefix plain)).symm
    rw [es, e]
    by_cases hs : s = []
    · subst hs
      rw [relItems_nil]
      rfl
    · rw [relItems, if_neg hs]
      rfl
  · have := List.length_pos_iff.2 hd
    rw [if_pos hn, if_neg hd, if_pos (by rw [hn]; rfl)]
    rw [hn] at hlen'
    simp only [List.length_nil, Nat.zero_add] at hlen'
    rw [if_neg (by omega), hn]
    simp only [List.nil_append, List.cons_append, List.length_nil]
    have e : Spec.rootDir s = sub s 0 (rootLen s) := by rw [sub, ← rootPath_eq_take, hn]; rfl
    refine ⟨r1.cons ?_ ?_, ?_, ?_, ?_⟩
    · rw [next_rel (fun _ => .inl hn) (fun h => absurd rfl h)]
      show nextRel s (0 + _) = _
      rw [Nat.zero_add, ← hlen']
      exact r4
    · rw [prev_dir hd r5, hn]; rfl
    · rw [List.pairwise_cons]
      exact ⟨fun a ha => by show 0 < a.pos; have := (r3 a ha).1; omega, r2⟩
    · intro it hit
      rcases List.mem_cons.1 hit with rfl | hit
      · show 0 < _; omega
      · exact (r3 it hit).2
    · rw [e]; rfl
  · have := List.length_pos_iff.2 hn
    rw [if_neg hn, if_pos hd, if_neg (by omega)]
    rw [hd] at hlen'
    simp only [List.length_nil, Nat.add_zero] at hlen'
    simp only [List.append_nil, List.cons_append, List.nil_append]
    have e : Spec.rootName s = sub s 0 (Spec.rootName s).length := by rw [sub, rootName_eq_take]; rfl
    refine ⟨r1.cons ?_ ?_, ?_, ?_, ?_⟩
    · rw [next_rel (fun _ => .inr hd) (fun h => absurd rfl h)]
      show nextRel s (0 + _) = _
      rw [Nat.zero_add, ← hlen']
      exact r4
    · exact prev_name hn (r5.trans hlen')
    · rw [List.pairwise_cons]
      exact ⟨fun a ha => by show 0 < a.pos; have := (r3 a ha).1; omega, r2⟩
    · intro it hit
      rcases List.mem_cons.1 hit with rfl | hit
      · show 0 < _; omega
      · exact (r3 it hit).2
    · rw [← e]; rfl
  · have hn1 := List.length_pos_iff.2 hn
    have hd1 := List.length_pos_iff.2 hd
    rw [if_neg hn, if_neg hd, if_neg (by omega)]
    simp only [List.cons_append, List.nil_append]
    have e : Spec.rootName s = sub s 0 (Spec.rootName s).length := by rw [sub, rootName_eq_take]; rfl
    have e2 : sub s (Spec.rootName s).length (rootLen s) = Spec.rootDir s := by rw [sub, ← rootPath_eq_take, List.drop_left]
    refine ⟨(r1.cons (a := ⟨(Spec.rootName s).length, Spec.rootDir s⟩) ?_ ?_).cons ?_ ?_, ?_, ?_, ?_⟩
    · rw [next_rel (fun h => absurd h (by show (Spec.rootName s).length ≠ 0; omega)) (fun _ => ⟨by show (Spec.rootName s).length < _; omega, hd⟩)]
      exact r4
    · exact prev_dir hd r5
    · unfold next
      rw [if_pos rfl, findRootNameEnd_ok, R.ok_bind, findNotSlash_ok, R.ok_bind, if_pos ⟨by omega, by omega⟩, e2]
      rfl
    · exact prev_name hn rfl
    · rw [List.pairwise_cons, List.pairwise_cons]
      refine ⟨fun a ha => ?_, fun a ha => ?_, r2⟩
      · rcases List.mem_cons.1 ha with rfl | ha
        · show 0 < (Spec.rootName s).length; omega
        · show 0 < a.pos; have := (r3 a ha).1; omega
      · show (Spec.rootName s).length < a.pos; have := (r3 a ha).1; omega
    · intro it hit
      rcases List.mem_cons.1 hit with rfl | hit
      · show 0 < _; omega
      · rcases List.mem_cons.1 hit with rfl | hit
        · show (Spec.rootName s).length < _; omega
        · exact (r3 it hit).2
    · rw [← e]; rfl

theorem Chain.get {s : Text} : ∀ {l : List It}, Chain s l → ∀ i (h : i < l.length), next s l[i] = .ok ((l ++ [endIt s])[i + 1]'(by simp; omega)) ∧
    prev s ((l ++ [endIt s])[i + 1]'(by simp; omega)) = .ok l[i]
  | [], _, i, h => by simp at h
  | [a], hc, i, h => by
    simp only [List.length_singleton, Nat.lt_one_iff] at h
    subst h
    exact hc
  | a :: b :: l, hc, i, h => by
    cases i with
    | zero => exact ⟨hc.1, hc.2.1⟩
    | succ i => exact hc.2.2.get i (by simpa using h)

end STL.Path
