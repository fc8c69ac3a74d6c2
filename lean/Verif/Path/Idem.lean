import Verif.Path.NormSpec

/-! # `lexically_normal` is idempotent and keeps the root -/

namespace STL.Path

/-- Every filename in turn is kept. -/
def AllPushed (rooted : Bool) : List Text → List Text → Prop
  | _, [] => True
  | out, n :: ns => pushed rooted out n = true ∧ AllPushed rooted (n :: out) ns

theorem AllPushed.foldl {rooted : Bool} : ∀ {ns out : List Text}, AllPushed rooted out ns →
    ns.foldl (push rooted) out = ns.reverse ++ out
  | [], out, _ => rfl
  | n :: ns, out, h => by
    rw [List.foldl_cons, push_of_pushed h.1, AllPushed.foldl h.2]; simp

theorem AllPushed.trail {rooted tr : Bool} : ∀ {ns out : List Text}, AllPushed rooted out ns → ns ≠ [] →
    STL.Path.trail rooted out ns tr = tr
  | [n], out, h, _ => by simp [STL.Path.trail, h.1]
  | n :: m :: ns, out, h, _ => by
    rw [STL.Path.trail, push_of_pushed h.1]
    exact AllPushed.trail h.2 (by simp)

theorem allPushed_plain {rooted : Bool} : ∀ (M out : List Text), (∀ m ∈ M, m ≠ Spec.dotdot ∧ m ≠ Spec.dot) →
    AllPushed rooted out M
  | [], _, _ => trivial
  | m :: M, out, h =>
    ⟨by simp [pushed, h m (by simp)], allPushed_plain M _ (fun x hx => h x (by simp [hx]))⟩

theorem allPushed_dots (M : List Text) (hM : ∀ m ∈ M, m ≠ Spec.dotdot ∧ m ≠ Spec.dot) : ∀ (k j : Nat),
    AllPushed false (List.replicate j Spec.dotdot) (List.replicate k Spec.dotdot ++ M)
  | 0, j => allPushed_plain M _ hM
  | k + 1, j => by
    rw [List.replicate_succ, List.cons_append]
    refine ⟨?_, ?_⟩
    · cases j with
      | zero => simp [pushed]
      | succ j => simp [pushed, List.replicate_succ]
    · rw [← List.replicate_succ]; exact allPushed_dots M hM k (j + 1)

theorem allPushed_stack {rooted : Bool} {out : List Text} (h : Stack rooted out) : AllPushed rooted [] out.reverse := by
  obtain ⟨M, k, rfl, hM, hk⟩ := h
  rw [List.reverse_append, List.reverse_replicate]
  have hM' : ∀ m ∈ M.reverse, m ≠ Spec.dotdot ∧ m ≠ Spec.dot := fun m hm => hM m (List.mem_reverse.1 hm)
  cases rooted
  · exact allPushed_dots _ hM' k 0
  · rw [hk rfl]; exact allPushed_plain _ _ hM'

theorem normNames_fix (rooted : Bool) (ns : List Text) : normNames rooted (normNames rooted ns) = normNames rooted ns := by
  have h := allPushed_stack (Stack.foldl ns (Stack.nil rooted))
  have e := h.foldl
  unfold normNames
  rw [e]; simp

theorem normTrail_fix (rooted : Bool) (ns : List Text) (tr : Bool) (hne : normNames rooted ns ≠ []) :
    normTrail rooted (normNames rooted ns) (normTrail rooted ns tr) = normTrail rooted ns tr := by
  have h := allPushed_stack (Stack.foldl ns (Stack.nil rooted))
  unfold normTrail
  rw [normNames_fix]
  have := h.trail (tr := STL.Path.trail rooted [] ns tr && decide ((normNames rooted ns).getLast? ≠ some Spec.dotdot)) hne
  rw [show (List.foldl (push rooted) [] ns).reverse = normNames rooted ns from rfl] at this
  rw [this]
  cases STL.Path.trail rooted [] ns tr <;> simp

/-! ## Reading the result back -/

theorem untokens_nil : Spec.untokens [] = [] := rfl
theorem untokens_cons (x : Text) (ts : List Text) :
    Spec.untokens (x :: ts) = (if x = Spec.sep then [92] else x) ++ Spec.untokens ts := rfl

theorem untokens_head {N : List Text} {tr : Bool} (hN : ∀ n ∈ N, GoodName n) :
    ∀ c ∈ (Spec.untokens (weave N tr)).head?, Spec.slash c = false := by
  intro c hc
  cases N with
  | nil => rw [weave_nil] at hc; simp [Spec.untokens] at hc
  | cons n N =>
    obtain ⟨tl, htl⟩ := weave_head n N tr
    have hn := hN n (by simp)
    rw [htl, untokens_cons, if_neg hn.1] at hc
    match n, hn with
    | d :: n, hn =>
      simp at hc; subst hc
      exact hn.2 d (by simp)

theorem slash92 : Spec.slash 92 = true := rfl

theorem tokens_untokens : ∀ (N : List Text) (tr : Bool), (∀ n ∈ N, GoodName n) →
    Spec.tokens (Spec.untokens (weave N tr)) = weave N tr
  | [], tr, _ => by rw [weave_nil]; rfl
  | [n], tr, h => by
    have hn := h n (by simp)
    rw [weave_one, untokens_cons, if_neg hn.1]
    cases tr
    · exact tokens_run n [] hn (by simp)
    · have h1 : Spec.untokens (if true = true then [[]] else []) = [92] := rfl
      rw [h1, tokens_run n [92] hn (by simp; rfl)]
      rfl
  | n :: m :: N, tr, h => by
    have hn := h n (by simp)
    have ih := tokens_untokens (m :: N) tr (fun x hx => h x (by simp [hx]))
    have hh := untokens_head (N := m :: N) (tr := tr) (fun x hx => h x (by simp [hx]))
    rw [weave_cons, untokens_cons, if_neg hn.1, untokens_cons, if_pos rfl, tokens_run n _ hn (by simp; rfl),
      tokens_slashes [92] _ (by simp) (by simp; rfl) hh, ih]

theorem makePreferred_plain {c : WChar} : Spec.slash (if c = 47 then 92 else c) = Spec.slash c := by
  split
  · next h => subst h; rfl
  · rfl

theorem makePreferred_idem (s : Text) : makePreferred (makePreferred s) = makePreferred s := by
  unfold makePreferred
  rw [List.map_map]
  apply List.map_congr_left
  intro c _
  simp only [Function.comp]
  split
  · rfl
  · rfl

theorem pref_ne {c d : WChar} (h : d ≠ 47) (h' : d ≠ 92) : ((if c = 47 then 92 else c) = d) ↔ c = d := by
  split
  · next e =>
    subst e
    constructor
    · intro e; exact absurd e.symm h'
    · intro e; exact absurd e.symm h
  · rfl

/-- A non-empty root-name is parsed again from the normalized text. -/
theorem rootName_norm {s X : Text} (hr : Spec.rootName s ≠ []) (hX : ∀ c ∈ X.head?, Spec.slash c = false)
    (hX0 : ¬ Spec.Drive s → Spec.rootDir s = [] → X = []) :
    Spec.rootName (normRoot s ++ X) = makePreferred (Spec.rootName s) := by
  unfold normRoot
  by_cases hd : Spec.Drive s
  · obtain ⟨a, rest, rfl, hl⟩ := drive_head hd
    have e : Spec.rootName (a :: 58 :: rest) = [a, 58] := by unfold Spec.rootName; rw [if_pos hd]; rfl
    have ha : ¬ a = 47 := by rintro rfl; revert hl; decide
    rw [e]
    have e2 : makePreferred [a, 58] = [a, 58] := by
      unfold makePreferred; simp [ha]
    rw [e2]
    unfold Spec.rootName
    rw [if_pos ⟨hl, rfl⟩]; rfl
  · have hX0 := hX0 hd
    by_cases hv : Spec.Device s
    · obtain ⟨a, b, c, d, rest, rfl, h1, h2, h3, h4⟩ := device_head hv
      have e : Spec.rootName (a :: b :: c :: d :: rest) = [a, b, c] := by
        unfold Spec.rootName; rw [if_neg hd, if_pos hv]; rfl
      have hrd : Spec.rootDir (a :: b :: c :: d :: rest) ≠ [] := by
        unfold Spec.rootDir Spec.afterName; rw [e]; simp [h2]
      rw [e, if_pos hrd]
      have hpa : Spec.slash (if a = 47 then 92 else a) = true := by rw [makePreferred_plain]; exact h1
      have hv' : Spec.Device (makePreferred [a, b, c] ++ [92] ++ X) := by
        show Spec.Device ((if a = 47 then 92 else a) :: (if b = 47 then 92 else b) :: (if c = 47 then 92 else c) :: 92 :: X)
        refine ⟨hpa, rfl, ?_, ?_⟩
        · intro e he; simp [hX e he]
        · rw [makePreferred_plain, pref_ne (by decide) (by decide), pref_ne (by decide) (by decide),
            pref_ne (by decide) (by decide)]
          exact h4
      have hd' : ¬ Spec.Drive (makePreferred [a, b, c] ++ [92] ++ X) := by
        intro hc
        have := not_slash_of_drive (c := if a = 47 then 92 else a) (d := if b = 47 then 92 else b)
          (rest := (if c = 47 then 92 else c) :: 92 :: X) hc
        rw [hpa] at this; cases this
      unfold Spec.rootName
      rw [if_neg hd', if_pos hv']; rfl
    · have hs : Spec.Server s := by
        by_contra hs
        unfold Spec.rootName at hr
        rw [if_neg hd, if_neg hv, if_neg hs] at hr
        exact hr rfl
      obtain ⟨a, b, c, rest, rfl, h1, h2, h3⟩ := server_head hs
      have hc : Spec.slash c = false := by simpa using h3
      have e : Spec.rootName (a :: b :: c :: rest) = a :: b :: c :: rest.takeWhile Spec.plain := by
        unfold Spec.rootName
        rw [if_neg hd, if_neg hv, if_pos hs]
        simp [Spec.plain, hc]
      rw [e]
      have hpa : Spec.slash (if a = 47 then 92 else a) = true := by rw [makePreferred_plain]; exact h1
      have hpb : Spec.slash (if b = 47 then 92 else b) = true := by rw [makePreferred_plain]; exact h2
      have hpc : Spec.slash (if c = 47 then 92 else c) = false := by rw [makePreferred_plain]; exact hc
      have hall : ∀ x ∈ makePreferred (rest.takeWhile Spec.plain), Spec.plain x = true := by
        intro x hx
        unfold makePreferred at hx
        rw [List.mem_map] at hx
        obtain ⟨y, hy, rfl⟩ := hx
        have := List.mem_takeWhile_imp hy
        unfold Spec.plain at this ⊢
        rw [makePreferred_plain]; exact this
      have hform : makePreferred (a :: b :: c :: rest.takeWhile Spec.plain) =
          (if a = 47 then 92 else a) :: (if b = 47 then 92 else b) :: (if c = 47 then 92 else c) ::
            makePreferred (rest.takeWhile Spec.plain) := rfl
      rw [hform]
      generalize hY : (if Spec.rootDir (a :: b :: c :: rest) ≠ [] then [92] else []) ++ X = Y
      have hYh : ∀ y ∈ Y.head?, Spec.slash y = true := by
        intro y hy
        by_cases hrd : Spec.rootDir (a :: b :: c :: rest) ≠ []
        · rw [if_pos hrd] at hY; subst hY; simp at hy; subst hy; rfl
        · rw [if_neg hrd] at hY
          rw [hX0 (by simpa using hrd)] at hY
          subst hY; simp at hy
      rw [List.append_assoc, hY]
      have hd' : ¬ Spec.Drive ((if a = 47 then 92 else a) :: (if b = 47 then 92 else b) :: (if c = 47 then 92 else c) ::
            makePreferred (rest.takeWhile Spec.plain) ++ Y) := by
        intro hcc
        have := not_slash_of_drive hcc
        rw [hpa] at this; cases this
      have htw : ((makePreferred (rest.takeWhile Spec.plain)) ++ Y).takeWhile Spec.plain
          = makePreferred (rest.takeWhile Spec.plain) := by
        rw [List.takeWhile_append_of_pos hall]
        have : Y.takeWhile Spec.plain = [] := by
          cases Y with
          | nil => rfl
          | cons y Y => simp [Spec.plain, hYh y rfl]
        rw [this, List.append_nil]
      by_cases hv' : Spec.Device ((if a = 47 then 92 else a) :: (if b = 47 then 92 else b) ::
          (if c = 47 then 92 else c) :: makePreferred (rest.takeWhile Spec.plain) ++ Y)
      · unfold Spec.rootName
        rw [if_neg hd', if_pos hv']
        -- then the server name is a single character
        have : makePreferred (rest.takeWhile Spec.plain) = [] := by
          cases hm : makePreferred (rest.takeWhile Spec.plain) with
          | nil => rfl
          | cons x xs =>
            have hx := hall x (by rw [hm]; simp)
            rw [hm] at hv'
            have := hv'.2.1
            simp [Spec.plain, this] at hx
        rw [this]; rfl
      · unfold Spec.rootName
        have hs' : Spec.Server ((if a = 47 then 92 else a) :: (if b = 47 then 92 else b) ::
          (if c = 47 then 92 else c) :: makePreferred (rest.takeWhile Spec.plain) ++ Y) :=
          ⟨hpa, hpb, by simp [hpc]⟩
        rw [if_neg hd', if_neg hv', if_pos hs']
        simp only [List.cons_append, List.take_succ_cons, List.take_zero, List.drop_succ_cons, List.drop_zero]
        rw [List.takeWhile_cons_of_pos (by simp [Spec.plain, hpc]), htw]
        rfl

/-- Reading back a normalized text whose root-name is unchanged. -/
theorem reread {s X t : Text} (ht : t = normRoot s ++ X) (hr : Spec.rootName t = makePreferred (Spec.rootName s))
    (hX : ∀ c ∈ X.head?, Spec.slash c = false) :
    (Spec.rootDir t = if Spec.rootDir s ≠ [] then [92] else []) ∧ Spec.relative t = X := by
  have ha : Spec.afterName t = (if Spec.rootDir s ≠ [] then [92] else []) ++ X := by
    unfold Spec.afterName
    rw [hr, ht, normRoot, List.append_assoc, List.drop_left' rfl]
  have hrd : Spec.rootDir t = ((if Spec.rootDir s ≠ [] then [92] else []) ++ X).takeWhile Spec.slash := by
    conv => lhs; unfold Spec.rootDir
    rw [ha]
  have hrl : Spec.relative t = ((if Spec.rootDir s ≠ [] then [92] else []) ++ X).dropWhile Spec.slash := by
    unfold Spec.relative; rw [ha]
  rw [hrd, hrl]
  have h1 : X.takeWhile Spec.slash = [] := by
    cases X with
    | nil => rfl
    | cons c X => simp [hX c rfl]
  have h2 : X.dropWhile Spec.slash = X := by
    cases X with
    | nil => rfl
    | cons c X => rw [List.dropWhile_cons_of_neg (by simp [hX c rfl])]
  split
  · rw [List.singleton_append, List.takeWhile_cons_of_pos slash92, List.dropWhile_cons_of_pos slash92, h1, h2]
    exact ⟨rfl, rfl⟩
  · exact ⟨h1, h2⟩

theorem normal_dot : lexicallyNormal Spec.dot = .ok Spec.dot := by rfl

/-- **C19** Whenever normalizing did not make the path acquire a different root-name, normalizing again changes
nothing. -/
theorem lexically_normal_idempotent (s t : Text) (ht : lexicallyNormal s = .ok t)
    (hroot : Spec.rootName t = makePreferred (Spec.rootName s)) : lexicallyNormal t = .ok t := by
  by_cases hs : s = []
  · subst hs; cases ht; rfl
  · obtain ⟨ns, tr, htok, hg, -, -⟩ := tokens_weave _ (Spec.relative s) (Nat.le_refl _) (relative_head s)
    rw [lexicallyNormal_ok s hs ns tr htok hg] at ht
    dsimp only at ht
    have hgN : ∀ n ∈ normNames (decide (Spec.rootDir s ≠ [])) ns, GoodName n := by
      intro n hn
      rcases foldl_push_mem (List.mem_reverse.1 hn) with h | h
      · cases h
      · exact hg n h
    generalize hrt : decide (Spec.rootDir s ≠ []) = rooted at ht hgN
    generalize hX : Spec.untokens (weave (normNames rooted ns) (normTrail rooted ns tr)) = X at ht
    have hXh : ∀ c ∈ X.head?, Spec.slash c = false := by rw [← hX]; exact untokens_head hgN
    have hXt : Spec.tokens X = weave (normNames rooted ns) (normTrail rooted ns tr) := by
      rw [← hX]; exact tokens_untokens _ _ hgN
    split at ht
    · cases ht; exact normal_dot
    · next hne =>
      have ht : t = normRoot s ++ X := (Except.ok.inj ht).symm
      obtain ⟨hrd, hrel⟩ := reread ht hroot hXh
      have htne : t ≠ [] := by rw [ht]; exact hne
      rw [lexicallyNormal_ok t htne (normNames rooted ns) (normTrail rooted ns tr) (by rw [hrel, hXt]) hgN]
      have hrt' : decide (Spec.rootDir t ≠ []) = rooted := by
        rw [hrd, ← hrt]
        by_cases h : Spec.rootDir s = [] <;> simp [h]
      have hrootT : normRoot t = normRoot s := by
        unfold normRoot
        rw [hroot, hrd, makePreferred_idem]
        by_cases h : Spec.rootDir s = [] <;> simp [h]
      rw [hrt', hrootT]
      dsimp only
      rw [normNames_fix]
      have key : weave (normNames rooted ns) (normTrail rooted (normNames rooted ns) (normTrail rooted ns tr))
          = weave (normNames rooted ns) (normTrail rooted ns tr) := by
        by_cases hnn : normNames rooted ns = []
        · rw [hnn, weave_nil, weave_nil]
        · rw [normTrail_fix rooted ns tr hnn]
      rw [key, hX, if_neg hne, ← ht]

/-- No filename of the path looks like the start of a root-name: none starts with a drive such as `c:`, and none is
`??`. -/
def Spec.NoHiddenRoot (s : Text) : Prop :=
  ∀ n ∈ Spec.tokens (Spec.relative s), ¬ Spec.Drive n ∧ n ≠ [63, 63]

/-- **C19** Normalizing keeps the root: if the path has a root-name, or none of its filenames looks like one, then the
result has the same root-name (with preferred separators), and it has a root-directory exactly if the path had one
(written as one preferred separator). -/
theorem lexically_normal_root (s t : Text) (ht : lexicallyNormal s = .ok t)
    (h : Spec.rootName s ≠ [] ∨ Spec.NoHiddenRoot s) :
    Spec.rootName t = makePreferred (Spec.rootName s) ∧ Spec.rootDir t = if Spec.rootDir s ≠ [] then [92] else [] := by
  by_cases hs : s = []
  · subst hs; cases ht; exact ⟨rfl, rfl⟩
  · obtain ⟨ns, tr, htok, hg, hnsne, -⟩ := tokens_weave _ (Spec.relative s) (Nat.le_refl _) (relative_head s)
    rw [lexicallyNormal_ok s hs ns tr htok hg] at ht
    dsimp only at ht
    have hsub : ∀ n ∈ normNames (decide (Spec.rootDir s ≠ [])) ns, n ∈ ns := by
      intro n hn
      rcases foldl_push_mem (List.mem_reverse.1 hn) with h | h
      · cases h
      · exact h
    have hgN : ∀ n ∈ normNames (decide (Spec.rootDir s ≠ [])) ns, GoodName n := fun n hn => hg n (hsub n hn)
    have hnil : Spec.relative s = [] → ns = [] := by
      intro hr
      rw [hr] at htok
      match ns with
      | [] => rfl
      | n :: ns =>
        obtain ⟨tl, htl⟩ := weave_head n ns tr
        rw [htl] at htok; cases htok
    generalize hrt : decide (Spec.rootDir s ≠ []) = rooted at ht hgN hsub
    have hXh : ∀ c ∈ (Spec.untokens (weave (normNames rooted ns) (normTrail rooted ns tr))).head?, Spec.slash c = false :=
      untokens_head hgN
    -- the empty case
    by_cases hne : normRoot s ++ Spec.untokens (weave (normNames rooted ns) (normTrail rooted ns tr)) = []
    · rw [if_pos hne] at ht
      obtain ⟨h1, -⟩ := List.append_eq_nil_iff.1 hne
      unfold normRoot at h1
      obtain ⟨h1, h2⟩ := List.append_eq_nil_iff.1 h1
      have hrd : Spec.rootDir s = [] := by
        by_contra hc; rw [if_pos hc] at h2; cases h2
      cases ht
      rw [h1, hrd]; exact ⟨rfl, rfl⟩
    · rw [if_neg hne] at ht
      have ht : t = normRoot s ++ Spec.untokens (weave (normNames rooted ns) (normTrail rooted ns tr)) :=
        (Except.ok.inj ht).symm
      have key : Spec.rootName t = makePreferred (Spec.rootName s) := by
        by_cases hr : Spec.rootName s ≠ []
        · rw [ht]
          refine rootName_norm hr hXh (fun hd hrd => ?_)
          -- no root-directory after a non-drive root-name: nothing follows
          have hlen : (Spec.rootName s).length = s.length := by
            by_contra hc; exact rootDir_of_name hd hr hc hrd
          have hrel : Spec.relative s = [] := by
            unfold Spec.relative Spec.afterName
            rw [List.drop_eq_nil_of_le (by omega)]; rfl
          rw [hnil hrel]
          unfold normNames; simp [Spec.untokens]
        · have hr : Spec.rootName s = [] := by simpa using hr
          have hh := h.resolve_left (by simp [hr])
          rw [hr]
          have hNN : ∀ n ∈ normNames rooted ns, ¬ Spec.Drive n ∧ n ≠ [63, 63] := by
            intro n hn
            apply hh
            rw [htok]
            have hm := hsub n hn
            have hmf : n ∈ flat ns := by unfold flat; rw [List.mem_flatMap]; exact ⟨n, hm, by simp⟩
            cases tr
            · -- the removed last element is a separator
              unfold weave
              simp only [Bool.false_eq_true, if_false]
              rcases List.eq_nil_or_concat ns with rfl | ⟨ns', x, rfl⟩
              · cases hm
              · rw [List.concat_eq_append, flat_snoc, List.dropLast_append_cons]
                rw [List.concat_eq_append, flat_snoc] at hmf
                have : n ≠ [] := (hg n hm).1
                simp at hmf ⊢
                rcases hmf with h | h | h
                · exact Or.inl h
                · exact Or.inr h
                · exact absurd h this
            · exact hmf
          have hroot : normRoot s = if Spec.rootDir s ≠ [] then [92] else [] := by
            unfold normRoot; rw [hr]; rfl
          show Spec.rootName t = []
          rw [hroot] at ht
          cases hN : normNames rooted ns with
          | nil =>
            rw [hN, weave_nil, untokens_nil, List.append_nil] at ht
            rw [ht]; split <;> rfl
          | cons n N =>
            have hn := hgN n (by rw [hN]; simp)
            have hnn := hNN n (by rw [hN]; simp)
            -- the text after the root is the first filename, followed by the end or a separator
            have hform : ∃ Z, Spec.untokens (weave (normNames rooted ns) (normTrail rooted ns tr)) = n ++ Z ∧
                ∀ c ∈ Z.head?, Spec.slash c = true := by
              rw [hN]
              cases N with
              | nil =>
                rw [weave_one, untokens_cons, if_neg hn.1]
                refine ⟨_, rfl, ?_⟩
                intro c hc
                cases hb : normTrail rooted ns tr <;> rw [hb] at hc <;> simp [Spec.untokens] at hc
                subst hc; rfl
              | cons m N =>
                rw [weave_cons, untokens_cons, if_neg hn.1, untokens_cons, if_pos rfl]
                refine ⟨_, rfl, ?_⟩
                intro c hc
                simp at hc; subst hc; rfl
            obtain ⟨Z, hZ, hZh⟩ := hform
            rw [hZ] at ht
            match n, hn, hnn, hZ with
            | a :: n, hn, hnn, hZ =>
              have ha : Spec.slash a = false := hn.2 a (by simp)
              by_cases hrd : Spec.rootDir s = []
              · simp only [hrd, ne_eq, not_true, if_false, List.nil_append] at ht
                have hd : ¬ Spec.Drive t := by
                  rw [ht]
                  intro hc
                  match n, hn, hnn with
                  | b :: n, hn, hnn =>
                    exact hnn.1 hc
                  | [], hn, hnn =>
                    match Z, hZh, hc with
                    | z :: Z, hZh, hc =>
                      have h1 := hZh z rfl
                      have h2 := hc.2
                      subst h2; revert h1; decide
                unfold Spec.rootName
                rw [if_neg hd, if_neg, if_neg]
                · intro hc; obtain ⟨x, y, z, rest, he, hx, -⟩ := server_head hc
                  rw [ht] at he
                  obtain ⟨rfl, -⟩ := List.cons.inj he
                  rw [ha] at hx; cases hx
                · intro hc; obtain ⟨x, y, z, w, rest, he, hx, -⟩ := device_head hc
                  rw [ht] at he
                  obtain ⟨rfl, -⟩ := List.cons.inj he
                  rw [ha] at hx; cases hx
              · simp only [hrd, ne_eq, not_false_eq_true, if_true, List.cons_append, List.nil_append] at ht
                unfold Spec.rootName
                rw [if_neg, if_neg, if_neg]
                · intro hc; obtain ⟨x, y, z, rest, he, hx, hy, -⟩ := server_head hc
                  rw [ht] at he
                  obtain ⟨-, he⟩ := List.cons.inj he
                  obtain ⟨rfl, -⟩ := List.cons.inj he
                  rw [ha] at hy; cases hy
                · intro hc; obtain ⟨x, y, z, w, rest, he, hx, hw, hrest, hyz⟩ := device_head hc
                  rw [ht] at he
                  have he2 := (List.cons.inj he).2
                  have hya : a = y := (List.cons.inj he2).1
                  have he : n ++ Z = z :: w :: rest := (List.cons.inj he2).2
                  clear he2
                  rw [← hya, ha] at hyz
                  simp only [Bool.false_eq_true, false_and, false_or] at hyz
                  obtain ⟨ha63, rfl⟩ := hyz
                  rw [ha63] at hnn
                  clear hZ
                  match n, hn, hnn, he with
                  | [], hn, hnn, he =>
                    have : Spec.slash 63 = true := hZh 63 (by rw [List.nil_append] at he; rw [he]; rfl)
                    revert this; decide
                  | [c], hn, hnn, he =>
                    have := (List.cons.inj he).1
                    rw [this] at hnn
                    exact hnn.2 rfl
                  | c :: d :: n, hn, hnn, he =>
                    have he2 := (List.cons.inj he).2
                    have hdw := (List.cons.inj he2).1
                    have := hn.2 d (by simp)
                    rw [← hdw, this] at hw; cases hw
                · intro hc
                  rw [ht] at hc
                  have := not_slash_of_drive hc
                  cases this
      exact ⟨key, (reread ht key hXh).1⟩

/-- **C19** For every path that has a root-name, or none of whose filenames looks like one, normalizing is
idempotent. -/
theorem lexically_normal_normal (s t : Text) (ht : lexicallyNormal s = .ok t)
    (h : Spec.rootName s ≠ [] ∨ Spec.NoHiddenRoot s) : lexicallyNormal t = .ok t :=
  lexically_normal_idempotent s t ht (lexically_normal_root s t ht h).1

end STL.Path
