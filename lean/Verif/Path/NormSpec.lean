import Verif.Path.Norm

/-! # `lexically_normal` follows [fs.path.generic]/6 and is idempotent -/

namespace STL.Path

open Relation

/-! ## The result of the code -/

theorem mem_flat {y : Text} {ns : List Text} (h : y ∈ flat ns) : y = [] ∨ y ∈ ns := by
  simp [flat] at h
  obtain ⟨n, hn, rfl | rfl⟩ := h
  · exact Or.inr hn
  · exact Or.inl rfl

theorem mem_weave {y : Text} {ns : List Text} {tr : Bool} (h : y ∈ weave ns tr) : y = [] ∨ y ∈ ns := by
  cases tr
  · exact mem_flat (List.dropLast_subset _ h)
  · exact mem_flat h

theorem normPop_ok (N : List Text) (tr : Bool) (hN : ∀ n ∈ N, n ≠ []) :
    normPop (weave N tr) = .ok (weave N (tr && decide (N.getLast? ≠ some Spec.dotdot))) := by
  rcases List.eq_nil_or_concat N with rfl | ⟨M, x, rfl⟩
  · cases tr <;> rfl
  · rw [List.concat_eq_append] at hN ⊢
    have hx : x ≠ [] := hN x (by simp)
    cases tr with
    | false =>
      rw [weave_snoc_false, Bool.false_and, weave_snoc_false]
      unfold normPop
      split
      · rw [vget_ok _ _ (by simp), R.ok_bind]
        have : (flat M ++ [x])[(flat M ++ [x]).length - 1]'(by simp) = x := by simp
        rw [this, if_neg hx]; rfl
      · rfl
    | true =>
      have e : weave (M ++ [x]) true = flat M ++ [x] ++ [[]] := by
        rw [weave_true, flat_snoc]; simp
      rw [e]
      unfold normPop
      rw [if_pos (by simp), vget_ok _ _ (by simp), R.ok_bind]
      have h1 : (flat M ++ [x] ++ [[]])[(flat M ++ [x] ++ [[]]).length - 1]'(by simp) = [] := by simp
      rw [h1, if_pos rfl, vget_ok _ _ (by simp), R.ok_bind]
      have h2 : (flat M ++ [x] ++ [[]])[(flat M ++ [x] ++ [[]]).length - 2]'(by simp) = x := by
        simp [List.getElem_append]
      rw [h2]
      by_cases hd : x = dotDot
      · have hd' : x = Spec.dotdot := hd
        rw [if_pos hd]
        simp only [List.getLast?_append, List.getLast?_singleton, Option.some_or, hd', ne_eq, not_true, decide_false,
          Bool.and_false, weave_snoc_false]
        show Except.ok _ = _
        rw [List.dropLast_concat]
      · have hd' : ¬ x = Spec.dotdot := hd
        rw [if_neg hd]
        simp only [List.getLast?_append, List.getLast?_singleton, Option.some_or, Option.some.injEq, ne_eq, hd',
          not_false_eq_true, decide_true, Bool.and_true, e]
        rfl

/-- The names left by the stack machine come from the path, or are `..`. -/
theorem push_mem {rooted : Bool} {out : List Text} {n y : Text} (h : y ∈ push rooted out n) : y ∈ out ∨ y = n := by
  unfold push at h
  split at h
  · exact Or.inl h
  · split at h
    · rcases List.mem_cons.1 h with rfl | h
      · exact Or.inr rfl
      · exact Or.inl h
    · next h1 h2 =>
      simp only [ne_eq, not_not] at h2
      split at h
      · split at h
        · cases h
        · simp at h; rw [h, h2]; exact Or.inr rfl
      · next t o =>
        split at h
        · exact Or.inl (List.mem_cons_of_mem _ h)
        · split at h
          · exact Or.inl h
          · rcases List.mem_cons.1 h with rfl | h
            · exact Or.inr h2.symm
            · exact Or.inl h

theorem foldl_push_mem {rooted : Bool} {ns : List Text} : ∀ {out : List Text} {y : Text},
    y ∈ ns.foldl (push rooted) out → y ∈ out ∨ y ∈ ns := by
  induction ns with
  | nil => intro out y h; exact Or.inl h
  | cons n ns ih =>
    intro out y h
    rcases ih h with h | h
    · rcases push_mem h with h | rfl
      · exact Or.inl h
      · exact Or.inr (by simp)
    · exact Or.inr (by simp [h])

/-- The filenames of the result. -/
def normNames (rooted : Bool) (ns : List Text) : List Text := (ns.foldl (push rooted) []).reverse
/-- Whether the result ends in a separator. -/
def normTrail (rooted : Bool) (ns : List Text) (tr : Bool) : Bool :=
  trail rooted [] ns tr && decide ((normNames rooted ns).getLast? ≠ some Spec.dotdot)
/-- The root part of the result. -/
def normRoot (s : Text) : Text := makePreferred (Spec.rootName s) ++ (if Spec.rootDir s ≠ [] then [92] else [])

theorem weave_odd (ns : List Text) (tr : Bool) : ∀ i, i % 2 = 1 → i < (weave ns tr).length →
    (weave ns tr)[i]? = some [] := by
  have hflat : ∀ ns : List Text, ∀ i, i % 2 = 1 → i < (flat ns).length → (flat ns)[i]? = some [] := by
    intro ns
    induction ns with
    | nil => intro i _ h; simp at h
    | cons n ns ih =>
      intro i h1 h2
      match i, h1 with
      | 1, _ => rfl
      | i + 2, h1 =>
        simp only [flat_cons, List.getElem?_cons_succ]
        exact ih i (by omega) (by simp at h2; simp; omega)
  intro i h1 h2
  cases tr
  · simp only [weave, Bool.false_eq_true, if_false] at h2 ⊢
    rw [List.getElem?_dropLast, if_pos (by simpa using h2)]
    exact hflat ns i h1 (by simp at h2; simp; omega)
  · exact hflat ns i h1 h2

theorem weave_ge_length (ns : List Text) (tr : Bool) : ns.length ≤ (weave ns tr).length := by
  cases tr <;> simp [weave] <;> omega

theorem rooted_eq (s : Text) : (if (Spec.rootName s).length ≠ s.length
    then do return isSlash (← rdc s (Spec.rootName s).length) else .ok false : R Bool)
    = .ok (decide (Spec.rootDir s ≠ [])) := by
  split
  · next h =>
    have hlt : (Spec.rootName s).length < s.length := by have := rootName_le s; omega
    rw [rdc_ok _ _ hlt, R.ok_bind]
    show Except.ok _ = _
    congr 1
    unfold Spec.rootDir Spec.afterName
    rw [List.drop_eq_getElem_cons hlt, isSlash_eq]
    cases h : Spec.slash s[(Spec.rootName s).length] <;> simp [h, hlt]
  · next h =>
    have : Spec.rootDir s = [] := by
      unfold Spec.rootDir Spec.afterName
      rw [List.drop_eq_nil_of_le (by omega)]; rfl
    simp [this]

theorem relative_head (s : Text) : ∀ c ∈ (Spec.relative s).head?, Spec.slash c = false := by
  intro c hc
  exact head_dropWhile hc

theorem lexicallyNormal_ok (s : Text) (hs : s ≠ []) (ns : List Text) (tr : Bool)
    (ht : Spec.tokens (Spec.relative s) = weave ns tr) (hg : ∀ n ∈ ns, GoodName n) :
    lexicallyNormal s = .ok (
      let rooted := decide (Spec.rootDir s ≠ [])
      let text := normRoot s ++ Spec.untokens (weave (normNames rooted ns) (normTrail rooted ns tr))
      if text = [] then Spec.dot else text) := by
  unfold lexicallyNormal
  rw [if_neg hs, findRootNameEnd_ok, R.ok_bind, rooted_eq, R.ok_bind]
  have hptr : (if decide (Spec.rootDir s ≠ []) = true then findIf (fun c => !isSlash c) s ((Spec.rootName s).length + 1)
      else .ok (Spec.rootName s).length : R Nat) = .ok (rootLen s) := by
    by_cases hd : Spec.rootDir s ≠ []
    · rw [if_pos (by simpa using hd)]
      have h1 := findNotSlash_ok s
      have hlt : (Spec.rootName s).length < s.length := by
        have h2 := rootLen_le s
        have h3 := List.length_pos_iff.2 hd
        unfold rootLen at h2; omega
      rw [findIf_ok _ _ _ (by omega)] at h1 ⊢
      rw [List.drop_eq_getElem_cons hlt] at h1
      have hc : isSlash s[(Spec.rootName s).length] = true := by
        unfold Spec.rootDir Spec.afterName at hd
        rw [List.drop_eq_getElem_cons hlt] at hd
        by_contra hc
        rw [List.takeWhile_cons_of_neg (by simpa [isSlash_eq] using hc)] at hd
        exact hd rfl
      rw [List.takeWhile_cons_of_pos (by simpa using hc)] at h1
      simp only [List.length_cons, Except.ok.injEq] at h1 ⊢
      omega
    · rw [if_neg (by simpa using hd)]
      have : Spec.rootDir s = [] := by simpa using hd
      simp [rootLen, this]
  rw [hptr, R.ok_bind]
  have hlen := rootLen_le s
  rw [normSplit_ok s _ _ _ hlen (by omega), R.ok_bind, ← relative_eq_drop, ht]
  have hgl : glue [] (weave ns tr) = weave ns tr := by simp [glue]
  rw [hgl]
  have hodd := weave_odd ns tr
  have HH := normLoop_ok (decide (Spec.rootDir s ≠ [])) ((weave ns tr).length + 1) (weave ns tr) [] ns tr 0 0 rfl rfl
    (by simp) (by omega) (by omega) hodd rfl (by have := weave_ge_length ns tr; omega)
  obtain ⟨vec', ne', h1, h2, h3⟩ := HH
  rw [h1, R.ok_bind]
  dsimp only
  rw [if_pos h2, R.ok_bind, h3]
  have hgood : ∀ n ∈ normNames (decide (Spec.rootDir s ≠ [])) ns, n ≠ [] := by
    intro n hn
    rcases foldl_push_mem (List.mem_reverse.1 hn) with h | h
    · cases h
    · exact (hg n h).1
  have hpop := normPop_ok (normNames (decide (Spec.rootDir s ≠ [])) ns) (trail (decide (Spec.rootDir s ≠ [])) [] ns tr)
    hgood
  unfold normNames at hpop
  rw [hpop, R.ok_bind]
  have hroot : (if decide (Spec.rootDir s ≠ []) = true then makePreferred (sub s 0 (Spec.rootName s).length) ++ [92]
      else makePreferred (sub s 0 (Spec.rootName s).length)) = normRoot s := by
    simp only [sub, List.drop_zero, rootName_eq_take, normRoot, decide_eq_true_eq]
    split <;> simp
  rw [hroot]
  have hflat : ∀ v, normFlat v = Spec.untokens v := fun v => rfl
  rw [hflat]
  unfold normTrail normNames
  split <;> rfl

/-! ## Shape of the stack -/

/-- Top-first stack: ordinary filenames above `..`s; no `..`s under a root-directory. -/
def Stack (rooted : Bool) (out : List Text) : Prop :=
  ∃ M k, out = M ++ List.replicate k Spec.dotdot ∧ (∀ m ∈ M, m ≠ Spec.dotdot ∧ m ≠ Spec.dot) ∧ (rooted = true → k = 0)

theorem Stack.nil (rooted : Bool) : Stack rooted [] := ⟨[], 0, rfl, by simp, fun _ => rfl⟩

theorem Stack.push {rooted : Bool} {out : List Text} (h : Stack rooted out) (n : Text) : Stack rooted (push rooted out n) := by
  obtain ⟨M, k, rfl, hM, hk⟩ := h
  unfold STL.Path.push
  split
  · exact ⟨M, k, rfl, hM, hk⟩
  · next h1 =>
    split
    · next h2 => exact ⟨n :: M, k, rfl, by intro m hm; rcases List.mem_cons.1 hm with rfl | hm; exact ⟨h2, h1⟩; exact hM m hm, hk⟩
    · split
      · next h3 =>
        split
        · exact Stack.nil _
        · next h4 => exact ⟨[], 1, rfl, by simp, fun h => absurd h h4⟩
      · next t o h3 =>
        cases M with
        | nil =>
          cases k with
          | zero => cases h3
          | succ k =>
            rw [List.nil_append, List.replicate_succ] at h3
            obtain ⟨rfl, rfl⟩ := List.cons.inj h3
            rw [if_neg (by simp)]
            split
            · next hr => exact absurd (hk hr) (by omega)
            · next hr => exact ⟨[], k + 2, rfl, by simp, fun h => absurd h hr⟩
        | cons m M =>
          rw [List.cons_append] at h3
          obtain ⟨rfl, rfl⟩ := List.cons.inj h3
          rw [if_pos (hM m (by simp)).1]
          exact ⟨M, k, rfl, fun x hx => hM x (by simp [hx]), hk⟩

theorem Stack.foldl {rooted : Bool} (ns : List Text) : ∀ {out : List Text}, Stack rooted out →
    Stack rooted (ns.foldl (STL.Path.push rooted) out) := by
  induction ns with
  | nil => intro out h; exact h
  | cons n ns ih => intro out h; exact ih (h.push n)

/-! ## Rule 4 -/

/-- Whether a separator is at the end once the dots are removed. -/
def tr4 : List Text → Bool → Bool
  | [], _ => true
  | [n], tr => tr || decide (n = Spec.dot)
  | _ :: m :: ns, tr => tr4 (m :: ns) tr

/-- The filenames other than `.`. -/
def noDots (ns : List Text) : List Text := ns.filter (fun n => decide (n ≠ Spec.dot))

theorem rule4_steps (ns : List Text) (tr : Bool) : ∀ out : List Text,
    ReflTransGen Spec.Rule4 (flat out ++ weave ns tr) (weave (out ++ noDots ns) (tr4 ns tr)) := by
  match ns with
  | [] => intro out; simp [noDots, tr4, weave_true]; exact .refl
  | [n] =>
    intro out
    by_cases hn : n = Spec.dot
    · subst hn
      have e : noDots [Spec.dot] = [] := by simp [noDots]
      rw [e, List.append_nil]
      have : tr4 [Spec.dot] tr = true := by simp [tr4]
      rw [this, weave_true, weave_one]
      cases tr
      · exact .single (Spec.Rule4.last _)
      · have := Spec.Rule4.mid (flat out) []
        simp only [List.append_nil] at this
        exact .single this
    · have e : noDots [n] = [n] := by simp [noDots, hn]
      have : tr4 [n] tr = tr := by simp [tr4, hn]
      rw [e, this]
      cases tr
      · rw [weave_snoc_false]; exact .refl
      · rw [weave_true, weave_true, flat_snoc]; exact .refl
  | n :: m :: ns =>
    intro out
    rw [weave_cons]
    by_cases hn : n = Spec.dot
    · subst hn
      have e : noDots (Spec.dot :: m :: ns) = noDots (m :: ns) := by simp [noDots]
      rw [e]
      refine .head ?_ (rule4_steps (m :: ns) tr out)
      have := Spec.Rule4.mid (flat out) (weave (m :: ns) tr)
      simpa using this
    · have e : noDots (n :: m :: ns) = n :: noDots (m :: ns) := by
        unfold noDots; rw [List.filter_cons, if_pos (by simpa using hn)]
      rw [e]
      have := rule4_steps (m :: ns) tr (out ++ [n])
      rw [flat_snoc] at this
      simpa [tr4] using this

theorem rule4_irr {t u : List Text} (h : Spec.Rule4 t u) : Spec.dot ∈ t := by
  cases h <;> simp

theorem rule6_irr {t u : List Text} (h : Spec.Rule6 t u) : Spec.dotdot ∈ t := by
  cases h <;> simp

theorem noDots_nil {tr : Bool} : ∀ ns : List Text, noDots ns = [] → tr4 ns tr = true
  | [], _ => rfl
  | [n], h => by
    by_cases hn : n = Spec.dot
    · simp [tr4, hn]
    · simp [noDots, hn] at h
  | n :: m :: ns, h => by
    have h' : noDots (m :: ns) = [] := by
      by_cases hn : n = Spec.dot
      · unfold noDots at h ⊢; rwa [List.filter_cons, if_neg (by simp [hn])] at h
      · unfold noDots at h; rw [List.filter_cons, if_pos (by simpa using hn)] at h; cases h
    rw [tr4]; exact noDots_nil (m :: ns) h'

theorem push_dot (rooted : Bool) (out : List Text) : push rooted out Spec.dot = out := by simp [push]

theorem foldl_noDots (rooted : Bool) (ns : List Text) : ∀ out : List Text,
    ns.foldl (push rooted) out = (noDots ns).foldl (push rooted) out := by
  induction ns with
  | nil => intro out; rfl
  | cons n ns ih =>
    intro out
    by_cases hn : n = Spec.dot
    · have e : noDots (n :: ns) = noDots ns := by unfold noDots; rw [List.filter_cons, if_neg (by simp [hn])]
      rw [e, ← ih, List.foldl_cons, hn, push_dot]
    · have e : noDots (n :: ns) = n :: noDots ns := by
        unfold noDots; rw [List.filter_cons, if_pos (by simpa using hn)]
      rw [e, List.foldl_cons, List.foldl_cons, ih]

theorem trail_true (rooted : Bool) : ∀ (ns out : List Text), trail rooted out ns true = true
  | [], _ => rfl
  | [_], _ => rfl
  | n :: m :: ns, out => by rw [trail]; exact trail_true rooted (m :: ns) _

theorem trail_noDots (rooted : Bool) (tr : Bool) : ∀ ns out : List Text,
    trail rooted out ns tr = trail rooted out (noDots ns) (tr4 ns tr)
  | [], _ => rfl
  | [n], out => by
    by_cases hn : n = Spec.dot
    · have e : noDots [n] = [] := by simp [noDots, hn]
      rw [e]; simp [trail, pushed, hn]
    · have e : noDots [n] = [n] := by simp [noDots, hn]
      rw [e]; simp [trail, tr4, hn]
  | n :: m :: ns, out => by
    have ih := trail_noDots rooted tr (m :: ns) (push rooted out n)
    rw [trail, tr4]
    by_cases hn : n = Spec.dot
    · have e : noDots (n :: m :: ns) = noDots (m :: ns) := by
        unfold noDots; rw [List.filter_cons, if_neg (by simp [hn])]
      rw [e, ih, hn, push_dot]
    · have e : noDots (n :: m :: ns) = n :: noDots (m :: ns) := by
        unfold noDots; rw [List.filter_cons, if_pos (by simpa using hn)]
      rw [e, ih]
      cases hm : noDots (m :: ns) with
      | nil => rw [noDots_nil _ hm]; rfl
      | cons y ys => rw [trail]

/-! ## Rule 5 -/

theorem push_false_not_pushed {out : List Text} {n : Text} (hd : n ≠ Spec.dot) (h : pushed false out n = false) :
    n = Spec.dotdot ∧ ∃ t o, out = t :: o ∧ t ≠ Spec.dotdot ∧ push false out n = o := by
  have hn : n = Spec.dotdot := by
    by_contra hc; simp [pushed, hd, hc] at h
  refine ⟨hn, ?_⟩
  subst hn
  cases out with
  | nil => simp [pushed] at h
  | cons t o =>
    have ht : t ≠ Spec.dotdot := by
      intro hc; simp [pushed, hc] at h
    exact ⟨t, o, rfl, ht, by simp [push, ht]⟩

theorem rule5_steps (tr : Bool) : ∀ (ns out : List Text), (∀ n ∈ ns, n ≠ Spec.dot ∧ n ≠ []) → (∀ n ∈ out, n ≠ []) →
    ReflTransGen Spec.Rule5 (flat out.reverse ++ weave ns tr)
      (weave (ns.foldl (push false) out).reverse (trail false out ns tr))
  | [], out, _, _ => by simp [trail, weave_true]; exact .refl
  | [n], out, h, ho => by
    have hn := h n (by simp)
    show ReflTransGen Spec.Rule5 _ (weave (push false out n).reverse (tr || !pushed false out n))
    by_cases hp : pushed false out n = true
    · rw [hp, push_of_pushed hp, List.reverse_cons]
      cases tr
      · simp only [Bool.not_true, Bool.or_false]
        rw [weave_snoc_false, weave_one]; exact .refl
      · simp only [Bool.true_or, weave_true, flat_snoc]; exact .refl
    · have hp' : pushed false out n = false := by simpa using hp
      obtain ⟨rfl, t, o, rfl, ht, hpu⟩ := push_false_not_pushed hn.1 hp'
      rw [hp', hpu, Bool.not_false, Bool.or_true, weave_true, List.reverse_cons, flat_snoc, weave_one]
      have hto : t ≠ Spec.sep := ho t (by simp)
      cases tr
      · have := Spec.Rule5.last (flat o.reverse) t ⟨hto, ht⟩
        refine .single ?_
        simpa using this
      · have := Spec.Rule5.mid (flat o.reverse) [] t ⟨hto, ht⟩
        refine .single ?_
        simpa using this
  | n :: m :: ns, out, h, ho => by
    have hn := h n (by simp)
    rw [weave_cons, List.foldl_cons, trail]
    by_cases hp : pushed false out n = true
    · rw [push_of_pushed hp]
      have := rule5_steps tr (m :: ns) (n :: out) (fun x hx => h x (by simp [hx]))
        (fun x hx => by rcases List.mem_cons.1 hx with rfl | hx; exact hn.2; exact ho x hx)
      rw [List.reverse_cons, flat_snoc] at this
      simpa using this
    · have hp' : pushed false out n = false := by simpa using hp
      obtain ⟨rfl, t, o, rfl, ht, hpu⟩ := push_false_not_pushed hn.1 hp'
      rw [hpu]
      have hto : t ≠ Spec.sep := ho t (by simp)
      refine .head ?_ (rule5_steps tr (m :: ns) o (fun x hx => h x (by simp [hx])) (fun x hx => ho x (by simp [hx])))
      have := Spec.Rule5.mid (flat o.reverse) (weave (m :: ns) tr) t ⟨hto, ht⟩
      rw [List.reverse_cons, flat_snoc]
      simpa using this

theorem flat_getElem? : ∀ (ns : List Text) (i : Nat) (y : Text), (flat ns)[i]? = some y →
    (i % 2 = 0 ∧ ns[i / 2]? = some y) ∨ (i % 2 = 1 ∧ y = [])
  | [], i, y, h => by simp at h
  | n :: ns, 0, y, h => by simp at h; simp [h]
  | n :: ns, 1, y, h => by simp at h; simp [← h]
  | n :: ns, i + 2, y, h => by
    simp only [flat_cons, List.getElem?_cons_succ] at h
    rcases flat_getElem? ns i y h with ⟨h1, h2⟩ | ⟨h1, h2⟩
    · refine Or.inl ⟨by omega, ?_⟩
      rw [show (i + 2) / 2 = i / 2 + 1 by omega, List.getElem?_cons_succ]; exact h2
    · exact Or.inr ⟨by omega, h2⟩

theorem weave_getElem? {ns : List Text} {tr : Bool} {i : Nat} {y : Text} (h : (weave ns tr)[i]? = some y) :
    (i % 2 = 0 ∧ ns[i / 2]? = some y) ∨ (i % 2 = 1 ∧ y = []) := by
  cases tr
  · simp only [weave, Bool.false_eq_true, if_false] at h
    rw [List.getElem?_dropLast] at h
    split at h
    · exact flat_getElem? _ _ _ h
    · cases h
  · exact flat_getElem? _ _ _ h

theorem rule5_pattern {t u : List Text} (h : Spec.Rule5 t u) :
    ∃ i x, t[i]? = some x ∧ x ≠ [] ∧ x ≠ Spec.dotdot ∧ t[i + 2]? = some Spec.dotdot := by
  cases h with
  | mid a b x hx =>
    refine ⟨a.length, x, ?_, hx.1, hx.2, ?_⟩
    · simp
    · simp
  | last _ x hx =>
    refine ⟨u.length, x, ?_, hx.1, hx.2, ?_⟩ <;> simp

theorem rule5_irr {out : List Text} (h : Stack false out) (tr : Bool) (u : List Text) :
    ¬ Spec.Rule5 (weave out.reverse tr) u := by
  intro hr
  obtain ⟨i, x, h1, h2, h3, h4⟩ := rule5_pattern hr
  rcases weave_getElem? h1 with ⟨e1, g1⟩ | ⟨-, e⟩
  · rcases weave_getElem? h4 with ⟨-, g4⟩ | ⟨-, e⟩
    · rw [show (i + 2) / 2 = i / 2 + 1 by omega] at g4
      obtain ⟨M, k, rfl, hM, -⟩ := h
      rw [List.reverse_append, List.reverse_replicate] at g1 g4
      by_cases hk : i / 2 + 1 < k
      · rw [List.getElem?_append_left (by simp; omega), List.getElem?_replicate, if_pos (by omega)] at g1
        exact h3 (Option.some.inj g1).symm
      · rw [List.getElem?_append_right (by simp; omega)] at g4
        have := List.mem_of_getElem? g4
        exact (hM _ (List.mem_reverse.1 this)).1 rfl
    · cases e
  · exact h2 e

/-! ## Rule 6 -/

theorem push_rel (T : List Text) (k : Nat) (hT : ∀ m ∈ T, m ≠ Spec.dotdot) (n : Text) :
    ∃ k', push false (T ++ List.replicate k Spec.dotdot) n = push true T n ++ List.replicate k' Spec.dotdot ∧
      ∀ m ∈ push true T n, m ≠ Spec.dotdot := by
  by_cases hn : n = Spec.dot
  · subst hn; rw [push_dot, push_dot]; exact ⟨k, rfl, hT⟩
  · by_cases hdd : n = Spec.dotdot
    · subst hdd
      cases T with
      | nil =>
        refine ⟨k + 1, ?_, ?_⟩
        · cases k with
          | zero => simp [push]
          | succ k => simp [push, List.replicate_succ]
        · simp [push]
      | cons t o =>
        have ht := hT t (by simp)
        refine ⟨k, ?_, ?_⟩
        · simp [push, ht]
        · simp only [push, if_neg hn, ne_eq, not_true, if_false, ht, not_false_eq_true, if_true]
          exact fun m hm => hT m (by simp [hm])
    · refine ⟨k, ?_, ?_⟩
      · simp [push, hn, hdd]
      · simp only [push, if_neg hn, ne_eq, hdd, not_false_eq_true, if_true]
        intro m hm
        rcases List.mem_cons.1 hm with rfl | hm
        · exact hdd
        · exact hT m hm

theorem foldl_rel (ns : List Text) : ∀ (T : List Text) (k : Nat), (∀ m ∈ T, m ≠ Spec.dotdot) →
    ∃ k', ns.foldl (push false) (T ++ List.replicate k Spec.dotdot) =
        ns.foldl (push true) T ++ List.replicate k' Spec.dotdot ∧
      ∀ m ∈ ns.foldl (push true) T, m ≠ Spec.dotdot := by
  induction ns with
  | nil => intro T k hT; exact ⟨k, rfl, hT⟩
  | cons n ns ih =>
    intro T k hT
    obtain ⟨k', h1, h2⟩ := push_rel T k hT n
    rw [List.foldl_cons, List.foldl_cons, h1]
    exact ih _ k' h2

theorem trail_rel (tr : Bool) : ∀ (ns T : List Text) (k : Nat), (∀ m ∈ T, m ≠ Spec.dotdot) →
    ns.foldl (push true) T ≠ [] →
    trail false (T ++ List.replicate k Spec.dotdot) ns tr = trail true T ns tr
  | [], _, _, _, _ => rfl
  | [n], T, k, hT, hne => by
    have key : pushed false (T ++ List.replicate k Spec.dotdot) n = pushed true T n := by
      by_cases hn : n = Spec.dot
      · simp [pushed, hn]
      · by_cases hdd : n = Spec.dotdot
        · subst hdd
          cases T with
          | nil => simp [push] at hne
          | cons t o => simp [pushed, hT t (by simp)]
        · simp [pushed, hn, hdd]
    rw [trail, trail, key]
  | n :: m :: ns, T, k, hT, hne => by
    obtain ⟨k', h1, h2⟩ := push_rel T k hT n
    rw [trail, trail, h1]
    exact trail_rel tr (m :: ns) _ k' h2 hne

theorem flat_replicate_strip (X : List Text) : ∀ k,
    ReflTransGen Spec.Rule6 (flat (List.replicate k Spec.dotdot) ++ X) X
  | 0 => by simp; exact .refl
  | k + 1 => by
    refine .head ?_ (flat_replicate_strip X k)
    have := Spec.Rule6.mid [] (flat (List.replicate k Spec.dotdot) ++ X)
    simpa [List.replicate_succ] using this

theorem rule6_steps (T : List Text) (k : Nat) (trF trT : Bool) (h : T ≠ [] → trF = trT) :
    ReflTransGen Spec.Rule6 (weave (T ++ List.replicate k Spec.dotdot).reverse trF) (weave T.reverse trT) := by
  rw [List.reverse_append, List.reverse_replicate]
  by_cases hT : T = []
  · subst hT
    rw [List.reverse_nil, List.append_nil, weave_nil]
    cases trF
    · cases k with
      | zero => exact .refl
      | succ k =>
        rw [List.replicate_succ', weave_snoc_false]
        exact (flat_replicate_strip _ k).tail (Spec.Rule6.last [])
    · rw [weave_true]
      have := flat_replicate_strip [] k
      simpa using this
  · rw [h hT]
    have e : weave (List.replicate k Spec.dotdot ++ T.reverse) trT
        = flat (List.replicate k Spec.dotdot) ++ weave T.reverse trT := by
      cases trT
      · simp only [weave, Bool.false_eq_true, if_false, flat_append]
        rw [List.dropLast_append_of_ne_nil]
        intro hc
        have := congrArg List.length hc
        simp at this
        exact hT this
      · simp [weave_true, flat_append]
    rw [e]
    exact flat_replicate_strip _ k

/-! ## Rule 7 and the whole -/

theorem rule7_weave (N : List Text) (tr : Bool) (hN : ∀ n ∈ N, n ≠ []) :
    Spec.Rule7 (weave N tr) (weave N (tr && decide (N.getLast? ≠ some Spec.dotdot))) := by
  rcases List.eq_nil_or_concat N with rfl | ⟨M, x, rfl⟩
  · rw [weave_nil, weave_nil]
    exact Spec.Rule7.keep _ (by intro h; have := h.length_le; simp at this)
  · rw [List.concat_eq_append] at hN ⊢
    have hx : x ≠ [] := hN x (by simp)
    cases tr with
    | false =>
      rw [Bool.false_and, weave_snoc_false]
      refine Spec.Rule7.keep _ ?_
      rintro ⟨q, hq⟩
      have := congrArg List.getLast? hq
      simp at this
      exact hx this
    | true =>
      rw [weave_true, flat_snoc, Bool.true_and]
      by_cases hd : x = Spec.dotdot
      · subst hd
        simp only [List.getLast?_append, List.getLast?_singleton, Option.some_or, ne_eq, not_true, decide_false,
          weave_snoc_false]
        exact Spec.Rule7.drop _
      · simp only [List.getLast?_append, List.getLast?_singleton, Option.some_or, Option.some.injEq, ne_eq, hd,
          not_false_eq_true, decide_true, weave_true, flat_snoc]
        refine Spec.Rule7.keep _ ?_
        rintro ⟨q, hq⟩
        have hl := congrArg List.length hq
        simp at hl
        have := congrArg (fun l : List Text => l[q.length]?) hq
        simp [hl] at this
        exact hd this.symm

theorem normalTokens (rooted : Bool) (ns : List Text) (tr : Bool) (hg : ∀ n ∈ ns, GoodName n) :
    Spec.NormalTokens rooted (weave ns tr) (weave (normNames rooted ns) (normTrail rooted ns tr)) := by
  have hg' : ∀ n ∈ noDots ns, n ≠ Spec.dot ∧ n ≠ [] := by
    intro n hn
    unfold noDots at hn
    rw [List.mem_filter] at hn
    exact ⟨by simpa using hn.2, (hg n hn.1).1⟩
  have h4 : Spec.Exhaust Spec.Rule4 (weave ns tr) (weave (noDots ns) (tr4 ns tr)) := by
    refine ⟨by simpa using rule4_steps ns tr [], fun u hu => ?_⟩
    rcases mem_weave (rule4_irr hu) with h | h
    · cases h
    · exact (hg' _ h).1 rfl
  have h5 : Spec.Exhaust Spec.Rule5 (weave (noDots ns) (tr4 ns tr))
      (weave (ns.foldl (push false) []).reverse (trail false [] ns tr)) := by
    refine ⟨?_, fun u => rule5_irr (Stack.foldl ns (Stack.nil false)) _ u⟩
    have := rule5_steps (tr4 ns tr) (noDots ns) [] hg' (by simp)
    rw [← foldl_noDots, ← trail_noDots] at this
    simpa using this
  have hmem : ∀ n ∈ normNames rooted ns, n ≠ [] := by
    intro n hn
    rcases foldl_push_mem (List.mem_reverse.1 hn) with h | h
    · cases h
    · exact (hg n h).1
  refine ⟨_, _, weave (normNames rooted ns) (trail rooted [] ns tr), h4, h5, ?_, rule7_weave _ _ hmem⟩
  cases rooted
  · simp only [Bool.false_eq_true, if_false]; rfl
  · simp only [if_true]
    obtain ⟨k, h1, h2⟩ := foldl_rel ns [] 0 (by simp)
    simp only [List.replicate_zero, List.append_nil] at h1
    refine ⟨?_, fun u hu => ?_⟩
    · rw [h1]
      exact rule6_steps _ k _ _ (fun hT => by
        have := trail_rel tr ns [] 0 (by simp) hT
        simpa using this)
    · rcases mem_weave (rule6_irr hu) with h | h
      · cases h
      · exact h2 _ (List.mem_reverse.1 h) rfl

/-- **C19** `lexically_normal` never reads outside the text and returns a normalization of the path as defined by
[fs.path.generic]/6, whatever the text. -/
theorem lexically_normal_correct (s : Text) : ∃ t, lexicallyNormal s = .ok t ∧ Spec.Normalizes s t := by
  by_cases hs : s = []
  · subst hs; exact ⟨[], rfl, by simp [Spec.Normalizes]⟩
  · obtain ⟨ns, tr, ht, hg, -, -⟩ := tokens_weave _ (Spec.relative s) (Nat.le_refl _) (relative_head s)
    refine ⟨_, lexicallyNormal_ok s hs ns tr ht hg, ?_⟩
    unfold Spec.Normalizes
    rw [if_neg hs, ht]
    exact ⟨_, normalTokens _ ns tr hg, normRoot s, rfl, rfl⟩

end STL.Path
