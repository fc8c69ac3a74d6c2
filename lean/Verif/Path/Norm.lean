import Verif.Path.Append

/-! # `lexically_normal`: what the loops compute -/

namespace STL.Path

/-- Filenames, each followed by a separator. -/
def flat (ns : List Text) : List Text := ns.flatMap (fun n => [n, []])
/-- Filenames separated by separators; `tr`: with a trailing separator. -/
def weave (ns : List Text) (tr : Bool) : List Text := if tr then flat ns else (flat ns).dropLast

@[simp] theorem flat_nil : flat [] = [] := rfl
@[simp] theorem flat_cons (n : Text) (ns : List Text) : flat (n :: ns) = n :: [] :: flat ns := rfl
theorem flat_append (a b : List Text) : flat (a ++ b) = flat a ++ flat b := by simp [flat]
@[simp] theorem flat_length (ns : List Text) : (flat ns).length = 2 * ns.length := by
  induction ns with
  | nil => rfl
  | cons n ns ih => simp [ih]; omega
theorem flat_snoc (ns : List Text) (n : Text) : flat (ns ++ [n]) = flat ns ++ [n, []] := by rw [flat_append]; rfl

@[simp] theorem weave_nil (tr : Bool) : weave [] tr = [] := by cases tr <;> rfl
theorem weave_one (n : Text) (tr : Bool) : weave [n] tr = n :: if tr then [[]] else [] := by cases tr <;> rfl
theorem weave_cons (n m : Text) (ns : List Text) (tr : Bool) :
    weave (n :: m :: ns) tr = n :: [] :: weave (m :: ns) tr := by cases tr <;> simp [weave]
theorem weave_true (ns : List Text) : weave ns true = flat ns := rfl
theorem weave_snoc_false (ns : List Text) (n : Text) : weave (ns ++ [n]) false = flat ns ++ [n] := by
  simp [weave, flat_snoc, List.dropLast_append_cons]

/-! ## Tokens -/

/-- A filename token: not empty, no slash. -/
def GoodName (n : Text) : Prop := n ≠ [] ∧ ∀ c ∈ n, Spec.slash c = false

theorem tokens_ne {r : Text} (h : r ≠ []) : Spec.tokens r ≠ [] := by
  match r, h with
  | c :: r, _ =>
    unfold Spec.tokens
    split <;> split <;> simp

theorem tokens_head_slash {c : WChar} {r : Text} (h : Spec.slash c = true) :
    Spec.tokens (c :: r) = if (Spec.tokens r).head? = some [] then Spec.tokens r else [] :: Spec.tokens r := by
  rw [Spec.tokens, if_pos h]
  split
  · next ts e => rw [e]; simp
  · next h' =>
    rw [if_neg]
    intro hh
    cases e : Spec.tokens r with
    | nil => rw [e] at hh; cases hh
    | cons a ts =>
      rw [e] at hh; simp at hh; subst hh
      exact h' ts e

theorem tokens_slash_head {r : Text} (h : ∀ c ∈ r.head?, Spec.slash c = true) (hne : r ≠ []) :
    (Spec.tokens r).head? = some [] := by
  match r, hne with
  | c :: r, _ =>
    rw [tokens_head_slash (h c rfl)]
    split
    · next h' => exact h'
    · rfl

theorem tokens_plain_head {r : Text} (h : ∀ c ∈ r.head?, Spec.slash c = false) :
    (Spec.tokens r).head? ≠ some [] := by
  match r with
  | [] => simp [Spec.tokens]
  | c :: r =>
    rw [Spec.tokens, if_neg (by simp [h c rfl])]
    split <;> simp

theorem tokens_run (run rest : Text) (hr : GoodName run) (h : ∀ c ∈ rest.head?, Spec.slash c = true) :
    Spec.tokens (run ++ rest) = run :: Spec.tokens rest := by
  induction run with
  | nil => exact absurd rfl hr.1
  | cons c run ih =>
    have hc : Spec.slash c = false := hr.2 c (by simp)
    rw [List.cons_append, Spec.tokens, if_neg (by simp [hc])]
    cases run with
    | nil =>
      simp only [List.nil_append]
      split
      · next d n ts e =>
        by_cases hrest : rest = []
        · subst hrest; simp [Spec.tokens] at e
        · have := tokens_slash_head h hrest
          rw [e] at this; simp at this
      · rfl
    | cons d run =>
      rw [ih ⟨by simp, fun x hx => hr.2 x (by simp [hx])⟩]

theorem tokens_slashes (sl rest : Text) (h1 : sl ≠ []) (h2 : ∀ c ∈ sl, Spec.slash c = true)
    (h : ∀ c ∈ rest.head?, Spec.slash c = false) : Spec.tokens (sl ++ rest) = [] :: Spec.tokens rest := by
  induction sl with
  | nil => exact absurd rfl h1
  | cons c sl ih =>
    rw [List.cons_append, tokens_head_slash (h2 c (by simp))]
    cases sl with
    | nil => rw [List.nil_append, if_neg (tokens_plain_head h)]
    | cons d sl =>
      rw [ih (by simp) (fun x hx => h2 x (by simp [hx]))]
      rfl

theorem head_dropWhile {p : WChar → Bool} {l : Text} {c : WChar} (h : c ∈ (l.dropWhile p).head?) : p c = false := by
  cases e : l.dropWhile p with
  | nil => rw [e] at h; cases h
  | cons x xs =>
    have := List.head_dropWhile_not (p := p) (l := l) (by rw [e]; simp)
    rw [e] at h; simp at h; subst h
    simpa [e] using this

/-- A text that does not start with a slash consists of filenames separated by directory-separators. -/
theorem tokens_weave : ∀ (n : Nat) (r : Text), r.length ≤ n → (∀ c ∈ r.head?, Spec.slash c = false) →
    ∃ ns tr, Spec.tokens r = weave ns tr ∧ (∀ x ∈ ns, GoodName x) ∧ (r ≠ [] → ns ≠ []) ∧
      (r ≠ [] → (tr = true ↔ ∃ c ∈ r.getLast?, Spec.slash c = true)) := by
  intro n
  induction n with
  | zero =>
    intro r hr _
    obtain rfl : r = [] := List.length_eq_zero_iff.1 (by omega)
    exact ⟨[], false, rfl, by simp, by simp, by simp⟩
  | succ n ih =>
    intro r hr hh
    by_cases hr0 : r = []
    · subst hr0; exact ⟨[], false, rfl, by simp, by simp, by simp⟩
    · have e1 := List.takeWhile_append_dropWhile (p := Spec.plain) (l := r)
      have hrun : GoodName (r.takeWhile Spec.plain) := by
        constructor
        · match r, hr0, hh with
          | c :: r, _, hh => simp [Spec.plain, hh c rfl]
        · intro c hc
          have := List.mem_takeWhile_imp hc
          simpa [Spec.plain] using this
      have hd : ∀ c ∈ (r.dropWhile Spec.plain).head?, Spec.slash c = true := by
        intro c hc
        have := head_dropWhile hc
        simpa [Spec.plain] using this
      have e2 := List.takeWhile_append_dropWhile (p := Spec.slash) (l := r.dropWhile Spec.plain)
      by_cases hq : r.dropWhile Spec.plain = []
      · have er : r = r.takeWhile Spec.plain := by rw [hq, List.append_nil] at e1; exact e1.symm
        refine ⟨[r], false, ?_, ?_, by simp, fun _ => ?_⟩
        · have := tokens_run r [] (er ▸ hrun) (by simp)
          rw [List.append_nil] at this
          rw [this]; rfl
        · intro x hx; simp at hx; rw [hx]; exact er ▸ hrun
        · simp only [Bool.false_eq_true, false_iff, not_exists, not_and]
          intro c hc
          have hc' : c ∈ r := List.mem_of_mem_getLast? hc
          rw [er] at hc'
          have := hrun.2 c hc'
          simp [this]
      · have hs1 : (r.dropWhile Spec.plain).takeWhile Spec.slash ≠ [] := by
          match hm : r.dropWhile Spec.plain, hq with
          | c :: q, _ =>
            have := hd c (by rw [hm]; rfl)
            simp [this]
        have hs2 : ∀ c ∈ (r.dropWhile Spec.plain).takeWhile Spec.slash, Spec.slash c = true :=
          fun c hc => List.mem_takeWhile_imp hc
        have hs3 : ∀ c ∈ ((r.dropWhile Spec.plain).dropWhile Spec.slash).head?, Spec.slash c = false :=
          fun c hc => head_dropWhile hc
        have hlen : ((r.dropWhile Spec.plain).dropWhile Spec.slash).length ≤ n := by
          have h1 := congrArg List.length e1
          have h2 := congrArg List.length e2
          have h3 := List.length_pos_iff.2 hrun.1
          simp only [List.length_append] at h1 h2
          omega
        obtain ⟨ns, tr, hts, hg, hn, htr⟩ := ih _ hlen hs3
        have et : Spec.tokens r = r.takeWhile Spec.plain :: [] ::
            Spec.tokens ((r.dropWhile Spec.plain).dropWhile Spec.slash) := by
          conv => lhs; rw [← e1]
          rw [tokens_run _ _ hrun hd]
          congr 1
          conv => lhs; rw [← e2]
          rw [tokens_slashes _ _ hs1 hs2 hs3]
        by_cases hrest : (r.dropWhile Spec.plain).dropWhile Spec.slash = []
        · refine ⟨[r.takeWhile Spec.plain], true, ?_, ?_, by simp, fun _ => ?_⟩
          · rw [et, hrest]; rfl
          · intro x hx; simp at hx; rw [hx]; exact hrun
          · simp only [true_iff]
            rw [hrest, List.append_nil] at e2
            have : r.getLast? = (r.dropWhile Spec.plain).getLast? := by
              conv => lhs; rw [← e1]
              rw [List.getLast?_append, List.getLast?_eq_some_getLast hq]; rfl
            rw [this, List.getLast?_eq_some_getLast hq]
            refine ⟨_, rfl, ?_⟩
            exact hs2 _ (by rw [e2]; exact List.getLast_mem hq)
        · refine ⟨r.takeWhile Spec.plain :: ns, tr, ?_, ?_, by simp, fun _ => ?_⟩
          · rw [et, hts]
            match ns, hn hrest with
            | m :: ns, _ => rw [weave_cons]
          · intro x hx
            rcases List.mem_cons.1 hx with rfl | hx
            · exact hrun
            · exact hg x hx
          · rw [htr hrest]
            have : r.getLast? = ((r.dropWhile Spec.plain).dropWhile Spec.slash).getLast? := by
              conv => lhs; rw [← e1, ← e2]
              rw [List.getLast?_append, List.getLast?_append, List.getLast?_eq_some_getLast hrest]; rfl
            rw [this]

/-- Joining the tokens already found with those of the rest of the text. -/
def glue (vec ts : List Text) : List Text :=
  if vec.getLast? = some [] ∧ ts.head? = some [] then vec ++ ts.tail else vec ++ ts

theorem normSplit_ok (s : Text) : ∀ fuel ptr vec, ptr ≤ s.length → s.length - ptr < fuel →
    normSplit s fuel ptr vec = .ok (glue vec (Spec.tokens (s.drop ptr))) := by
  intro fuel
  induction fuel with
  | zero => intro ptr vec h1 h2; omega
  | succ fuel ih =>
    intro ptr vec h1 h2
    rw [normSplit]
    split
    · next h =>
      have : s.drop ptr = [] := List.drop_eq_nil_of_le (by omega)
      rw [this]; simp [glue, Spec.tokens]
    · next h =>
      have hlt : ptr < s.length := by omega
      rw [rdc_ok s ptr hlt, R.ok_bind, isSlash_eq]
      by_cases hc : Spec.slash s[ptr] = true
      · rw [if_pos hc]
        have key : Spec.tokens (s.drop ptr) = if (Spec.tokens (s.drop (ptr + 1))).head? = some [] then
            Spec.tokens (s.drop (ptr + 1)) else [] :: Spec.tokens (s.drop (ptr + 1)) := by
          rw [List.drop_eq_getElem_cons hlt, tokens_head_slash hc]
        rw [key]
        by_cases hv : vec.getLast? = some []
        · have hgrow : needSep vec = false := by unfold needSep; rw [hv]; rfl
          rw [hgrow, if_neg (by simp), ih _ _ (by omega) (by omega)]
          split
          · rfl
          · next hh => simp [glue, hv, hh]
        · have hgrow : needSep vec = true := by
            unfold needSep
            cases e : vec.getLast? with
            | none => rfl
            | some b => rw [e] at hv; simpa using hv
          rw [hgrow, if_pos rfl, ih _ _ (by omega) (by omega)]
          have hl : (vec ++ [[]]).getLast? = some ([] : Text) := by simp
          split
          · next hh =>
            simp only [glue, hl, hh, hv, false_and, if_false, and_self, if_true]
            cases e : Spec.tokens (s.drop (ptr + 1)) with
            | nil => rw [e] at hh; cases hh
            | cons a ts => rw [e] at hh; simp at hh; subst hh; simp
          · next hh => simp [glue, hv, hh]
      · rw [if_neg hc, findIf_ok _ _ _ (by omega), R.ok_bind]
        have hl2 := takeWhile_le (fun c => !isSlash c) (s.drop (ptr + 1))
        simp only [List.length_drop] at hl2
        rw [ih _ _ (by omega) (by omega)]
        have hc' : Spec.slash s[ptr] = false := by simpa using hc
        have ee : (fun c => !isSlash c) = Spec.plain := rfl
        rw [ee] at hl2 ⊢
        have hrun : s.drop ptr = (s[ptr] :: (s.drop (ptr + 1)).takeWhile Spec.plain) ++
            (s.drop (ptr + 1)).dropWhile Spec.plain := by
          rw [List.drop_eq_getElem_cons hlt, List.cons_append, List.takeWhile_append_dropWhile]
        have hdrop : s.drop (ptr + 1 + ((s.drop (ptr + 1)).takeWhile Spec.plain).length)
            = (s.drop (ptr + 1)).dropWhile Spec.plain := by
          rw [← List.drop_drop]
          conv => lhs; arg 2; rw [← List.takeWhile_append_dropWhile (p := Spec.plain) (l := s.drop (ptr + 1))]
          rw [List.drop_left' rfl]
        have hsub : sub s ptr (ptr + 1 + ((s.drop (ptr + 1)).takeWhile Spec.plain).length)
            = s[ptr] :: (s.drop (ptr + 1)).takeWhile Spec.plain := by
          unfold sub
          rw [List.drop_take, hrun]
          exact List.take_left' (by simp; omega)
        have hgood : GoodName (s[ptr] :: (s.drop (ptr + 1)).takeWhile Spec.plain) := by
          refine ⟨by simp, fun c hcm => ?_⟩
          rcases List.mem_cons.1 hcm with rfl | hcm
          · exact hc'
          · have := List.mem_takeWhile_imp hcm
            simpa [Spec.plain] using this
        have htok : Spec.tokens (s.drop ptr) = (s[ptr] :: (s.drop (ptr + 1)).takeWhile Spec.plain) ::
            Spec.tokens ((s.drop (ptr + 1)).dropWhile Spec.plain) := by
          conv => lhs; rw [hrun]
          apply tokens_run _ _ hgood
          intro c hcm
          have := head_dropWhile hcm
          simpa [Spec.plain] using this
        rw [hsub, hdrop, htok]
        simp [glue]

/-! ## The compaction loop -/

/-- What one filename does to the stack of kept filenames (top first). -/
def push (rooted : Bool) (out : List Text) (n : Text) : List Text :=
  if n = Spec.dot then out
  else if n ≠ Spec.dotdot then n :: out
  else match out with
    | [] => if rooted then [] else [Spec.dotdot]
    | t :: o => if t ≠ Spec.dotdot then o else if rooted then t :: o else Spec.dotdot :: t :: o

/-- Whether the filename itself is kept. -/
def pushed (rooted : Bool) (out : List Text) (n : Text) : Bool :=
  decide (n ≠ Spec.dot) && (decide (n ≠ Spec.dotdot) || (!rooted && match out with
    | [] => true
    | t :: _ => decide (t = Spec.dotdot)))

theorem push_of_pushed {rooted : Bool} {out : List Text} {n : Text} (h : pushed rooted out n = true) :
    push rooted out n = n :: out := by
  unfold pushed at h
  unfold push
  simp only [Bool.and_eq_true, decide_eq_true_eq] at h
  obtain ⟨h1, h2⟩ := h
  rw [if_neg h1]
  by_cases hd : n = Spec.dotdot
  · rw [if_neg (by simpa using hd)]
    simp [hd] at h2
    cases out with
    | nil => simp [h2, hd]
    | cons t o => simp at h2; simp [h2, hd]
  · rw [if_pos hd]

/-- Whether the result ends in a separator. -/
def trail (rooted : Bool) : List Text → List Text → Bool → Bool
  | _, [], _ => true
  | out, [n], tr => tr || !pushed rooted out n
  | out, n :: m :: ns, tr => trail rooted (push rooted out n) (m :: ns) tr

theorem vget_ok (v : List Text) (i : Nat) (h : i < v.length) : vget v i = .ok v[i] := by simp [vget, h]

theorem push_le (rooted : Bool) (out : List Text) (n : Text) : (push rooted out n).length ≤ out.length + 1 := by
  unfold push
  split
  · omega
  · split
    · simp
    · split
      · split <;> simp
      · split
        · simp; omega
        · split <;> simp

/-- One iteration of the loop. -/
theorem normLoop_step (rooted : Bool) (fuel : Nat) (vec : List Text) (out : List Text) (ne pos : Nat)
    (hout : vec.take ne = flat out.reverse) (hne : ne = 2 * out.length) (hle : ne ≤ pos) (hpos : pos < vec.length) :
    normLoop rooted (fuel + 1) vec ne pos =
      if pushed rooted out vec[pos] then
        (if pos + 1 = vec.length then .ok (vec.set ne vec[pos], ne + 1)
          else normLoop rooted fuel (vec.set ne vec[pos]) (ne + 2) (pos + 2))
      else
        (if pos + 1 = vec.length then .ok (vec, 2 * (push rooted out vec[pos]).length)
          else normLoop rooted fuel vec (2 * (push rooted out vec[pos]).length) (pos + 2)) := by
  rw [normLoop, if_neg (by omega), vget_ok _ _ hpos, R.ok_bind]
  generalize hn : vec[pos] = n
  by_cases hd : n = dot
  · have hp : pushed rooted out n = false := by
      unfold pushed; simp only [hd]; rfl
    have hpu : push rooted out n = out := by unfold push; rw [if_pos (show n = Spec.dot from hd)]
    rw [hp, hpu, if_pos hd, ← hne]; rfl
  · rw [if_neg hd]
    by_cases hdd : n = dotDot
    · rw [if_neg (by simpa using hdd)]
      have hd' : ¬ n = Spec.dot := hd
      have hdd' : n = Spec.dotdot := hdd
      cases hob : out with
      | nil =>
        subst hob
        simp only [List.length_nil, Nat.mul_zero] at hne
        subst hne
        rw [if_neg (by simp), R.ok_bind]
        cases rooted
        · have hp : pushed false [] n = true := by simp [pushed, hdd']
          have hs : vset vec 0 dotDot = .ok (vec.set 0 n) := by
            rw [vset, if_pos (by omega), hdd]
          simp only [hp, if_true, hs, Bool.false_eq_true, if_false, Bool.not_false, R.ok_bind, List.length_set]
        · have hp : pushed true [] n = false := by simp [pushed, hdd']
          have hpu : push true [] n = [] := by unfold push; rw [if_neg hd', if_neg (by simpa using hdd')]; rfl
          rw [hp, hpu]; rfl
      | cons t o =>
        subst hob
        simp only [List.length_cons] at hne
        have hlt : ne - 2 < vec.length := by omega
        have htop : vec[ne - 2] = t := by
          have h1 : (vec.take ne)[ne - 2]? = some vec[ne - 2] := by
            rw [List.getElem?_take_of_lt (by omega), List.getElem?_eq_getElem hlt]
          rw [hout, List.reverse_cons, flat_snoc, List.getElem?_append_right (by simp; omega)] at h1
          have : ne - 2 - (flat o.reverse).length = 0 := by simp; omega
          rw [this] at h1
          simpa using h1.symm
        have hback : (if ne ≠ 0 then do
            if ne < 2 then .error .ub
            else return decide ((← vget vec (ne - 2)) ≠ dotDot)
          else .ok false : R Bool) = .ok (decide (t ≠ dotDot)) := by
          rw [if_pos (by omega), if_neg (by omega), vget_ok _ _ hlt, htop]; rfl
        rw [hback, R.ok_bind]
        by_cases ht : t = dotDot
        · have ht' : t = Spec.dotdot := ht
          rw [if_neg (by simpa using ht)]
          cases rooted
          · have hp : pushed false (t :: o) n = true := by simp [pushed, hdd', ht']
            have hs : vset vec ne dotDot = .ok (vec.set ne n) := by
              rw [vset, if_pos (by omega), hdd]
            simp only [hp, if_true, hs, Bool.not_false, R.ok_bind, List.length_set]
          · have hp : pushed true (t :: o) n = false := by simp [pushed, hdd']
            have hpu : push true (t :: o) n = t :: o := by
              unfold push; rw [if_neg hd', if_neg (by simpa using hdd')]; simp [ht']
            rw [hp, hpu]
            have e2 : 2 * (t :: o).length = ne := by simp; omega
            rw [e2]; rfl
        · have ht' : ¬ t = Spec.dotdot := ht
          have hp : pushed rooted (t :: o) n = false := by simp [pushed, hdd', ht']
          have hpu : push rooted (t :: o) n = o := by
            unfold push; rw [if_neg hd', if_neg (by simpa using hdd')]; simp [ht']
          rw [if_pos (by simpa using ht), hp, hpu]
          have : ne - 2 = 2 * o.length := by omega
          rw [this]; rfl
    · rw [if_pos hdd]
      have hd' : ¬ n = Spec.dot := hd
      have hdd' : ¬ n = Spec.dotdot := hdd
      have hp : pushed rooted out n = true := by simp [pushed, hd', hdd']
      have hs : vset vec ne n = .ok (vec.set ne n) := by rw [vset, if_pos (by omega)]
      simp only [hp, if_true, hs, R.ok_bind, List.length_set]

theorem weave_head (n : Text) (ns : List Text) (tr : Bool) : ∃ tl, weave (n :: ns) tr = n :: tl := by
  cases ns with
  | nil => exact ⟨_, weave_one n tr⟩
  | cons m ns => exact ⟨_, weave_cons n m ns tr⟩

theorem flat_push_nonpushed {rooted : Bool} {out : List Text} {n : Text} (h : pushed rooted out n = false) :
    ∃ k, push rooted out n = out.drop k ∧ k ≤ out.length := by
  unfold push
  split
  · exact ⟨0, rfl, by omega⟩
  · next h1 =>
    split
    · next h2 => simp [pushed, h1, h2] at h
    · next h2 =>
      simp only [ne_eq, not_not] at h2
      split
      · cases rooted
        · simp [pushed, h2] at h
        · exact ⟨0, rfl, by simp⟩
      · next t o =>
        split
        · exact ⟨1, rfl, by simp⟩
        · next h3 =>
          simp only [ne_eq, not_not] at h3
          cases rooted
          · simp [pushed, h2, h3] at h
          · exact ⟨0, rfl, by simp⟩

theorem take_flat_drop (out : List Text) (k : Nat) (hk : k ≤ out.length) :
    (flat out.reverse).take (2 * (out.drop k).length) = flat (out.drop k).reverse := by
  have : out.reverse = (out.drop k).reverse ++ (out.take k).reverse := by
    rw [← List.reverse_append, List.take_append_drop]
  rw [this, flat_append, List.take_left' (by simp)]

theorem set_drop_of_lt (vec : List Text) (i j : Nat) (x : Text) (h : i < j) : (vec.set i x).drop j = vec.drop j := by
  rw [List.drop_set_of_lt h]

/-- The loop keeps exactly the filenames left on the stack. -/
theorem normLoop_ok (rooted : Bool) : ∀ fuel (vec out : List Text) (ns : List Text) (tr : Bool) (ne pos : Nat),
    vec.take ne = flat out.reverse → ne = 2 * out.length → vec.drop pos = weave ns tr → ne ≤ pos → pos ≤ vec.length →
    (∀ i, i % 2 = 1 → i < vec.length → vec[i]? = some []) → pos % 2 = 0 → ns.length < fuel →
    ∃ vec' ne', normLoop rooted fuel vec ne pos = .ok (vec', ne') ∧ ne' ≤ vec'.length ∧
      vec'.take ne' = weave (ns.foldl (push rooted) out).reverse (trail rooted out ns tr) := by
  intro fuel
  induction fuel with
  | zero => intro vec out ns tr ne pos _ _ _ _ _ _ _ h; omega
  | succ fuel ih =>
    intro vec out ns tr ne pos hout hne hrest hle hposle hodd heven hfuel
    match ns with
    | [] =>
      rw [weave_nil] at hrest
      have hp : pos = vec.length := by
        have := List.drop_eq_nil_iff.1 hrest; omega
      refine ⟨vec, ne, ?_, by omega, ?_⟩
      · rw [normLoop, if_pos hp]
      · rw [hout]; rfl
    | n :: ns =>
      obtain ⟨tl, htl⟩ := weave_head n ns tr
      have hpos : pos < vec.length := by
        by_contra hc
        rw [List.drop_eq_nil_of_le (by omega), htl] at hrest
        cases hrest
      have hn : vec[pos] = n := by
        rw [List.drop_eq_getElem_cons hpos, htl] at hrest
        exact (List.cons.inj hrest).1
      have htl2 : vec.drop (pos + 1) = tl := by
        rw [List.drop_eq_getElem_cons hpos, htl] at hrest
        exact (List.cons.inj hrest).2
      rw [normLoop_step rooted fuel vec out ne pos hout hne hle hpos, hn]
      have hset : (vec.set ne n).take (ne + 1) = flat out.reverse ++ [n] := by
        rw [List.take_succ_eq_append_getElem (by simp; omega), List.take_set_of_le (by omega), hout]
        simp
      -- what happens if this was the last element of `_Vec`
      have hlast : pos + 1 = vec.length → ns = [] ∧ tr = false := by
        intro h
        have e1 : tl = [] := by rw [← htl2]; exact List.drop_eq_nil_of_le (by omega)
        subst e1
        cases ns with
        | nil => rw [weave_one] at htl; cases tr <;> simp_all
        | cons m ns => rw [weave_cons] at htl; simp at htl
      -- otherwise the next element is a separator
      have hnext : pos + 1 ≠ vec.length → ∀ v : List Text, v.drop (pos + 1) = vec.drop (pos + 1) →
          v.drop (pos + 2) = weave ns tr ∧ (ns = [] → tr = true) := by
        intro h v hv
        have hp1 : pos + 1 < vec.length := by omega
        have hg : vec[pos + 1]? = some [] := hodd (pos + 1) (by omega) hp1
        have hv2 : v.drop (pos + 2) = vec.drop (pos + 2) := by
          rw [show pos + 2 = pos + 1 + 1 from rfl, ← List.drop_drop, hv, List.drop_drop]
        rw [hv2]
        rw [List.drop_eq_getElem_cons hp1] at htl2
        have hdr : vec.drop (pos + 1 + 1) = tl.tail := by rw [← htl2]; rfl
        rw [show pos + 2 = pos + 1 + 1 from rfl, hdr]
        cases ns with
        | nil =>
          rw [weave_one] at htl
          cases tr with
          | true => simp at htl; simp [← htl]
          | false => simp at htl; rw [htl] at htl2; cases htl2
        | cons m ns =>
          rw [weave_cons] at htl
          simp at htl
          simp [← htl]
      by_cases hp : pushed rooted out n = true
      · rw [if_pos hp]
        by_cases hend : pos + 1 = vec.length
        · rw [if_pos hend]
          obtain ⟨rfl, rfl⟩ := hlast hend
          refine ⟨_, _, rfl, by simp; omega, ?_⟩
          rw [hset]
          show _ = weave (push rooted out n).reverse (false || !pushed rooted out n)
          rw [hp, push_of_pushed hp, List.reverse_cons]
          exact (weave_snoc_false _ _).symm
        · rw [if_neg hend]
          have hnx := hnext hend (vec.set ne n) (set_drop_of_lt _ _ _ _ (by omega))
          have hodd' : ∀ i, i % 2 = 1 → i < (vec.set ne n).length → (vec.set ne n)[i]? = some [] := by
            intro i h1 h2
            rw [List.getElem?_set_ne (by omega)]
            exact hodd i h1 (by simpa using h2)
          have ht : (vec.set ne n).take (ne + 2) = flat (n :: out).reverse := by
            have hlt : ne + 1 < (vec.set ne n).length := by simp; omega
            rw [show ne + 2 = ne + 1 + 1 from rfl, List.take_succ_eq_append_getElem hlt, hset]
            have : (vec.set ne n)[ne + 1] = [] := by
              have := hodd' (ne + 1) (by omega) hlt
              rw [List.getElem?_eq_getElem hlt] at this
              exact Option.some.inj this
            rw [this, List.reverse_cons, flat_snoc]; simp
          obtain ⟨v', n', h1, h2, h3⟩ := ih (vec.set ne n) (n :: out) ns tr (ne + 2) (pos + 2) ht
            (by simp; omega) hnx.1 (by omega) (by simp; omega) hodd' (by omega) (by simp at hfuel; omega)
          refine ⟨v', n', h1, h2, ?_⟩
          rw [h3, List.foldl_cons, push_of_pushed hp]
          cases ns with
          | nil =>
            obtain rfl := hnx.2 rfl
            rfl
          | cons m ns => rw [trail, push_of_pushed hp]
      · have hp' : pushed rooted out n = false := by simpa using hp
        rw [if_neg hp]
        obtain ⟨k, hk, hkl⟩ := flat_push_nonpushed hp'
        have hlen : 2 * (push rooted out n).length ≤ ne := by rw [hk, List.length_drop]; omega
        have ht : vec.take (2 * (push rooted out n).length) = flat (push rooted out n).reverse := by
          have : vec.take (2 * (push rooted out n).length) =
              (vec.take ne).take (2 * (push rooted out n).length) := by
            rw [List.take_take, Nat.min_eq_left hlen]
          rw [this, hout, hk, take_flat_drop _ _ hkl]
        by_cases hend : pos + 1 = vec.length
        · rw [if_pos hend]
          obtain ⟨rfl, rfl⟩ := hlast hend
          refine ⟨_, _, rfl, by omega, ?_⟩
          show _ = weave (push rooted out n).reverse (false || !pushed rooted out n)
          rw [hp', ht]; rfl
        · rw [if_neg hend]
          have hnx := hnext hend vec rfl
          obtain ⟨v', n', h1, h2, h3⟩ := ih vec (push rooted out n) ns tr _ (pos + 2) ht rfl hnx.1 (by omega)
            (by omega) hodd (by omega) (by simp at hfuel; omega)
          refine ⟨v', n', h1, h2, ?_⟩
          rw [h3, List.foldl_cons]
          cases ns with
          | nil =>
            obtain rfl := hnx.2 rfl
            rfl
          | cons m ns => rw [trail]

end STL.Path
