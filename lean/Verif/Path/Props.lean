import Mathlib.Data.List.Induction
import Verif.Path.Idem

/-! # User-level theorems on path decomposition -/

namespace STL.Path

/-- **C19** Root decomposition is lossless: for every text, `root_name`, `root_directory` and `relative_path` exist (no
read outside the text), concatenate to exactly the text, `root_path` is the first two, the root-directory consists of
slashes only and the relative path does not start with one. The root-name is the documented one. -/
theorem root_decomposition (s : Text) : ∃ n d r,
    rootName s = .ok n ∧ rootDirectory s = .ok d ∧ relativePath s = .ok r ∧ rootPath s = .ok (n ++ d) ∧
    n ++ d ++ r = s ∧ (∀ c ∈ d, Spec.slash c = true) ∧ (∀ c ∈ r.head?, Spec.slash c = false) ∧ n = Spec.rootName s :=
  ⟨_, _, _, rootName_ok s, rootDirectory_ok s, relativePath_ok s, rootPath_ok s, decompose s,
    fun _ hc => slash_of_mem_rootDir hc, relative_head s, rfl⟩

theorem dropSlashes_append (s : Text) : ∃ z, s = Spec.dropSlashes s ++ z ∧ (∀ c ∈ z, Spec.slash c = true) := by
  refine ⟨(s.reverse.takeWhile Spec.slash).reverse, ?_, ?_⟩
  · unfold Spec.dropSlashes
    rw [← List.reverse_append, List.takeWhile_append_dropWhile, List.reverse_reverse]
  · intro c hc
    exact List.mem_takeWhile_imp (List.mem_reverse.1 hc)

theorem dropSlashes_last (s : Text) : ∀ c ∈ (Spec.dropSlashes s).getLast?, Spec.slash c = false := by
  intro c hc
  unfold Spec.dropSlashes at hc
  rw [List.getLast?_reverse] at hc
  exact head_dropWhile hc

theorem dropName_last (r : Text) : ∀ c ∈ (Spec.dropName r).getLast?, Spec.slash c = true := by
  intro c hc
  unfold Spec.dropName at hc
  rw [List.getLast?_reverse] at hc
  have := head_dropWhile hc
  simpa [Spec.plain] using this

/-- **C19** `parent_path` and `filename` split the text without loss: the text is the parent path, some slashes, and the
filename; the filename has no slash and is what follows the last slash of the relative path; the parent path keeps the
whole root-path, does not end in a slash unless it is the root-path, is the path itself exactly if there is no relative
path, and is strictly shorter otherwise. `remove_filename` removes exactly the filename. -/
theorem filename_parent (s : Text) : ∃ p z f rest,
    parentPath s = .ok p ∧ filename s = .ok f ∧ removeFilename s = .ok (p ++ z) ∧
    p ++ z ++ f = s ∧ (∀ c ∈ z, Spec.slash c = true) ∧ (∀ c ∈ f, Spec.slash c = false) ∧
    p = Spec.rootName s ++ Spec.rootDir s ++ rest ∧ (∀ c ∈ rest.getLast?, Spec.slash c = false) ∧
    (rest ≠ [] → z ≠ []) ∧
    (Spec.relative s = [] → p = s) ∧ (Spec.relative s ≠ [] → p.length < s.length) ∧
    (f = [] ↔ Spec.relative s = [] ∨ ∃ c ∈ (Spec.relative s).getLast?, Spec.slash c = true) := by
  obtain ⟨z, hz, hzs⟩ := dropSlashes_append (Spec.dropName (Spec.relative s))
  have hfull : Spec.rootName s ++ Spec.rootDir s ++ Spec.dropSlashes (Spec.dropName (Spec.relative s)) ++ z ++
      Spec.fileName s = s := by
    rw [List.append_assoc _ _ z, ← hz, List.append_assoc _ _ (Spec.fileName s)]
    unfold Spec.fileName
    rw [lastName_append]; exact decompose s
  refine ⟨_, z, _, _, parentPath_ok s, filename_ok s, ?_, hfull, hzs, ?_, rfl, dropSlashes_last _, ?_, ?_, ?_,
    lastName_nil_iff _⟩
  · rw [removeFilename_ok, List.append_assoc _ _ z, ← hz]
  · intro c hc
    have := List.mem_takeWhile_imp (List.mem_reverse.1 hc)
    simpa [Spec.plain] using this
  · intro hrest hz0
    subst hz0
    rw [List.append_nil] at hz
    rcases List.eq_nil_or_concat (Spec.dropSlashes (Spec.dropName (Spec.relative s))) with h | ⟨q, c, h⟩
    · exact hrest h
    · have h1 := dropSlashes_last (Spec.dropName (Spec.relative s)) c (by rw [h]; simp)
      have h2 := dropName_last (Spec.relative s) c (by rw [hz, h]; simp)
      rw [h1] at h2; cases h2
  · intro hr
    have hd := decompose s
    rw [hr] at hd ⊢
    simpa [Spec.dropName, Spec.dropSlashes] using hd
  · intro hr
    have hlen := congrArg List.length hfull
    simp only [List.length_append] at hlen ⊢
    by_cases hf : Spec.fileName s = []
    · have hne : z ≠ [] := by
        intro hz0
        subst hz0
        rw [List.append_nil] at hz
        have hr' : Spec.dropName (Spec.relative s) = Spec.relative s := by
          have := lastName_append (Spec.relative s)
          rw [show Spec.lastName (Spec.relative s) = [] from hf, List.append_nil] at this
          exact this
        rw [hr'] at hz
        rcases List.eq_nil_or_concat (Spec.relative s) with h | ⟨q, c, h⟩
        · exact hr h
        · have h1 := dropSlashes_last (Spec.relative s) c (by rw [← hz, h]; simp)
          have h2 := dropName_last (Spec.relative s) c (by rw [hr', h]; simp)
          rw [h1] at h2; cases h2
      have := List.length_pos_iff.2 hne
      omega
    · have := List.length_pos_iff.2 hf
      omega

theorem lastDot_some {n : Text} {k : Nat} (h : Spec.lastDot n = some k) : ∃ a b, n = a ++ 46 :: b ∧ a.length = k ∧
    ∀ c ∈ b, c ≠ 46 := by
  induction n using List.reverseRecOn generalizing k with
  | nil => cases h
  | append_singleton n c ih =>
    rw [lastDot_snoc] at h
    split at h
    · next hc => cases h; exact ⟨n, [], by rw [hc], rfl, by simp⟩
    · next hc =>
      obtain ⟨a, b, rfl, h1, h2⟩ := ih h
      refine ⟨a, b ++ [c], by simp, h1, ?_⟩
      intro x hx
      rcases List.mem_append.1 hx with hx | hx
      · exact h2 x hx
      · simp at hx; rw [hx]; exact hc

theorem lastDot_none {n : Text} (h : Spec.lastDot n = none) : ∀ c ∈ n, c ≠ 46 := by
  induction n using List.reverseRecOn with
  | nil => simp
  | append_singleton n c ih =>
    rw [lastDot_snoc] at h
    split at h
    · cases h
    · next hc =>
      intro x hx
      rcases List.mem_append.1 hx with hx | hx
      · exact ih h x hx
      · simp at hx; rw [hx]; exact hc

/-- **C19** `stem` and `extension` split the filename without loss: the filename is stem, extension, and an alternate
data stream reference that is empty or starts with the first `:`; the extension is empty or a dot followed by characters
other than dots, after a non-empty stem; it is empty exactly if the name (without the stream reference) is `..` or has
no dot except possibly at its start. -/
theorem stem_extension (s : Text) : ∃ f st e ads,
    filename s = .ok f ∧ stem s = .ok st ∧ extension s = .ok e ∧
    f = st ++ e ++ ads ∧ (∀ c ∈ ads.head?, c = 58) ∧ (∀ c ∈ st ++ e, c ≠ 58) ∧
    (e = [] ∨ (st ≠ [] ∧ ∃ x, e = 46 :: x ∧ ∀ c ∈ x, c ≠ 46)) ∧
    (e = [] ↔ st ++ e = [46, 46] ∨ ∀ c ∈ (st ++ e).tail, c ≠ 46) := by
  have hse : specStem s ++ specExt s = Spec.noAds (Spec.fileName s) := by
    unfold specStem specExt; rw [List.take_append_drop]
  refine ⟨_, _, _, (Spec.fileName s).dropWhile (fun c => c != 58), filename_ok s, stem_ok s, extension_ok s, ?_, ?_, ?_,
    ?_⟩
  · rw [hse]; unfold Spec.noAds; rw [List.takeWhile_append_dropWhile]
  · intro c hc
    have := head_dropWhile hc
    simpa using this
  · rw [hse]; intro c hc
    have := List.mem_takeWhile_imp hc
    simpa using this
  · rw [hse]
    generalize hn : Spec.noAds (Spec.fileName s) = n
    have hst : specStem s = n.take (Spec.stemLen n) := by unfold specStem; rw [hn]
    have hex : specExt s = n.drop (Spec.stemLen n) := by unfold specExt; rw [hn]
    rw [hst, hex]
    unfold Spec.stemLen
    cases hld : Spec.lastDot n with
    | none =>
      have := lastDot_none hld
      simp only [List.drop_length, true_or, true_iff, true_and]
      exact Or.inr fun c hc => this c (List.mem_of_mem_tail hc)
    | some k =>
      obtain ⟨a, b, rfl, h1, h2⟩ := lastDot_some hld
      cases k with
      | zero =>
        obtain rfl : a = [] := List.length_eq_zero_iff.1 h1
        simp only [List.drop_length, true_or, true_iff, true_and]
        exact Or.inr fun c hc => h2 c (by simpa using hc)
      | succ k =>
        by_cases hdd : a ++ 46 :: b = [46, 46]
        · simp [hdd]
        · have ha : a ≠ [] := by intro h; rw [h] at h1; simp at h1
          simp only [hdd, if_false]
          rw [← h1, List.take_left' rfl, List.drop_left' rfl]
          refine ⟨Or.inr ⟨ha, b, rfl, h2⟩, ?_⟩
          simp only [reduceCtorEq, false_or, false_iff, not_forall]
          refine ⟨46, ?_, by simp⟩
          match a, ha with
          | x :: a, _ => simp

/-- **C19** `replace_extension` keeps everything up to and including the stem and puts the new extension there, adding a
dot if it lacks one; the empty replacement removes the extension. -/
theorem replace_extension (s r : Text) : ∃ p st, removeFilename s = .ok p ∧ stem s = .ok st ∧
    replaceExtension s r = .ok (p ++ st ++ (if r = [] ∨ r.head? = some 46 then [] else [46]) ++ r) := by
  refine ⟨_, _, removeFilename_ok s, stem_ok s, ?_⟩
  unfold replaceExtension
  rw [removeExtension_ok, R.ok_bind]
  match r with
  | [] => simp [pure, Except.pure]
  | c :: r =>
    rw [if_pos (by simp), rdc_ok _ _ (by simp), R.ok_bind]
    by_cases hc : c = 46 <;> simp [hc, pure, Except.pure]

/-- **C19** `operator/=` follows [fs.path.append], and `operator/` agrees with it. -/
theorem append_correct (s o : Text) : append s o = .ok (Spec.append s o) ∧ slashOp s o = .ok (Spec.append s o) :=
  ⟨append_ok s o, slashOp_ok s o⟩

/-! ## Concrete cases -/

/-- Text of an ASCII string. -/
def w (s : String) : Text := s.toList.map (fun c => UInt16.ofNat c.toNat)

example : rootName (w "c:\\a\\b.txt") = .ok (w "c:") := rfl
example : rootName (w "//server/share") = .ok (w "//server") := rfl
example : rootName (w "\\\\?\\c:\\x") = .ok (w "\\\\?") := rfl
example : rootDirectory (w "c:///a") = .ok (w "///") := rfl
example : parentPath (w "c:/a//b") = .ok (w "c:/a") := rfl
example : parentPath (w "c:/") = .ok (w "c:/") := rfl
example : stem (w "a/b.tar.gz:s.t") = .ok (w "b.tar") ∧ extension (w "a/b.tar.gz:s.t") = .ok (w ".gz") := ⟨rfl, rfl⟩
example : extension (w "..") = .ok [] ∧ extension (w ".profile") = .ok [] := ⟨rfl, rfl⟩
example : replaceExtension (w "a/b.c") (w "d") = .ok (w "a/b.d") := rfl
example : append (w "c:cat") (w "/dog") = .ok (w "c:/dog") ∧ append (w "c:cat") (w "c:dog") = .ok (w "c:cat\\dog") ∧
    append (w "c:cat") (w "d:dog") = .ok (w "d:dog") := ⟨rfl, rfl, rfl⟩
example : lexicallyNormal (w "c:/a/./b/../..//x/") = .ok (w "c:\\x\\") := rfl
example : lexicallyNormal (w "../a/../../b/..") = .ok (w "..\\..") := rfl

/-- The hypotheses of `lexically_normal_root` and `lexically_normal_normal` are met by ordinary relative paths… -/
example : Spec.NoHiddenRoot (w "a/./b/../??c") ∧ lexicallyNormal (w "a/./b/../??c") = .ok (w "a\\??c") :=
  ⟨by unfold Spec.NoHiddenRoot; decide, rfl⟩
/-- … and by paths with a root-name, whatever follows. -/
example : Spec.rootName (w "c:/d:/..") ≠ [] := by decide

/-- The hypothesis is needed: removing a leading `.` can expose a drive, so that the result has a root-name the path
did not have, and normalizing it again changes it (a property of the code at this commit, not of the model only). -/
theorem lexically_normal_hidden_drive :
    lexicallyNormal (w "./c:.") = .ok (w "c:.") ∧ lexicallyNormal (w "c:.") = .ok (w "c:") ∧
    rootName (w "./c:.") = .ok [] ∧ rootName (w "c:.") = .ok (w "c:") := ⟨rfl, rfl, rfl, rfl⟩

/-- Likewise collapsing `\??\\x` to `\??\x` makes `\??` a root-name. -/
theorem lexically_normal_hidden_device :
    lexicallyNormal (w "\\??\\\\x") = .ok (w "\\??\\x") ∧ rootName (w "\\??\\\\x") = .ok [] ∧
    rootName (w "\\??\\x") = .ok (w "\\??") := ⟨rfl, rfl, rfl⟩

end STL.Path
