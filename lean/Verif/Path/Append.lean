import Verif.Path.Ext

/-! # `operator/=` and `operator/` follow [fs.path.append] -/

namespace STL.Path

theorem device_head {s : Text} (h : Spec.Device s) : ∃ a b c d rest, s = a :: b :: c :: d :: rest ∧
    Spec.slash a ∧ Spec.slash d ∧ (∀ e ∈ rest.head?, ¬ Spec.slash e) ∧
      ((Spec.slash b ∧ (c = 63 ∨ c = 46)) ∨ (b = 63 ∧ c = 63)) := by
  match s, h with
  | a :: b :: c :: d :: rest, h => exact ⟨a, b, c, d, rest, rfl, h⟩

theorem server_head {s : Text} (h : Spec.Server s) : ∃ a b c rest, s = a :: b :: c :: rest ∧
    Spec.slash a ∧ Spec.slash b ∧ ¬ Spec.slash c := by
  match s, h with
  | a :: b :: c :: rest, h => exact ⟨a, b, c, rest, rfl, h⟩

theorem drive_head {s : Text} (h : Spec.Drive s) : ∃ a rest, s = a :: 58 :: rest ∧ Spec.letter a := by
  match s, h with
  | a :: b :: rest, h => obtain ⟨h1, rfl⟩ := h; exact ⟨a, rest, rfl, h1⟩

theorem rootName_drive {s : Text} (h : Spec.Drive s) : (Spec.rootName s).length = 2 := by
  obtain ⟨a, rest, rfl, -⟩ := drive_head h
  simp [Spec.rootName, h]

theorem rootName_len_ge {s : Text} (h : ¬ Spec.Drive s) (hr : Spec.rootName s ≠ []) :
    3 ≤ (Spec.rootName s).length := by
  unfold Spec.rootName at hr ⊢
  rw [if_neg h] at hr ⊢
  split at hr <;> rename_i hd
  · rw [if_pos hd]
    obtain ⟨a, b, c, d, rest, rfl, -⟩ := device_head hd
    simp
  · rw [if_neg hd]
    split at hr <;> rename_i hs
    · rw [if_pos hs]
      obtain ⟨a, b, c, rest, rfl, h1, h2, h3⟩ := server_head hs
      have : Spec.plain c = true := by simpa [Spec.plain] using h3
      simp [this]
    · exact absurd rfl hr

/-- A root-name other than a drive is followed by a slash or by the end of the text. -/
theorem rootDir_of_name {s : Text} (h : ¬ Spec.Drive s) (hr : Spec.rootName s ≠ [])
    (hne : (Spec.rootName s).length ≠ s.length) : Spec.rootDir s ≠ [] := by
  unfold Spec.rootDir Spec.afterName
  unfold Spec.rootName at hr hne ⊢
  rw [if_neg h] at hr hne ⊢
  split at hr <;> rename_i hd
  · rw [if_pos hd]
    obtain ⟨a, b, c, d, rest, rfl, h1, h2, -⟩ := device_head hd
    simp [h2]
  · rw [if_neg hd] at hne ⊢
    split at hr <;> rename_i hs
    · rw [if_pos hs] at hne ⊢
      obtain ⟨a, b, c, rest, rfl, h1, h2, h3⟩ := server_head hs
      have hl : (List.take 2 (a :: b :: c :: rest) ++ List.takeWhile Spec.plain (List.drop 2 (a :: b :: c :: rest))).length
        = 2 + (List.takeWhile Spec.plain (c :: rest)).length := by simp; omega
      rw [hl] at hne ⊢
      have e : List.drop (2 + (List.takeWhile Spec.plain (c :: rest)).length) (a :: b :: c :: rest)
          = (c :: rest).dropWhile Spec.plain := by
        rw [← List.drop_drop]
        show List.drop _ (c :: rest) = _
        conv => lhs; arg 2; rw [← List.takeWhile_append_dropWhile (p := Spec.plain) (l := c :: rest)]
        rw [List.drop_left' rfl]
      rw [e]
      cases hdw : (c :: rest).dropWhile Spec.plain with
      | nil =>
        have := congrArg List.length (List.takeWhile_append_dropWhile (p := Spec.plain) (l := c :: rest))
        rw [hdw] at this
        simp only [List.append_nil] at this
        simp only [List.length_cons] at this hne
        omega
      | cons x xs =>
        have hx := List.head_dropWhile_not (p := Spec.plain) (l := c :: rest) (by rw [hdw]; simp)
        simp only [hdw, List.head_cons] at hx
        have : Spec.slash x = true := by simpa [Spec.plain] using hx
        simp [this]
    · exact absurd rfl hr

theorem lastName_nil_iff (r : Text) : Spec.lastName r = [] ↔ r = [] ∨ ∃ c ∈ r.getLast?, Spec.slash c = true := by
  rcases List.eq_nil_or_concat r with rfl | ⟨q, c, rfl⟩
  · simp [Spec.lastName]
  · simp only [Spec.lastName, List.concat_eq_append, List.reverse_append, List.reverse_cons, List.reverse_nil,
      List.nil_append, List.singleton_append, List.getLast?_append, List.getLast?_singleton]
    cases h : Spec.slash c <;> simp [Spec.plain, h]

theorem slash_of_mem_rootDir {s : Text} {c : WChar} (h : c ∈ Spec.rootDir s) : Spec.slash c = true :=
  List.mem_takeWhile_imp h

/-- The path has a filename exactly if its text goes on after the root-name and does not end in a slash. -/
theorem fileName_ne_nil_iff {s : Text} (hne : (Spec.rootName s).length ≠ s.length) :
    Spec.fileName s ≠ [] ↔ ∀ c ∈ s.getLast?, Spec.slash c = false := by
  unfold Spec.fileName
  rw [Ne, lastName_nil_iff]
  have hd := decompose s
  rcases List.eq_nil_or_concat (Spec.relative s) with hr | ⟨q, c, hr⟩
  · have hrd : Spec.rootDir s ≠ [] := by
      intro hh; rw [hr, hh] at hd; simp at hd; exact hne (by rw [hd])
    rcases List.eq_nil_or_concat (Spec.rootDir s) with hh | ⟨q, c, hh⟩
    · exact absurd hh hrd
    · have hc : Spec.slash c = true := slash_of_mem_rootDir (s := s) (by rw [hh]; simp)
      rw [hr, hh] at hd
      have : s.getLast? = some c := by rw [← hd]; simp
      simp [hr, this, hc]
  · rw [hr] at hd ⊢
    have : s.getLast? = some c := by rw [← hd]; simp
    simp [this]

theorem append_ok (s o : Text) : append s o = .ok (Spec.append s o) := by
  unfold append Spec.append
  rw [isAbsolute_ok, R.ok_bind]
  by_cases ha : Spec.Absolute o
  · have ha' : Spec.rootName o ≠ [] ∧ (Spec.Drive o → Spec.rootDir o ≠ []) := ha
    rw [if_pos (decide_eq_true ha'), if_pos (Or.inl ha)]; rfl
  · have ha' : ¬ (Spec.rootName o ≠ [] ∧ (Spec.Drive o → Spec.rootDir o ≠ [])) := ha
    rw [if_neg (by rw [decide_eq_true_eq]; exact ha'), findRootNameEnd_ok, R.ok_bind, findRootNameEnd_ok, R.ok_bind]
    simp only [sub, List.drop_zero, rootName_eq_take]
    by_cases hr : Spec.rootName o ≠ [] ∧ Spec.rootName o ≠ Spec.rootName s
    · rw [if_pos (show (Spec.rootName o).length ≠ 0 ∧ Spec.rootName s ≠ Spec.rootName o from
        ⟨by simpa using hr.1, fun h => hr.2 h.symm⟩), if_pos (Or.inr hr)]; rfl
    · rw [if_neg (show ¬ ((Spec.rootName o).length ≠ 0 ∧ Spec.rootName s ≠ Spec.rootName o) from
        fun h => hr ⟨by simpa using h.1, fun h' => h.2 h'.symm⟩), if_neg (not_or.2 ⟨ha, hr⟩)]
      have hsl : (if (Spec.rootName o).length ≠ o.length
          then do return isSlash (← rdc o (Spec.rootName o).length) else .ok false : R Bool)
          = .ok (decide (Spec.rootDir o ≠ [])) := by
        split
        · next h =>
          have hlt : (Spec.rootName o).length < o.length := by have := rootName_le o; omega
          rw [rdc_ok _ _ hlt, R.ok_bind]
          show Except.ok _ = _
          congr 1
          unfold Spec.rootDir Spec.afterName
          rw [List.drop_eq_getElem_cons hlt, isSlash_eq]
          cases h : Spec.slash o[(Spec.rootName o).length] <;> simp [h, hlt]
        · next h =>
          have : Spec.rootDir o = [] := by
            unfold Spec.rootDir Spec.afterName
            rw [List.drop_eq_nil_of_le (by omega)]; rfl
          simp [this]
      rw [hsl, R.ok_bind]
      by_cases hd : Spec.rootDir o ≠ []
      · simp only [hd, decide_true, if_true, ne_eq, not_false_eq_true]
        rfl
      · simp only [hd, decide_false, Bool.false_eq_true, if_false]
        by_cases hlen : (Spec.rootName s).length = s.length
        · rw [if_pos hlen]
          have hrd : Spec.rootDir s = [] := by
            unfold Spec.rootDir Spec.afterName
            rw [List.drop_eq_nil_of_le (by omega)]; rfl
          have hrel : Spec.relative s = [] := by
            unfold Spec.relative Spec.afterName
            rw [List.drop_eq_nil_of_le (by omega)]; rfl
          have hfn : Spec.fileName s = [] := by unfold Spec.fileName; rw [hrel]; rfl
          by_cases h3 : (Spec.rootName s).length ≥ 3
          · have hab : Spec.Absolute s := by
              refine ⟨?_, fun hdr => ?_⟩
              · intro h; rw [h] at h3; simp at h3
              · have := rootName_drive hdr; omega
            rw [if_pos h3, if_pos (Or.inr ⟨hrd, hab⟩)]; rfl
          · have hab : ¬ Spec.Absolute s := by
              rintro ⟨h1, h2⟩
              have := rootName_len_ge (fun hdr => h2 hdr hrd) h1
              exact h3 this
            rw [if_neg h3, if_neg (by rintro (h | h); exact h hfn; exact hab h.2)]; rfl
        · rw [if_neg hlen]
          have hpos : s.length ≠ 0 := by have := rootName_le s; omega
          have hdec : decIt s.length = .ok (s.length - 1) := by unfold decIt; rw [if_neg hpos]
          rw [hdec, R.ok_bind, rdc_ok _ _ (by omega), R.ok_bind]
          have hlast : s.getLast? = some s[s.length - 1] := by
            rw [List.getLast?_eq_getElem?, List.getElem?_eq_getElem]
          have hfn := fileName_ne_nil_iff hlen
          have hno : ¬ (Spec.rootDir s = [] ∧ Spec.Absolute s) := by
            rintro ⟨h1, h2, h3⟩
            exact rootDir_of_name (fun hdr => h3 hdr h1) h2 hlen h1
          rw [hlast] at hfn
          simp only [Option.mem_def, Option.some.injEq, forall_eq'] at hfn
          rw [isSlash_eq]
          cases hsl : Spec.slash s[s.length - 1]
          · rw [if_pos (Or.inl (hfn.2 hsl))]; rfl
          · have hcond : ¬ (Spec.fileName s ≠ [] ∨ (Spec.rootDir s = [] ∧ Spec.Absolute s)) := by
              rintro (h | h)
              · rw [hfn.1 h] at hsl; cases hsl
              · exact hno h
            rw [if_neg hcond]; rfl

/-- `operator/` gives the same path as `operator/=`. -/
theorem slashOp_ok (l r : Text) : slashOp l r = .ok (Spec.append l r) := by
  unfold slashOp
  have hc : (if r.length ≠ 0 then do
      if ← hasDriveLetterPrefix r then return false
      return !isSlash (← rdc r 0)
    else .ok false : R Bool) = .ok (decide (r ≠ [] ∧ ¬ Spec.Drive r ∧ ∀ c ∈ r.head?, ¬ Spec.slash c = true)) := by
    match r with
    | [] => rfl
    | c :: r =>
      rw [if_pos (by simp), hasDrive_ok, R.ok_bind]
      by_cases hd : Spec.Drive (c :: r)
      · simp [hd, pure, Except.pure]
      · simp only [hd, decide_false, Bool.false_eq_true, if_false]
        show Except.ok (!isSlash c) = _
        rw [isSlash_eq]
        cases h : Spec.slash c <;> simp [h]
  rw [hc, R.ok_bind]
  by_cases hcm : r ≠ [] ∧ ¬ Spec.Drive r ∧ ∀ c ∈ r.head?, ¬ Spec.slash c = true
  · rw [if_pos (decide_eq_true hcm)]
    obtain ⟨h1, h2, h3⟩ := hcm
    have hrn : Spec.rootName r = [] := by
      unfold Spec.rootName
      rw [if_neg h2, if_neg, if_neg]
      · intro hs; obtain ⟨a, b, c, rest, rfl, h, -⟩ := server_head hs; exact h3 a rfl h
      · intro hs; obtain ⟨a, b, c, d, rest, rfl, h, -⟩ := device_head hs; exact h3 a rfl h
    have han : Spec.afterName r = r := by simp [Spec.afterName, hrn]
    have hrd : Spec.rootDir r = [] := by
      unfold Spec.rootDir; rw [han]
      match r, h3 with
      | [], _ => rfl
      | c :: r, h3 => 
        have : Spec.slash c = false := by simpa using h3 c rfl
        simp [this]
    have happ : Spec.append l r = if Spec.fileName l ≠ [] ∨ (Spec.rootDir l = [] ∧ Spec.Absolute l)
        then l ++ [92] ++ r else l ++ r := by
      unfold Spec.append
      rw [if_neg, if_neg (by simpa using hrd), han]
      rintro (⟨h, -⟩ | ⟨h, -⟩) <;> exact h hrn
    rw [happ]
    have hj : (if l.length = 2 then isDrivePrefix l 0 else .ok false : R Bool)
        = .ok (decide (l.length = 2 ∧ Spec.Drive l)) := by
      split
      · next h => rw [isDrivePrefix_ok l (by omega)]; simp [h]
      · next h => simp [h]
    rw [hj, R.ok_bind]
    by_cases hlen : (Spec.rootName l).length = l.length
    · have hrd : Spec.rootDir l = [] := by
        unfold Spec.rootDir Spec.afterName
        rw [List.drop_eq_nil_of_le (by omega)]; rfl
      have hrel : Spec.relative l = [] := by
        unfold Spec.relative Spec.afterName
        rw [List.drop_eq_nil_of_le (by omega)]; rfl
      have hfn : Spec.fileName l = [] := by unfold Spec.fileName; rw [hrel]; rfl
      by_cases hnil : l = []
      · subst hnil
        have hcond : ¬ (Spec.fileName [] ≠ [] ∨ (Spec.rootDir [] = [] ∧ Spec.Absolute [])) := by
          rintro (h | ⟨-, h, -⟩)
          · exact h hfn
          · exact h rfl
        rw [if_neg (by simp), R.ok_bind, if_neg hcond]
        rfl
      · by_cases hdr : Spec.Drive l
        · have := rootName_drive hdr
          have hcond : ¬ (Spec.fileName l ≠ [] ∨ (Spec.rootDir l = [] ∧ Spec.Absolute l)) := by
            rintro (h | ⟨-, -, h⟩)
            · exact h hfn
            · exact h hdr hrd
          rw [if_neg (by simp [show l.length = 2 by omega, hdr]), R.ok_bind, if_neg hcond]
          simp [pure, Except.pure]
        · have hne : Spec.rootName l ≠ [] := by
            intro h; rw [h] at hlen; simp at hlen; exact hnil (List.length_eq_zero_iff.1 hlen.symm)
          have habs : Spec.Absolute l := ⟨hne, fun h => absurd h hdr⟩
          have hl0 : l.length ≠ 0 := by simpa using hnil
          rw [if_pos ⟨hl0, by simp [hdr]⟩, if_pos (Or.inr ⟨hrd, habs⟩), rdc_ok _ _ (by omega), R.ok_bind]
          -- a root-name other than a drive does not end in a slash
          have hlast : Spec.slash l[l.length - 1] = false := by
            have hself : Spec.rootName l = l := by
              have := rootName_eq_take l; rw [hlen, List.take_length] at this; exact this.symm
            have hg3 := rootName_len_ge hdr hne
            unfold Spec.rootName at hself
            rw [if_neg hdr] at hself
            split at hself
            · next hdv =>
              obtain ⟨a, b, c, d, rest, rfl, -⟩ := device_head hdv
              simp at hself
            · split at hself
              · next hsv =>
                obtain ⟨a, b, c, rest, rfl, h1, h2, h3⟩ := server_head hsv
                simp only [List.take_succ_cons, List.take_zero, List.drop_succ_cons, List.drop_zero,
                  List.cons_append, List.nil_append, List.cons.injEq, true_and] at hself
                have hmem : (a :: b :: c :: rest)[(a :: b :: c :: rest).length - 1] ∈ c :: rest := by
                  simp only [List.length_cons, Nat.add_sub_cancel, List.getElem_cons_succ]
                  exact List.getElem_mem _
                have hmem' : ∀ x ∈ c :: rest, Spec.plain x = true := by
                  intro x hx; rw [← hself] at hx; exact List.mem_takeWhile_imp hx
                have := hmem' _ hmem
                simpa [Spec.plain] using this
              · exact absurd hself.symm hnil
          rw [isSlash_eq, hlast]; rfl
    · have hl0 : l.length ≠ 0 := by have := rootName_le l; omega
      have hnd : ¬ (l.length = 2 ∧ Spec.Drive l) := by
        rintro ⟨h, hdr⟩; have := rootName_drive hdr; omega
      rw [if_pos ⟨hl0, by simp; exact not_and_or.1 hnd⟩, rdc_ok _ _ (by omega), R.ok_bind]
      have hlast : l.getLast? = some l[l.length - 1] := by
        rw [List.getLast?_eq_getElem?, List.getElem?_eq_getElem]
      have hfn := fileName_ne_nil_iff hlen
      have hno : ¬ (Spec.rootDir l = [] ∧ Spec.Absolute l) := by
        rintro ⟨h1, h2, h3⟩
        exact rootDir_of_name (fun hdr => h3 hdr h1) h2 hlen h1
      rw [hlast] at hfn
      simp only [Option.mem_def, Option.some.injEq, forall_eq'] at hfn
      rw [isSlash_eq]
      cases hsl : Spec.slash l[l.length - 1]
      · rw [if_pos (Or.inl (hfn.2 hsl))]; rfl
      · have hcond : ¬ (Spec.fileName l ≠ [] ∨ (Spec.rootDir l = [] ∧ Spec.Absolute l)) := by
          rintro (h | h)
          · rw [hfn.1 h] at hsl; cases hsl
          · exact hno h
        rw [if_neg hcond]
        simp [pure, Except.pure, bind, Except.bind]
  · rw [if_neg (by rw [decide_eq_true_eq]; exact hcm)]
    exact append_ok l r

end STL.Path
