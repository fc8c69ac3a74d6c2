import Verif.Path.Parse

/-! # Stem and extension, operator/=, replace_extension, replace_filename -/

namespace STL.Path

theorem lastDot_nil : Spec.lastDot [] = none := rfl

theorem lastDot_snoc (n : Text) (c : WChar) :
    Spec.lastDot (n ++ [c]) = if c = 46 then some n.length else Spec.lastDot n := by
  unfold Spec.lastDot
  simp only [List.reverse_append, List.reverse_cons, List.reverse_nil, List.nil_append, List.singleton_append,
    List.length_append, List.length_singleton]
  by_cases h : c = 46
  · simp [h]
  · rw [List.takeWhile_cons_of_pos (by simpa using h), if_neg h]
    simp only [List.length_cons, Nat.add_lt_add_iff_right]
    split
    · congr 1; omega
    · rfl

theorem lastDot_lt {n : Text} {k : Nat} (h : Spec.lastDot n = some k) : k < n.length := by
  unfold Spec.lastDot at h
  split at h
  · cases h; omega
  · cases h

/-- What the backward search returns, from the position of the last dot. -/
def extOf (file ads : Nat) : Option Nat → Nat
  | none => ads
  | some 0 => ads
  | some (k + 1) => file + (k + 1)

theorem extLoop_ok (s : Text) (file ads : Nat) : ∀ e, file < e → e ≤ s.length →
    extLoop s file ads e = .ok (extOf file ads (Spec.lastDot ((s.take e).drop file))) := by
  intro e
  induction e with
  | zero => intro h; omega
  | succ e ih =>
    intro h1 h2
    have hlt : e < s.length := by omega
    have eq : (s.take (e + 1)).drop file = (s.take e).drop file ++ [s[e]] := by
      rw [List.take_succ_eq_append_getElem hlt, List.drop_append_of_le_length (by simp; omega)]
    rw [extLoop, eq, lastDot_snoc]
    split
    · next h =>
      subst h
      have : (s.take file).drop file = [] := List.drop_eq_nil_of_le (by simp)
      rw [this]
      split <;> rfl
    · next h =>
      rw [rdc_ok s e hlt, R.ok_bind]
      by_cases hd : s[e] = 46
      · simp only [hd, BEq.rfl, if_true]
        have hl : ((s.take e).drop file).length = (e - file - 1) + 1 := by simp; omega
        rw [hl]
        simp only [extOf, Except.ok.injEq]; omega
      · rw [if_neg (by simpa using hd), if_neg hd, ih (by omega) (by omega)]

theorem findExtension_ok (s : Text) (file ads : Nat) (h1 : file ≤ ads) (h2 : ads ≤ s.length) :
    findExtension s file ads = .ok (file + Spec.stemLen (sub s file ads)) := by
  have hn : ∀ n, n = sub s file ads → n.length = ads - file := by
    rintro n rfl; simp [sub]; omega
  unfold findExtension
  split
  · next h =>
    subst h
    have : sub s file file = [] := List.drop_eq_nil_of_le (by simp)
    rw [this]; rfl
  · next h =>
    have hd : decIt ads = .ok (ads - 1) := by unfold decIt; rw [if_neg (by omega)]
    rw [hd, R.ok_bind]
    have hlt : ads - 1 < s.length := by omega
    have eq : sub s file ads = (s.take (ads - 1)).drop file ++ [s[ads - 1]] := by
      have : ads = (ads - 1) + 1 := by omega
      unfold sub
      conv => lhs; rw [this]
      rw [List.take_succ_eq_append_getElem hlt, List.drop_append_of_le_length (by simp; omega)]
    split
    · next h' =>
      have : (s.take (ads - 1)).drop file = [] := List.drop_eq_nil_of_le (by simp; omega)
      rw [eq, this, List.nil_append]
      have : Spec.stemLen [s[ads - 1]] = 1 := by
        unfold Spec.stemLen
        rw [show [s[ads - 1]] = [] ++ [s[ads - 1]] from rfl, lastDot_snoc]
        by_cases h46 : s[ads - 1] = 46 <;> simp [h46, lastDot_nil]
      rw [this]; show Except.ok _ = _; congr 1; omega
    · next h' =>
      rw [rdc_ok s _ hlt, R.ok_bind]
      have hlen : ((s.take (ads - 1)).drop file).length = ads - 1 - file := by simp; omega
      by_cases hdot : s[ads - 1] = 46
      · have hb : (s[ads - 1] == 46) = true := by simpa using hdot
        simp only [hb, if_true]
        have hst : Spec.stemLen (sub s file ads) =
            if sub s file ads = [46, 46] then ads - file else ads - 1 - file := by
          have hl : Spec.lastDot (sub s file ads) = some (ads - 1 - file) := by
            rw [eq, lastDot_snoc, if_pos hdot, hlen]
          unfold Spec.stemLen
          rw [hl, hn _ rfl]
          obtain ⟨k, hk⟩ : ∃ k, ads - 1 - file = k + 1 := ⟨ads - 1 - file - 1, by omega⟩
          rw [hk]; rfl
        rw [hst]
        split
        · next h2' =>
          have hlt' : ads - 1 - 1 < s.length := by omega
          rw [rdc_ok s _ hlt', R.ok_bind]
          have e2 : (s.take (ads - 1)).drop file = [s[ads - 1 - 1]] := by
            have e3 : ads - 1 = (ads - 1 - 1) + 1 := by omega
            conv => lhs; rw [e3]
            rw [List.take_succ_eq_append_getElem hlt', List.drop_append_of_le_length (by simp; omega),
              List.drop_eq_nil_of_le (by simp; omega)]
            rfl
          rw [eq, e2, hdot]
          by_cases hdd : s[ads - 1 - 1] = 46
          · simp [hdd, pure, Except.pure]; omega
          · simp [hdd, pure, Except.pure]; omega
        · next h2' =>
          rw [if_neg]
          · show Except.ok _ = _; congr 1; omega
          · intro hc
            have := hn _ rfl
            rw [hc] at this; simp at this; omega
      · have hb : (s[ads - 1] == 46) = false := by simpa using hdot
        simp only [hb, Bool.false_eq_true, if_false]
        rw [extLoop_ok s file ads (ads - 1) (by omega) (by omega)]
        have hl : Spec.lastDot (sub s file ads) = Spec.lastDot ((s.take (ads - 1)).drop file) := by
          rw [eq, lastDot_snoc, if_neg hdot]
        unfold Spec.stemLen
        rw [hl, hn _ rfl]
        have hne : sub s file ads ≠ [46, 46] := by
          rw [eq]; intro hc
          have := congrArg List.getLast? hc
          simp at this
          exact hdot this
        congr 1
        cases hld : Spec.lastDot ((s.take (ads - 1)).drop file) with
        | none => simp only [extOf]; omega
        | some k => cases k with
          | zero => simp only [extOf]; omega
          | succ k => simp [extOf, hne]

theorem noAds_prefix (n : Text) : Spec.noAds n <+: n := List.takeWhile_prefix _

theorem stemLen_le (n : Text) : Spec.stemLen n ≤ n.length := by
  unfold Spec.stemLen
  split
  · exact Nat.le_refl _
  · exact Nat.le_refl _
  · next k h =>
    have := lastDot_lt h
    split <;> omega

theorem fileStart_le (s : Text) : rootLen s + (Spec.dropName (Spec.relative s)).length ≤ s.length := by
  have h1 := congrArg List.length (lastName_append (Spec.relative s))
  have h2 := length_eq s
  simp at h1; omega

theorem stemParts_ok (s : Text) : stemParts s =
    .ok (rootLen s + (Spec.dropName (Spec.relative s)).length,
      rootLen s + (Spec.dropName (Spec.relative s)).length + Spec.stemLen (Spec.noAds (Spec.fileName s)),
      rootLen s + (Spec.dropName (Spec.relative s)).length + (Spec.noAds (Spec.fileName s)).length) := by
  unfold stemParts
  have hle := fileStart_le s
  rw [findFilename_ok, R.ok_bind, findIf_ok _ _ _ hle, R.ok_bind]
  have e1 : List.drop (rootLen s + (Spec.dropName (Spec.relative s)).length) s = Spec.fileName s := by
    rw [drop_rel, drop_dropName]; rfl
  have e2 : List.takeWhile (fun c => !(fun c => c == 58) c) (Spec.fileName s) = Spec.noAds (Spec.fileName s) := rfl
  rw [e1, e2]
  have hl : (Spec.noAds (Spec.fileName s)).length ≤ (Spec.fileName s).length := (noAds_prefix _).length_le
  have hl2 : rootLen s + (Spec.dropName (Spec.relative s)).length + (Spec.fileName s).length = s.length := by
    have h1 := congrArg List.length (lastName_append (Spec.relative s))
    have h2 := length_eq s
    simp at h1; unfold Spec.fileName; omega
  rw [findExtension_ok _ _ _ (by omega) (by omega), R.ok_bind]
  have e3 : sub s (rootLen s + (Spec.dropName (Spec.relative s)).length)
      (rootLen s + (Spec.dropName (Spec.relative s)).length + (Spec.noAds (Spec.fileName s)).length)
      = Spec.noAds (Spec.fileName s) := by
    unfold sub
    rw [List.drop_take, e1]
    rw [show rootLen s + (Spec.dropName (Spec.relative s)).length + (Spec.noAds (Spec.fileName s)).length
      - (rootLen s + (Spec.dropName (Spec.relative s)).length) = (Spec.noAds (Spec.fileName s)).length by omega]
    exact (List.prefix_iff_eq_take.1 (noAds_prefix _)).symm
  rw [e3]; rfl

theorem sub_file (s : Text) (i j : Nat) :
    sub s (rootLen s + (Spec.dropName (Spec.relative s)).length + i)
      (rootLen s + (Spec.dropName (Spec.relative s)).length + j) = ((Spec.fileName s).take j).drop i := by
  unfold sub
  have e1 : List.drop (rootLen s + (Spec.dropName (Spec.relative s)).length) s = Spec.fileName s := by
    rw [drop_rel, drop_dropName]; rfl
  rw [← e1, ← List.drop_drop, List.drop_take]
  congr 2; omega

theorem take_noAds (n : Text) : n.take (Spec.noAds n).length = Spec.noAds n :=
  (List.prefix_iff_eq_take.1 (noAds_prefix n)).symm

/-- The stem per the specification. -/
def specStem (s : Text) : Text := (Spec.noAds (Spec.fileName s)).take (Spec.stemLen (Spec.noAds (Spec.fileName s)))
/-- The extension per the specification. -/
def specExt (s : Text) : Text := (Spec.noAds (Spec.fileName s)).drop (Spec.stemLen (Spec.noAds (Spec.fileName s)))

theorem stem_ok (s : Text) : stem s = .ok (specStem s) := by
  unfold stem
  rw [stemParts_ok, R.ok_bind]
  have := sub_file s 0 (Spec.stemLen (Spec.noAds (Spec.fileName s)))
  simp only [Nat.add_zero] at this
  dsimp only
  rw [this]
  show Except.ok _ = _
  congr 1
  rw [List.drop_zero, specStem]
  conv => rhs; arg 2; rw [← take_noAds]
  rw [List.take_take, Nat.min_eq_left (stemLen_le _)]

theorem extension_ok (s : Text) : extension s = .ok (specExt s) := by
  unfold extension
  rw [stemParts_ok, R.ok_bind]
  show Except.ok _ = _
  congr 1
  rw [sub_file, take_noAds, specExt]

theorem removeFilename_ok (s : Text) :
    removeFilename s = .ok (Spec.rootName s ++ Spec.rootDir s ++ Spec.dropName (Spec.relative s)) := by
  unfold removeFilename
  rw [findFilename_ok, R.ok_bind, take_rel, take_dropName]; rfl

theorem removeExtension_ok (s : Text) : removeExtension s =
    .ok (Spec.rootName s ++ Spec.rootDir s ++ Spec.dropName (Spec.relative s) ++ specStem s) := by
  unfold removeExtension
  rw [stemParts_ok, R.ok_bind]
  show Except.ok _ = _
  congr 1
  rw [Nat.add_assoc, take_rel, List.append_assoc _ (Spec.dropName _)]
  congr 1
  conv => lhs; arg 2; rw [← lastName_append (Spec.relative s)]
  rw [List.take_append, List.take_of_length_le (by omega)]
  congr 1
  rw [Nat.add_sub_cancel_left, specStem]
  conv => rhs; arg 2; rw [← take_noAds]
  rw [List.take_take, Nat.min_eq_left (stemLen_le _)]; rfl

theorem isAbsolute_ok (s : Text) : isAbsolute s = .ok (decide
    (Spec.rootName s ≠ [] ∧ (Spec.Drive s → Spec.rootDir s ≠ []))) := by
  unfold isAbsolute
  rw [hasDrive_ok, R.ok_bind]
  by_cases hd : Spec.Drive s
  · simp only [hd, decide_true, if_true]
    match s, hd with
    | a :: b :: rest, hd =>
      have hr : Spec.rootName (a :: b :: rest) = [a, b] := by simp [Spec.rootName, hd]
      have hrd : Spec.rootDir (a :: b :: rest) = rest.takeWhile Spec.slash := by
        simp [Spec.rootDir, Spec.afterName, hr]
      rw [hr, hrd]
      match rest with
      | [] => simp [pure, Except.pure]
      | c :: rest =>
        cases h : Spec.slash c <;> simp [rdc, bind, Except.bind, pure, Except.pure, isSlash_eq, h]
  · simp only [hd, decide_false, Bool.false_eq_true, if_false]
    rw [findRootNameEnd_ok, R.ok_bind]
    cases h : Spec.rootName s <;> simp [pure, Except.pure]

end STL.Path
