import Verif.Path.Spec
import Mathlib.Data.List.TakeWhile

/-! # The parsing functions compute the decomposition of the specification -/

namespace STL.Path

theorem isSlash_eq (c : WChar) : isSlash c = Spec.slash c := rfl

theorem rdc_ok (s : Text) (i : Nat) (h : i < s.length) : rdc s i = .ok s[i] := by
  simp [rdc, h]

theorem clearBit5 (x : Nat) (hx : x < 2 ^ 32) : x &&& 0xFFFFFFDF = x - 32 * (x / 32 % 2) := by
  apply Nat.eq_of_testBit_eq
  intro i
  rw [Nat.testBit_and]
  have key : ∀ y, y = x - 32 * (x / 32 % 2) → y.testBit i = (x.testBit i && (0xFFFFFFDF : Nat).testBit i) := by
    intro y hy
    have hlow : y % 32 = x % 32 := by omega
    have hhigh : y / 64 = x / 64 := by omega
    have hmid : y / 32 % 2 = 0 := by omega
    by_cases h5 : i < 5
    · have a : y.testBit i = (y % 2 ^ 5).testBit i := by rw [Nat.testBit_mod_two_pow]; simp [h5]
      have b : x.testBit i = (x % 2 ^ 5).testBit i := by rw [Nat.testBit_mod_two_pow]; simp [h5]
      rw [a, b]
      simp only [Nat.reducePow, hlow]
      have : (0xFFFFFFDF : Nat).testBit i = true := by interval_cases i <;> rfl
      rw [this, Bool.and_true]
    · by_cases h6 : i = 5
      · subst h6
        have : (0xFFFFFFDF : Nat).testBit 5 = false := by rfl
        rw [this, Bool.and_false, Nat.testBit_eq_decide_div_mod_eq]
        simp [hmid]
      · by_cases h32 : i < 32
        · have a : y.testBit i = (y / 2 ^ 6).testBit (i - 6) := by
            rw [Nat.testBit_div_two_pow]; congr 1; omega
          have b : x.testBit i = (x / 2 ^ 6).testBit (i - 6) := by
            rw [Nat.testBit_div_two_pow]; congr 1; omega
          have : (0xFFFFFFDF : Nat).testBit i = true := by
            interval_cases i <;> first | rfl | omega
          rw [this, Bool.and_true, a, b]; simp only [Nat.reducePow, hhigh]
        · have hp : (2 : Nat) ^ 32 ≤ 2 ^ i := Nat.pow_le_pow_right (by norm_num) (by omega)
          rw [Nat.testBit_lt_two_pow (show y < 2 ^ i by omega), Nat.testBit_lt_two_pow (show x < 2 ^ i by omega)]
          rfl
  exact (key _ rfl).symm

theorem drive_value (c0 c1 : WChar) :
    decide (((c0.toUInt32 ||| (c1.toUInt32 <<< 16)) &&& (0xFFFFFFDF : UInt32)) - (((58 : UInt32) <<< 16) ||| 65) < 26)
      = decide (Spec.letter c0 ∧ c1 = 58) := by
  have h0 : c0.toNat < 65536 := c0.toNat_lt
  have h1 : c1.toNat < 65536 := c1.toNat_lt
  have hor : (c0.toUInt32 ||| (c1.toUInt32 <<< 16)).toNat = c0.toNat + 65536 * c1.toNat := by
    simp only [UInt32.toNat_or, UInt32.toNat_shiftLeft, UInt16.toNat_toUInt32, UInt32.reduceToNat]
    have e : c1.toNat <<< (16 % 32) % 2 ^ 32 = c1.toNat <<< 16 := by
      rw [Nat.mod_eq_of_lt (show 16 < 32 by omega), Nat.shiftLeft_eq]
      apply Nat.mod_eq_of_lt; omega
    rw [e, Nat.or_comm, ← Nat.shiftLeft_add_eq_or_of_lt (by omega : c0.toNat < 2 ^ 16), Nat.shiftLeft_eq]
    omega
  have hk : (((58 : UInt32) <<< 16) ||| 65).toNat = 3801153 := by decide
  have hand : ((c0.toUInt32 ||| (c1.toUInt32 <<< 16)) &&& (0xFFFFFFDF : UInt32)).toNat =
      c0.toNat + 65536 * c1.toNat - 32 * ((c0.toNat + 65536 * c1.toNat) / 32 % 2) := by
    rw [UInt32.toNat_and, hor]
    exact clearBit5 _ (by omega)
  have hc : c1 = 58 ↔ c1.toNat = 58 := by
    constructor
    · rintro rfl; rfl
    · intro h; exact UInt16.toNat.inj h
  congr 1
  rw [UInt32.lt_iff_toNat_lt, UInt32.toNat_sub, hand, hk, hc]
  simp only [Spec.letter, UInt32.reduceToNat, eq_iff_iff]
  omega

theorem isDrivePrefix_ok (s : Text) (h : 2 ≤ s.length) : isDrivePrefix s 0 = .ok (decide (Spec.Drive s)) := by
  match s, h with
  | c0 :: c1 :: rest, _ =>
    have := drive_value c0 c1
    show Except.ok (decide _) = _
    rw [this]; rfl

theorem hasDrive_ok (s : Text) : hasDriveLetterPrefix s = .ok (decide (Spec.Drive s)) := by
  unfold hasDriveLetterPrefix
  split
  · next h => exact isDrivePrefix_ok s h
  · next h =>
    match s, h with
    | [], _ => rfl
    | [a], _ => rfl
    | _ :: _ :: _, h => simp at h

theorem findIfGo_ok (p : WChar → Bool) (s : Text) : ∀ n i, n = s.length - i → i ≤ s.length →
    findIfGo p s n i = .ok (i + ((s.drop i).takeWhile (fun c => !p c)).length) := by
  intro n
  induction n with
  | zero =>
    intro i hn hi
    have : s.drop i = [] := List.drop_eq_nil_of_le (by omega)
    simp [findIfGo, this]
  | succ n ih =>
    intro i hn hi
    have hlt : i < s.length := by omega
    rw [findIfGo, rdc_ok s i hlt, R.ok_bind, List.drop_eq_getElem_cons hlt]
    by_cases hp : p s[i]
    · simp [hp]
    · simp only [hp, Bool.false_eq_true, if_false]
      rw [ih (i + 1) (by omega) (by omega)]
      rw [List.takeWhile_cons_of_pos (by simp [hp])]
      simp only [List.length_cons, Except.ok.injEq]; omega

theorem findIf_ok (p : WChar → Bool) (s : Text) (i : Nat) (hi : i ≤ s.length) :
    findIf p s i = .ok (i + ((s.drop i).takeWhile (fun c => !p c)).length) := by
  unfold findIf
  rw [if_neg (by omega), findIfGo_ok p s _ i rfl hi]

theorem takeWhile_le {α} (p : α → Bool) (l : List α) : (l.takeWhile p).length ≤ l.length :=
  (List.takeWhile_prefix p).length_le

theorem devicePrefix_ok (s : Text) (h : ∀ c ∈ s.head?, isSlash c = true) :
    devicePrefix s = .ok (decide (Spec.Device s)) := by
  match s with
  | [] => rfl
  | [_] => rfl
  | [_, _] => rfl
  | [_, _, _] => rfl
  | [a, b, c, d] =>
    have ha : Spec.slash a = true := h a rfl
    unfold devicePrefix
    simp [rdc, bind, Except.bind, pure, Except.pure, Spec.Device, isSlash_eq, ha]
    split <;> simp_all [beq_iff_eq]
    cases Spec.slash b <;> simp <;> rfl
  | a :: b :: c :: d :: e :: rest =>
    have ha : Spec.slash a = true := h a rfl
    unfold devicePrefix
    simp [rdc, bind, Except.bind, pure, Except.pure, Spec.Device, isSlash_eq, ha]
    split <;> simp_all
    cases Spec.slash e <;> simp
    cases Spec.slash b <;> simp <;> rfl

theorem serverPrefix_ok (s : Text) (h : ∀ c ∈ s.head?, isSlash c = true) :
    serverPrefix s = .ok (decide (Spec.Server s)) := by
  match s with
  | [] => rfl
  | [_] => rfl
  | [_, _] => rfl
  | a :: b :: c :: rest =>
    have ha : Spec.slash a = true := h a rfl
    unfold serverPrefix
    simp [rdc, bind, Except.bind, pure, Except.pure, Spec.Server, isSlash_eq, ha]
    split <;> simp_all

theorem rootName_prefix (s : Text) : Spec.rootName s <+: s := by
  unfold Spec.rootName
  split
  · exact List.take_prefix _ _
  · split
    · exact List.take_prefix _ _
    · split
      · conv => rhs; rw [← List.take_append_drop 2 s]
        exact (List.prefix_append_right_inj _).2 (List.takeWhile_prefix _)
      · exact List.nil_prefix

theorem rootName_le (s : Text) : (Spec.rootName s).length ≤ s.length := (rootName_prefix s).length_le

theorem rootName_eq_take (s : Text) : s.take (Spec.rootName s).length = Spec.rootName s :=
  (List.prefix_iff_eq_take.1 (rootName_prefix s)).symm

theorem not_slash_of_drive {c d : WChar} {rest : Text} (h : Spec.Drive (c :: d :: rest)) : Spec.slash c = false := by
  rcases h with ⟨h, -⟩
  unfold Spec.slash
  by_contra hc
  simp at hc
  rcases (Decidable.em (c = 92)) with rfl | h92
  · revert h; decide
  · obtain rfl := hc h92; revert h; decide

theorem findRootNameEnd_ok (s : Text) : findRootNameEnd s = .ok (Spec.rootName s).length := by
  match s with
  | [] => rfl
  | [a] => rfl
  | a :: b :: rest =>
    unfold findRootNameEnd
    rw [if_neg (by simp), hasDrive_ok]
    show (if decide _ = true then _ else _) = _
    by_cases hd : Spec.Drive (a :: b :: rest)
    · simp [hd, Spec.rootName, pure, Except.pure]
    · simp only [hd, decide_false, Bool.false_eq_true, if_false]
      show (if (!isSlash a) = true then _ else _) = _
      by_cases ha : isSlash a
      · simp only [ha, Bool.not_true, Bool.false_eq_true, if_false]
        rw [devicePrefix_ok _ (by simpa using ha)]
        show (if decide _ = true then _ else _) = _
        by_cases hv : Spec.Device (a :: b :: rest)
        · simp only [hv, decide_true, if_true, Spec.rootName, hd, if_false]
          match rest, hv with
          | c :: d :: rest, _ => rfl
        · simp only [hv, decide_false, Bool.false_eq_true, if_false]
          rw [serverPrefix_ok _ (by simpa using ha)]
          show (if decide _ = true then _ else _) = _
          by_cases hs : Spec.Server (a :: b :: rest)
          · simp only [hs, decide_true, if_true, Spec.rootName, hd, hv, if_false]
            match rest, hs with
            | c :: rest, hs =>
              rw [findIf_ok _ _ _ (by simp)]
              have hc : Spec.plain c = true := by
                have := hs.2.2
                simpa [Spec.plain] using this
              simp only [List.drop_succ_cons, List.drop_zero, List.take_succ_cons, List.take_zero]
              rw [List.takeWhile_cons_of_pos hc]
              have e' : Spec.plain = fun c => !isSlash c := rfl
              rw [e']
              simp only [List.length_cons, List.length_append, List.length_nil, Except.ok.injEq]; omega
          · simp only [hs, decide_false, Bool.false_eq_true, if_false, Spec.rootName, hd, hv]
            rfl
      · have ha' : Spec.slash a = false := by simpa [isSlash_eq] using ha
        simp only [ha, Bool.not_false, if_true]
        have hv : ¬ Spec.Device (a :: b :: rest) := by
          match rest with
          | [] => simp [Spec.Device]
          | [_] => simp [Spec.Device]
          | _ :: _ :: _ => simp [Spec.Device, ha']
        have hs : ¬ Spec.Server (a :: b :: rest) := by
          match rest with
          | [] => simp [Spec.Server]
          | _ :: _ => simp [Spec.Server, ha']
        simp [Spec.rootName, hd, hv, hs, pure, Except.pure]

/-- Text = root-name, root-directory, relative-path. -/
theorem decompose (s : Text) : Spec.rootName s ++ Spec.rootDir s ++ Spec.relative s = s := by
  rw [List.append_assoc]
  unfold Spec.rootDir Spec.relative
  rw [List.takeWhile_append_dropWhile, Spec.afterName]
  conv => rhs; rw [← List.take_append_drop (Spec.rootName s).length s, rootName_eq_take]

/-- Length of the root-path. -/
abbrev rootLen (s : Text) : Nat := (Spec.rootName s).length + (Spec.rootDir s).length

theorem relative_eq_drop (s : Text) : Spec.relative s = s.drop (rootLen s) := by
  have h := decompose s
  conv => rhs; arg 2; rw [← h]
  rw [List.drop_left' (by simp)]

theorem rootPath_eq_take (s : Text) : Spec.rootName s ++ Spec.rootDir s = s.take (rootLen s) := by
  have h := decompose s
  conv => rhs; arg 2; rw [← h]
  rw [List.take_left' (by simp)]

theorem rootLen_le (s : Text) : rootLen s ≤ s.length := by
  have h := congrArg List.length (decompose s)
  simp at h; unfold rootLen; omega

theorem length_eq (s : Text) : s.length = rootLen s + (Spec.relative s).length := by
  have h := congrArg List.length (decompose s)
  simp at h; unfold rootLen; omega

theorem findNotSlash_ok (s : Text) :
    findIf (fun c => !isSlash c) s (Spec.rootName s).length = .ok (rootLen s) := by
  rw [findIf_ok _ _ _ (rootName_le s)]
  simp [Spec.rootDir, Spec.afterName, isSlash_eq]

theorem findRelativePath_ok (s : Text) : findRelativePath s = .ok (rootLen s) := by
  unfold findRelativePath
  rw [findRootNameEnd_ok, R.ok_bind, findNotSlash_ok]

theorem rootName_ok (s : Text) : rootName s = .ok (Spec.rootName s) := by
  unfold rootName
  rw [findRootNameEnd_ok, R.ok_bind, sub, rootName_eq_take]; rfl

theorem rootDirectory_ok (s : Text) : rootDirectory s = .ok (Spec.rootDir s) := by
  unfold rootDirectory
  rw [findRootNameEnd_ok, R.ok_bind, findNotSlash_ok, R.ok_bind, sub, ← rootPath_eq_take, List.drop_left]
  rfl

theorem rootPath_ok (s : Text) : rootPath s = .ok (Spec.rootName s ++ Spec.rootDir s) := by
  unfold rootPath
  rw [findRelativePath_ok, R.ok_bind, sub, rootPath_eq_take]; rfl

theorem relativePath_ok (s : Text) : relativePath s = .ok (Spec.relative s) := by
  unfold relativePath
  rw [findRelativePath_ok, R.ok_bind, sub, List.take_length, relative_eq_drop]; rfl

theorem backWhile_ok (p : WChar → Bool) (s : Text) (root : Nat) : ∀ last, root ≤ last → last ≤ s.length →
    backWhile p s root last = .ok (root + (((s.take last).drop root).reverse.dropWhile p).length) := by
  intro last
  induction last with
  | zero =>
    intro h1 h2
    obtain rfl : root = 0 := by omega
    simp [backWhile]
  | succ last ih =>
    intro h1 h2
    rw [backWhile]
    split
    · next h =>
      subst h
      have : (s.take (last + 1)).drop (last + 1) = [] := List.drop_eq_nil_of_le (by simp)
      rw [this]; rfl
    · next h =>
      have hlt : last < s.length := by omega
      rw [rdc_ok s last hlt, R.ok_bind]
      have e : (s.take (last + 1)).drop root = (s.take last).drop root ++ [s[last]] := by
        rw [List.take_succ_eq_append_getElem hlt, List.drop_append_of_le_length (by simp; omega)]
      rw [e, List.reverse_append]
      by_cases hp : p s[last]
      · simp only [hp, if_true]
        rw [ih (by omega) (by omega)]
        simp [hp]
      · simp [hp]; omega

theorem sub_full (s : Text) (i : Nat) : sub s i s.length = s.drop i := by simp [sub]

theorem lastName_append (s : Text) : Spec.dropName s ++ Spec.lastName s = s := by
  unfold Spec.dropName Spec.lastName
  rw [← List.reverse_append, List.takeWhile_append_dropWhile, List.reverse_reverse]

theorem findFilename_ok (s : Text) :
    findFilename s = .ok (rootLen s + (Spec.dropName (Spec.relative s)).length) := by
  unfold findFilename
  rw [findRelativePath_ok, R.ok_bind, backWhile_ok _ _ _ _ (rootLen_le s) (Nat.le_refl _)]
  simp only [List.take_length, ← relative_eq_drop, Spec.dropName, List.length_reverse]
  rfl

theorem drop_rel (s : Text) (k : Nat) : s.drop (rootLen s + k) = (Spec.relative s).drop k := by
  rw [relative_eq_drop, List.drop_drop]

theorem take_rel (s : Text) (k : Nat) :
    s.take (rootLen s + k) = Spec.rootName s ++ Spec.rootDir s ++ (Spec.relative s).take k := by
  rw [List.take_add, ← rootPath_eq_take, relative_eq_drop]

theorem take_dropName (r : Text) : r.take (Spec.dropName r).length = Spec.dropName r := by
  conv => lhs; arg 2; rw [← lastName_append r]
  rw [List.take_left' rfl]

theorem drop_dropName (r : Text) : r.drop (Spec.dropName r).length = Spec.lastName r := by
  conv => lhs; arg 2; rw [← lastName_append r]
  rw [List.drop_left' rfl]

theorem filename_ok (s : Text) : filename s = .ok (Spec.fileName s) := by
  unfold filename
  rw [findFilename_ok, R.ok_bind, sub_full, drop_rel, drop_dropName]; rfl

theorem parentPath_ok (s : Text) : parentPath s =
    .ok (Spec.rootName s ++ Spec.rootDir s ++ Spec.dropSlashes (Spec.dropName (Spec.relative s))) := by
  unfold parentPath
  have hf := findFilename_ok s
  unfold findFilename at hf
  rw [findRelativePath_ok, R.ok_bind] at hf ⊢
  rw [hf, R.ok_bind]
  have hle : (Spec.dropName (Spec.relative s)).length ≤ (Spec.relative s).length := by
    have := congrArg List.length (lastName_append (Spec.relative s)); simp at this; omega
  have hlen := length_eq s
  rw [backWhile_ok _ _ _ _ (by omega) (by omega), R.ok_bind]
  have e : List.drop (rootLen s) (List.take (rootLen s + (Spec.dropName (Spec.relative s)).length) s)
      = Spec.dropName (Spec.relative s) := by
    rw [take_rel, take_dropName, List.drop_left' (by simp)]
  rw [e]
  simp only [sub, List.drop_zero]
  rw [take_rel]
  show Except.ok _ = _
  congr 2
  have hp : Spec.dropSlashes (Spec.dropName (Spec.relative s)) <+: Spec.relative s := by
    have h1 : Spec.dropSlashes (Spec.dropName (Spec.relative s)) <+: Spec.dropName (Spec.relative s) := by
      unfold Spec.dropSlashes
      conv => rhs; rw [← List.reverse_reverse (Spec.dropName (Spec.relative s))]
      exact List.reverse_prefix.2 (List.dropWhile_suffix _)
    have h2 : Spec.dropName (Spec.relative s) <+: Spec.relative s := by
      conv => rhs; rw [← lastName_append (Spec.relative s)]
      exact List.prefix_append _ _
    exact h1.trans h2
  have := List.prefix_iff_eq_take.1 hp
  conv => rhs; rw [this]
  simp [Spec.dropSlashes, isSlash_eq]
  rfl

end STL.Path
