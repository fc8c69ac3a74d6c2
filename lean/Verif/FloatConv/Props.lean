import Verif.FloatConv.Parse

/-! # C38: floating-point `from_chars` -/

namespace STL.FloatConv
open STL Spec STL.Charconv STL.BigInt
open STL.Charconv.Spec (isDigit digitVal)

/-! ## The longest literal -/

theorem isDigit_range {b c : Nat} (hb : b ≤ 16) (h : isDigit b c = true) : (48 ≤ c ∧ c ≤ 57) ∨ (65 ≤ c ∧ c ≤ 70) ∨ (97 ≤ c ∧ c ≤ 102) := by
  unfold isDigit digitVal at h
  split at h
  · rename_i d hd
    simp only [decide_eq_true_eq] at h
    split at hd
    · omega
    · split at hd
      · simp at hd; omega
      · split at hd
        · simp at hd; omega
        · simp at hd
  · simp at h

theorem isDigit10_range {c : Nat} (h : isDigit 10 c = true) : 48 ≤ c ∧ c ≤ 57 := by
  unfold isDigit digitVal at h
  split at h
  · rename_i d hd
    simp only [decide_eq_true_eq] at h
    split at hd
    · omega
    · split at hd
      · simp at hd; omega
      · split at hd
        · simp at hd; omega
        · simp at hd
  · simp at h

theorem base16 (fmt : Format) : base fmt ≤ 16 := by unfold base; split <;> omega

theorem dot_not_digit (fmt : Format) : isDigit (base fmt) 46 = false := by
  by_contra h
  have := isDigit_range (base16 fmt) (by simpa using h)
  omega

theorem letter_not_digit {fmt : Format} {c : Nat} (h : isLetter fmt c = true) : isDigit (base fmt) c = false ∧ c ≠ 46 := by
  unfold isLetter at h
  unfold base
  by_cases hf : fmt = .hex
  · simp only [hf, if_true, Bool.or_eq_true, beq_iff_eq] at h ⊢
    rcases h with rfl | rfl <;> decide
  · simp only [hf, if_false, Bool.or_eq_true, beq_iff_eq] at h ⊢
    rcases h with rfl | rfl <;> decide

theorem tw_app {p : Nat → Bool} {a b : List Nat} (h : ∀ c ∈ a, p c = true) : (a ++ b).takeWhile p = a ++ b.takeWhile p ∧ (a ++ b).dropWhile p = b.dropWhile p := by
  induction a with
  | nil => exact ⟨rfl, rfl⟩
  | cons x t ih =>
    have hx := h x (List.mem_cons_self ..)
    have := ih fun c hc => h c (List.mem_cons_of_mem _ hc)
    rw [List.cons_append, List.takeWhile_cons, List.dropWhile_cons, hx, if_pos rfl, if_pos rfl, this.1, this.2]
    exact ⟨rfl, rfl⟩

theorem dw_of_tw_nil {p : Nat → Bool} {l : List Nat} (h : l.takeWhile p = []) : l.dropWhile p = l := by
  have := List.takeWhile_append_dropWhile (p := p) (l := l)
  rwa [h, List.nil_append] at this

theorem tw_dw_nil (p : Nat → Bool) (l : List Nat) : (l.dropWhile p).takeWhile p = [] := by
  induction l with
  | nil => rfl
  | cons a t ih =>
    rw [List.dropWhile_cons]
    split
    · exact ih
    · rename_i h; rw [List.takeWhile_cons, if_neg h]

theorem gexp_max {fmt : Format} (hf : fmt ≠ .fixed) {x : Exp} (hx : x.Valid fmt) (t : List Nat) :
    ∃ y, (gexp fmt (x.render ++ t)).1 = some y ∧ x.render.length ≤ y.render.length ∧ (x.render.length = y.render.length → x = y) := by
  obtain ⟨c, sg, ds⟩ := x
  obtain ⟨h1, h2, h3, h4⟩ := hx
  dsimp only at h1 h2 h3 h4
  have hs : gsign (sg.toList ++ (ds ++ t)) = (sg, ds ++ t) := by
    rcases h2 with rfl | rfl | rfl
    · cases ds with
      | nil => exact absurd rfl h4
      | cons d u =>
        have := isDigit10_range (h3 d (List.mem_cons_self ..))
        show gsign (d :: (u ++ t)) = _
        unfold gsign
        dsimp only
        rw [if_neg (by omega)]; rfl
    · rfl
    · rfl
  have htw := tw_app (b := t) h3
  refine ⟨⟨c, sg, ds ++ t.takeWhile (isDigit 10)⟩, ?_, ?_, ?_⟩
  · show (gexp fmt (c :: ((sg.toList ++ ds) ++ t))).1 = _
    unfold gexp
    rw [if_neg hf]
    dsimp only
    rw [if_pos h1, List.append_assoc, hs]
    dsimp only
    rw [htw.1, if_neg (by simp [h4])]
  · simp [Exp.render]
  · intro h
    simp only [Exp.render, List.length_cons, List.length_append] at h
    have : t.takeWhile (isDigit 10) = [] := List.length_eq_zero_iff.1 (by omega)
    rw [this, List.append_nil]

theorem gexp_valid {fmt : Format} {r : List Nat} {x : Exp} (h : (gexp fmt r).1 = some x) : x.Valid fmt ∧ fmt ≠ .fixed := by
  unfold gexp at h
  by_cases hf : fmt = .fixed
  · simp [hf] at h
  · rw [if_neg hf] at h
    refine ⟨?_, hf⟩
    cases r with
    | nil => simp at h
    | cons c t =>
      dsimp only at h
      by_cases hl : isLetter fmt c = true
      · rw [if_pos hl] at h
        by_cases hn : (gsign t).2.takeWhile (isDigit 10) = []
        · simp [hn] at h
        · rw [if_neg hn] at h
          simp only [Option.some.injEq] at h
          subst h
          refine ⟨hl, ?_, tw_all, hn⟩
          show (gsign t).1 = none ∨ (gsign t).1 = some 43 ∨ (gsign t).1 = some 45
          unfold gsign
          cases t with
          | nil => exact .inl rfl
          | cons s u =>
            dsimp only
            by_cases h43 : s = 43 ∨ s = 45
            · rw [if_pos h43]
              rcases h43 with rfl | rfl <;> simp
            · rw [if_neg h43]; exact .inl rfl
      · simp [hl] at h

def Short (fmt : Format) (L : Lit) : Prop := L.whole = [] ∧ L.frac = [] ∨ fmt = .scientific ∧ L.exp = none

theorem glit_valid {fmt : Format} {neg : Bool} {r : List Nat} (h : ¬ Short fmt (glit fmt neg r).1) : (glit fmt neg r).1.Valid fmt := by
  unfold Short at h
  push Not at h
  refine ⟨tw_all, tw_all, fun hd => ?_, ?_, fun x hx => (gexp_valid hx).1, fun hs => h.2 hs, fun hf => ?_⟩
  · show (gdot (r.dropWhile (isDigit (base fmt)))).2.takeWhile _ = []
    have hg := gdot_split (r.dropWhile (isDigit (base fmt)))
    have hd' : (gdot (r.dropWhile (isDigit (base fmt)))).1 = false := hd
    rw [hd'] at hg
    simp only [Bool.false_eq_true, if_false, List.nil_append] at hg
    rw [← hg]
    exact tw_dw_nil _ _
  · by_cases hw : (glit fmt neg r).1.whole = []
    · exact .inr (h.1 hw)
    · exact .inl hw
  · cases hx : (glit fmt neg r).1.exp with
    | none => rfl
    | some x => exact absurd hf (gexp_valid hx).2

def explen : Option Exp → Nat
  | none => 0
  | some x => x.render.length

theorem body_length (L : Lit) : L.body.length = L.whole.length + (if L.dot then 1 else 0) + L.frac.length + explen L.exp := by
  unfold Lit.body explen
  rw [List.length_append, List.length_append, List.length_append]
  cases L.dot <;> cases L.exp <;> simp <;> omega

theorem head_not_tw {p : Nat → Bool} {c : Nat} {t : List Nat} (h : p c = false) : (c :: t).takeWhile p = [] := by rw [List.takeWhile_cons, h]; rfl

theorem exp_pos (x : Exp) : 0 < x.render.length := by simp [Exp.render]

def exprender : Option Exp → List Nat
  | none => []
  | some x => x.render

theorem body_eq (L : Lit) : L.body = L.whole ++ ((if L.dot then [46] else []) ++ (L.frac ++ exprender L.exp)) := by
  obtain ⟨n, w, d, f, x⟩ := L
  cases x <;> rfl

/-- Nothing of the required form is longer than what is found. -/
theorem glit_max {fmt : Format} {L : Lit} (hL : L.Valid fmt) (t : List Nat) :
    ¬ Short fmt (glit fmt L.neg (L.body ++ t)).1 ∧ L.body.length ≤ (glit fmt L.neg (L.body ++ t)).1.body.length ∧
      (L.body.length = (glit fmt L.neg (L.body ++ t)).1.body.length → L = (glit fmt L.neg (L.body ++ t)).1) := by
  obtain ⟨neg, w, dot, f, x⟩ := L
  obtain ⟨v1, v2, v3, v4, v5, v6, v7⟩ := hL
  dsimp only at v1 v2 v3 v4 v5 v6 v7
  obtain ⟨p, hp⟩ : ∃ p, p = isDigit (base fmt) := ⟨_, rfl⟩
  have hdotp : p 46 = false := by rw [hp]; exact dot_not_digit fmt
  -- the exponent
  have hxr : ∃ xr : List Nat, exprender x = xr ∧ (∀ y, x = some y → (xr ++ t).takeWhile p = [] ∧ gdot (xr ++ t) = (false, xr ++ t)) ∧ (x = none → xr = []) := by
    cases x with
    | none => exact ⟨[], rfl, by simp, fun _ => rfl⟩
    | some y =>
      have hl := letter_not_digit (v5 y rfl).letter
      refine ⟨y.render, rfl, fun _ _ => ⟨?_, ?_⟩, by simp⟩
      · rw [hp]; exact head_not_tw hl.1
      · show gdot (y.letter :: _) = _
        unfold gdot
        dsimp only
        rw [if_neg hl.2]; rfl
  obtain ⟨xr, hxr, hx1, hx2⟩ := hxr
  have hbody : (Lit.mk neg w dot f x).body ++ t = w ++ ((if dot then [46] else []) ++ (f ++ (xr ++ t))) := by
    rw [body_eq]
    dsimp only
    rw [hxr]
    simp only [List.append_assoc]
  have hlen := body_length ⟨neg, w, dot, f, x⟩
  dsimp only at hlen
  rw [hbody, hlen]
  dsimp only
  obtain ⟨b, hb⟩ : ∃ b, b = (if dot then [46] else []) ++ (f ++ (xr ++ t)) := ⟨_, rfl⟩
  rw [← hb]
  rw [← hp] at v1 v2
  have hw := tw_app (b := b) v1
  have gW : (glit fmt neg (w ++ b)).1.whole = (w ++ b).takeWhile p := by rw [hp]; rfl
  have gD : (glit fmt neg (w ++ b)).1.dot = (gdot ((w ++ b).dropWhile p)).1 := by rw [hp]; rfl
  have gF : (glit fmt neg (w ++ b)).1.frac = (gdot ((w ++ b).dropWhile p)).2.takeWhile p := by rw [hp]; rfl
  have gX : (glit fmt neg (w ++ b)).1.exp = (gexp fmt ((gdot ((w ++ b).dropWhile p)).2.dropWhile p)).1 := by rw [hp]; rfl
  have gN : (glit fmt neg (w ++ b)).1.neg = neg := rfl
  rw [hw.1] at gW
  rw [hw.2] at gD gF gX
  obtain ⟨GL, hGL⟩ : ∃ GL, GL = (glit fmt neg (w ++ b)).1 := ⟨_, rfl⟩
  rw [← hGL] at gW gD gF gX gN
  show ¬ Short fmt (glit fmt neg (w ++ b)).1 ∧ _ ≤ _ ∧ (_ = _ → _ = (glit fmt neg (w ++ b)).1)
  rw [← hGL, body_length GL]
  obtain ⟨gn, gw, gd, gf, gx⟩ := GL
  dsimp only at gW gD gF gX gN
  subst gN
  dsimp only
  unfold Short
  dsimp only
  by_cases hbt : b.takeWhile p = []
  · rw [hbt, List.append_nil] at gW
    rw [dw_of_tw_nil hbt] at gD gF gX
    subst gW
    cases dot
    · have hf : f = [] := v3 rfl
      subst hf
      simp only [Bool.false_eq_true, if_false, List.nil_append] at hb
      subst hb
      have hw0 : gw ≠ [] := v4.resolve_right (by simp)
      cases x with
      | none =>
        have hns : fmt ≠ .scientific := fun h => v6 h rfl
        refine ⟨by tauto, ?_, fun h => ?_⟩
        · simp [explen]; omega
        · have h1 : gd = false := by
            cases gd
            · rfl
            · simp [explen] at h; omega
          have h2 : gf = [] := List.length_eq_zero_iff.1 (by simp [explen] at h; omega)
          have h3 : gx = none := by
            cases gx with
            | none => rfl
            | some y => have := exp_pos y; simp [explen] at h; omega
          rw [h1, h2, h3]
      | some y =>
        obtain ⟨h1, h2⟩ := hx1 y rfl
        rw [h2] at gD gF gX
        rw [h1] at gF
        rw [dw_of_tw_nil h1] at gX
        have hff : fmt ≠ .fixed := fun h => by have := v7 h; simp at this
        subst hxr
        unfold exprender at *
        obtain ⟨z, hz, hz1, hz2⟩ := gexp_max hff (v5 y rfl) t
        rw [hz] at gX
        subst gX gF gD
        refine ⟨by rintro (h | h) <;> simp at h; exact hw0 h, ?_, fun h => ?_⟩
        · simp [explen]; omega
        · rw [hz2 (by simp [explen] at h; omega)]
    · simp only [if_true] at hb
      subst hb
      have hg : gdot ([46] ++ (f ++ (xr ++ t))) = (true, f ++ (xr ++ t)) := rfl
      rw [hg] at gD gF gX
      dsimp only at gD gF gX
      have hf := tw_app (b := xr ++ t) v2
      rw [hf.1] at gF
      rw [hf.2] at gX
      cases x with
      | none =>
        have hns : fmt ≠ .scientific := fun h => v6 h rfl
        refine ⟨?_, ?_, fun h => ?_⟩
        · rintro (⟨h1, h2⟩ | h)
          · rw [gF, List.append_eq_nil_iff] at h2
            rcases v4 with v4 | v4
            · exact v4 h1
            · exact v4 h2.1
          · exact hns h.1
        · rw [gF, gD]; simp [explen]; omega
        · rw [gF, gD] at h
          have h2 : (xr ++ t).takeWhile p = [] := List.length_eq_zero_iff.1 (by simp [explen] at h; omega)
          have h3 : gx = none := by
            cases gx with
            | none => rfl
            | some y => have := exp_pos y; simp [explen] at h; omega
          rw [gF, gD, h2, h3, List.append_nil]
      | some y =>
        obtain ⟨h1, h2⟩ := hx1 y rfl
        rw [h1, List.append_nil] at gF
        rw [dw_of_tw_nil h1] at gX
        have hff : fmt ≠ .fixed := fun h => by have := v7 h; simp at this
        subst hxr
        unfold exprender at *
        obtain ⟨z, hz, hz1, hz2⟩ := gexp_max hff (v5 y rfl) t
        rw [hz] at gX
        subst gX gF gD
        refine ⟨?_, ?_, fun h => ?_⟩
        · rintro (h | h)
          · rcases v4 with v4 | v4
            · exact v4 h.1
            · exact v4 h.2
          · simp at h
        · simp [explen]; omega
        · rw [hz2 (by simp [explen] at h; omega)]
  · -- more digits follow
    have hdot : dot = false := by
      cases dot
      · rfl
      · exfalso
        simp only [if_true] at hb
        rw [hb] at hbt
        exact hbt (head_not_tw hdotp)
    subst hdot
    have hf : f = [] := v3 rfl
    subst hf
    simp only [Bool.false_eq_true, if_false, List.nil_append] at hb
    have hx : x = none := by
      cases x with
      | none => rfl
      | some y => rw [hb] at hbt; exact absurd (hx1 y rfl).1 hbt
    subst hx
    have hns : fmt ≠ .scientific := fun h => v6 h rfl
    have hpos : 0 < (b.takeWhile p).length := List.length_pos_iff.2 hbt
    refine ⟨?_, ?_, fun h => ?_⟩
    · rintro (⟨h1, _⟩ | h)
      · rw [gW, List.append_eq_nil_iff] at h1; exact hbt h1.2
      · exact hns h.1
    · rw [gW]; simp [explen]; omega
    · rw [gW] at h; simp [explen] at h; omega

/-! ## `from_chars` -/

theorem body_head {fmt : Format} {L : Lit} (hL : L.Valid fmt) : ∃ d u, L.body = d :: u ∧ (d = 46 ∨ isDigit (base fmt) d = true) := by
  rw [body_eq]
  cases hw : L.whole with
  | cons a t => exact ⟨a, _, rfl, .inr (hL.whole a (by rw [hw]; exact List.mem_cons_self ..))⟩
  | nil =>
    have hf : L.frac ≠ [] := hL.some.resolve_left (by simp [hw])
    have hd : L.dot = true := by
      by_contra h
      exact hf (hL.noFrac (by simpa using h))
    rw [hd]
    exact ⟨46, _, rfl, .inl rfl⟩

theorem folded_low : ∀ c, c < 103 → (48 ≤ c ∧ c ≤ 57) ∨ (65 ≤ c ∧ c ≤ 70) ∨ (97 ≤ c ∧ c ≤ 102) ∨ c = 46 → (c ||| 0x20) ≤ 102 ∧ c ≠ 45 := by decide +kernel

theorem head_low {fmt : Format} {d : Nat} (h : d = 46 ∨ isDigit (base fmt) d = true) : (d ||| 0x20) ≤ 102 ∧ d ≠ 45 := by
  have : (48 ≤ d ∧ d ≤ 57) ∨ (65 ≤ d ∧ d ≤ 70) ∨ (97 ≤ d ∧ d ≤ 102) ∨ d = 46 := by
    rcases h with h | h
    · omega
    · have := isDigit_range (base16 fmt) h; omega
  exact folded_low d (by omega) this

/-- The sign, then the rest. -/
theorem fromChars_eq (T : Traits) (g : Nat → Nat) (s : List Nat) (fmt : Format) :
    fromChars T g s fmt = match afterSign s with
      | [] => .ok ⟨0, .invalidArgument, none⟩
      | d :: u =>
        if (d ||| 0x20) ≤ 102 then ordinary T g s.length fmt (hasMinus s) (d :: u)
        else if (d ||| 0x20) = 105 then .ok (infinity T s.length (hasMinus s) (d :: u))
        else if (d ||| 0x20) = 110 then .ok (nan T s.length (hasMinus s) (d :: u))
        else .ok ⟨0, .invalidArgument, none⟩ := by
  cases s with
  | nil => rfl
  | cons c t =>
    by_cases hc : c = 45
    · subst hc
      cases t <;> rfl
    · have h1 : hasMinus (c :: t) = false := by simp [hasMinus, hc]
      unfold fromChars afterSign
      dsimp only
      rw [h1]
      simp only [hc, if_false, decide_false, Bool.false_eq_true]

theorem sign_length (s : List Nat) : s.length = (if hasMinus s then 1 else 0) + (afterSign s).length := by
  unfold afterSign hasMinus
  cases s with
  | nil => rfl
  | cons c t =>
    by_cases hc : c = 45 <;> simp [hc]
    omega

theorem sign_split (s : List Nat) : s = (if hasMinus s then [45] else []) ++ afterSign s := by
  unfold afterSign hasMinus
  cases s with
  | nil => rfl
  | cons c t => by_cases hc : c = 45 <;> simp [hc]

/-- Where a literal starts. -/
theorem render_split {fmt : Format} {L : Lit} (hL : L.Valid fmt) {s t : List Nat} (h : s = L.render ++ t) : hasMinus s = L.neg ∧ afterSign s = L.body ++ t := by
  subst h
  unfold Lit.render
  cases hn : L.neg
  · obtain ⟨d, u, hb, hd⟩ := body_head hL
    have := (head_low hd).2
    have h1 : hasMinus (((if (false : Bool) = true then [45] else []) ++ L.body) ++ t) = false := by simp [hb, hasMinus, this]
    refine ⟨h1, ?_⟩
    unfold afterSign
    rw [h1]; simp
  · exact ⟨by simp [hasMinus], by simp [afterSign, hasMinus]⟩

theorem Bytes.afterSign {s : List Nat} (h : Bytes s) : Bytes (afterSign s) := by
  unfold Spec.afterSign
  split
  · exact h.suffix (List.tail_suffix s)
  · exact h

theorem glit_prefix (fmt : Format) (s : List Nat) : s = (glit fmt (hasMinus s) (afterSign s)).1.render ++ (glit fmt (hasMinus s) (afterSign s)).2 := by
  unfold Lit.render
  have h1 := glit_split fmt (hasMinus s) (afterSign s)
  have hn : (glit fmt (hasMinus s) (afterSign s)).1.neg = hasMinus s := rfl
  rw [hn, List.append_assoc, ← h1]
  exact sign_split s

theorem scale_ok {T : Traits} (G : Good T) (v : ℚ) : v = v * scale T * 2 ^ (2 - bias T.exponentBits - T.mantissaBits) := by
  unfold scale
  rw [G.minE, mul_assoc, ← zpow_add₀ (by norm_num)]
  rw [show (T.mantissaBits : Int) - 1 - (1 - bias T.exponentBits) + (2 - bias T.exponentBits - T.mantissaBits) = 0 by ring]
  simp

theorem fromChars_literal {T : Traits} (G : Good T) (g : Nat → Nat) {s : List Nat} (hB : Bytes s) (hl : s.length < 2 ^ 57) (fmt : Format) {L : Lit} (hL : Longest fmt s L) :
    ∃ b, Nearest T.mantissaBits T.exponentBits b (L.value fmt) ∧
      fromChars T g s fmt = .ok ⟨L.render.length, if L.value fmt ≠ 0 ∧ (b = 0 ∨ b = inf T.mantissaBits T.exponentBits) then .resultOutOfRange else .none, some (withSign T L.neg b)⟩ := by
  obtain ⟨hV, ⟨t, ht⟩, hmax⟩ := hL
  obtain ⟨hn, hr⟩ := render_split hV ht.symm
  obtain ⟨hs, hle, heq⟩ := glit_max hV t
  have hG := glit_prefix fmt s
  rw [hn, hr] at hG
  have hle2 := hmax _ (glit_valid hs) ⟨_, hG.symm⟩
  have hEq : L = (glit fmt L.neg (L.body ++ t)).1 := by
    apply heq
    apply le_antisymm hle
    have hn2 : (glit fmt L.neg (L.body ++ t)).1.neg = L.neg := rfl
    unfold Lit.render at hle2
    rw [hn2, List.length_append, List.length_append] at hle2
    omega
  obtain ⟨d, u, hb, hd⟩ := body_head hV
  have hls := sign_length s
  have hO := (ordinary_ok G g s.length fmt L.neg (r := L.body ++ t) (by rw [← hr]; exact hB.afterSign) (by rw [← hr]; omega)).2 hs
  rw [← hEq] at hO
  obtain ⟨b, hb1, hb2⟩ := hO
  refine ⟨b, hb1.nearest (by have := G.p2; omega) (scale_ok G _), ?_⟩
  rw [fromChars_eq, hr, hn]
  rw [hb] at hb2 ⊢
  show (if (d ||| 0x20) ≤ 102 then _ else _) = _
  rw [if_pos (head_low hd).1]
  refine hb2.trans ?_
  have hlen : s.length - (glit fmt L.neg (d :: u ++ t)).2.length = L.render.length := by
    have := congrArg List.length hG
    rw [← hEq, List.length_append] at this
    rw [← hb]
    omega
  rw [hlen]
  unfold outcome
  dsimp only
  by_cases h0 : L.value fmt = 0 <;> simp [h0]

/-! ### Names -/

theorem fold_lower : ∀ c, c < 256 → ((97 ≤ (c ||| 0x20) ∧ (c ||| 0x20) ≤ 122) ∨ (97 ≤ lower c ∧ lower c ≤ 122)) → (c ||| 0x20) = lower c := by decide +kernel

theorem fold_iff {c l : Nat} (hc : c < 256) (h1 : 97 ≤ l) (h2 : l ≤ 122) : (c ||| 0x20) = l ↔ lower c = l := by
  have := fold_lower c hc
  constructor
  · intro h; rw [← this (by omega)]; exact h
  · intro h; rw [this (by omega)]; exact h

theorem startsWith_iff {name : List Nat} (hn : ∀ c ∈ name, 97 ≤ c ∧ c ≤ 122) : ∀ {s : List Nat}, Bytes s → (startsWith s name = true ↔ Starts name s) := by
  induction name with
  | nil => intro s _; simp [startsWith, Starts]
  | cons l n ih =>
    intro s hB
    cases s with
    | nil => simp [startsWith, Starts]
    | cons c t =>
      have hl := hn l (List.mem_cons_self ..)
      have hi := ih (fun c hc => hn c (List.mem_cons_of_mem _ hc)) hB.tail
      have hf := fold_iff hB.head hl.1 hl.2
      unfold startsWith
      unfold Starts at hi ⊢
      simp only [List.length_cons, List.take_succ_cons, List.map_cons, List.cons.injEq]
      rw [← hf, ← hi]
      by_cases h : (c ||| 0x20) = l <;> simp [h]

theorem Bytes.drop {s : List Nat} (h : Bytes s) (n : Nat) : Bytes (s.drop n) := h.suffix (List.drop_suffix n s)

theorem starts_split {name : List Nat} {a : Nat} {s : List Nat} (h : Starts (a :: name) s) : ∃ d u, s = d :: u ∧ lower d = a ∧ Starts name u := by
  cases s with
  | nil => simp [Starts] at h
  | cons d u =>
    unfold Starts at h
    simp only [List.length_cons, List.take_succ_cons, List.map_cons, List.cons.injEq] at h
    exact ⟨d, u, rfl, h.1, h.2⟩

theorem starts_length {name s : List Nat} (h : Starts name s) : name.length ≤ s.length := by
  have := congrArg List.length h
  simp at this
  omega

theorem starts_append {a b s : List Nat} : Starts (a ++ b) s ↔ Starts a s ∧ Starts b (s.drop a.length) := by
  unfold Starts
  rw [List.length_append, List.take_add, List.map_append]
  constructor
  · intro h
    have hl := congrArg List.length h
    simp at hl
    exact List.append_inj h (by simp; omega)
  · rintro ⟨h1, h2⟩
    rw [h1, h2]

theorem fromChars_infinity {T : Traits} (G : Good T) (g : Nat → Nat) {s : List Nat} (hB : Bytes s) (fmt : Format) (h : Starts sInf (afterSign s)) :
    fromChars T g s fmt = .ok ⟨(if hasMinus s then 1 else 0) + (if Starts sInfinity (afterSign s) then 8 else 3), .none, some (withSign T (hasMinus s) (inf T.mantissaBits T.exponentBits))⟩ := by
  have hBr := hB.afterSign
  have hl := sign_length s
  have h8 : Starts sInfinity (afterSign s) ↔ Starts [105, 110, 105, 116, 121] ((afterSign s).drop 3) :=
    (starts_append (a := sInf) (b := [105, 110, 105, 116, 121])).trans (and_iff_right h)
  have hsw := startsWith_iff (name := [105, 110, 105, 116, 121]) (by decide) (hBr.drop 3)
  rw [fromChars_eq]
  obtain ⟨r, hr⟩ : ∃ r, r = afterSign s := ⟨_, rfl⟩
  rw [← hr] at h8 hsw hl h hBr ⊢
  have hlen := starts_length h
  obtain ⟨d, u, hdu, hd, hu⟩ := starts_split h
  have hd' : (d ||| 0x20) = 105 := (fold_iff (by rw [hdu] at hBr; exact hBr.head) (by decide) (by decide)).2 hd
  have hu' : startsWith u [110, 102] = true := (startsWith_iff (by decide) (by rw [hdu] at hBr; exact hBr.tail)).2 hu
  rw [if_congr h8 rfl rfl, ← if_congr hsw rfl rfl]
  subst hdu
  show (if (d ||| 0x20) ≤ 102 then _ else _) = _
  rw [hd', if_neg (by decide), if_pos rfl]
  unfold infinity
  rw [show (d :: u).drop 1 = u from rfl, hu', if_neg (by decide), asmInf_ok G]
  dsimp only
  congr 2
  have : sInf.length = 3 := rfl
  split
  · rename_i h5
    have := starts_length (hsw.1 h5)
    rw [List.length_drop] at this
    have : [105, 110, 105, 116, 121].length = 5 := rfl
    rw [List.length_drop, List.length_drop]
    omega
  · rw [List.length_drop]
    omega

theorem nanLoop_some {l acc rest seq : List Nat} (h : nanLoop l acc = some (rest, seq)) : ∃ q, seq = acc.reverse ++ q ∧ (∀ c ∈ q, isNchar c) ∧ l = q ++ 41 :: rest := by
  induction l generalizing acc with
  | nil => simp [nanLoop] at h
  | cons c t ih =>
    unfold nanLoop at h
    split at h
    · rename_i hc
      simp only [Option.some.injEq, Prod.mk.injEq] at h
      obtain ⟨rfl, rfl⟩ := h
      exact ⟨[], by simp, by simp, by rw [hc]; rfl⟩
    · split at h
      · rename_i hc
        obtain ⟨q, h1, h2, h3⟩ := ih h
        refine ⟨c :: q, by simp [h1], ?_, by rw [h3]; rfl⟩
        intro x hx
        rcases List.mem_cons.1 hx with rfl | hx
        · unfold isNchar; omega
        · exact h2 x hx
      · simp at h

theorem nanLoop_paren {q rest acc : List Nat} (h : ∀ c ∈ q, isNchar c) : nanLoop (q ++ 41 :: rest) acc = some (rest, acc.reverse ++ q) := by
  induction q generalizing acc with
  | nil => simp [nanLoop]
  | cons c t ih =>
    have hc := h c (List.mem_cons_self ..)
    unfold isNchar at hc
    rw [List.cons_append, nanLoop, if_neg (by omega), if_pos (by omega), ih fun x hx => h x (List.mem_cons_of_mem _ hx)]
    simp

theorem whole_iff {name : List Nat} (hn : ∀ c ∈ name, 97 ≤ c ∧ c ≤ 122) {q : List Nat} (hB : Bytes q) :
    (q.length = name.length ∧ startsWith q name = true) ↔ q.map lower = name := by
  rw [startsWith_iff hn hB]
  unfold Starts
  constructor
  · rintro ⟨h1, h2⟩
    rwa [List.take_of_length_le (by omega)] at h2
  · intro h
    have := congrArg List.length h
    rw [List.length_map] at this
    exact ⟨this, by rwa [List.take_of_length_le (by omega)]⟩

theorem nan_bits {T : Traits} (hT : T = flt ∨ T = dbl) (neg quiet : Bool) :
    nanValue T neg quiet = nanBits T.mantissaBits T.exponentBits neg quiet := by
  rcases hT with rfl | rfl <;> cases neg <;> cases quiet <;> decide

theorem fromChars_nan_eq (T : Traits) (g : Nat → Nat) {s : List Nat} (hB : Bytes s) (fmt : Format) (h : Starts sNan (afterSign s)) :
    fromChars T g s fmt = .ok (nan T s.length (hasMinus s) (afterSign s)) ∧ startsWith ((afterSign s).drop 1) [97, 110] = true ∧ 3 ≤ (afterSign s).length := by
  have hBr := hB.afterSign
  have hlen := starts_length h
  rw [fromChars_eq]
  obtain ⟨r, hr⟩ : ∃ r, r = afterSign s := ⟨_, rfl⟩
  rw [← hr] at h hBr hlen ⊢
  obtain ⟨d, u, hdu, hd, hu⟩ := starts_split h
  have hd' : (d ||| 0x20) = 110 := (fold_iff (by rw [hdu] at hBr; exact hBr.head) (by decide) (by decide)).2 hd
  have hu' : startsWith u [97, 110] = true := (startsWith_iff (by decide) (by rw [hdu] at hBr; exact hBr.tail)).2 hu
  subst hdu
  refine ⟨?_, hu', hlen⟩
  show (if (d ||| 0x20) ≤ 102 then _ else _) = _
  rw [hd', if_neg (by decide), if_neg (by decide), if_pos rfl]

theorem fromChars_nan_paren {T : Traits} (hT : T = flt ∨ T = dbl) (g : Nat → Nat) {s : List Nat} (hB : Bytes s) (fmt : Format) (h : Starts sNan (afterSign s))
    {seq rest : List Nat} (hP : Paren ((afterSign s).drop 3) seq rest) :
    fromChars T g s fmt = .ok ⟨(if hasMinus s then 1 else 0) + 3 + (seq.length + 2), .none,
      some (nanBits T.mantissaBits T.exponentBits (hasMinus s || decide (seq.map lower = [105, 110, 100])) (!decide (seq.map lower = [115, 110, 97, 110])))⟩ := by
  have hl := sign_length s
  obtain ⟨h1, h2, h3⟩ := fromChars_nan_eq T g hB fmt h
  obtain ⟨p1, p2⟩ := hP
  have hBq : Bytes seq := by
    intro c hc
    have := p1 c hc
    unfold isNchar at this
    omega
  have hl3 : (afterSign s).length = 3 + (seq.length + 1 + rest.length + 1) := by
    have := congrArg List.length p2
    rw [List.length_drop] at this
    simp only [List.length_cons, List.length_append] at this
    omega
  have hi : (seq.length = 3 ∧ startsWith seq [105, 110, 100] = true) ↔ _ := whole_iff (name := [105, 110, 100]) (by decide) hBq
  have hq : (seq.length = 4 ∧ startsWith seq [115, 110, 97, 110] = true) ↔ _ := whole_iff (name := [115, 110, 97, 110]) (by decide) hBq
  have ht : nanTail (hasMinus s) ((afterSign s).drop 3) =
      (rest, (hasMinus s || decide (seq.map lower = [105, 110, 100])), (!decide (seq.map lower = [115, 110, 97, 110]))) := by
    rw [p2]
    unfold nanTail
    dsimp only
    rw [if_pos rfl, nanLoop_paren p1]
    dsimp only [List.reverse_nil, List.nil_append]
    by_cases c1 : seq.map lower = [105, 110, 100]
    · rw [if_pos (hi.2 c1)]
      simp [c1]
    · rw [if_neg (fun hh => c1 (hi.1 hh))]
      by_cases c2 : seq.map lower = [115, 110, 97, 110]
      · rw [if_pos (hq.2 c2)]
        simp [c2]
      · rw [if_neg (fun hh => c2 (hq.1 hh))]
        simp [c1, c2]
  rw [h1]
  unfold nan
  rw [h2, if_neg (by decide), ht]
  dsimp only
  rw [nan_bits hT]
  congr 2
  omega

theorem fromChars_nan_plain {T : Traits} (hT : T = flt ∨ T = dbl) (g : Nat → Nat) {s : List Nat} (hB : Bytes s) (fmt : Format) (h : Starts sNan (afterSign s))
    (hP : ∀ seq rest, ¬ Paren ((afterSign s).drop 3) seq rest) :
    fromChars T g s fmt = .ok ⟨(if hasMinus s then 1 else 0) + 3, .none, some (nanBits T.mantissaBits T.exponentBits (hasMinus s) true)⟩ := by
  have hl := sign_length s
  obtain ⟨h1, h2, h3⟩ := fromChars_nan_eq T g hB fmt h
  have hlen : s.length - ((afterSign s).drop 3).length = (if hasMinus s then 1 else 0) + 3 := by rw [List.length_drop]; omega
  have ht : nanTail (hasMinus s) ((afterSign s).drop 3) = ((afterSign s).drop 3, hasMinus s, true) := by
    obtain ⟨q, hq⟩ : ∃ q, q = (afterSign s).drop 3 := ⟨_, rfl⟩
    rw [← hq] at hP ⊢
    unfold nanTail
    cases q with
    | nil => rfl
    | cons c t =>
      dsimp only
      by_cases hc : c = 40
      · rw [if_pos hc]
        cases hN : nanLoop t [] with
        | none => rfl
        | some z =>
          exfalso
          obtain ⟨rest, seq⟩ := z
          obtain ⟨q, e1, e2, e3⟩ := nanLoop_some hN
          rw [List.reverse_nil, List.nil_append] at e1
          subst e1
          exact hP seq rest ⟨e2, by rw [hc, e3]⟩
      · rw [if_neg hc]
  rw [h1]
  unfold nan
  rw [h2, if_neg (by decide), ht]
  dsimp only
  rw [nan_bits hT, hlen]

theorem fromChars_invalid {T : Traits} (G : Good T) (g : Nat → Nat) {s : List Nat} (hB : Bytes s) (hl : s.length < 2 ^ 57) (fmt : Format)
    (h1 : ∀ L : Lit, L.Valid fmt → ¬ L.render <+: s) (h2 : ¬ Starts sInf (afterSign s)) (h3 : ¬ Starts sNan (afterSign s)) :
    fromChars T g s fmt = .ok ⟨0, .invalidArgument, none⟩ := by
  have hBr := hB.afterSign
  have hls := sign_length s
  have hG := glit_prefix fmt s
  have hO := (ordinary_ok G g s.length fmt (hasMinus s) hBr (by omega)).1
  have hS : Short fmt (glit fmt (hasMinus s) (afterSign s)).1 := by
    by_contra h
    exact h1 _ (glit_valid h) ⟨_, hG.symm⟩
  have hO := hO hS
  rw [fromChars_eq]
  obtain ⟨r, hr⟩ : ∃ r, r = afterSign s := ⟨_, rfl⟩
  rw [← hr] at h2 h3 hO hBr ⊢
  cases r with
  | nil => rfl
  | cons d u =>
    dsimp only
    rw [hO]
    have s1 : startsWith (d :: u) sInf = false := by rw [← Bool.not_eq_true, startsWith_iff (by decide) hBr]; exact h2
    have s2 : startsWith (d :: u) sNan = false := by rw [← Bool.not_eq_true, startsWith_iff (by decide) hBr]; exact h3
    by_cases c1 : (d ||| 0x20) ≤ 102
    · rw [if_pos c1]
    · rw [if_neg c1]
      by_cases c2 : (d ||| 0x20) = 105
      · rw [if_pos c2]
        unfold Spec.sInf startsWith at s1
        rw [c2, if_neg (by simp)] at s1
        unfold infinity
        rw [show (d :: u).drop 1 = u from rfl, s1, if_pos rfl]
      · rw [if_neg c2]
        by_cases c3 : (d ||| 0x20) = 110
        · rw [if_pos c3]
          unfold sNan startsWith at s2
          rw [c3, if_neg (by simp)] at s2
          unfold nan
          rw [show (d :: u).drop 1 = u from rfl, s2, if_pos rfl]
        · rw [if_neg c3]

/-- A literal of the required form at the start of the input: then there is a longest one. -/
theorem longest_exists {fmt : Format} {s : List Nat} {L : Lit} (hV : L.Valid fmt) (hp : L.render <+: s) : Longest fmt s (glit fmt (hasMinus s) (afterSign s)).1 := by
  obtain ⟨t, ht⟩ := hp
  obtain ⟨hn, hr⟩ := render_split hV ht.symm
  have hs := (glit_max hV t).1
  rw [← hn, ← hr] at hs
  refine ⟨glit_valid hs, ⟨_, (glit_prefix fmt s).symm⟩, ?_⟩
  rintro L' hV' ⟨t', ht'⟩
  obtain ⟨hn', hr'⟩ := render_split hV' ht'.symm
  have hle := (glit_max hV' t').2.1
  rw [hn', hr']
  have hn2 : (glit fmt L'.neg (L'.body ++ t')).1.neg = L'.neg := rfl
  unfold Lit.render
  rw [hn2, List.length_append, List.length_append]
  omega

/-! ## C38 -/

/-- **C38**, `float`. The longest literal of the format's form at the start of the input is consumed, and the result is the pattern nearest to the exact value, ties to even;
out of range is reported exactly for a nonzero number whose result is zero or infinite. Whatever was in the uninitialized words. -/
theorem C38_float (g : Nat → Nat) {s : List Nat} (hB : ∀ c ∈ s, c < 256) (hl : s.length < 2 ^ 57) (fmt : Format) {L : Lit} (hL : Longest fmt s L) :
    ∃ b, Nearest 24 8 b (L.value fmt) ∧
      fromChars flt g s fmt = .ok ⟨L.render.length, if L.value fmt ≠ 0 ∧ (b = 0 ∨ b = 0x7F800000) then .resultOutOfRange else .none, some ((if L.neg then 0x80000000 else 0) + b)⟩ :=
  fromChars_literal flt_good g hB hl fmt hL

/-- **C38**, `double`. -/
theorem C38_double (g : Nat → Nat) {s : List Nat} (hB : ∀ c ∈ s, c < 256) (hl : s.length < 2 ^ 57) (fmt : Format) {L : Lit} (hL : Longest fmt s L) :
    ∃ b, Nearest 53 11 b (L.value fmt) ∧
      fromChars dbl g s fmt = .ok ⟨L.render.length, if L.value fmt ≠ 0 ∧ (b = 0 ∨ b = 0x7FF0000000000000) then .resultOutOfRange else .none,
        some ((if L.neg then 0x8000000000000000 else 0) + b)⟩ :=
  fromChars_literal dbl_good g hB hl fmt hL

/-- **C38**: neither a literal of the form nor a name at the start: `invalid_argument`, nothing consumed, nothing stored. -/
theorem C38_invalid {T : Traits} (hT : T = flt ∨ T = dbl) (g : Nat → Nat) {s : List Nat} (hB : ∀ c ∈ s, c < 256) (hl : s.length < 2 ^ 57) (fmt : Format)
    (h1 : ∀ L : Lit, L.Valid fmt → ¬ L.render <+: s) (h2 : ¬ Starts Spec.sInf (afterSign s)) (h3 : ¬ Starts sNan (afterSign s)) :
    fromChars T g s fmt = .ok ⟨0, .invalidArgument, none⟩ := by
  rcases hT with rfl | rfl
  · exact fromChars_invalid flt_good g hB hl fmt h1 h2 h3
  · exact fromChars_invalid dbl_good g hB hl fmt h1 h2 h3

/-- **C38**: `inf` and `infinity` in any case, with or without `-`. -/
theorem C38_infinity {T : Traits} (hT : T = flt ∨ T = dbl) (g : Nat → Nat) {s : List Nat} (hB : ∀ c ∈ s, c < 256) (fmt : Format) (h : Starts Spec.sInf (afterSign s)) :
    fromChars T g s fmt = .ok ⟨(if hasMinus s then 1 else 0) + (if Starts sInfinity (afterSign s) then 8 else 3), .none,
      some ((if hasMinus s then 2 ^ (T.mantissaBits + T.exponentBits - 1) else 0) + inf T.mantissaBits T.exponentBits)⟩ := by
  rcases hT with rfl | rfl
  · exact fromChars_infinity flt_good g hB fmt h
  · exact fromChars_infinity dbl_good g hB fmt h

/-- **C38**: `nan(...)`; `nan(ind)` is negative, `nan(snan)` signals. -/
theorem C38_nan_paren {T : Traits} (hT : T = flt ∨ T = dbl) (g : Nat → Nat) {s : List Nat} (hB : ∀ c ∈ s, c < 256) (fmt : Format) (h : Starts sNan (afterSign s))
    {seq rest : List Nat} (hP : Paren ((afterSign s).drop 3) seq rest) :
    fromChars T g s fmt = .ok ⟨(if hasMinus s then 1 else 0) + 3 + (seq.length + 2), .none,
      some (nanBits T.mantissaBits T.exponentBits (hasMinus s || decide (seq.map lower = [105, 110, 100])) (!decide (seq.map lower = [115, 110, 97, 110])))⟩ :=
  fromChars_nan_paren hT g hB fmt h hP

/-- **C38**: `nan` without such a sequence. -/
theorem C38_nan {T : Traits} (hT : T = flt ∨ T = dbl) (g : Nat → Nat) {s : List Nat} (hB : ∀ c ∈ s, c < 256) (fmt : Format) (h : Starts sNan (afterSign s))
    (hP : ∀ seq rest, ¬ Paren ((afterSign s).drop 3) seq rest) :
    fromChars T g s fmt = .ok ⟨(if hasMinus s then 1 else 0) + 3, .none, some (nanBits T.mantissaBits T.exponentBits (hasMinus s) true)⟩ :=
  fromChars_nan_plain hT g hB fmt h hP

/-! ## The hypotheses can be met -/

/-- `-16777217e0;`: a tie between 2^24 and 2^24 + 2. -/
def tieText : List Nat := [45, 49, 54, 55, 55, 55, 50, 49, 55, 101, 48, 59]

example : ∃ L, Longest .general tieText L ∧ L.render.length = 11 ∧ L.value .general = 16777217 := by
  refine ⟨_, longest_exists (L := ⟨true, [49, 54, 55, 55, 55, 50, 49, 55], false, [], some ⟨101, none, [48]⟩⟩) ?_ ?_, by decide, ?_⟩
  · exact ⟨by decide, by decide, by decide, by decide, by rintro x ⟨⟩; exact ⟨by decide, .inl rfl, by decide, by decide⟩, by decide, by decide⟩
  · exact ⟨[59], by decide⟩
  · have : (glit .general (hasMinus tieText) (afterSign tieText)).1 = ⟨true, [49, 54, 55, 55, 55, 50, 49, 55], false, [], some ⟨101, none, [48]⟩⟩ := by rfl
    rw [this]
    have hb : base .general = 10 := rfl
    have he : expBase .general = 10 := rfl
    unfold Lit.value Lit.expValue Exp.value
    rw [hb, he]
    norm_num [numOf, digits, Charconv.Spec.digitVal]

example : fromChars flt (fun _ => 7) tieText .general = .ok ⟨11, .none, some 0xCB800000⟩ := by rfl
example : Starts Spec.sInf (afterSign [45, 73, 110, 70, 105]) ∧ ¬ Starts sInfinity (afterSign [45, 73, 110, 70, 105]) := by decide
example : Starts sNan (afterSign [110, 97, 78, 40, 73, 110, 100, 41, 33]) ∧ Paren ((afterSign [110, 97, 78, 40, 73, 110, 100, 41, 33]).drop 3) [73, 110, 100] [33] := by
  refine ⟨by decide, ?_, by decide⟩
  intro c hc
  simp only [List.mem_cons, List.not_mem_nil, or_false] at hc
  unfold isNchar; omega
/-- `.e5`: no digits. -/
example : ∀ L : Lit, L.Valid .general → ¬ L.render <+: [46, 101, 53] := by
  intro L hV hp
  have h := longest_exists hV hp
  have h2 := h.1.some
  exact absurd h2 (by decide)

end STL.FloatConv
