import Verif.Searchers.Basic

/-! # Correctness of the Boyer-Moore `delta_2` table (Knuth-Morris-Pratt `dd'` with the Rytter correction) -/

namespace STL

section comb
variable {K : Type} (P : Nat → K) (m : Nat)

/-- `pat[t+1 .. m] = pat[j+1 .. m-(t-j)]` (1-based). -/
def SufB (j t : Nat) : Prop := ∀ i, t < i → i ≤ m → P i = P (i - (t - j))

structure IsF (j t : Nat) : Prop where
  lt : j < t
  le : t ≤ m + 1
  suf : SufB P m j t
  min : ∀ t', j < t' → t' ≤ m + 1 → SufB P m j t' → t ≤ t'

variable {P m}

theorem SufB.down {j t t' : Nat} (h1 : j < t) (h2 : t < t') (a : SufB P m j t) (b : SufB P m j t') : SufB P m t t' := by
  intro i hi hm
  have e1 := b i hi hm
  have e2 := a (i - (t' - t)) (by omega) (by omega)
  have e3 : i - (t' - t) - (t - j) = i - (t' - j) := by omega
  rw [e2, e3, e1]

theorem SufB.comp {j t t' : Nat} (h1 : j < t) (h2 : t < t') (a : SufB P m j t) (b : SufB P m t t') : SufB P m j t' := by
  intro i hi hm
  have e1 := b i hi hm
  have e2 := a (i - (t' - t)) (by omega) (by omega)
  have e3 : i - (t' - t) - (t - j) = i - (t' - j) := by omega
  rw [e1, e2, e3]

theorem SufB.pred {j t : Nat} (h1 : j < t) (h0 : 1 ≤ j) (a : SufB P m j t) (he : t ≤ m → P j = P t) : SufB P m (j - 1) (t - 1) := by
  intro i hi hm
  have e3 : i - (t - 1 - (j - 1)) = i - (t - j) := by omega
  rw [e3]
  rcases Nat.lt_or_ge t i with hl | hl
  · exact a i hl hm
  · have e : i = t := by omega
    subst e
    have : i - (i - j) = j := by omega
    rw [this, he hm]

theorem SufB.succ {j t : Nat} (h1 : j < t) (h0 : 1 ≤ j) (a : SufB P m (j - 1) (t - 1)) : SufB P m j t ∧ (t ≤ m → P j = P t) := by
  constructor
  · intro i hi hm
    have := a i (by omega) hm
    have e3 : i - (t - 1 - (j - 1)) = i - (t - j) := by omega
    rwa [e3] at this
  · intro hm
    have := a t (by omega) hm
    have e3 : t - (t - 1 - (j - 1)) = j := by omega
    rw [this, e3]

variable (P m)

/-- `pat[1 .. g-1] = pat[j-g+1 .. j-1]`. -/
def PreB (j g : Nat) : Prop := g < j ∧ ∀ i, 1 ≤ i → i < g → P i = P (i + (j - g))

structure IsG (j g : Nat) : Prop where
  pre : PreB P j g
  max : ∀ g', PreB P j g' → g' ≤ g

variable {P m}

theorem PreB.down {j t t' : Nat} (h : t' < t) (a : PreB P j t) (b : PreB P j t') : PreB P t t' := by
  refine ⟨h, fun i h1 h2 => ?_⟩
  have e1 := b.2 i h1 h2
  have e2 := a.2 (i + (t - t')) (by omega) (by omega)
  have := a.1
  have e3 : i + (t - t') + (j - t) = i + (j - t') := by omega
  rw [e2, e3, e1]

theorem PreB.comp {j t t' : Nat} (a : PreB P j t) (b : PreB P t t') : PreB P j t' := by
  have h1 := a.1
  have h2 := b.1
  refine ⟨by omega, fun i hi1 hi2 => ?_⟩
  have e1 := b.2 i hi1 hi2
  have e2 := a.2 (i + (t - t')) (by omega) (by omega)
  have e3 : i + (t - t') + (j - t) = i + (j - t') := by omega
  rw [e1, e2, e3]

theorem IsG.next {j t : Nat} (h1 : 1 ≤ j) (a : PreB P j t) (he : 1 ≤ t → P j = P t)
    (hm : ∀ g', t < g' → PreB P j g' → P j ≠ P g') : IsG P (j + 1) (t + 1) := by
  have h0 := a.1
  refine ⟨⟨by omega, fun i hi1 hi2 => ?_⟩, fun g' hg' => ?_⟩
  · have e : j + 1 - (t + 1) = j - t := by omega
    rw [e]
    rcases Nat.lt_or_ge i t with hl | hl
    · exact a.2 i hi1 hl
    · have : i = t := by omega
      subst this
      have : i + (j - i) = j := by omega
      rw [this, he hi1]
  · by_contra hlt
    have hg1 := hg'.1
    have hb : PreB P j (g' - 1) := by
      refine ⟨by omega, fun i hi1 hi2 => ?_⟩
      have := hg'.2 i hi1 (by omega)
      have e : j + 1 - g' = j - (g' - 1) := by omega
      rwa [e] at this
    apply hm (g' - 1) (by omega) hb
    have := hg'.2 (g' - 1) (by omega) (by omega)
    have e : g' - 1 + (j + 1 - g') = j := by omega
    rw [e] at this
    exact this.symm

variable (P m)
/-- `s` is a period of the pattern. -/
def Per (s : Nat) : Prop := ∀ i, s < i → i ≤ m → P i = P (i - s)
variable {P m}

theorem Per.next {q g tx : Nat} (hq : Per P m q) (hq1 : 1 ≤ q) (hqm : q < m) (htx : tx = m + 1 - q) (hg : IsG P tx g) :
    1 ≤ g ∧ Per P m (m + 1 - g) ∧ ∀ s, q < s → Per P m s → m + 1 - g ≤ s := by
  have hlt := hg.pre.1
  have hg1 : 1 ≤ g := hg.max 1 ⟨by omega, fun i h1 h2 => by omega⟩
  refine ⟨hg1, ?_, ?_⟩
  · intro i hi him
    have e1 := hg.pre.2 (i - (m + 1 - g)) (by omega) (by omega)
    have e2 := hq i (by omega) him
    have e3 : i - (m + 1 - g) + (tx - g) = i - q := by omega
    rw [e2, e1, e3]
  · intro s hs hper
    by_contra hlt2
    have : PreB P tx (m + 1 - s) := by
      refine ⟨by omega, fun i h1 h2 => ?_⟩
      have e1 := hper (i + s) (by omega) (by omega)
      have e2 := hq (i + s) (by omega) (by omega)
      have e3 : i + s - s = i := by omega
      have e4 : i + s - q = i + (tx - (m + 1 - s)) := by omega
      rw [e3] at e1
      rw [← e1, e2, e4]
    have := hg.max _ this
    omega

end comb

/-! ## The table as a list -/

/-- 1-based value. -/
def sv (S : List Nat) (t : Nat) : Nat := S.getD (t - 1) 0

theorem rd1_full (S : List Nat) (t : Nat) (h1 : 1 ≤ t) (h2 : t ≤ S.length) : rd1 (full S) t = .ok (sv S t) := by
  unfold rd1
  rw [if_neg (by omega), rd_full _ _ (by omega)]
  simp [sv, List.getD_eq_getElem?_getD, List.getElem?_eq_getElem (show t - 1 < S.length by omega)]

theorem wr1_full (S : List Nat) (t v : Nat) (h1 : 1 ≤ t) (h2 : t ≤ S.length) : wr1 (full S) t v = .ok (full (S.set (t - 1) v)) := by
  unfold wr1
  rw [if_neg (by omega), wr_full _ _ _ (by omega)]

theorem sv_set (S : List Nat) (t v k : Nat) (h1 : 1 ≤ t) (h2 : t ≤ S.length) (hk : 1 ≤ k) :
    sv (S.set (t - 1) v) k = if k = t then v else sv S k := by
  unfold sv
  rw [List.getD_eq_getElem?_getD, List.getD_eq_getElem?_getD, List.getElem?_set]
  by_cases h : k = t
  · subst h; rw [if_pos rfl, if_pos rfl, if_pos (by omega)]; rfl
  · rw [if_neg h, if_neg (by omega)]

section d2
variable {α κ : Type} (eq : α → α → Bool) (cl : α → κ) (hcl : ∀ a b, eq a b = true ↔ cl a = cl b) (p : List α)

/-- The class of the `i`-th pattern element, 1-based. -/
def pc (i : Nat) : Option κ := (p[i - 1]?).map cl

theorem rdc1_eq (p : List α) (i : Nat) (h1 : 1 ≤ i) (h2 : i ≤ p.length) : rdc1 p i = .ok (p[i - 1]'(by omega)) := by
  unfold rdc1
  rw [if_neg (by omega), rdc_eq]

include hcl in
theorem eq_iff_pc (i j : Nat) (hi : 1 ≤ i) (hi2 : i ≤ p.length) (hj : 1 ≤ j) (hj2 : j ≤ p.length) :
    eq (p[i - 1]'(by omega)) (p[j - 1]'(by omega)) = true ↔ pc cl p i = pc cl p j := by
  rw [hcl]
  simp [pc, List.getElem?_eq_getElem (show i - 1 < p.length by omega), List.getElem?_eq_getElem (show j - 1 < p.length by omega)]

/-- Entries `[J, m]` of the failure array are correct. -/
def FxOK (J : Nat) (fx : Mem Nat) : Prop :=
  fx.length = p.length ∧ ∀ j, J ≤ j → 1 ≤ j → j ≤ p.length → ∃ t, fx[j - 1]? = some (some t) ∧ IsF (pc cl p) p.length j t

def Low (S : List Nat) : Prop := ∀ k, 1 ≤ k → k ≤ p.length → p.length - k + 1 ≤ sv S k
def Upp (S : List Nat) : Prop := ∀ k, 1 ≤ k → k ≤ p.length → sv S k ≤ 2 * p.length - k

def Comp (J : Nat) (S : List Nat) : Prop := ∀ j t, J ≤ j → 1 ≤ j → j < t → t ≤ p.length → SufB (pc cl p) p.length j t →
  pc cl p j ≠ pc cl p t → sv S t ≤ p.length - j

theorem rd1_of (fx : Mem Nat) (j t : Nat) (h1 : 1 ≤ j) (h : fx[j - 1]? = some (some t)) : rd1 fx j = .ok t := by
  unfold rd1 rd
  rw [if_neg (by omega), h]

include hcl in
theorem d2Inner_spec (j : Nat) (hj : 1 ≤ j) (hjm : j ≤ p.length) (fx : Mem Nat) (hfx : FxOK cl p j fx) (fuel : Nat) :
    ∀ (t : Nat) (S : List Nat), p.length + 1 - t < fuel → j < t → t ≤ p.length + 1 → SufB (pc cl p) p.length j t →
      S.length = p.length → Low p S → Upp p S → Comp cl p (j + 1) S →
      (∀ t', j < t' → t' < t → SufB (pc cl p) p.length j t' → pc cl p j ≠ pc cl p t' ∧ sv S t' ≤ p.length - j) →
      ∃ t' S', d2Inner eq p p.length j fx fuel t (full S) = .ok (t', full S') ∧ j < t' ∧ t' ≤ p.length + 1 ∧
        SufB (pc cl p) p.length j t' ∧ (t' ≤ p.length → pc cl p j = pc cl p t') ∧
        (∀ t'', j < t'' → t'' < t' → SufB (pc cl p) p.length j t'' → pc cl p j ≠ pc cl p t'') ∧
        S'.length = p.length ∧ Low p S' ∧ Upp p S' ∧ Comp cl p j S' := by
  induction fuel with
  | zero => intro t S h0; omega
  | succ fuel ih =>
    intro t S hf hjt htm hsuf hlen hlow hupp hcomp hpart
    unfold d2Inner
    have hexit : (t ≤ p.length → pc cl p j = pc cl p t) → Comp cl p j S := by
      intro he j0 t0 h1 h2 h3 h4 h5 h6
      rcases Nat.lt_or_ge j j0 with hl | hl
      · exact hcomp j0 t0 hl h2 h3 h4 h5 h6
      · have : j0 = j := by omega
        subst this
        rcases Nat.lt_trichotomy t0 t with hl2 | hl2 | hl2
        · exact (hpart t0 h3 hl2 h5).2
        · subst hl2; exact absurd (he h4) h6
        · have := hcomp t t0 (by omega) (by omega) hl2 h4 (SufB.down hjt hl2 hsuf h5) (by rw [← he (by omega)]; exact h6)
          omega
    by_cases ht : t ≤ p.length
    · rw [if_pos ht, rdc1_eq p j hj hjm, R.ok_bind, rdc1_eq p t (by omega) ht, R.ok_bind]
      by_cases he : pc cl p j = pc cl p t
      · have he' := (eq_iff_pc eq cl hcl p j t hj hjm (by omega) ht).2 he
        rw [if_neg (by simp [he'])]
        exact ⟨t, S, rfl, hjt, htm, hsuf, fun _ => he, fun t'' a b c => (hpart t'' a b c).1, hlen, hlow, hupp, hexit (fun _ => he)⟩
      · have he' := (not_congr (eq_iff_pc eq cl hcl p j t hj hjm (by omega) ht)).2 he
        rw [if_pos (by simpa using he'), rd1_full S t (by omega) (by omega), R.ok_bind, wr1_full S t _ (by omega) (by omega), R.ok_bind]
        obtain ⟨t1, hg1, hF⟩ := hfx.2 t (by omega) (by omega) ht
        rw [rd1_of fx t t1 (by omega) hg1, R.ok_bind]
        have hsv : ∀ k, 1 ≤ k → sv (S.set (t - 1) (min (sv S t) (p.length - j))) k = if k = t then min (sv S t) (p.length - j) else sv S k :=
          fun k hk => sv_set S t _ k (by omega) (by omega) hk
        have hle : ∀ k, 1 ≤ k → sv (S.set (t - 1) (min (sv S t) (p.length - j))) k ≤ sv S k := by
          intro k hk; rw [hsv k hk]; split
          · subst k; omega
          · omega
        refine ih t1 _ (by have := hF.lt; omega) (by have := hF.lt; omega) hF.le (SufB.comp hjt hF.lt hsuf hF.suf) (by simpa using hlen) ?_ ?_ ?_ ?_
        · intro k h1 h2
          rw [hsv k h1]
          have := hlow k h1 h2
          split
          · subst k; have := hlow t h1 h2; omega
          · exact this
        · intro k h1 h2
          exact Nat.le_trans (hle k h1) (hupp k h1 h2)
        · intro j0 t0 h1 h2 h3 h4 h5 h6
          exact Nat.le_trans (hle t0 (by omega)) (hcomp j0 t0 h1 h2 h3 h4 h5 h6)
        · intro t' h1 h2 h3
          rcases Nat.lt_trichotomy t' t with hl | hl | hl
          · exact ⟨(hpart t' h1 hl h3).1, Nat.le_trans (hle t' (by omega)) (hpart t' h1 hl h3).2⟩
          · subst hl
            exact ⟨he, by rw [hsv _ (by omega), if_pos rfl]; omega⟩
          · have := hF.min t' hl (by have := hF.le; omega) (SufB.down hjt hl hsuf h3)
            omega
    · rw [if_neg ht]
      exact ⟨t, S, rfl, hjt, htm, hsuf, fun h => absurd h ht, fun t'' a b c => (hpart t'' a b c).1, hlen, hlow, hupp, hexit (fun h => absurd h ht)⟩

theorem wr1_mem (fx : Mem Nat) (j v : Nat) (h1 : 1 ≤ j) (h2 : j ≤ fx.length) : wr1 fx j v = .ok (fx.set (j - 1) (some v)) := by
  unfold wr1 wr
  rw [if_neg (by omega), if_pos (by omega)]

include hcl in
theorem d2Outer_spec : ∀ (j t : Nat) (fx : Mem Nat) (S : List Nat), j ≤ p.length → IsF (pc cl p) p.length j t →
    FxOK cl p (j + 1) fx → S.length = p.length → Low p S → Upp p S → Comp cl p (j + 1) S →
    ∃ t' fx' S', d2Outer eq p p.length j t fx (full S) = .ok (t', fx', full S') ∧ IsF (pc cl p) p.length 0 t' ∧
      fx'.length = p.length ∧ S'.length = p.length ∧ Low p S' ∧ Upp p S' ∧ Comp cl p 1 S' := by
  intro j
  induction j with
  | zero =>
    intro t fx S _ hF hfx hlen hlow hupp hcomp
    exact ⟨t, fx, S, rfl, hF, hfx.1, hlen, hlow, hupp, hcomp⟩
  | succ j ih =>
    intro t fx S hjm hF hfx hlen hlow hupp hcomp
    unfold d2Outer
    rw [wr1_mem fx (j + 1) t (by omega) (by have := hfx.1; omega), R.ok_bind]
    have hfx' : FxOK cl p (j + 1) (fx.set (j + 1 - 1) (some t)) := by
      refine ⟨by simpa using hfx.1, fun j' h1 h2 h3 => ?_⟩
      rcases Nat.lt_or_ge (j + 1) j' with hl | hl
      · obtain ⟨t', ht', hF'⟩ := hfx.2 j' (by omega) h2 h3
        refine ⟨t', ?_, hF'⟩
        rw [List.getElem?_set_ne (by omega)]; exact ht'
      · have : j' = j + 1 := by omega
        subst this
        refine ⟨t, ?_, hF⟩
        have := hfx.1
        rw [List.getElem?_set_self (by omega)]
    have HH := d2Inner_spec eq cl hcl p (j + 1) (by omega) hjm _ hfx' (p.length + 2) t S (by omega) hF.lt hF.le hF.suf hlen hlow hupp hcomp
      (fun t' h1 h2 h3 => by have := hF.min t' h1 (by have := hF.le; omega) h3; omega)
    obtain ⟨t', S', h1, h2, h3, h4, h5, h6, h7, h8, h9, h10⟩ := HH
    simp only [h1, R.ok_bind]
    rw [decIt, if_neg (by omega), R.ok_bind]
    refine ih (t' - 1) _ S' (by omega) ⟨by omega, by omega, ?_, fun t'' a b c => ?_⟩ hfx' h7 h8 h9 h10
    · have := SufB.pred h2 (by omega) h4 h5
      simpa using this
    · by_contra hlt
      have c' : SufB (pc cl p) p.length (j + 1 - 1) (t'' + 1 - 1) := by simpa using c
      have HS := SufB.succ (show j + 1 < t'' + 1 by omega) (by omega) c'
      exact h6 (t'' + 1) (by omega) (by omega) HS.1 (HS.2 (by omega))

/-- Entries `[1, J)` of the failure array are the forward borders. -/
def GxOK (J : Nat) (fx : Mem Nat) : Prop :=
  fx.length = p.length ∧ ∀ j, 1 ≤ j → j < J → ∃ g, fx[j - 1]? = some (some g) ∧ IsG (pc cl p) j g

include hcl in
theorem rytInner_spec (j : Nat) (hj : 1 ≤ j) (hjm : j ≤ p.length) (fx : Mem Nat) (hfx : GxOK cl p (j + 1) fx) (fuel : Nat) :
    ∀ t1, t1 < fuel → PreB (pc cl p) j t1 → (∀ g', t1 < g' → PreB (pc cl p) j g' → pc cl p j ≠ pc cl p g') →
      ∃ t', rytInner eq p j fx fuel t1 = .ok t' ∧ IsG (pc cl p) (j + 1) (t' + 1) := by
  induction fuel with
  | zero => intro t1 h0; omega
  | succ fuel ih =>
    intro t1 hf hpre hmax
    have hlt := hpre.1
    unfold rytInner
    by_cases h1 : t1 ≥ 1
    · rw [if_pos h1, rdc1_eq p j hj hjm, R.ok_bind, rdc1_eq p t1 h1 (by omega), R.ok_bind]
      by_cases he : pc cl p j = pc cl p t1
      · have he' := (eq_iff_pc eq cl hcl p j t1 hj hjm h1 (by omega)).2 he
        rw [if_neg (by simp [he'])]
        exact ⟨t1, rfl, IsG.next hj hpre (fun _ => he) hmax⟩
      · have he' := (not_congr (eq_iff_pc eq cl hcl p j t1 hj hjm h1 (by omega))).2 he
        rw [if_pos (by simpa using he')]
        obtain ⟨g, hg, hG⟩ := hfx.2 t1 h1 (by omega)
        rw [rd1_of fx t1 g h1 hg, R.ok_bind]
        refine ih g (by have := hG.pre.1; omega) (PreB.comp hpre hG.pre) fun g' h2 h3 => ?_
        rcases Nat.lt_trichotomy g' t1 with hl | hl | hl
        · have := hG.max g' (PreB.down hl hpre h3); omega
        · subst hl; exact he
        · exact hmax g' hl h3
    · rw [if_neg h1]
      exact ⟨t1, rfl, IsG.next hj hpre (fun h => absurd h h1) hmax⟩

include hcl in
theorem rytOuter_spec (tx : Nat) (htx : tx ≤ p.length) (n : Nat) : ∀ (j t1 : Nat) (fx : Mem Nat), n = tx + 1 - j → 1 ≤ j → j ≤ tx + 1 →
    IsG (pc cl p) j t1 → GxOK cl p j fx →
    ∃ fx', rytOuter eq p tx j t1 fx = .ok fx' ∧ GxOK cl p (tx + 1) fx' := by
  induction n with
  | zero =>
    intro j t1 fx hn h1 hj hG hfx
    unfold rytOuter
    rw [dif_neg (by omega)]
    have : j = tx + 1 := by omega
    subst this
    exact ⟨fx, rfl, hfx⟩
  | succ n ih =>
    intro j t1 fx hn h1 hj hG hfx
    unfold rytOuter
    rw [dif_pos (by omega), wr1_mem fx j t1 h1 (by have := hfx.1; omega), R.ok_bind]
    have hfx' : GxOK cl p (j + 1) (fx.set (j - 1) (some t1)) := by
      refine ⟨by simpa using hfx.1, fun j' h2 h3 => ?_⟩
      rcases Nat.lt_or_ge j' j with hl | hl
      · obtain ⟨g, hg, hGg⟩ := hfx.2 j' h2 hl
        refine ⟨g, ?_, hGg⟩
        rw [List.getElem?_set_ne (by omega)]; exact hg
      · have : j' = j := by omega
        subst this
        refine ⟨t1, ?_, hG⟩
        have := hfx.1
        rw [List.getElem?_set_self (by omega)]
    obtain ⟨t', h2, h3⟩ := rytInner_spec eq cl hcl p j h1 (by omega) _ hfx' (p.length + 2) t1 (by have := hG.pre.1; omega) hG.pre
      (fun g' hg' hp => by have := hG.max g' hp; omega)
    rw [h2, R.ok_bind]
    exact ih (j + 1) (t' + 1) _ (by omega) (by omega) (by omega) h3 hfx'

theorem d2Min_spec (m q : Nat) (n : Nat) : ∀ (k : Nat) (S : List Nat), n = q + 1 - k → 1 ≤ k → q ≤ S.length →
    ∃ S', d2Min m q k (full S) = .ok (full S') ∧ S'.length = S.length ∧
      ∀ i, 1 ≤ i → sv S' i = if k ≤ i ∧ i ≤ q then min (sv S i) (m + q - i) else sv S i := by
  induction n with
  | zero =>
    intro k S hn h1 hq
    unfold d2Min
    rw [dif_neg (by omega)]
    exact ⟨S, rfl, rfl, fun i hi => by rw [if_neg (by omega)]⟩
  | succ n ih =>
    intro k S hn h1 hq
    unfold d2Min
    rw [dif_pos (by omega), rd1_full S k h1 (by omega), R.ok_bind, wr1_full S k _ h1 (by omega), R.ok_bind]
    obtain ⟨S', h2, h3, h4⟩ := ih (k + 1) (S.set (k - 1) (min (sv S k) (m + q - k))) (by omega) (by omega) (by simpa using hq)
    refine ⟨S', h2, by simpa using h3, fun i hi => ?_⟩
    rw [h4 i hi, sv_set S k _ i h1 (by omega) hi]
    by_cases he : i = k
    · subst he
      rw [if_neg (by omega), if_pos rfl, if_pos (by omega)]
    · simp only [if_neg he]
      by_cases hc : k + 1 ≤ i ∧ i ≤ q
      · rw [if_pos hc, if_pos (by omega)]
      · rw [if_neg hc, if_neg (by omega)]

def Comp2 (J : Nat) (S : List Nat) : Prop := ∀ k s, 1 ≤ k → k < J → k ≤ p.length → k ≤ s → Per (pc cl p) p.length s →
  sv S k ≤ p.length + s - k

theorem d2Fix_spec (fx : Mem Nat) (fuel : Nat) : ∀ (q1 q tx : Nat) (S : List Nat), p.length - q < fuel → 1 ≤ q1 → q1 ≤ q → q ≤ p.length →
    tx = p.length + 1 - q → Per (pc cl p) p.length q → (∀ s, q1 ≤ s → Per (pc cl p) p.length s → q ≤ s) →
    GxOK cl p (tx + 1) fx → S.length = p.length → Low p S → Upp p S → Comp cl p 1 S → Comp2 cl p q1 S →
    ∃ S', d2Fix p.length fx fuel q1 q tx (full S) = .ok (full S') ∧ S'.length = p.length ∧ Low p S' ∧ Comp cl p 1 S' ∧
      Comp2 cl p (p.length + 1) S' := by
  induction fuel with
  | zero => intro q1 q tx S h0; omega
  | succ fuel ih =>
    intro q1 q tx S hf hq1 hq hqm htx hper hmin hfx hlen hlow hupp hcomp hcomp2
    unfold d2Fix
    by_cases hlt : q < p.length
    · rw [if_pos hlt]
      obtain ⟨S', h1, h2, h3⟩ := d2Min_spec p.length q _ q1 S rfl hq1 (by omega)
      rw [h1, R.ok_bind]
      obtain ⟨g, hg, hG⟩ := hfx.2 tx (by omega) (by omega)
      rw [rd1_of fx tx g (by omega) hg, R.ok_bind]
      obtain ⟨n1, n2, n3⟩ := Per.next hper (by omega) hlt htx hG
      have hgt := hG.pre.1
      have e : q + tx - g = p.length + 1 - g := by omega
      rw [e]
      have hle : ∀ i, 1 ≤ i → sv S' i ≤ sv S i := by
        intro i hi; rw [h3 i hi]; split <;> omega
      refine ih (q + 1) (p.length + 1 - g) g S' (by omega) (by omega) (by omega) (by omega) (by omega) n2
        (fun s hs hp => n3 s (by omega) hp) ⟨hfx.1, fun j a b => hfx.2 j a (by omega)⟩ (by omega) ?_ ?_ ?_ ?_
      · intro k a b
        have := hlow k a b
        rw [h3 k a]; split <;> omega
      · intro k a b
        exact Nat.le_trans (hle k a) (hupp k a b)
      · intro j t a b c d e' f
        exact Nat.le_trans (hle t (by omega)) (hcomp j t a b c d e' f)
      · intro k s a b c d hps
        rcases Nat.lt_or_ge k q1 with hl | hl
        · exact Nat.le_trans (hle k a) (hcomp2 k s a hl c d hps)
        · have := hmin s (by omega) hps
          rw [h3 k a, if_pos (by omega)]
          omega
    · rw [if_neg hlt]
      refine ⟨S, rfl, hlen, hlow, hcomp, fun k s a b c d hps => ?_⟩
      rcases Nat.lt_or_ge k q1 with hl | hl
      · exact hcomp2 k s a hl c d hps
      · have := hmin s (by omega) hps
        have := hupp k a c
        omega

include hcl in
/-- The `delta_2` table: at mismatch position `k` (1-based), no alignment shift `s` that is compatible with what has been
matched is skipped, and the window always moves forward. -/
theorem buildDelta2_spec (maxDiff : Nat) (hm : 1 ≤ p.length) (hmax : 2 * p.length ≤ maxDiff) :
    ∃ S, buildDelta2 eq maxDiff p = .ok (full S) ∧ S.length = p.length ∧ Low p S ∧
      ∀ k s, 1 ≤ k → k ≤ p.length → 1 ≤ s → (s < k → pc cl p k ≠ pc cl p (k - s)) →
        (∀ i, k < i → i ≤ p.length → s < i → pc cl p i = pc cl p (i - s)) → sv S k ≤ s + p.length - k := by
  unfold buildDelta2
  simp only []
  rw [if_neg (by omega), if_neg (by omega)]
  have esh : (List.range p.length).map (fun k => some (2 * p.length - (k + 1))) =
      full ((List.range p.length).map (fun k => 2 * p.length - (k + 1))) := by simp [full]
  rw [esh]
  set S0 := (List.range p.length).map (fun k => 2 * p.length - (k + 1)) with hS0
  have hsv0 : ∀ k, 1 ≤ k → k ≤ p.length → sv S0 k = 2 * p.length - k := by
    intro k h1 h2
    unfold sv
    rw [List.getD_eq_getElem?_getD, hS0, List.getElem?_map, List.getElem?_range (by omega)]
    simp; omega
  have HH := d2Outer_spec eq cl hcl p p.length (p.length + 1) (List.replicate p.length none) S0 (Nat.le_refl _)
    ⟨by omega, by omega, fun i a b => by omega, fun t' a b c => by omega⟩ ⟨by simp, fun j a b c => by omega⟩ (by simp [hS0])
    (fun k a b => by rw [hsv0 k a b]; omega) (fun k a b => by rw [hsv0 k a b]) (fun j t a b c d => by omega)
  obtain ⟨q, fx, S1, h1, hF, hfx, hlen1, hlow1, hupp1, hcomp1⟩ := HH
  simp only [h1, R.ok_bind]
  have hq0 := hF.lt
  have hqm : q ≤ p.length := hF.min p.length (by omega) (by omega) (fun i a b => by omega)
  obtain ⟨fx2, h2, hG⟩ := rytOuter_spec eq cl hcl p (p.length + 1 - q) (by omega) _ 1 0 fx rfl (by omega) (by omega)
    ⟨⟨by omega, fun i a b => by omega⟩, fun g' hg' => by have := hg'.1; omega⟩ ⟨hfx, fun j a b => by omega⟩
  rw [h2, R.ok_bind]
  have HF := d2Fix_spec cl p fx2 (p.length + 1) 1 q (p.length + 1 - q) S1 (by omega) (by omega) (by omega) hqm rfl ?_ ?_ hG hlen1 hlow1 hupp1 hcomp1
    (fun k s a b => by omega)
  · obtain ⟨S, h3, hlen, hlow, hcomp, hcomp2⟩ := HF
    refine ⟨S, h3, hlen, hlow, fun k s hk1 hk2 hs hmis hsuf => ?_⟩
    rcases Nat.lt_or_ge s k with hl | hl
    · have := hcomp (k - s) k (by omega) (by omega) (by omega) hk2 ?_ (fun h => hmis hl h.symm)
      · omega
      · intro i hi him
        have := hsuf i hi him (by omega)
        have e : k - (k - s) = s := by omega
        rw [e]; exact this
    · have := hcomp2 k s hk1 (by omega) hk2 hl (fun i hi him => hsuf i (by omega) him hi)
      omega
  · intro i hi him
    have := hF.suf i hi him
    simpa using this
  · intro s hs hp
    by_contra hlt
    have := hF.min s (by omega) (by omega) (fun i a b => by simpa using hp i a b)
    omega

end d2

end STL
