import Verif.RBTree.Rep

/-! # `_Insert_node` rebalances. Proofs only. -/

namespace STL.RBT
open STL
variable {α κ : Type}

/-- red-black balance with black height `n` (the root may be red) -/
def Bal : T α → Nat → Prop
  | .nil, n => n = 0
  | .node _ _ c l r, n => (c = true → isRed l = false ∧ isRed r = false) ∧ ∃ m, Bal l m ∧ Bal r m ∧ n = if c then m else m + 1

def hRed : Cx α → Bool
  | [] => false
  | f :: _ => f.red

/-- a context whose hole takes a tree of black height `n` -/
def BalC : Cx α → Nat → Prop
  | [], _ => True
  | f :: C, n => Bal f.sib n ∧ (f.red = true → isRed f.sib = false ∧ hRed C = false ∧ C ≠ []) ∧ BalC C (if f.red then n else n + 1)

theorem bal_red {i : Nat} {v : α} {l r : T α} {n : Nat} : Bal (.node i v true l r) n ↔ isRed l = false ∧ isRed r = false ∧ Bal l n ∧ Bal r n := by
  simp [Bal, and_assoc]

theorem bal_black {i : Nat} {v : α} {l r : T α} {n : Nat} : Bal (.node i v false l r) (n + 1) ↔ Bal l n ∧ Bal r n := by
  simp [Bal]

theorem bal_black' {i : Nat} {v : α} {l r : T α} {n : Nat} : Bal (.node i v false l r) n ↔ ∃ m, n = m + 1 ∧ Bal l m ∧ Bal r m := by
  simp only [Bal, Bool.false_eq_true, false_implies, true_and, if_false]
  exact ⟨fun ⟨m, a, b, c⟩ => ⟨m, c, a, b⟩, fun ⟨m, a, b, c⟩ => ⟨m, b, c, a⟩⟩

theorem balC_red {b : Bool} {i : Nat} {v : α} {s : T α} {C : Cx α} {n : Nat} : BalC (⟨b, i, v, true, s⟩ :: C) n ↔
    Bal s n ∧ isRed s = false ∧ hRed C = false ∧ C ≠ [] ∧ BalC C n := by simp [BalC, and_assoc]

theorem balC_black {b : Bool} {i : Nat} {v : α} {s : T α} {C : Cx α} {n : Nat} : BalC (⟨b, i, v, false, s⟩ :: C) n ↔ Bal s n ∧ BalC C (n + 1) := by
  simp [BalC]

theorem bal_plug : ∀ {C : Cx α} {t : T α} {n : Nat}, Bal t n → BalC C n → (hRed C = true → isRed t = false) → ∃ m, Bal (plug C t) m
  | [], t, n, ht, _, _ => ⟨n, ht⟩
  | ⟨true, i, v, true, s⟩ :: C, t, n, ht, hc, hr => by
    rw [balC_red] at hc
    exact bal_plug (C := C) (n := n) (bal_red.2 ⟨hr rfl, hc.2.1, ht, hc.1⟩) hc.2.2.2.2 (by rw [hc.2.2.1]; simp)
  | ⟨false, i, v, true, s⟩ :: C, t, n, ht, hc, hr => by
    rw [balC_red] at hc
    exact bal_plug (C := C) (n := n) (bal_red.2 ⟨hc.2.1, hr rfl, hc.1, ht⟩) hc.2.2.2.2 (by rw [hc.2.2.1]; simp)
  | ⟨true, i, v, false, s⟩ :: C, t, n, ht, hc, hr => by
    rw [balC_black] at hc
    exact bal_plug (C := C) (n := n + 1) (bal_black.2 ⟨ht, hc.1⟩) hc.2 (by simp [isRed])
  | ⟨false, i, v, false, s⟩ :: C, t, n, ht, hc, hr => by
    rw [balC_black] at hc
    exact bal_plug (C := C) (n := n + 1) (bal_black.2 ⟨hc.1, ht⟩) hc.2 (by simp [isRed])

/-- blackening the root -/
def blacken : T α → T α
  | .nil => .nil
  | .node i v _ l r => .node i v false l r

theorem bal_blacken {t : T α} {n : Nat} (h : Bal t n) : ∃ m, Bal (blacken t) m ∧ isRed (blacken t) = false := by
  cases t with
  | nil => exact ⟨n, h, rfl⟩
  | node i v c l r => obtain ⟨_, m, a, b, _⟩ := h; exact ⟨m + 1, bal_black.2 ⟨a, b⟩, rfl⟩

theorem At.setL {hd : Nat} {h : Hp α} {Lm Rm : Nat} {C : Cx α} {g i : Nat} {gv v : α} {gc c : Bool} {l r s : T α} (c' : Bool)
    (hA : At hd h Lm Rm C (.node g gv gc (.node i v c l r) s)) :
    ∃ h', RBT.setC h i c' = .ok h' ∧ At hd h' Lm Rm C (.node g gv gc (.node i v c' l r) s) ∧ Same hd (inord C (.node g gv gc (.node i v c l r) s)) h h' := by
  obtain ⟨h', a, b, d⟩ := (At.upL.2 hA).setC c'
  rw [inord_upL] at d
  exact ⟨h', a, At.upL.1 b, d⟩

theorem At.setR {hd : Nat} {h : Hp α} {Lm Rm : Nat} {C : Cx α} {g i : Nat} {gv v : α} {gc c : Bool} {l r s : T α} (c' : Bool)
    (hA : At hd h Lm Rm C (.node g gv gc s (.node i v c l r))) :
    ∃ h', RBT.setC h i c' = .ok h' ∧ At hd h' Lm Rm C (.node g gv gc s (.node i v c' l r)) ∧ Same hd (inord C (.node g gv gc s (.node i v c l r))) h h' := by
  obtain ⟨h', a, b, d⟩ := (At.upR.2 hA).setC c'
  rw [inord_upR] at d
  exact ⟨h', a, At.upR.1 b, d⟩

theorem Same.cast {hd : Nat} {X Y : List (Nat × α)} {h h' : Hp α} (a : Same hd X h h') (e : X = Y) : Same hd Y h h' := e ▸ a

theorem ptr_ne {hd : Nat} {t : T α} {q : Nat} (h1 : q ≠ hd) (h2 : q ∉ ids t) : q ≠ ptr hd t := by
  cases t with
  | nil => exact h1
  | node i v c l r => nds at h2; exact h2.2.1

/-- the loop stops at once below a black parent -/
theorem insertFix_stop {hd f : Nat} {h : Hp α} {p : Nat} {pn qn : Node α} (hp : h p = some pn) (hq : h pn.parent = some qn) (hr : qn.red = false) :
    insertFix hd (f + 1) h p = .ok h := by
  unfold insertFix
  rw [nd_some hp, R.ok_bind, nd_some hq, R.ok_bind, hr]; rfl

theorem insertFix_spec {hd : Nat} {Lm Rm : Nat} : ∀ (k : Nat) (C : Cx α) (f : Nat) (h : Hp α) (p : Nat) (v : α) (l r : T α) (n : Nat), C.length ≤ k → C.length < f →
    At hd h Lm Rm C (.node p v true l r) → Bal (.node p v true l r) n → BalC C n →
    ∃ h' t, insertFix hd f h p = .ok h' ∧ At hd h' Lm Rm [] t ∧ items t = inord C (.node p v true l r) ∧ (∃ m, Bal t m) ∧
      Same hd (inord C (.node p v true l r)) h h' := by
  intro k
  induction k with
  | zero =>
    intro C f h p v l r n hk hf hA hb hc
    obtain rfl : C = [] := List.length_eq_zero_iff.1 (by omega)
    obtain ⟨f, rfl⟩ : ∃ g, f = g + 1 := ⟨f - 1, by simp at hf; omega⟩
    refine ⟨h, _, ?_, hA, by simp [inord, itL, itR], ⟨n, hb⟩, Same.refl⟩
    unfold insertFix
    rw [nd_some hA.node, R.ok_bind]; simp only [parP]
    rw [nd_some hA.head, R.ok_bind]; rfl
  | succ k ih =>
    intro C f h p v l r n hk hf hA hb hc
    cases C with
    | nil => exact ih [] f h p v l r n (by simp) hf hA hb hc
    | cons q C =>
      obtain ⟨ql, q, qv, qc, qs⟩ := q
      obtain ⟨f, rfl⟩ : ∃ g, f = g + 1 := ⟨f - 1, by simp at hf; omega⟩
      have hqn : ∃ qn, h q = some qn ∧ qn.red = qc ∧ qn.parent = parP hd C := by
        cases ql
        · exact ⟨_, (At.upR.1 hA).node, rfl, rfl⟩
        · exact ⟨_, (At.upL.1 hA).node, rfl, rfl⟩
      obtain ⟨qn, hq, hqr, hqp⟩ := hqn
      cases qc with
      | false =>
        refine ⟨h, _, ?_, At.plug.1 hA, items_plug _ _, bal_plug hb hc (by simp [hRed]), Same.refl⟩
        unfold insertFix
        rw [nd_some hA.node, R.ok_bind]; simp only [parP]
        rw [nd_some hq, R.ok_bind, hqr]; rfl
      | true =>
        rw [balC_red] at hc
        obtain ⟨hc1, hc2, hc3, hc4, hc5⟩ := hc
        cases C with
        | nil => exact absurd rfl hc4
        | cons g C =>
          obtain ⟨gl, g, gv, gc, gs⟩ := g
          obtain rfl : gc = false := hc3
          rw [balC_black] at hc5
          obtain ⟨hc5, hc6⟩ := hc5
          have hfl : C.length + 2 < f + 1 := by simp at hf; omega
          have hkl : C.length + 2 ≤ k + 1 := by simpa using hk
          obtain ⟨f, rfl⟩ : ∃ g, f = g + 1 := ⟨f - 1, by omega⟩
          obtain ⟨hb1, hb2, hb3, hb4⟩ := bal_red.1 hb
          cases gl <;> cases ql
          · have hG : At hd h Lm Rm C (.node g gv false gs (.node q qv true qs (.node p v true l r))) := At.upR.1 (At.upR.1 hA)
            have hI : inord (⟨false, q, qv, true, qs⟩ :: ⟨false, g, gv, false, gs⟩ :: C) (.node p v true l r) = inord C (.node g gv false gs (.node q qv true qs (.node p v true l r))) := by
              simp [inord, itL, itR, items]
            rw [hI]
            have hn := hG.nodup
            nds at hn
            have hqg : q ≠ ptr hd gs := ptr_ne (by grind) (by grind)
            have hgn := hG.node
            have hqn := (At.upR.2 hG).node
            have hpn := hA.node
            obtain ⟨un, hun, hur, -⟩ := (At.upL.2 hG).at
            cases hus : isRed gs with
            | true =>
              cases gs with
              | nil => cases hus
              | node u uv uc d e =>
                obtain rfl : uc = true := hus
                obtain ⟨h1, s1, A1, S1⟩ := hG.setR false
                obtain ⟨h2, s2, A2, S2⟩ := A1.setL false
                obtain ⟨h3, s3, A3, S3⟩ := A2.setC true
                obtain ⟨hu1, hu2, hu3, hu4⟩ := bal_red.1 hc5
                obtain ⟨h4, t, e4, A4, i4, b4, S4⟩ := ih C (f + 1) h3 _ _ _ _ (n + 1) (by omega) (by omega) A3
                  (bal_red.2 ⟨rfl, rfl, bal_black.2 ⟨by first | assumption | exact hb, by first | assumption | exact hb⟩, bal_black.2 ⟨by first | assumption | exact hb, by first | assumption | exact hb⟩⟩) hc6
                refine ⟨h4, t, ?_, A4, by rw [i4]; simp [inord, items], b4,
                  (S1.trans (S2.cast (by simp [inord, items]))).trans ((S3.cast (by simp [inord, items])).trans (S4.cast (by simp [inord, items])))⟩
                unfold insertFix
                rw [nd_some hpn, R.ok_bind]; simp only [parP]
                rw [nd_some hqn, R.ok_bind]; simp only [parP]
                rw [if_pos trivial, nd_some hgn, R.ok_bind]; simp only [ptr_node]
                rw [if_neg (show q ≠ u from hqg)]
                rw [ptr_node] at hun
                rw [nd_some hun, R.ok_bind, hur, isRed, if_pos rfl, s1, R.ok_bind, s2, R.ok_bind, s3, R.ok_bind, e4]
            | false =>
              obtain ⟨h1, s1, A1, S1⟩ := hG.setR false
              obtain ⟨h2, s2, A2, S2⟩ := A1.setC true
              obtain ⟨h3, s3, A3, S3⟩ := lrotate_spec A2
              refine ⟨h3, _, ?_, At.plug.1 A3, by rw [items_plug]; simp [inord, items],
                bal_plug (bal_black.2 ⟨by first | assumption | exact hb | exact bal_red.2 ⟨hc2, hus, hc1, hc5⟩ | exact bal_red.2 ⟨hus, hc2, hc5, hc1⟩, by first | assumption | exact hb | exact bal_red.2 ⟨hc2, hus, hc1, hc5⟩ | exact bal_red.2 ⟨hus, hc2, hc5, hc1⟩⟩) hc6 (by simp [isRed]),
                S1.trans ((S2.cast (by simp [inord, items])).trans (S3.cast (by simp [inord, items])))⟩
              have hq1 := (At.upR.2 A1).node
              unfold insertFix
              rw [nd_some hpn, R.ok_bind]; simp only [parP]
              rw [nd_some hqn, R.ok_bind]; simp only [parP]
              rw [if_pos trivial, nd_some hgn, R.ok_bind]; simp only [ptr_node]
              rw [if_neg hqg]
              rw [nd_some hun, R.ok_bind, hur, hus, if_neg (by simp), if_neg (ptr_ne (by grind) (by grind)), R.ok_bind]; simp only
              rw [nd_some hpn, R.ok_bind]; simp only [parP]
              rw [s1, R.ok_bind, nd_some hq1, R.ok_bind]; simp only [parP]
              rw [s2, R.ok_bind, s3, R.ok_bind]
              exact insertFix_stop (At.upR.2 A3).node (A3.node) rfl
          · have hG : At hd h Lm Rm C (.node g gv false gs (.node q qv true (.node p v true l r) qs)) := At.upR.1 (At.upL.1 hA)
            have hI : inord (⟨true, q, qv, true, qs⟩ :: ⟨false, g, gv, false, gs⟩ :: C) (.node p v true l r) = inord C (.node g gv false gs (.node q qv true (.node p v true l r) qs)) := by
              simp [inord, itL, itR, items]
            rw [hI]
            have hn := hG.nodup
            nds at hn
            have hqg : q ≠ ptr hd gs := ptr_ne (by grind) (by grind)
            have hgn := hG.node
            have hqn := (At.upR.2 hG).node
            have hpn := hA.node
            obtain ⟨un, hun, hur, -⟩ := (At.upL.2 hG).at
            cases hus : isRed gs with
            | true =>
              cases gs with
              | nil => cases hus
              | node u uv uc d e =>
                obtain rfl : uc = true := hus
                obtain ⟨h1, s1, A1, S1⟩ := hG.setR false
                obtain ⟨h2, s2, A2, S2⟩ := A1.setL false
                obtain ⟨h3, s3, A3, S3⟩ := A2.setC true
                obtain ⟨hu1, hu2, hu3, hu4⟩ := bal_red.1 hc5
                obtain ⟨h4, t, e4, A4, i4, b4, S4⟩ := ih C (f + 1) h3 _ _ _ _ (n + 1) (by omega) (by omega) A3
                  (bal_red.2 ⟨rfl, rfl, bal_black.2 ⟨by first | assumption | exact hb, by first | assumption | exact hb⟩, bal_black.2 ⟨by first | assumption | exact hb, by first | assumption | exact hb⟩⟩) hc6
                refine ⟨h4, t, ?_, A4, by rw [i4]; simp [inord, items], b4,
                  (S1.trans (S2.cast (by simp [inord, items]))).trans ((S3.cast (by simp [inord, items])).trans (S4.cast (by simp [inord, items])))⟩
                unfold insertFix
                rw [nd_some hpn, R.ok_bind]; simp only [parP]
                rw [nd_some hqn, R.ok_bind]; simp only [parP]
                rw [if_pos trivial, nd_some hgn, R.ok_bind]; simp only [ptr_node]
                rw [if_neg (show q ≠ u from hqg)]
                rw [ptr_node] at hun
                rw [nd_some hun, R.ok_bind, hur, isRed, if_pos rfl, s1, R.ok_bind, s2, R.ok_bind, s3, R.ok_bind, e4]
            | false =>
              obtain ⟨h0, s0, A0, S0⟩ := rrotate_spec (At.upR.2 hG)
              rw [inord_upR] at S0
              have hq0 := (At.upR.2 A0).node
              obtain ⟨h1, s1, A1, S1⟩ := (At.upR.1 A0).setR false
              obtain ⟨h2, s2, A2, S2⟩ := A1.setC true
              obtain ⟨h3, s3, A3, S3⟩ := lrotate_spec A2
              refine ⟨h3, _, ?_, At.plug.1 A3, by rw [items_plug]; simp [inord, items],
                bal_plug (bal_black.2 ⟨bal_red.2 ⟨by first | assumption | exact hb, by first | assumption | exact hb, by first | assumption | exact hb, by first | assumption | exact hb⟩,
                  bal_red.2 ⟨by first | assumption | exact hb, by first | assumption | exact hb, by first | assumption | exact hb, by first | assumption | exact hb⟩⟩) hc6 (by simp [isRed]),
                (S0.trans (S1.cast (by simp [inord, items]))).trans ((S2.cast (by simp [inord, items])).trans (S3.cast (by simp [inord, items])))⟩
              have hp1 := (At.upR.2 A1).node
              unfold insertFix
              rw [nd_some hpn, R.ok_bind]; simp only [parP]
              rw [nd_some hqn, R.ok_bind]; simp only [parP]
              rw [if_pos trivial, nd_some hgn, R.ok_bind]; simp only [ptr_node]
              rw [if_neg hqg]
              rw [nd_some hun, R.ok_bind, hur, hus, if_neg (by simp), if_pos trivial, s0, R.ok_bind, R.ok_bind]; simp only
              rw [nd_some hq0, R.ok_bind]; simp only [parP]
              rw [s1, R.ok_bind, nd_some hp1, R.ok_bind]; simp only [parP]
              rw [s2, R.ok_bind, s3, R.ok_bind]
              exact insertFix_stop (At.upR.2 A3).node (A3.node) rfl
          · have hG : At hd h Lm Rm C (.node g gv false (.node q qv true qs (.node p v true l r)) gs) := At.upL.1 (At.upR.1 hA)
            have hI : inord (⟨false, q, qv, true, qs⟩ :: ⟨true, g, gv, false, gs⟩ :: C) (.node p v true l r) = inord C (.node g gv false (.node q qv true qs (.node p v true l r)) gs) := by
              simp [inord, itL, itR, items]
            rw [hI]
            have hn := hG.nodup
            nds at hn
            have hqg : q ≠ ptr hd gs := ptr_ne (by grind) (by grind)
            have hgn := hG.node
            have hqn := (At.upL.2 hG).node
            have hpn := hA.node
            obtain ⟨un, hun, hur, -⟩ := (At.upR.2 hG).at
            cases hus : isRed gs with
            | true =>
              cases gs with
              | nil => cases hus
              | node u uv uc d e =>
                obtain rfl : uc = true := hus
                obtain ⟨h1, s1, A1, S1⟩ := hG.setL false
                obtain ⟨h2, s2, A2, S2⟩ := A1.setR false
                obtain ⟨h3, s3, A3, S3⟩ := A2.setC true
                obtain ⟨hu1, hu2, hu3, hu4⟩ := bal_red.1 hc5
                obtain ⟨h4, t, e4, A4, i4, b4, S4⟩ := ih C (f + 1) h3 _ _ _ _ (n + 1) (by omega) (by omega) A3
                  (bal_red.2 ⟨rfl, rfl, bal_black.2 ⟨by first | assumption | exact hb, by first | assumption | exact hb⟩, bal_black.2 ⟨by first | assumption | exact hb, by first | assumption | exact hb⟩⟩) hc6
                refine ⟨h4, t, ?_, A4, by rw [i4]; simp [inord, items], b4,
                  (S1.trans (S2.cast (by simp [inord, items]))).trans ((S3.cast (by simp [inord, items])).trans (S4.cast (by simp [inord, items])))⟩
                unfold insertFix
                rw [nd_some hpn, R.ok_bind]; simp only [parP]
                rw [nd_some hqn, R.ok_bind]; simp only [parP]
                rw [if_pos trivial, nd_some hgn, R.ok_bind]; simp only [ptr_node]
                rw [if_pos trivial]
                rw [ptr_node] at hun
                rw [nd_some hun, R.ok_bind, hur, isRed, if_pos rfl, s1, R.ok_bind, s2, R.ok_bind, s3, R.ok_bind, e4]
            | false =>
              obtain ⟨h0, s0, A0, S0⟩ := lrotate_spec (At.upL.2 hG)
              rw [inord_upL] at S0
              have hq0 := (At.upL.2 A0).node
              obtain ⟨h1, s1, A1, S1⟩ := (At.upL.1 A0).setL false
              obtain ⟨h2, s2, A2, S2⟩ := A1.setC true
              obtain ⟨h3, s3, A3, S3⟩ := rrotate_spec A2
              refine ⟨h3, _, ?_, At.plug.1 A3, by rw [items_plug]; simp [inord, items],
                bal_plug (bal_black.2 ⟨bal_red.2 ⟨by first | assumption | exact hb, by first | assumption | exact hb, by first | assumption | exact hb, by first | assumption | exact hb⟩,
                  bal_red.2 ⟨by first | assumption | exact hb, by first | assumption | exact hb, by first | assumption | exact hb, by first | assumption | exact hb⟩⟩) hc6 (by simp [isRed]),
                (S0.trans (S1.cast (by simp [inord, items]))).trans ((S2.cast (by simp [inord, items])).trans (S3.cast (by simp [inord, items])))⟩
              have hp1 := (At.upL.2 A1).node
              unfold insertFix
              rw [nd_some hpn, R.ok_bind]; simp only [parP]
              rw [nd_some hqn, R.ok_bind]; simp only [parP]
              rw [if_pos trivial, nd_some hgn, R.ok_bind]; simp only [ptr_node]
              rw [if_pos trivial]
              rw [nd_some hun, R.ok_bind, hur, hus, if_neg (by simp), if_pos trivial, s0, R.ok_bind, R.ok_bind]; simp only
              rw [nd_some hq0, R.ok_bind]; simp only [parP]
              rw [s1, R.ok_bind, nd_some hp1, R.ok_bind]; simp only [parP]
              rw [s2, R.ok_bind, s3, R.ok_bind]
              exact insertFix_stop (At.upL.2 A3).node (A3.node) rfl
          · have hG : At hd h Lm Rm C (.node g gv false (.node q qv true (.node p v true l r) qs) gs) := At.upL.1 (At.upL.1 hA)
            have hI : inord (⟨true, q, qv, true, qs⟩ :: ⟨true, g, gv, false, gs⟩ :: C) (.node p v true l r) = inord C (.node g gv false (.node q qv true (.node p v true l r) qs) gs) := by
              simp [inord, itL, itR, items]
            rw [hI]
            have hn := hG.nodup
            nds at hn
            have hqg : q ≠ ptr hd gs := ptr_ne (by grind) (by grind)
            have hgn := hG.node
            have hqn := (At.upL.2 hG).node
            have hpn := hA.node
            obtain ⟨un, hun, hur, -⟩ := (At.upR.2 hG).at
            cases hus : isRed gs with
            | true =>
              cases gs with
              | nil => cases hus
              | node u uv uc d e =>
                obtain rfl : uc = true := hus
                obtain ⟨h1, s1, A1, S1⟩ := hG.setL false
                obtain ⟨h2, s2, A2, S2⟩ := A1.setR false
                obtain ⟨h3, s3, A3, S3⟩ := A2.setC true
                obtain ⟨hu1, hu2, hu3, hu4⟩ := bal_red.1 hc5
                obtain ⟨h4, t, e4, A4, i4, b4, S4⟩ := ih C (f + 1) h3 _ _ _ _ (n + 1) (by omega) (by omega) A3
                  (bal_red.2 ⟨rfl, rfl, bal_black.2 ⟨by first | assumption | exact hb, by first | assumption | exact hb⟩, bal_black.2 ⟨by first | assumption | exact hb, by first | assumption | exact hb⟩⟩) hc6
                refine ⟨h4, t, ?_, A4, by rw [i4]; simp [inord, items], b4,
                  (S1.trans (S2.cast (by simp [inord, items]))).trans ((S3.cast (by simp [inord, items])).trans (S4.cast (by simp [inord, items])))⟩
                unfold insertFix
                rw [nd_some hpn, R.ok_bind]; simp only [parP]
                rw [nd_some hqn, R.ok_bind]; simp only [parP]
                rw [if_pos trivial, nd_some hgn, R.ok_bind]; simp only [ptr_node]
                rw [if_pos trivial]
                rw [ptr_node] at hun
                rw [nd_some hun, R.ok_bind, hur, isRed, if_pos rfl, s1, R.ok_bind, s2, R.ok_bind, s3, R.ok_bind, e4]
            | false =>
              obtain ⟨h1, s1, A1, S1⟩ := hG.setL false
              obtain ⟨h2, s2, A2, S2⟩ := A1.setC true
              obtain ⟨h3, s3, A3, S3⟩ := rrotate_spec A2
              refine ⟨h3, _, ?_, At.plug.1 A3, by rw [items_plug]; simp [inord, items],
                bal_plug (bal_black.2 ⟨by first | assumption | exact hb | exact bal_red.2 ⟨hc2, hus, hc1, hc5⟩ | exact bal_red.2 ⟨hus, hc2, hc5, hc1⟩, by first | assumption | exact hb | exact bal_red.2 ⟨hc2, hus, hc1, hc5⟩ | exact bal_red.2 ⟨hus, hc2, hc5, hc1⟩⟩) hc6 (by simp [isRed]),
                S1.trans ((S2.cast (by simp [inord, items])).trans (S3.cast (by simp [inord, items])))⟩
              have hq1 := (At.upL.2 A1).node
              unfold insertFix
              rw [nd_some hpn, R.ok_bind]; simp only [parP]
              rw [nd_some hqn, R.ok_bind]; simp only [parP]
              rw [if_pos trivial, nd_some hgn, R.ok_bind]; simp only [ptr_node]
              rw [if_pos trivial]
              rw [nd_some hun, R.ok_bind, hur, hus, if_neg (by simp), if_neg (ptr_ne (by grind) (by grind)), R.ok_bind]; simp only
              rw [nd_some hpn, R.ok_bind]; simp only [parP]
              rw [s1, R.ok_bind, nd_some hq1, R.ok_bind]; simp only [parP]
              rw [s2, R.ok_bind, s3, R.ok_bind]
              exact insertFix_stop (At.upL.2 A3).node (A3.node) rfl

theorem bal_unplug : ∀ {C : Cx α} {t : T α} {m : Nat}, Bal (plug C t) m → isRed (plug C t) = false →
    ∃ n, Bal t n ∧ BalC C n ∧ (hRed C = true → isRed t = false) ∧ (C = [] → isRed t = false)
  | [], t, m, h, hr => ⟨m, h, trivial, by simp [hRed], fun _ => hr⟩
  | ⟨b, i, v, c, s⟩ :: C, t, m, h, hr => by
    cases b <;> cases c
    · obtain ⟨n, h1, h2, h3, h4⟩ := bal_unplug (C := C) h hr
      obtain ⟨k, rfl, a, b⟩ := bal_black'.1 h1
      exact ⟨k, b, balC_black.2 ⟨a, h2⟩, by simp [hRed], by simp⟩
    · obtain ⟨n, h1, h2, h3, h4⟩ := bal_unplug (C := C) h hr
      obtain ⟨a, b, d, e⟩ := bal_red.1 h1
      refine ⟨n, e, balC_red.2 ⟨d, a, ?_, ?_, h2⟩, fun _ => b, by simp⟩
      · cases hh : hRed C with | false => rfl | true => exact absurd (h3 hh) (by simp [isRed])
      · intro hc; exact absurd (h4 hc) (by simp [isRed])
    · obtain ⟨n, h1, h2, h3, h4⟩ := bal_unplug (C := C) h hr
      obtain ⟨k, rfl, a, b⟩ := bal_black'.1 h1
      exact ⟨k, a, balC_black.2 ⟨b, h2⟩, by simp [hRed], by simp⟩
    · obtain ⟨n, h1, h2, h3, h4⟩ := bal_unplug (C := C) h hr
      obtain ⟨a, b, d, e⟩ := bal_red.1 h1
      refine ⟨n, d, balC_red.2 ⟨e, b, ?_, ?_, h2⟩, fun _ => a, by simp⟩
      · cases hh : hRed C with | false => rfl | true => exact absurd (h3 hh) (by simp [isRed])
      · intro hc; exact absurd (h4 hc) (by simp [isRed])

def firstId (hd : Nat) (X : List (Nat × α)) : Nat := match X.head? with | some a => a.1 | none => hd
def lastId (hd : Nat) (X : List (Nat × α)) : Nat := match X.getLast? with | some a => a.1 | none => hd

/-- The heap holds, under head `hd`, a balanced tree with in-order contents `X`. -/
def WF (hd : Nat) (h : Hp α) (X : List (Nat × α)) : Prop :=
  ∃ t n, At hd h (firstId hd X) (lastId hd X) [] t ∧ items t = X ∧ Bal t n ∧ isRed t = false

/-- the same, seen from a place in the tree -/
structure Foc (hd : Nat) (h : Hp α) (C : Cx α) (t : T α) : Prop where
  at_ : At hd h (firstId hd (inord C t)) (lastId hd (inord C t)) C t
  bal : ∃ n, Bal (plug C t) n
  root : isRed (plug C t) = false

theorem Foc.wf {hd : Nat} {h : Hp α} {C : Cx α} {t : T α} (F : Foc hd h C t) : WF hd h (inord C t) := by
  obtain ⟨n, hn⟩ := F.bal
  exact ⟨plug C t, n, At.plug.1 F.at_, items_plug C t, hn, F.root⟩

theorem WF.foc {hd : Nat} {h : Hp α} {X : List (Nat × α)} (W : WF hd h X) : ∃ t, Foc hd h [] t ∧ inord [] t = X := by
  obtain ⟨t, n, a, e, b, r⟩ := W
  have : inord [] t = X := by simp [inord, itL, itR, e]
  exact ⟨t, ⟨by rw [this]; exact a, ⟨n, b⟩, r⟩, this⟩

theorem Foc.upL {hd : Nat} {h : Hp α} {C : Cx α} {i v c} {l r : T α} : Foc hd h (⟨true, i, v, c, r⟩ :: C) l ↔ Foc hd h C (.node i v c l r) := by
  constructor
  · rintro ⟨a, b, d⟩; rw [inord_upL] at a; exact ⟨At.upL.1 a, b, d⟩
  · rintro ⟨a, b, d⟩; refine ⟨?_, b, d⟩; rw [inord_upL]; exact At.upL.2 a

theorem Foc.upR {hd : Nat} {h : Hp α} {C : Cx α} {i v c} {l r : T α} : Foc hd h (⟨false, i, v, c, l⟩ :: C) r ↔ Foc hd h C (.node i v c l r) := by
  constructor
  · rintro ⟨a, b, d⟩; rw [inord_upR] at a; exact ⟨At.upR.1 a, b, d⟩
  · rintro ⟨a, b, d⟩; refine ⟨?_, b, d⟩; rw [inord_upR]; exact At.upR.2 a

/-- the hole's side -/
def isR : Cx α → Bool
  | [] => true
  | f :: _ => !f.left

/-- the head's `_Left` and `_Right` may be changed freely -/
theorem LkC.head_upd {hd : Nat} {h h' : Hp α} {Lm Rm : Nat} (Lm' Rm' : Nat) : ∀ {C : Cx α} {x : Nat}, LkC hd h Lm Rm C x → (hd :: (idl C ++ idr C)).Nodup →
    (∀ q, q ≠ hd → h' q = h q) → (∀ n, h hd = some n → h' hd = some ⟨Lm', n.parent, Rm', n.red, n.nil, n.val⟩) → LkC hd h' Lm' Rm' C x
  | [], _, hh, _, _, h2 => h2 _ hh
  | ⟨true, i, v, c, s⟩ :: C, x, ⟨a, b, d⟩, hn, h1, h2 => by
    nds at hn
    exact ⟨by rw [h1 i (by grind)]; exact a, b.congr (by grind), d.head_upd Lm' Rm' (by nds; grind) h1 h2⟩
  | ⟨false, i, v, c, s⟩ :: C, x, ⟨a, b, d⟩, hn, h1, h2 => by
    nds at hn
    exact ⟨by rw [h1 i (by grind)]; exact a, b.congr (by grind), d.head_upd Lm' Rm' (by nds; grind) h1 h2⟩

theorem insertNode_spec {hd f : Nat} {h : Hp α} {C : Cx α} {x : Nat} {v : α} {pp : Nat} (F : Foc hd h C .nil)
    (hx : h x = some ⟨hd, pp, hd, true, false, some v⟩) (hx2 : x ≠ hd) (hx3 : x ∉ (inord C .nil).map Prod.fst) (hf : C.length < f) :
    ∃ h', insertNode hd f h (parP hd C) (isR C) x = .ok h' ∧ WF hd h' (itL C ++ (x, v) :: itR C) ∧ Same hd (itL C ++ (x, v) :: itR C) h h' := by
  have hA := F.at_
  obtain ⟨n, hb⟩ := F.bal
  obtain ⟨n, hb1, hb2, -, -⟩ := bal_unplug hb F.root
  obtain rfl : n = 0 := hb1
  have hn := hA.nodup
  have hx4 : x ∉ idl C ∧ x ∉ idr C := by
    simp only [inord, items, List.nil_append, List.map_append, List.mem_append, not_or] at hx3; exact hx3
  nds at hn
  obtain ⟨h1, s1, x1, f1⟩ := setP_ok' (v := parP hd C) hx
  have hI : ∀ y, inord C (.node x y true .nil .nil) = itL C ++ (x, y) :: itR C := fun y => by simp [inord, items]
  have hn0 : Hid (hd :: (idl C ++ (ids (.node x v true .nil .nil) ++ idr C))).Nodup := by
    unfold Hid; nds; grind
  cases C with
  | nil =>
    obtain ⟨h2, s2, y2, f2⟩ := setL_ok' (h := h1) (p := hd) (v := x) (by rw [f1 hd (by grind)]; exact hA.head)
    obtain ⟨h3, s3, y3, f3⟩ := setP_ok' (v := x) y2
    obtain ⟨h4, s4, y4, f4⟩ := setR_ok' (v := x) y3
    obtain ⟨h5, s5, y5, f5⟩ := setC_ok' (h := h4) (p := x) (c := false) (by rw [f4 x hx2, f3 x hx2, f2 x hx2, x1])
    refine ⟨h5, ?_, ⟨.node x v false .nil .nil, 1, ⟨?_, ⟨?_, trivial, trivial⟩, hn0⟩, by simp [items, itL, itR], by simp [Bal], rfl⟩, ?_⟩
    · unfold insertNode
      rw [s1, R.ok_bind, if_pos (by rfl), s2, R.ok_bind, s3, R.ok_bind, s4, R.ok_bind, s5]
    · simp only [LkC, ptr_node]; rw [f5 hd (by grind), y4]; rfl
    · rw [y5]; rfl
    · intro q hq hx; simp [itL, itR] at hx; rw [f5 q hx, f4 q hq, f3 q hq, f2 q hq, f1 q hx]
  | cons fr C =>
    obtain ⟨fl, i, w, c, s⟩ := fr
    have hih : i ≠ hd := by cases fl <;> (nds at hn; grind)
    have hix : i ≠ x := by cases fl <;> (nds at hx4; grind)
    -- the linking step
    have hstep : ∃ h3, (if isR (⟨fl, i, w, c, s⟩ :: C) then do
        let h ← setR h1 i x
        let hn ← nd h hd
        if i = hn.right then setR h hd x else .ok h
      else do
        let h ← setL h1 i x
        let hn ← nd h hd
        if i = hn.left then setL h hd x else .ok h : R (Hp α)) = .ok h3 ∧
        At hd h3 (firstId hd (inord (⟨fl, i, w, c, s⟩ :: C) (.node x v true .nil .nil))) (lastId hd (inord (⟨fl, i, w, c, s⟩ :: C) (.node x v true .nil .nil)))
          (⟨fl, i, w, c, s⟩ :: C) (.node x v true .nil .nil) ∧
        (∀ q, q ≠ hd → q ≠ i → h3 q = h1 q) := by
      have hc := hA.ctx
      have hnn : Hid (hd :: (idl (⟨fl, i, w, c, s⟩ :: C) ++ idr (⟨fl, i, w, c, s⟩ :: C))).Nodup := by have := hA.nodup; simpa [ids_nil, Hid] using this
      have hc1 : LkC hd h1 _ _ _ hd := hc.congr (h' := h1) (by grind) (by grind) (by grind)
      cases fl with
      | true =>
        obtain ⟨h2, s2, y2, f2⟩ := setL_ok' (v := x) hc1.1
        have hc2 : LkC hd h2 (firstId hd (inord (⟨true, i, w, c, s⟩ :: C) .nil)) (lastId hd (inord (⟨true, i, w, c, s⟩ :: C) .nil)) (⟨true, i, w, c, s⟩ :: C) x := by
          refine hc1.hole (by intro q _ hq; exact f2 q hq) hnn ?_
          intro n hn; simp only [parP] at hn ⊢; rw [hc1.1] at hn; cases hn; simpa using y2
        have hlast : lastId hd (inord (⟨true, i, w, c, s⟩ :: C) (.node x v true .nil .nil)) = lastId hd (inord (⟨true, i, w, c, s⟩ :: C) .nil) := by
          simp [inord, itL, itR, items, lastId, List.getLast?_append, List.getLast?_cons]
        rw [hlast]
        simp only [isR, Bool.not_true, Bool.false_eq_true, if_false]
        rw [s2, R.ok_bind, nd_some hc2.head, R.ok_bind]; simp only
        have hiff : (i = firstId hd (inord (⟨true, i, w, c, s⟩ :: C) .nil)) ↔ itL C = [] := by
          constructor
          · intro e
            cases hl : itL C with
            | nil => rfl
            | cons a L =>
              exfalso
              simp only [inord, itL, hl, firstId, List.cons_append, List.head?_cons] at e
              have : a.1 ∈ idl C := by simp [idl, hl]
              nds at hn; grind
          · intro hl; simp [inord, itL, itR, hl, firstId, items]
        by_cases hl : itL C = []
        · rw [if_pos (hiff.2 hl)]
          obtain ⟨h3, s3, y3, f3⟩ := setL_ok' (v := x) hc2.head
          refine ⟨h3, s3, ⟨?_, ⟨?_, trivial, trivial⟩, hn0⟩, fun q hq hi => by rw [f3 q hq, f2 q hi]⟩
          · rw [ptr_node]
            refine hc2.head_upd _ _ hnn f3 ?_
            intro n hn'; rw [hc2.head] at hn'; cases hn'; rw [y3]; simp [inord, itL, hl, firstId, items]
          · rw [f3 x hx2, f2 x (Ne.symm hix), x1]; rfl
        · rw [if_neg (fun e => hl (hiff.1 e))]
          refine ⟨h2, rfl, ⟨?_, ⟨?_, trivial, trivial⟩, hn0⟩, fun q hq hi => f2 q hi⟩
          · rw [ptr_node]
            have : firstId hd (inord (⟨true, i, w, c, s⟩ :: C) (.node x v true .nil .nil)) = firstId hd (inord (⟨true, i, w, c, s⟩ :: C) .nil) := by
              obtain ⟨a, L, hl⟩ := List.exists_cons_of_ne_nil hl
              simp [inord, itL, hl, firstId]
            rw [this]; exact hc2
          · rw [f2 x (Ne.symm hix), x1]; rfl
      | false =>
        obtain ⟨h2, s2, y2, f2⟩ := setR_ok' (v := x) hc1.1
        have hc2 : LkC hd h2 (firstId hd (inord (⟨false, i, w, c, s⟩ :: C) .nil)) (lastId hd (inord (⟨false, i, w, c, s⟩ :: C) .nil)) (⟨false, i, w, c, s⟩ :: C) x := by
          refine hc1.hole (by intro q _ hq; exact f2 q hq) hnn ?_
          intro n hn; simp only [parP] at hn ⊢; rw [hc1.1] at hn; cases hn; simpa using y2
        have hfirst : firstId hd (inord (⟨false, i, w, c, s⟩ :: C) (.node x v true .nil .nil)) = firstId hd (inord (⟨false, i, w, c, s⟩ :: C) .nil) := by
          cases h1 : itL C <;> cases h2 : items s <;> simp [inord, itL, itR, items, firstId, h1, h2]
        rw [hfirst]
        simp only [isR, Bool.not_false, if_true]
        rw [s2, R.ok_bind, nd_some hc2.head, R.ok_bind]; simp only
        have hiff : (i = lastId hd (inord (⟨false, i, w, c, s⟩ :: C) .nil)) ↔ itR C = [] := by
          constructor
          · intro e
            rcases List.eq_nil_or_concat (itR C) with hl | ⟨L, a, hl⟩
            · exact hl
            · exfalso
              simp only [inord, itR, hl, lastId, ← List.append_assoc, List.concat_eq_append, List.getLast?_concat] at e
              have : a.1 ∈ idr C := by simp [idr, hl]
              nds at hn; grind
          · intro hl; simp [inord, itL, itR, hl, lastId, items, ← List.append_assoc, List.getLast?_concat]
        by_cases hl : itR C = []
        · rw [if_pos (hiff.2 hl)]
          obtain ⟨h3, s3, y3, f3⟩ := setR_ok' (v := x) hc2.head
          refine ⟨h3, s3, ⟨?_, ⟨?_, trivial, trivial⟩, hn0⟩, fun q hq hi => by rw [f3 q hq, f2 q hi]⟩
          · rw [ptr_node]
            refine hc2.head_upd _ _ hnn f3 ?_
            intro n hn'; rw [hc2.head] at hn'; cases hn'; rw [y3]; simp [inord, itR, hl, lastId, items, ← List.append_assoc, List.getLast?_concat]
          · rw [f3 x hx2, f2 x (Ne.symm hix), x1]; rfl
        · rw [if_neg (fun e => hl (hiff.1 e))]
          refine ⟨h2, rfl, ⟨?_, ⟨?_, trivial, trivial⟩, hn0⟩, fun q hq hi => f2 q hi⟩
          · rw [ptr_node]
            have : lastId hd (inord (⟨false, i, w, c, s⟩ :: C) (.node x v true .nil .nil)) = lastId hd (inord (⟨false, i, w, c, s⟩ :: C) .nil) := by
              rcases List.eq_nil_or_concat (itR C) with hl' | ⟨L, a, hl'⟩
              · exact absurd hl' hl
              · simp only [inord, itR, hl', lastId, ← List.append_assoc, List.concat_eq_append, List.getLast?_concat]
            rw [this]; exact hc2
          · rw [f2 x (Ne.symm hix), x1]; rfl
    obtain ⟨h3, e3, A3, S3⟩ := hstep
    obtain ⟨h4, t, e4, A4, i4, ⟨m, b4⟩, S4⟩ := insertFix_spec _ _ f h3 x v .nil .nil 0 (le_refl _) hf A3 (by simp [Bal, isRed]) hb2
    cases t with
    | nil => simp [items, inord] at i4
    | node j w' c' l r =>
      obtain ⟨h5, e5, A5, S5⟩ := A4.setC false
      rw [hI] at A5 i4 S4
      refine ⟨h5, ?_, ⟨.node j w' false l r, ?_⟩, ?_⟩
      · have hpe : parP hd (⟨fl, i, w, c, s⟩ :: C) = i := rfl
        rw [hpe] at s1 ⊢
        unfold insertNode
        rw [s1, R.ok_bind, if_neg hih]
        rw [e3, R.ok_bind, e4, R.ok_bind, nd_some A4.head, R.ok_bind]
        exact e5
      · obtain ⟨m, b5, b6⟩ := bal_blacken b4
        exact ⟨m, A5, by rw [← i4]; simp [items], b5, b6⟩
      · have hi4 : inord [] (.node j w' c' l r) = itL (⟨fl, i, w, c, s⟩ :: C) ++ (x, v) :: itR (⟨fl, i, w, c, s⟩ :: C) := by rw [← i4]; simp [inord, itL, itR]
        rw [hi4] at S5
        intro q hq hqx
        rw [S5 q hq hqx, S4 q hq hqx, S3 q hq ?_, f1 q ?_]
        · simp at hqx; grind
        · rintro rfl; cases fl <;> simp [itL, itR] at hqx

end STL.RBT
