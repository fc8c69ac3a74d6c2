import Verif.Variant.Swap

/-! # `visit`, the comparisons and `hash`. Proofs only. -/

namespace STL.Var
open STL

/-! ## The canonical index -/

/-- The number of combinations of states. -/
def states : List Nat → Nat
  | [] => 1
  | s :: l => (s + 1) * states l

theorem states_pos (l : List Nat) : 0 < states l := by
  induction l with
  | nil => decide
  | cons s l ih => exact Nat.mul_pos (by omega) ih

theorem foldl_states (l : List Nat) (a : Nat) : l.foldl (fun a s => a * (s + 1)) a = a * states l := by
  induction l generalizing a with
  | nil => simp [states]
  | cons s l ih => rw [List.foldl_cons, ih, states, Nat.mul_assoc]

theorem totalStates_eq {l : List Nat} (h : states l < 2 ^ 64) : totalStates l = states l := by
  unfold totalStates
  rw [foldl_states, Nat.one_mul, Nat.mod_eq_of_lt h]

/-- The position of a combination in the lexicographic order. -/
def canon : List (Nat × Nat) → Nat
  | [] => 0
  | (_, b) :: l => b * states (l.map (·.1)) + canon l

theorem canon_lt {l : List (Nat × Nat)} (h : ∀ p ∈ l, p.2 ≤ p.1) : canon l < states (l.map (·.1)) := by
  induction l with
  | nil => decide
  | cons p l ih =>
    obtain ⟨s, b⟩ := p
    have h1 := h (s, b) (by simp)
    have h2 := ih fun p hp => h p (by simp [hp])
    simp only [canon, List.map_cons, states]
    dsimp only at h1
    calc _ < b * states (l.map (·.1)) + states (l.map (·.1)) := by omega
      _ = (b + 1) * states (l.map (·.1)) := by rw [Nat.succ_mul]
      _ ≤ _ := Nat.mul_le_mul_right _ (by omega)

theorem visitIndex_eq {l : List (Nat × Nat)} {acc : Nat} (h : ∀ p ∈ l, (p.2 + 1) % 2 ^ 64 ≤ p.1)
    (hs : acc + canon (l.map fun p => (p.1, (p.2 + 1) % 2 ^ 64)) < 2 ^ 64) (ht : states (l.map (·.1)) < 2 ^ 64) :
    visitIndex acc l = acc + canon (l.map fun p => (p.1, (p.2 + 1) % 2 ^ 64)) := by
  induction l generalizing acc with
  | nil => rfl
  | cons p l ih =>
    obtain ⟨s, b⟩ := p
    simp only [visitIndex, List.map_cons, canon, List.map_map] at *
    have h3 : states (l.map (·.1)) < 2 ^ 64 := by
      refine Nat.lt_of_le_of_lt ?_ ht
      simp only [states]
      exact Nat.le_mul_of_pos_left _ (by omega)
    have h4 : List.map ((fun x => x.1) ∘ fun p : Nat × Nat => (p.1, (p.2 + 1) % 2 ^ 64)) l = l.map (·.1) := rfl
    rw [h4] at hs ⊢
    rw [totalStates_eq h3, Nat.mod_eq_of_lt (by omega), ih (fun p hp => h p (by simp [hp])) (by omega) h3]
    omega

/-! ## The table -/

theorem flatten_get {γ δ : Type} (F : γ → List δ) (m : Nat) (l : List γ) (hF : ∀ x ∈ l, (F x).length = m) {b c : Nat} (hb : b < l.length) (hc : c < m) :
    (l.map F).flatten[b * m + c]? = (F l[b])[c]? := by
  induction l generalizing b with
  | nil => simp at hb
  | cons x l ih =>
    have hx := hF x (by simp)
    rw [List.map_cons, List.flatten_cons]
    cases b with
    | zero => rw [List.getElem?_append_left (by omega)]; simp
    | succ b =>
      have h1 : (b + 1) * m = b * m + m := Nat.succ_mul b m
      rw [List.getElem?_append_right (by omega), hx, show (b + 1) * m + c - m = b * m + c by omega]
      rw [ih (fun y hy => hF y (by simp [hy])) (by simpa using hb)]
      rfl

theorem product_cons2 {γ : Type} (a b : List γ) (l : List (List γ)) :
    product (a :: b :: l) = (a.map fun x => (product (b :: l)).map fun t => x :: t).flatten := by
  rw [product]
  simp

theorem product_length (sizes : List Nat) (h : sizes ≠ []) : (indexVectors sizes).length = states sizes := by
  unfold indexVectors
  induction sizes with
  | nil => exact absurd rfl h
  | cons s l ih =>
    cases l with
    | nil => simp [product, states]; omega
    | cons s2 l =>
      rw [List.map_cons, List.map_cons, product_cons2, List.length_flatten, List.map_map]
      have h1 : (List.length ∘ fun x => (product (List.range (1 + s2) :: List.map (fun s => List.range (1 + s)) l)).map fun t => x :: t) = fun _ => states (s2 :: l) := by
        funext x
        simp only [Function.comp, List.length_map]
        exact ih (by simp)
      rw [h1]
      simp only [List.map_const', List.length_range, states]
      simp [Nat.add_comm]

theorem product_get (l : List (Nat × Nat)) (h : ∀ p ∈ l, p.2 ≤ p.1) (hl : l ≠ []) : (indexVectors (l.map (·.1)))[canon l]? = some (l.map (·.2)) := by
  unfold indexVectors
  induction l with
  | nil => exact absurd rfl hl
  | cons p l ih =>
    obtain ⟨s, b⟩ := p
    have hb := h (s, b) (by simp)
    dsimp only at hb
    cases l with
    | nil =>
      simp only [List.map_cons, List.map_nil, product, canon, states, Nat.mul_one, Nat.add_zero]
      rw [List.getElem?_map, List.getElem?_range (by omega)]
      rfl
    | cons p2 l =>
      have hlt := canon_lt (l := p2 :: l) fun p hp => h p (by simp [hp])
      have h2 := product_length ((p2 :: l).map (·.1)) (by simp)
      unfold indexVectors at h2
      have ih := ih (fun p hp => h p (by simp [hp])) (by simp)
      rw [List.map_cons, List.map_cons] at ih h2
      rw [canon, List.map_cons, List.map_cons, List.map_cons, List.map_cons, product_cons2]
      have h3 := flatten_get (fun x => (product (List.range (1 + p2.1) :: List.map (fun s => List.range (1 + s)) (List.map (fun x => x.1) l))).map fun t => x :: t)
        (states (p2.1 :: List.map (fun x => x.1) l)) (List.range (1 + s)) (by intro x hx; rw [List.length_map]; exact h2) (b := b) (by simp; omega) hlt
      dsimp only at h3 ⊢
      rw [h3]
      rw [List.getElem?_map, ih]
      simp

variable {V β γ : Type} {P : Par V} {g : Gs V}

/-! ## `visit` -/

section
variable {Q : β → Gs V → Prop} {E : Exc → Gs V → Prop}

theorem Does.indices' {ks : List Nm} {Q : List Nat → Gs V → Prop} (hn : P.n < 2 ^ 31) (hk : ∀ k ∈ ks, Whole g k) (h : Q (ks.map fun k => (g k).idx) g) :
    Does P (Var.indices ks) g Q E := by
  induction ks generalizing Q with
  | nil => exact Does.pure h
  | cons k ks ih =>
    unfold Var.indices
    exact Does.index hn (hk k (by simp)) (Does.bind (ih (fun m hm => hk m (by simp [hm])) (Does.pure h)))

theorem Does.indices {ks : List Nm} {f : List Nat → M V β} (hn : P.n < 2 ^ 31) (hk : ∀ k ∈ ks, Whole g k) (h : Does P (f (ks.map fun k => (g k).idx)) g Q E) :
    Does P (Var.indices ks >>= f) g Q E := Does.bind (Does.indices' hn hk h)

theorem Does.rawGets {ks : List Nm} {is : List Nat} {Q : List (Nat × V) → Gs V → Prop} (l : List (Nat × V)) (hl : ks.map g = l.map fun p => .has p.1 p.2) (his : is = l.map (·.1))
    (h : Q l g) : Does P (Var.rawGets ks is) g Q E := by
  subst his
  induction ks generalizing l Q with
  | nil =>
    cases l with
    | nil => unfold Var.rawGets; exact Does.pure h
    | cons p l => simp at hl
  | cons k ks ih =>
    cases l with
    | nil => simp at hl
    | cons p l =>
      simp only [List.map_cons, List.cons.injEq] at hl
      obtain ⟨h1, h2⟩ := hl
      show Does P (Var.rawGets (k :: ks) (p.1 :: l.map (·.1))) g Q E
      unfold Var.rawGets
      exact Does.rawGet Obj.has h1 (Does.bind (ih l h2 (Does.pure h)))

theorem idx_bias {k : Nm} (hr : ∀ i x, g k = .has i x → i < P.n) (hn : P.n < 2 ^ 31) (hk : Whole g k) :
    ((g k).idx + 1) % 2 ^ 64 ≤ P.n ∧ (((g k).idx + 1) % 2 ^ 64 = 0 ↔ g k = .vless) := by
  rcases hk with hk | ⟨i, x, hk⟩
  · rw [hk]
    simp [Gh.idx, npos]
  · have := hr i x hk
    rw [hk]
    unfold Gh.idx
    dsimp only
    rw [Nat.mod_eq_of_lt (by omega)]
    exact ⟨by omega, by simp⟩

theorem states_const (n : Nat) (l : List β) : states (l.map fun _ => n) = (n + 1) ^ l.length := by
  induction l with
  | nil => rfl
  | cons a l ih => rw [List.map_cons, states, ih, List.length_cons, Nat.pow_succ, Nat.mul_comm]

theorem Does.visitN {ks : List Nm} {Q : List (Nat × V) → Gs V → Prop} (hn : P.n < 2 ^ 31) (hk : ∀ k ∈ ks, Whole g k) (hs : (P.n + 1) ^ ks.length < 2 ^ 64)
    (h1 : (∃ k ∈ ks, g k = .vless) → E .badAccess g) (h2 : ∀ l : List (Nat × V), (ks.map g = l.map fun p => .has p.1 p.2) → Q l g) :
    Does P (Var.visit P ks) g Q E := by
  refine Does.range fun hr => ?_
  unfold Var.visit
  split
  · next h =>
    have : ks = [] := by simpa using h
    subst this
    exact Does.pure (h2 [] rfl)
  · next h =>
    have hne : ks ≠ [] := by simpa using h
    refine Does.indices hn hk ?_
    have hb : ∀ k ∈ ks, _ := fun k hm => idx_bias (hr k) hn (hk k hm)
    have e1 : (ks.map fun k => (g k).idx).map (fun i => (P.n, i)) = ks.map fun k => (P.n, (g k).idx) := by simp
    rw [e1]
    have hle : ∀ p ∈ ks.map (fun k => (P.n, ((g k).idx + 1) % 2 ^ 64)), p.2 ≤ p.1 := by
      intro p hp
      obtain ⟨k, hm, rfl⟩ := List.mem_map.1 hp
      exact (hb k hm).1
    have hst : states ((ks.map fun k => (P.n, ((g k).idx + 1) % 2 ^ 64)).map (·.1)) < 2 ^ 64 := by
      rw [List.map_map, show ((fun x => x.1) ∘ fun k => (P.n, ((g k).idx + 1) % 2 ^ 64)) = fun _ => P.n from rfl, states_const]
      exact hs
    have e2 : visitIndex 0 (ks.map fun k => (P.n, (g k).idx)) = canon (ks.map fun k => (P.n, ((g k).idx + 1) % 2 ^ 64)) := by
      rw [visitIndex_eq]
      · rw [List.map_map, Nat.zero_add]
        rfl
      · intro p hp
        obtain ⟨k, hm, rfl⟩ := List.mem_map.1 hp
        exact (hb k hm).1
      · rw [List.map_map, Nat.zero_add]
        exact Nat.lt_trans (canon_lt hle) hst
      · rw [List.map_map]
        rw [List.map_map] at hst
        exact hst
    rw [e2]
    have e3 := product_get _ hle (by simpa using hne)
    rw [List.map_map, List.map_map, show ((fun x => x.1) ∘ fun k => (P.n, ((g k).idx + 1) % 2 ^ 64)) = fun _ => P.n from rfl] at e3
    rw [e3]
    dsimp only
    unfold dispatch
    split
    · next h3 =>
      refine Does.throw (h1 ?_)
      rw [List.any_eq_true] at h3
      obtain ⟨b, hb1, hb2⟩ := h3
      obtain ⟨k, hm, rfl⟩ := List.mem_map.1 hb1
      refine ⟨k, hm, (hb k hm).2.1 ?_⟩
      simpa using hb2
    · next h3 =>
      have hall : ∀ k ∈ ks, ∃ i x, g k = .has i x := by
        intro k hm
        rcases hk k hm with h4 | h4
        · exfalso
          apply h3
          rw [List.any_eq_true]
          exact ⟨_, List.mem_map.2 ⟨k, hm, rfl⟩, by simpa using (hb k hm).2.2 h4⟩
        · exact h4
      have hex : ∃ l : List (Nat × V), ks.map g = (l.map fun p => .has p.1 p.2) ∧
          (ks.map ((fun x => x.2) ∘ fun k => (P.n, ((g k).idx + 1) % 2 ^ 64))).map (· - 1) = l.map (·.1) := by
        clear h1 h2 h hne hb hle hst e1 e2 e3 h3 hs hk
        induction ks with
        | nil => exact ⟨[], rfl, rfl⟩
        | cons k ks ih =>
          obtain ⟨l, h4, h5⟩ := ih fun m hm => hall m (by simp [hm])
          obtain ⟨i, x, hx⟩ := hall k (by simp)
          refine ⟨(i, x) :: l, by simp [h4, hx], ?_⟩
          have hi := hr k i x hx
          simp only [List.map_cons, h5, Function.comp, hx, Gh.idx]
          congr 1
          omega
      obtain ⟨l, h4, h5⟩ := hex
      exact Does.rawGets l h4 h5 (h2 l h4)

end

/-! ## Comparisons -/

section
variable {E : Exc → Gs V → Prop}

theorem Does.relVisit {Q : Bool → Gs V → Prop} {r : Rel} {k l : Nm} {i : Nat} {x y : V} (hk : g k = .has i x) (hl : g l = .has i y) (h : Q (P.rel r i x y) g) :
    Does P (Var.relVisit P r k l (some i)) g Q E := by
  unfold Var.relVisit
  exact Does.rawGet Obj.has hk (Does.rawGet Obj.has hl (Does.pure h))

/-- The comparison of states. -/
def ghRel (P : Par V) (r : Rel) : Gh V → Gh V → Bool
  | .has i x, .has j y => if i = j then P.rel r i x y else r.nat i j
  | .has _ _, _ => r.nat 1 0
  | _, .has _ _ => r.nat 0 1
  | _, _ => r.refl

theorem Does.cmpEq {Q : Bool → Gs V → Prop} {r : Rel} {k l : Nm} (hn : P.n < 2 ^ 31) (hr : r = .eq ∨ r = .ne) (hk : Whole g k) (hl : Whole g l)
    (h : Q (ghRel P r (g k) (g l)) g) : Does P (Var.cmpEq P r k l) g Q E := by
  refine Does.range fun hR => ?_
  have e1 := hR k
  have e2 := hR l
  unfold Var.cmpEq
  refine Does.index hn hl (Does.index hn hk ?_)
  rcases hk with hk | ⟨i, x, hk⟩ <;> rcases hl with hl | ⟨j, y, hl⟩ <;> rw [hk, hl] at h ⊢ <;> unfold Gh.idx <;> dsimp only
  · rw [if_pos rfl, rawVisit_npos]
    unfold Var.relVisit
    exact Does.pure h
  · have := e2 _ _ hl
    rw [if_neg (by unfold npos; omega)]
    refine Does.pure ?_
    rcases hr with rfl | rfl <;> exact h
  · have := e1 _ _ hk
    rw [if_neg (by unfold npos; omega)]
    refine Does.pure ?_
    rcases hr with rfl | rfl <;> exact h
  · have := e1 _ _ hk
    have := e2 _ _ hl
    unfold ghRel at h
    dsimp only at h
    split
    · next hij =>
      subst hij
      rw [rawVisit_lt hn (by omega)]
      rw [if_pos rfl] at h
      exact Does.relVisit hk hl h
    · next hij =>
      rw [if_neg hij] at h
      refine Does.pure ?_
      rcases hr with rfl | rfl <;> simpa [Rel.nat, hij] using h

theorem Does.cmpLt {Q : Bool → Gs V → Prop} {r : Rel} {less : Bool} {k l : Nm} (hn : P.n < 2 ^ 31)
    (hr : (less = true ∧ (r = .lt ∨ r = .le)) ∨ (less = false ∧ (r = .gt ∨ r = .ge))) (hk : Whole g k) (hl : Whole g l)
    (h : Q (ghRel P r (g k) (g l)) g) : Does P (Var.cmpLt P r less k l) g Q E := by
  refine Does.range fun hR => ?_
  have e1 := hR k
  have e2 := hR l
  unfold Var.cmpLt
  refine Does.index hn hk (Does.index hn hl ?_)
  rcases hk with hk | ⟨i, x, hk⟩ <;> rcases hl with hl | ⟨j, y, hl⟩ <;> rw [hk, hl] at h ⊢ <;> unfold Gh.idx <;> dsimp only
  · have h3 : (npos + 1) % 2 ^ 64 = 0 := by decide
    rw [h3]
    rw [if_neg (by simp), if_pos rfl, show (0 + (2 ^ 64 - 1)) % 2 ^ 64 = npos by decide, rawVisit_npos]
    unfold Var.relVisit
    exact Does.pure h
  · have h4 := e2 _ _ hl
    have h3 : (npos + 1) % 2 ^ 64 = 0 := by decide
    rw [h3, Nat.mod_eq_of_lt (by omega : j + 1 < 2 ^ 64)]
    rcases hr with ⟨rfl, rfl | rfl⟩ | ⟨rfl, rfl | rfl⟩ <;> simp only [if_true, Bool.false_eq_true, if_false] <;>
      simp only [Nat.zero_lt_succ, Nat.not_lt_zero, if_true, if_false] <;> first | exact Does.pure h | (rw [if_neg (by omega)]; exact Does.pure h)
  · have h4 := e1 _ _ hk
    have h3 : (npos + 1) % 2 ^ 64 = 0 := by decide
    rw [h3, Nat.mod_eq_of_lt (by omega : i + 1 < 2 ^ 64)]
    rcases hr with ⟨rfl, rfl | rfl⟩ | ⟨rfl, rfl | rfl⟩ <;> simp only [if_true, Bool.false_eq_true, if_false] <;>
      simp only [Nat.zero_lt_succ, Nat.not_lt_zero, if_true, if_false] <;> first | exact Does.pure h | (rw [if_neg (by omega)]; exact Does.pure h)
  · have h4 := e1 _ _ hk
    have h5 := e2 _ _ hl
    rw [Nat.mod_eq_of_lt (by omega : i + 1 < 2 ^ 64), Nat.mod_eq_of_lt (by omega : j + 1 < 2 ^ 64)]
    unfold ghRel at h
    dsimp only at h
    by_cases hij : i = j
    · subst hij
      rw [if_pos rfl] at h
      rw [if_neg (by simp), if_pos rfl, show (i + 1 + (2 ^ 64 - 1)) % 2 ^ 64 = i by omega, rawVisit_lt hn (by omega)]
      exact Does.relVisit hk hl h
    · rw [if_neg hij] at h
      rw [if_neg (by omega : ¬ i + 1 = j + 1)]
      by_cases hlt : i < j
      · have f1 : Rel.lt.nat i j = true := by simp [Rel.nat]; omega
        have f2 : Rel.le.nat i j = true := by simp [Rel.nat]; omega
        have f3 : Rel.gt.nat i j = false := by simp [Rel.nat]; omega
        have f4 : Rel.ge.nat i j = false := by simp [Rel.nat]; omega
        rcases hr with ⟨rfl, rfl | rfl⟩ | ⟨rfl, rfl | rfl⟩ <;> simp only [if_true, Bool.false_eq_true, if_false] <;> simp only [f1, f2, f3, f4] at h <;>
          first | (rw [if_pos (by omega)]; exact Does.pure h) | (rw [if_neg (by omega)]; exact Does.pure h)
      · have hlt : j < i := by omega
        have f1 : Rel.lt.nat i j = false := by simp [Rel.nat]; omega
        have f2 : Rel.le.nat i j = false := by simp [Rel.nat]; omega
        have f3 : Rel.gt.nat i j = true := by simp [Rel.nat]; omega
        have f4 : Rel.ge.nat i j = true := by simp [Rel.nat]; omega
        rcases hr with ⟨rfl, rfl | rfl⟩ | ⟨rfl, rfl | rfl⟩ <;> simp only [if_true, Bool.false_eq_true, if_false] <;> simp only [f1, f2, f3, f4] at h <;>
          first | (rw [if_pos (by omega)]; exact Does.pure h) | (rw [if_neg (by omega)]; exact Does.pure h)

theorem Does.compare {Q : Bool → Gs V → Prop} {r : Rel} {k l : Nm} (hn : P.n < 2 ^ 31) (hk : Whole g k) (hl : Whole g l)
    (h : Q (ghRel P r (g k) (g l)) g) : Does P (Var.compare P r k l) g Q E := by
  unfold Var.compare
  cases r with
  | eq => exact Does.cmpEq hn (.inl rfl) hk hl h
  | ne => exact Does.cmpEq hn (.inr rfl) hk hl h
  | lt => exact Does.cmpLt hn (.inl ⟨rfl, .inl rfl⟩) hk hl h
  | gt => exact Does.cmpLt hn (.inr ⟨rfl, .inl rfl⟩) hk hl h
  | le => exact Does.cmpLt hn (.inl ⟨rfl, .inr rfl⟩) hk hl h
  | ge => exact Does.cmpLt hn (.inr ⟨rfl, .inr rfl⟩) hk hl h

end
end STL.Var
