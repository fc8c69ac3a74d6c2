import Verif.Hash.Lists

/-! # The bucket array and the order of the elements. Proofs only. -/

namespace STL.UH
open STL STL.DL
variable {α K β : Type}

/-- the element is in bucket `b` -/
def inB (P : Par α K) (mask b : Nat) (a : Nat × α) : Bool := decide (P.hash (P.kfn a.2) &&& mask = b)
/-- the element has the key `k` -/
def eqk (P : Par α K) (k : K) (a : Nat × α) : Bool := P.eq k (P.kfn a.2)

theorem Good.comm {P : Par α K} (g : Good P) (k l : K) : P.eq k l = P.eq l k := by
  cases h : P.eq k l <;> cases h' : P.eq l k <;> first | rfl | (rw [g.symm _ _ h] at h'; simp at h') | (rw [g.symm _ _ h'] at h; simp at h)

theorem Good.inB_eqk {P : Par α K} (g : Good P) {mask : Nat} {k : K} {a : Nat × α} (h : eqk P k a = true) : inB P mask (P.hash k &&& mask) a = true := by
  unfold eqk at h; unfold inB; simp [g.hash _ _ h]

theorem Good.eqk_of {P : Par α K} (g : Good P) {k : K} {a b : Nat × α} (h : eqk P k a = true) (hb : eqk P (P.kfn a.2) b = true) : eqk P k b = true := g.trans _ _ _ h hb

/-- What the bucket array says, and how the elements are ordered. -/
structure BOK (P : Par α K) (mask hd : Nat) (vec : List Nat) (X : List (Nat × α)) : Prop where
  lo : ∀ b ≤ mask, vec[2 * b]? = some (atFirst hd (X.filter (inB P mask b)))
  hi : ∀ b ≤ mask, vec[2 * b + 1]? = some (atLast hd (X.filter (inB P mask b)))
  cont : ∀ b, Contig (inB P mask b) X
  grp : ∀ k, Contig (eqk P k) X

/-- The place between `L` and `N` is a good one for an element with key `k`. -/
def Place (P : Par α K) (mask : Nat) (k : K) (L N : List (Nat × α)) : Prop :=
  (∃ L' a, L = L' ++ [a] ∧ eqk P k a = true) ∨
  (∀ a ∈ L ++ N, eqk P k a = false) ∧
    ((∀ a ∈ L ++ N, inB P mask (P.hash k &&& mask) a = false) ∧ N = [] ∨
     ∃ r N', N = r :: N' ∧ inB P mask (P.hash k &&& mask) r = true ∧ ∀ a ∈ L, inB P mask (P.hash k &&& mask) a = false)

/-- `vec'` is `vec` after the insertion of `x` into bucket `b` between `L` and `N`. -/
structure Upd (P : Par α K) (mask b : Nat) (vec : List Nat) (L N : List (Nat × α)) (x : Nat) (vec' : List Nat) : Prop where
  len : vec'.length = vec.length
  lo : vec'[2 * b]? = if L.filter (inB P mask b) = [] then some x else vec[2 * b]?
  hi : vec'[2 * b + 1]? = if N.filter (inB P mask b) = [] then some x else vec[2 * b + 1]?
  oth : ∀ i, i ≠ 2 * b → i ≠ 2 * b + 1 → vec'[i]? = vec[i]?

theorem atFirst_app' {hd : Nat} {A B : List (Nat × α)} : atFirst hd (A ++ B) = if A = [] then atFirst hd B else atFirst hd A := by
  cases A <;> simp [atFirst]
theorem atLast_app' {hd : Nat} {A B : List (Nat × α)} : atLast hd (A ++ B) = if B = [] then atLast hd A else atLast hd B := by
  split
  · rename_i h; simp [h]
  · rename_i h; exact atLast_app h

theorem Place.sep {P : Par α K} (g : Good P) {mask : Nat} {L N : List (Nat × α)} {k : K} (pl : Place P mask k L N) {p : Nat × α → Bool}
    (c : Contig p (L ++ N)) (h1 : ∀ a, p a = true → eqk P k a = true → False)
    (h2 : ∀ r, p r = true → inB P mask (P.hash k &&& mask) r = true → (∀ a ∈ L, inB P mask (P.hash k &&& mask) a = false) → ∀ a ∈ L, p a = false) :
    (∀ a ∈ L, p a = false) ∨ ∀ a ∈ N, p a = false := by
  rcases pl with ⟨L', a, rfl, ha⟩ | ⟨_, ⟨_, rfl⟩ | ⟨r, N', rfl, hr, hn⟩⟩
  · have hpa : p a = false := by
      cases hp : p a
      · rfl
      · exact (h1 a hp ha).elim
    rcases c.between hpa with h | h
    · left; simp only [List.mem_append, List.mem_singleton]; rintro x (hx | rfl)
      · exact h x hx
      · exact hpa
    · exact Or.inr h
  · right; simp
  · by_cases hpr : p r = true
    · exact Or.inl (h2 r hpr hr hn)
    · have hpr : p r = false := by simpa using hpr
      rcases Contig.between (L := L) (N := N') (a := r) (by simpa using c) hpr with h | h
      · exact Or.inl h
      · right; simp only [List.mem_cons]; rintro x (rfl | hx)
        · exact hpr
        · exact h x hx

theorem BOK.insert {P : Par α K} (g : Good P) {mask hd : Nat} {vec vec' : List Nat} {L N : List (Nat × α)} {x : Nat × α}
    (B : BOK P mask hd vec (L ++ N)) (pl : Place P mask (P.kfn x.2) L N) (u : Upd P mask (P.hash (P.kfn x.2) &&& mask) vec L N x.1 vec') :
    BOK P mask hd vec' (L ++ x :: N) := by
  have hx : inB P mask (P.hash (P.kfn x.2) &&& mask) x = true := by simp [inB]
  have ne : ∀ b, b ≠ P.hash (P.kfn x.2) &&& mask → inB P mask b x = false := by intro b hb; simp [inB]; exact fun h => hb h.symm
  refine ⟨?_, ?_, ?_, ?_⟩
  · intro b hb
    by_cases e : b = P.hash (P.kfn x.2) &&& mask
    · subst e
      rw [u.lo, B.lo _ hb, List.filter_append, List.filter_append, List.filter_cons_of_pos hx, atFirst_app', atFirst_app', atFirst_cons]
      split <;> rfl
    · rw [u.oth _ (by omega) (by omega), B.lo _ hb, List.filter_append, List.filter_append, List.filter_cons_of_neg (by simp [ne b e])]
  · intro b hb
    by_cases e : b = P.hash (P.kfn x.2) &&& mask
    · subst e
      rw [u.hi, B.hi _ hb, List.filter_append, List.filter_append, List.filter_cons_of_pos hx]
      generalize List.filter (inB P mask (P.hash (P.kfn x.2) &&& mask)) L = F
      generalize List.filter (inB P mask (P.hash (P.kfn x.2) &&& mask)) N = G
      rw [atLast_app (M := F) (N := x :: G) (by simp)]
      by_cases hG : G = []
      · subst hG; simp [atLast_single]
      · rw [if_neg hG, atLast_app hG, show x :: G = [x] ++ G from rfl, atLast_app hG]
    · rw [u.oth _ (by omega) (by omega), B.hi _ hb, List.filter_append, List.filter_append, List.filter_cons_of_neg (by simp [ne b e])]
  · intro b
    by_cases e : b = P.hash (P.kfn x.2) &&& mask
    · refine (B.cont b).insP (by rw [e]; exact hx) ?_
      rcases pl with ⟨L', a, rfl, ha⟩ | ⟨_, ⟨h, _⟩ | ⟨r, N', rfl, hr, hn⟩⟩
      · exact Or.inl ⟨L', a, rfl, by rw [e]; exact g.inB_eqk ha⟩
      · exact Or.inr (Or.inr (by rw [e]; exact h))
      · exact Or.inr (Or.inl ⟨r, N', rfl, by rw [e]; exact hr⟩)
    · refine (B.cont b).insN (ne b e) (pl.sep g (B.cont b) ?_ ?_)
      · intro a h1 h2
        have := g.inB_eqk (mask := mask) h2
        simp [inB] at h1 this; omega
      · intro r h1 h2; exfalso; simp [inB] at h1 h2; omega
  · intro k
    by_cases e : eqk P k x = true
    · refine (B.grp k).insP e ?_
      have hk : P.eq k (P.kfn x.2) = true := e
      rcases pl with ⟨L', a, rfl, ha⟩ | ⟨h, _⟩
      · exact Or.inl ⟨L', a, rfl, g.trans _ _ _ hk ha⟩
      · refine Or.inr (Or.inr fun a ha => ?_)
        cases hp : eqk P k a
        · rfl
        · have := h a ha
          rw [show eqk P (P.kfn x.2) a = true from g.trans _ _ _ (g.symm _ _ hk) hp] at this; simp at this
    · refine (B.grp k).insN (by simpa using e) (pl.sep g (B.grp k) ?_ ?_)
      · intro a h1 h2; exact e (g.trans _ _ _ h1 (g.symm _ _ h2))
      · intro r h1 h2 h3 a ha
        cases hp : eqk P k a
        · rfl
        · have q1 := g.inB_eqk (mask := mask) h1
          have q2 := g.inB_eqk (mask := mask) hp
          have := h3 a ha
          simp [inB] at q1 q2 h2 this
          omega

/-- The effect on the groups of equal keys, if nothing after the place has the key. -/
theorem grp_insert {P : Par α K} (k : K) {L N : List (Nat × α)} {x : Nat × α} :
    (L ++ x :: N).filter (eqk P k) = L.filter (eqk P k) ++ (if eqk P k x = true then [x] else []) ++ N.filter (eqk P k) := by
  rw [List.filter_append, List.filter_cons]; split <;> simp

/-- The effect on the groups, when the new element becomes the last of its group. -/
theorem grp_insert_last {P : Par α K} (g : Good P) (k : K) {L N : List (Nat × α)} {x : Nat × α} (hN : ∀ a ∈ N, eqk P (P.kfn x.2) a = false) :
    (L ++ x :: N).filter (eqk P k) = (L ++ N).filter (eqk P k) ++ (if eqk P k x = true then [x] else []) := by
  rw [grp_insert, List.filter_append]
  split
  · rename_i h
    rw [(filter_none (X := N)).2]
    · simp
    · intro a ha
      cases hp : eqk P k a
      · rfl
      · have := hN a ha
        rw [show eqk P (P.kfn x.2) a = true from g.trans _ _ _ (g.symm _ _ h) hp] at this; simp at this
  · simp

end STL.UH
