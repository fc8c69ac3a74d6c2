import Verif.Vec.Spec
import Verif.Vec.Assign

/-! # All vectors of a program: the invariant. Proofs only. -/

namespace STL.Vec
open STL
variable {α β : Type}

structure Inv (P : Par α) (g : Pg α) (s : St α) : Prop where
  own : ∀ k, Own P { g.mem with v := g.vs k } (s k).X
  ent : ∀ k, s k = ⟨(s k).X, (g.vs k).cap, (g.vs k).buf⟩
  sane : Sane g.mem
  inj : ∀ k l, k ≠ l → (g.vs k).buf = (g.vs l).buf → (g.vs k).buf = 0
  leak : ∀ b, g.mem.caps b ≠ none → ∃ k, (g.vs k).buf = b
  raw : ∀ b, g.mem.caps b = none → ∀ i, g.mem.cel b i = none

theorem Inv.cap {P : Par α} {g : Pg α} {s : St α} (I : Inv P g s) (k : Nat) : (s k).cap = (g.vs k).cap := by rw [I.ent k]
theorem Inv.loc {P : Par α} {g : Pg α} {s : St α} (I : Inv P g s) (k : Nat) : (s k).loc = (g.vs k).buf := by rw [I.ent k]
theorem Inv.len {P : Par α} {g : Pg α} {s : St α} (I : Inv P g s) (k : Nat) : (s k).X.length = (g.vs k).size := (I.own k).len

theorem Inv.sane' {P : Par α} {g : Pg α} {s : St α} (I : Inv P g s) (k : Nat) : Sane { g.mem with v := g.vs k } :=
  ⟨I.sane.zero, I.sane.fresh, I.sane.pos⟩

theorem updV_self {vs : Nat → V} {k : Nat} {v : V} : updV vs k v k = v := by simp [updV]
theorem updV_ne {vs : Nat → V} {k m : Nat} {v : V} (h : m ≠ k) : updV vs k v m = vs m := by simp [updV, h]
theorem updS_self {s : St α} {k : Nat} {e : Ent α} : updS s k e k = e := by simp [updS]
theorem updS_ne {s : St α} {k m : Nat} {e : Ent α} (h : m ≠ k) : updS s k e m = s m := by simp [updS, h]

theorem Inv.slot {P : Par α} {g : Pg α} {s : St α} (I : Inv P g s) {k : Nat} {w : W α} {X' : List α} (G : Good P { g.mem with v := g.vs k } w X') :
    Inv P ⟨w, updV g.vs k w.v⟩ (updS s k ⟨X', w.v.cap, w.v.buf⟩) := by
  obtain ⟨own', sane', fr⟩ := G
  have fb : w.v.buf = (g.vs k).buf ∨ w.v.buf = 0 ∨ g.mem.nxt ≤ w.v.buf := fr.buf
  have fo : ∀ b, b ≠ (g.vs k).buf → b ≠ w.v.buf → w.caps b = g.mem.caps b ∧ ∀ i, w.cel b i = g.mem.cel b i := fr.other
  have fold : w.v.buf ≠ (g.vs k).buf → w.caps (g.vs k).buf = none ∧ ∀ i, w.cel (g.vs k).buf i = none := fr.old
  have fn : g.mem.nxt ≤ w.nxt := fr.nxt
  have hlt : ∀ j, (g.vs j).buf < g.mem.nxt := fun j => (I.own j).lt (I.sane' j)
  have key : ∀ j, j ≠ k → (g.vs j).buf ≠ 0 → (g.vs j).buf ≠ (g.vs k).buf ∧ (g.vs j).buf ≠ w.v.buf := by
    intro j hj h0
    have h1 : (g.vs j).buf ≠ (g.vs k).buf := fun h => h0 (I.inj j k hj h)
    refine ⟨h1, ?_⟩
    have := hlt j
    rcases fb with h | h | h
    · rw [h]
      exact h1
    · rw [h]
      exact h0
    · omega
  refine ⟨?_, ?_, sane', ?_, ?_, ?_⟩
  · intro j
    by_cases hj : j = k
    · subst hj
      rw [updS_self]
      show Own P { w with v := updV g.vs j w.v j } X'
      rw [updV_self]
      exact own'
    · rw [updS_ne hj]
      show Own P { w with v := updV g.vs k w.v j } (s j).X
      rw [updV_ne hj]
      have O := I.own j
      refine ⟨O.len, O.le, O.mx, ?_, ?_, O.null⟩
      · intro x
        show w.cel (g.vs j).buf x = _
        by_cases h0 : (g.vs j).buf = 0
        · have := O.cell x
          rw [← this]
          show w.cel (g.vs j).buf x = g.mem.cel (g.vs j).buf x
          rw [h0, sane'.zero.2, I.sane.zero.2]
        · obtain ⟨a, b⟩ := key j hj h0
          rw [(fo _ a b).2]
          exact O.cell x
      · intro h0
        have h0 : (g.vs j).buf ≠ 0 := h0
        obtain ⟨a, b⟩ := key j hj h0
        obtain ⟨o1, o2, o3⟩ := O.live h0
        have o1 : g.mem.caps (g.vs j).buf = some (g.vs j).cap := o1
        have o2 : (g.vs j).buf < g.mem.nxt := o2
        refine ⟨?_, ?_, o3⟩
        · show w.caps (g.vs j).buf = _
          rw [(fo _ a b).1, o1]
        · show (g.vs j).buf < w.nxt
          omega
  · intro j
    show _ = (⟨_, (updV g.vs k w.v j).cap, (updV g.vs k w.v j).buf⟩ : Ent α)
    by_cases hj : j = k
    · subst hj
      rw [updS_self, updV_self]
    · rw [updS_ne hj, updV_ne hj]
      exact I.ent j
  · have hk : ∀ j, j ≠ k → (g.vs j).buf = w.v.buf → w.v.buf = 0 := by
      intro j hj h
      by_cases h0 : (g.vs j).buf = 0
      · omega
      · exact absurd h (key j hj h0).2
    intro j l hjl h
    show (updV g.vs k w.v j).buf = 0
    have h : (updV g.vs k w.v j).buf = (updV g.vs k w.v l).buf := h
    by_cases hj : j = k
    · have hl : l ≠ k := by omega
      rw [hj, updV_self, updV_ne hl] at h
      rw [hj, updV_self]
      exact hk l hl h.symm
    · rw [updV_ne hj] at h ⊢
      by_cases hl : l = k
      · rw [hl, updV_self] at h
        rw [h]
        exact hk j hj h
      · rw [updV_ne hl] at h
        exact I.inj j l hjl h
  · intro b hb
    show ∃ j, (updV g.vs k w.v j).buf = b
    by_cases h1 : b = w.v.buf
    · exact ⟨k, by rw [updV_self, h1]⟩
    · have h2 : b ≠ (g.vs k).buf := by
        intro h2
        have := (fold (by rw [← h2]; exact Ne.symm h1)).1
        rw [← h2] at this
        exact hb this
      have hb : w.caps b ≠ none := hb
      rw [(fo b h2 h1).1] at hb
      obtain ⟨j, hj⟩ := I.leak b hb
      refine ⟨j, ?_⟩
      rw [updV_ne (by rintro rfl; exact h2 hj.symm)]
      exact hj
  · intro b hb i
    have hb : w.caps b = none := hb
    show w.cel b i = none
    by_cases h1 : b = w.v.buf
    · by_cases h0 : w.v.buf = 0
      · rw [h1, h0]
        exact sane'.zero.2 i
      · have := (own'.live h0).1
        rw [← h1, hb] at this
        cases this
    · by_cases h2 : b = (g.vs k).buf
      · rw [h2]
        exact (fold (by rw [← h2]; exact Ne.symm h1)).2 i
      · obtain ⟨a1, a2⟩ := fo b h2 h1
        rw [a1] at hb
        rw [a2]
        exact I.raw b hb i

theorem inv_start (P : Par α) (ans : List (Option Nat)) (tape : List Bool) : Inv P (start ans tape) (fun _ => Ent.null) := by
  refine ⟨?_, fun _ => rfl, ⟨⟨rfl, fun _ => rfl⟩, fun _ _ => ⟨rfl, fun _ => rfl⟩, Nat.one_pos⟩, fun _ _ _ _ => rfl, fun b h => absurd rfl h, fun _ _ _ => rfl⟩
  intro k
  exact ⟨rfl, Nat.le_refl _, Nat.zero_le _, fun x => by simp [start, Ent.null], fun h => absurd rfl h, fun _ => rfl⟩

theorem Inv.swap {P : Par α} {g : Pg α} {s : St α} (I : Inv P g s) {k l : Nat} (hkl : k ≠ l) :
    Inv P ⟨g.mem, updV (updV g.vs k (g.vs l)) l (g.vs k)⟩ (updS (updS s k (s l)) l (s k)) := by
  have hV : ∀ j, updV (updV g.vs k (g.vs l)) l (g.vs k) j = g.vs (if j = l then k else if j = k then l else j) := by
    intro j
    unfold updV
    split
    · rfl
    · split <;> rfl
  have hS : ∀ j, updS (updS s k (s l)) l (s k) j = s (if j = l then k else if j = k then l else j) := by
    intro j
    unfold updS
    split
    · rfl
    · split <;> rfl
  refine ⟨?_, ?_, I.sane, ?_, ?_, I.raw⟩
  · intro j
    show Own P { g.mem with v := updV (updV g.vs k (g.vs l)) l (g.vs k) j } _
    rw [hV, hS]
    exact I.own _
  · intro j
    dsimp only
    rw [hV, hS]
    exact I.ent _
  · intro i j hij
    show (updV (updV g.vs k (g.vs l)) l (g.vs k) i).buf = (updV (updV g.vs k (g.vs l)) l (g.vs k) j).buf → (updV (updV g.vs k (g.vs l)) l (g.vs k) i).buf = 0
    rw [hV, hV]
    apply I.inj
    split <;> split <;> (try split) <;> (try split) <;> omega
  · intro b hb
    obtain ⟨j, hj⟩ := I.leak b hb
    refine ⟨if j = l then k else if j = k then l else j, ?_⟩
    show (updV (updV g.vs k (g.vs l)) l (g.vs k) _).buf = b
    rw [hV, ← hj]
    congr 2
    by_cases h1 : j = l
    · rw [if_pos h1, if_neg hkl, if_pos rfl, h1]
    · rw [if_neg h1]
      by_cases h2 : j = k
      · rw [if_pos h2, if_pos rfl, h2]
      · rw [if_neg h2, if_neg h1, if_neg h2]

theorem updS_comm {s : St α} {k l : Nat} {e f : Ent α} (h : k ≠ l) : updS (updS s k e) l f = updS (updS s l f) k e := by
  funext j
  unfold updS
  by_cases h1 : j = l
  · rw [if_pos h1, if_neg (by omega), if_pos h1]
  · rw [if_neg h1, if_neg h1]

theorem updV_comm {s : Nat → V} {k l : Nat} {e f : V} (h : k ≠ l) : updV (updV s k e) l f = updV (updV s l f) k e := by
  funext j
  unfold updV
  by_cases h1 : j = l
  · rw [if_pos h1, if_neg (by omega), if_pos h1]
  · rw [if_neg h1, if_neg h1]

theorem Inv.null {P : Par α} {g : Pg α} {s : St α} (I : Inv P g s) {k : Nat} (h : s k = Ent.null) : g.vs k = ⟨0, 0, 0⟩ := by
  have h1 := I.cap k
  have h2 := I.loc k
  have h3 := I.len k
  rw [h] at h1 h2 h3
  cases hv : g.vs k with
  | mk b z c =>
    rw [hv] at h1 h2 h3
    simp only [Ent.null, List.length_nil] at h1 h2 h3
    rw [← h1, ← h2, ← h3]

/-- Contents move to a vector that has none. -/
theorem Inv.take {P : Par α} {g : Pg α} {s : St α} (I : Inv P g s) {k l : Nat} (hkl : k ≠ l) (hk : s k = Ent.null) :
    Inv P ⟨g.mem, updV (updV g.vs l ⟨0, 0, 0⟩) k (g.vs l)⟩ (updS (updS s l Ent.null) k (s l)) := by
  have h := I.swap hkl
  rw [I.null hk, hk, updV_comm hkl, updS_comm hkl] at h
  exact h

end STL.Vec
