import Verif.RBTree.Insert

/-! # Moving through the tree: `_Min`, `_Max`, `++`, `--`. Proofs only. -/

namespace STL.RBT
open STL
variable {α κ : Type}

def ht : T α → Nat
  | .nil => 0
  | .node _ _ _ l r => max (ht l) (ht r) + 1

theorem plug_append : ∀ (D C : Cx α) (t : T α), plug (D ++ C) t = plug C (plug D t)
  | [], _, _ => rfl
  | ⟨true, _, _, _, _⟩ :: D, C, t => plug_append D C _
  | ⟨false, _, _, _, _⟩ :: D, C, t => plug_append D C _

theorem len_plug : ∀ (C : Cx α) (t : T α), C.length + ht t ≤ ht (plug C t)
  | [], _ => by simp [plug]
  | ⟨true, i, v, c, s⟩ :: C, t => by
    have := len_plug C (.node i v c t s); simp only [ht, plug, List.length_cons] at *; omega
  | ⟨false, i, v, c, s⟩ :: C, t => by
    have := len_plug C (.node i v c s t); simp only [ht, plug, List.length_cons] at *; omega

theorem At.app {hd : Nat} {h : Hp α} {Lm Rm : Nat} {D C : Cx α} {t : T α} : At hd h Lm Rm C (RBT.plug D t) ↔ At hd h Lm Rm (D ++ C) t := by
  rw [At.plug, ← plug_append, ← At.plug]

theorem Foc.plug {hd : Nat} {h : Hp α} {C : Cx α} {t : T α} : Foc hd h C t ↔ Foc hd h [] (RBT.plug C t) := by
  have e : inord [] (RBT.plug C t) = inord C t := by simp [inord, itL, itR]; rw [items_plug]; simp [inord]
  constructor
  · rintro ⟨a, b, c⟩; exact ⟨by rw [e]; exact At.plug.1 a, b, c⟩
  · rintro ⟨a, b, c⟩; exact ⟨by rw [e] at a; exact At.plug.2 a, b, c⟩

theorem itL_append : ∀ (D C : Cx α), itL (D ++ C) = itL C ++ itL D
  | [], C => by simp [itL]
  | ⟨true, _, _, _, _⟩ :: D, C => by simp [itL, itL_append D C]
  | ⟨false, _, _, _, _⟩ :: D, C => by simp [itL, itL_append D C]

theorem itR_append : ∀ (D C : Cx α), itR (D ++ C) = itR D ++ itR C
  | [], C => by simp [itR]
  | ⟨true, _, _, _, _⟩ :: D, C => by simp [itR, itR_append D C]
  | ⟨false, _, _, _, _⟩ :: D, C => by simp [itR, itR_append D C]

theorem inord_app (D C : Cx α) (t : T α) : inord (D ++ C) t = inord C (plug D t) := by
  simp [inord, itL_append, itR_append, items_plug]

def AllL (D : Cx α) : Prop := ∀ f ∈ D, f.left = true
def AllR (D : Cx α) : Prop := ∀ f ∈ D, f.left = false

theorem AllL.itL : ∀ {D : Cx α}, AllL D → RBT.itL D = []
  | [], _ => rfl
  | ⟨true, _, _, _, _⟩ :: D, h => AllL.itL (D := D) fun f hf => h f (List.mem_cons_of_mem _ hf)
  | ⟨false, _, _, _, _⟩ :: D, h => absurd (h _ List.mem_cons_self) (by simp)

theorem AllR.itR : ∀ {D : Cx α}, AllR D → RBT.itR D = []
  | [], _ => rfl
  | ⟨false, _, _, _, _⟩ :: D, h => AllR.itR (D := D) fun f hf => h f (List.mem_cons_of_mem _ hf)
  | ⟨true, _, _, _, _⟩ :: D, h => absurd (h _ List.mem_cons_self) (by simp)

theorem items_ne {t : T α} (h : t ≠ .nil) : items t ≠ [] := by cases t <;> simp_all [items]

theorem items_eq_nil {t : T α} : items t = [] ↔ t = .nil := by cases t <;> simp [items]

theorem minF_spec {hd : Nat} {h : Hp α} {Lm Rm : Nat} : ∀ (t : T α) (C : Cx α), At hd h Lm Rm C t → t ≠ .nil →
    ∃ D m v c r, t = plug D (.node m v c .nil r) ∧ AllL D ∧ ∀ f, ht t ≤ f → minF h f (ptr hd t) = .ok m
  | .nil, _, _, h => absurd rfl h
  | .node i v c l r, C, hA, _ => by
    have hl := (At.upL.2 hA)
    obtain ⟨n, hn, -, hnil⟩ := hl.at
    cases l with
    | nil =>
      refine ⟨[], i, v, c, r, rfl, by simp [AllL], fun f hf => ?_⟩
      obtain ⟨f, rfl⟩ : ∃ g, f = g + 1 := ⟨f - 1, by simp [ht] at hf; omega⟩
      unfold minF; rw [ptr_node, nd_some hA.node, R.ok_bind]; simp only
      rw [nd_some hn, R.ok_bind, if_pos (hnil.2 rfl)]
    | node i2 v2 c2 l2 r2 =>
      obtain ⟨D, m, v', c', r', e, hD, hm⟩ := minF_spec _ _ hl (by simp)
      refine ⟨D ++ [⟨true, i, v, c, r⟩], m, v', c', r', by rw [plug_append, ← e]; rfl, ?_, fun f hf => ?_⟩
      · intro x hx; simp only [List.mem_append, List.mem_singleton] at hx
        rcases hx with hx | rfl
        · exact hD x hx
        · rfl
      · obtain ⟨f, rfl⟩ : ∃ g, f = g + 1 := ⟨f - 1, by simp [ht] at hf; omega⟩
        unfold minF; rw [ptr_node, nd_some hA.node, R.ok_bind]; simp only
        rw [nd_some hn, R.ok_bind, if_neg (by rw [hnil]; simp)]
        exact hm f (by simp only [ht] at *; omega)

theorem maxF_spec {hd : Nat} {h : Hp α} {Lm Rm : Nat} : ∀ (t : T α) (C : Cx α), At hd h Lm Rm C t → t ≠ .nil →
    ∃ D m v c l, t = plug D (.node m v c l .nil) ∧ AllR D ∧ ∀ f, ht t ≤ f → maxF h f (ptr hd t) = .ok m
  | .nil, _, _, h => absurd rfl h
  | .node i v c l r, C, hA, _ => by
    have hl := (At.upR.2 hA)
    obtain ⟨n, hn, -, hnil⟩ := hl.at
    cases r with
    | nil =>
      refine ⟨[], i, v, c, l, rfl, by simp [AllR], fun f hf => ?_⟩
      obtain ⟨f, rfl⟩ : ∃ g, f = g + 1 := ⟨f - 1, by simp [ht] at hf; omega⟩
      unfold maxF; rw [ptr_node, nd_some hA.node, R.ok_bind]; simp only
      rw [nd_some hn, R.ok_bind, if_pos (hnil.2 rfl)]
    | node i2 v2 c2 l2 r2 =>
      obtain ⟨D, m, v', c', r', e, hD, hm⟩ := maxF_spec _ _ hl (by simp)
      refine ⟨D ++ [⟨false, i, v, c, l⟩], m, v', c', r', by rw [plug_append, ← e]; rfl, ?_, fun f hf => ?_⟩
      · intro x hx; simp only [List.mem_append, List.mem_singleton] at hx
        rcases hx with hx | rfl
        · exact hD x hx
        · rfl
      · obtain ⟨f, rfl⟩ : ∃ g, f = g + 1 := ⟨f - 1, by simp [ht] at hf; omega⟩
        unfold maxF; rw [ptr_node, nd_some hA.node, R.ok_bind]; simp only
        rw [nd_some hn, R.ok_bind, if_neg (by rw [hnil]; simp)]
        exact hm f (by simp only [ht] at *; omega)

theorem minF_first {hd : Nat} {h : Hp α} {Lm Rm : Nat} {t : T α} {C : Cx α} (hA : At hd h Lm Rm C t) (ht0 : t ≠ .nil) {f : Nat} (hf : ht t ≤ f) (X : List (Nat × α)) :
    minF h f (ptr hd t) = .ok (firstId hd (items t ++ X)) := by
  obtain ⟨D, m, v, c, r, e, hD, hm⟩ := minF_spec t C hA ht0
  rw [hm f hf, e, items_plug, inord, hD.itL]; simp [items, firstId]

theorem maxF_last {hd : Nat} {h : Hp α} {Lm Rm : Nat} {t : T α} {C : Cx α} (hA : At hd h Lm Rm C t) (ht0 : t ≠ .nil) {f : Nat} (hf : ht t ≤ f) (X : List (Nat × α)) :
    maxF h f (ptr hd t) = .ok (lastId hd (X ++ items t)) := by
  obtain ⟨D, m, v, c, r, e, hD, hm⟩ := maxF_spec t C hA ht0
  rw [hm f hf, e, items_plug, inord, hD.itR]; simp only [items, lastId, List.append_nil, ← List.append_assoc, List.getLast?_concat]

theorem climbR_spec {hd : Nat} {h : Hp α} {Lm Rm : Nat} : ∀ {C : Cx α} {x : Nat} {n : Node α}, LkC hd h Lm Rm C x → (hd :: (idl C ++ idr C)).Nodup →
    x ≠ hd → x ∉ idl C → x ∉ idr C → h x = some n → n.parent = parP hd C → ∀ f, C.length < f → climbR h f x = .ok (firstId hd (itR C))
  | [], x, n, hc, _, _, _, _, hx, hp, f, hf => by
    obtain ⟨f, rfl⟩ : ∃ g, f = g + 1 := ⟨f - 1, by simp at hf; omega⟩
    unfold climbR; rw [nd_some hx, R.ok_bind, hp]; simp only [parP]; rw [nd_some hc, R.ok_bind]; rfl
  | ⟨true, i, v, c, s⟩ :: C, x, n, hc, hnd, h1, h2, h3, hx, hp, f, hf => by
    obtain ⟨f, rfl⟩ : ∃ g, f = g + 1 := ⟨f - 1, by simp at hf; omega⟩
    unfold climbR; rw [nd_some hx, R.ok_bind, hp]; simp only [parP]; rw [nd_some hc.1, R.ok_bind]
    simp only [Bool.false_eq_true, if_false]
    rw [if_neg (ptr_ne h1 (by nds at h3; grind))]; simp [firstId, itR]
  | ⟨false, i, v, c, s⟩ :: C, x, n, hc, hnd, h1, h2, h3, hx, hp, f, hf => by
    obtain ⟨f, rfl⟩ : ∃ g, f = g + 1 := ⟨f - 1, by simp at hf; omega⟩
    unfold climbR; rw [nd_some hx, R.ok_bind, hp]; simp only [parP]; rw [nd_some hc.1, R.ok_bind]
    simp only [Bool.false_eq_true, if_false, if_true]
    nds at hnd
    rw [climbR_spec hc.2.2 (by nds; grind) (by grind) (by grind) (by grind) hc.1 rfl f (by simpa using hf)]; rfl

theorem climbL_spec {hd : Nat} {h : Hp α} {Lm Rm : Nat} : ∀ {C : Cx α} {x : Nat} {n : Node α}, LkC hd h Lm Rm C x → (hd :: (idl C ++ idr C)).Nodup →
    x ≠ hd → x ∉ idl C → x ∉ idr C → h x = some n → n.parent = parP hd C → ∀ f, C.length < f → climbL h f x = .ok (lastId hd (itL C))
  | [], x, n, hc, _, _, _, _, hx, hp, f, hf => by
    obtain ⟨f, rfl⟩ : ∃ g, f = g + 1 := ⟨f - 1, by simp at hf; omega⟩
    unfold climbL; rw [nd_some hx, R.ok_bind, hp]; simp only [parP]; rw [nd_some hc, R.ok_bind]; rfl
  | ⟨false, i, v, c, s⟩ :: C, x, n, hc, hnd, h1, h2, h3, hx, hp, f, hf => by
    obtain ⟨f, rfl⟩ : ∃ g, f = g + 1 := ⟨f - 1, by simp at hf; omega⟩
    unfold climbL; rw [nd_some hx, R.ok_bind, hp]; simp only [parP]; rw [nd_some hc.1, R.ok_bind]
    simp only [Bool.false_eq_true, if_false]
    rw [if_neg (ptr_ne h1 (by nds at h2; grind))]; simp [lastId, itL, ← List.append_assoc, List.getLast?_concat]
  | ⟨true, i, v, c, s⟩ :: C, x, n, hc, hnd, h1, h2, h3, hx, hp, f, hf => by
    obtain ⟨f, rfl⟩ : ∃ g, f = g + 1 := ⟨f - 1, by simp at hf; omega⟩
    unfold climbL; rw [nd_some hx, R.ok_bind, hp]; simp only [parP]; rw [nd_some hc.1, R.ok_bind]
    simp only [Bool.false_eq_true, if_false, if_true]
    nds at hnd
    rw [climbL_spec hc.2.2 (by nds; grind) (by grind) (by grind) (by grind) hc.1 rfl f (by simpa using hf)]; rfl

/-- `++` from a node -/
theorem next_foc {hd : Nat} {h : Hp α} {Lm Rm : Nat} {C : Cx α} {i : Nat} {v : α} {c : Bool} {l r : T α} (hA : At hd h Lm Rm C (.node i v c l r))
    {f : Nat} (hf : C.length + ht (.node i v c l r) ≤ f) : next h f i = .ok (firstId hd (items r ++ itR C)) := by
  have hr := At.upR.2 hA
  obtain ⟨n, hn, -, hnil⟩ := hr.at
  unfold next; rw [nd_some hA.node, R.ok_bind]; simp only
  rw [nd_some hn, R.ok_bind]
  by_cases h0 : r = .nil
  · rw [if_pos (hnil.2 h0), h0]
    have hnd := hA.nodup
    nds at hnd
    have := hA.ctx
    rw [ptr_node] at this
    rw [climbR_spec this (by nds; grind) (by grind) (by grind) (by grind) hA.node rfl f (by simp only [ht] at hf; omega)]; rfl
  · rw [if_neg (by rw [hnil]; exact h0), minF_first hr h0 (by simp only [ht] at hf; omega) (itR C)]

/-- `--` from a node -/
theorem prev_foc {hd : Nat} {h : Hp α} {Lm Rm : Nat} {C : Cx α} {i : Nat} {v : α} {c : Bool} {l r : T α} (hA : At hd h Lm Rm C (.node i v c l r))
    {f : Nat} (hf : C.length + ht (.node i v c l r) ≤ f) : prev h f i = .ok (lastId hd (itL C ++ items l)) := by
  have hr := At.upL.2 hA
  obtain ⟨n, hn, -, hnil⟩ := hr.at
  unfold prev; rw [nd_some hA.node, R.ok_bind]; simp only [Bool.false_eq_true, if_false]
  rw [nd_some hn, R.ok_bind]
  by_cases h0 : l = .nil
  · rw [if_pos (hnil.2 h0), h0]
    have hnd := hA.nodup
    nds at hnd
    have := hA.ctx
    rw [ptr_node] at this
    rw [climbL_spec this (by nds; grind) (by grind) (by grind) (by grind) hA.node rfl f (by simp only [ht] at hf; omega)]; simp [items]
  · rw [if_neg (by rw [hnil]; exact h0), maxF_last hr h0 (by simp only [ht] at hf; omega) (itL C)]

/-- putting the focus on an element -/
theorem split_item : ∀ (t : T α) (A B : List (Nat × α)) (e : Nat) (v : α), items t = A ++ (e, v) :: B →
    ∃ C c l r, plug C (.node e v c l r) = t ∧ itL C ++ items l = A ∧ items r ++ itR C = B
  | .nil, A, B, e, v, h => by simp [items] at h
  | .node i w c l r, A, B, e, v, h => by
    rw [items, List.append_eq_append_iff] at h
    rcases h with ⟨A', rfl, h⟩ | ⟨B', h, h2⟩
    · cases A' with
      | nil => simp at h; obtain ⟨⟨rfl, rfl⟩, rfl⟩ := h; exact ⟨[], c, l, r, rfl, by simp [itL], by simp [itR]⟩
      | cons a A' =>
        simp only [List.cons_append, List.cons.injEq] at h
        obtain ⟨rfl, h⟩ := h
        obtain ⟨C, c', l', r', e1, e2, e3⟩ := split_item r _ _ _ _ h
        refine ⟨C ++ [⟨false, i, w, c, l⟩], c', l', r', by rw [plug_append, e1]; rfl, ?_, ?_⟩
        · rw [itL_append, ← e2]; simp [itL]
        · rw [itR_append, ← e3]; simp [itR]
    · cases B' with
      | nil => simp at h2; simp at h; obtain ⟨⟨rfl, rfl⟩, rfl⟩ := h2; subst h; exact ⟨[], c, l, r, rfl, by simp [itL], by simp [itR]⟩
      | cons b B' =>
        simp only [List.cons_append, List.cons.injEq] at h2
        obtain ⟨rfl, rfl⟩ := h2
        obtain ⟨C, c', l', r', e1, e2, e3⟩ := split_item l _ _ _ _ h
        refine ⟨C ++ [⟨true, i, w, c, r⟩], c', l', r', by rw [plug_append, e1]; rfl, ?_, ?_⟩
        · rw [itL_append, ← e2]; simp [itL]
        · rw [itR_append, ← e3]; simp [itR]

theorem WF.split {hd : Nat} {h : Hp α} {A B : List (Nat × α)} {e : Nat} {v : α} (W : WF hd h (A ++ (e, v) :: B)) :
    ∃ C c l r, Foc hd h C (.node e v c l r) ∧ itL C ++ items l = A ∧ items r ++ itR C = B := by
  obtain ⟨t, F, e0⟩ := W.foc
  obtain ⟨C, c, l, r, e1, e2, e3⟩ := split_item t A B e v (by simpa [inord, itL, itR] using e0)
  exact ⟨C, c, l, r, Foc.plug.2 (by rw [e1]; exact F), e2, e3⟩

/-! ## height -/

theorem bal_size : ∀ {t : T α} {n : Nat}, Bal t n → 2 ^ n ≤ (items t).length + 1
  | .nil, n, h => by simp [Bal] at h; simp [h, items]
  | .node i v true l r, n, h => by
    obtain ⟨_, _, a, b⟩ := bal_red.1 h
    have := bal_size a; simp [items]; omega
  | .node i v false l r, n, h => by
    obtain ⟨m, rfl, a, b⟩ := bal_black'.1 h
    have := bal_size a; have := bal_size b; simp [items, Nat.pow_succ]; omega

theorem bal_ht : ∀ {t : T α} {n : Nat}, Bal t n → ht t ≤ 2 * n + (if isRed t then 1 else 0)
  | .nil, n, h => by simp [ht]
  | .node i v true l r, n, h => by
    obtain ⟨h1, h2, a, b⟩ := bal_red.1 h
    have x := bal_ht a; have y := bal_ht b; rw [h1] at x; rw [h2] at y; simp [ht, isRed] at *; omega
  | .node i v false l r, n, h => by
    obtain ⟨m, rfl, a, b⟩ := bal_black'.1 h
    have := bal_ht a; have := bal_ht b
    have : (if isRed l then 1 else 0) ≤ 1 := by split <;> simp
    have : (if isRed r then 1 else 0) ≤ 1 := by split <;> simp
    simp only [ht, isRed]; omega

/-- the bound on every path -/
def hb (n : Nat) : Nat := 2 * Nat.log2 (n + 1)

theorem ht_le {t : T α} {n : Nat} (h : Bal t n) (hr : isRed t = false) : ht t ≤ hb (items t).length := by
  have h1 := bal_size h
  have h2 := bal_ht h
  rw [hr] at h2
  have : n ≤ Nat.log2 ((items t).length + 1) := (Nat.le_log2 (by omega)).2 h1
  simp at h2; unfold hb; omega

theorem Foc.len {hd : Nat} {h : Hp α} {C : Cx α} {t : T α} (F : Foc hd h C t) : C.length + ht t ≤ hb (inord C t).length := by
  obtain ⟨n, hn⟩ := F.bal
  have := ht_le hn F.root
  rw [items_plug] at this
  exact (len_plug C t).trans this

end STL.RBT
