import Verif.Variant.Effect

/-!
# `variant`: every history (C30)

A client may do anything that the operations allow, and contained objects may throw whenever they are not `noexcept` to be built, assigned or swapped (the tape).
-/

namespace STL.Var
open STL
variable {V : Type} {P : Par V}

/-- What the members of a variable say, and the balance of constructors and destructors: an object with a non-trivial destructor is alive exactly if it is held. -/
def ObservedAt (P : Par V) (w : W V) (k : Nat) : G V → Prop
  | .absent => (w.cell (.u k)).live = false ∧ (w.cell (.u k)).obj = none ∧ (w.cell (.u k)).made = (w.cell (.u k)).gone
  | .valueless => index (.u k) w = .ok npos w ∧ valueless (.u k) w = .ok true w ∧ (w.cell (.u k)).made = (w.cell (.u k)).gone ∧
      (∀ i, i < P.n → get (.u k) i w = .exc .badAccess w ∧ getIf (.u k) i w = .ok none w)
  | .holds i x => i < P.n ∧ index (.u k) w = .ok i w ∧ valueless (.u k) w = .ok false w ∧ get (.u k) i w = .ok x w ∧ getIf (.u k) i w = .ok (some x) w ∧
      (∀ j, j ≠ i → get (.u k) j w = .exc .badAccess w ∧ getIf (.u k) j w = .ok none w) ∧
      (w.cell (.u k)).made = (w.cell (.u k)).gone + if P.td i then 0 else 1

/-- All variables, and no temporary is left. -/
structure Observed (P : Par V) (w : W V) (s : St V) : Prop where
  var : ∀ k, ObservedAt P w k (s k)
  tv : (w.cell .tv).live = false ∧ (w.cell .tv).obj = none ∧ (w.cell .tv).made = (w.cell .tv).gone
  t : (w.cell .t).live = false ∧ (w.cell .t).obj = none ∧ (w.cell .t).made = (w.cell .t).gone

theorem index_val {w : W V} {k : Nm} (h : (w.cell k).live = true) : index k w = .ok (toSize (w.cell k).which) w := by
  show M.bind (read k) _ w = _
  unfold M.bind read
  rw [if_pos h]
  rfl

theorem valueless_val {w : W V} {k : Nm} (h : (w.cell k).live = true) : valueless k w = .ok (decide ((w.cell k).which < 0)) w := by
  show M.bind (read k) _ w = _
  unfold M.bind read
  rw [if_pos h]
  rfl

theorem get_no {w : W V} {k : Nm} {i j : Nat} (h : index k w = .ok i w) (hne : i ≠ j) : get k j w = .exc .badAccess w ∧ getIf k j w = .ok none w := by
  constructor
  · show M.bind (index k) _ w = _
    unfold M.bind
    rw [h]
    dsimp only
    rw [if_neg hne]
    rfl
  · show M.bind (index k) _ w = _
    unfold M.bind
    rw [h]
    dsimp only
    rw [if_neg hne]
    rfl

theorem get_yes {w : W V} {k : Nm} {i : Nat} {x : V} (h : index k w = .ok i w) (ho : (w.cell k).obj = some (i, x)) :
    get k i w = .ok x w ∧ getIf k i w = .ok (some x) w := by
  have hr : rawGet k i w = .ok x w := by
    unfold rawGet
    rw [ho]
    dsimp only
    rw [if_pos rfl]
  constructor
  · show M.bind (index k) _ w = _
    unfold M.bind
    rw [h]
    dsimp only
    rw [if_pos rfl]
    exact hr
  · show M.bind (index k) _ w = _
    unfold M.bind
    rw [h]
    dsimp only
    rw [if_pos rfl]
    show M.bind (rawGet k i) _ w = _
    unfold M.bind
    rw [hr]
    rfl

theorem observed_of (hn : P.n < 2 ^ 31) {w : W V} {s : St V} (h : Rw P w (lift s)) : Observed P w s := by
  refine ⟨fun k => ?_, h .tv, h .t⟩
  have hk : RC P false (w.cell (.u k)) (s k).gh := h (.u k)
  cases hs : s k with
  | absent => rw [hs] at hk; exact hk
  | valueless =>
    rw [hs] at hk
    obtain ⟨-, h1, h2, -, h3⟩ := hk
    have hi : index (.u k) w = .ok npos w := by rw [index_val h1, h2, toSize_neg]
    refine ⟨hi, by rw [valueless_val h1, h2]; rfl, h3, fun i hlt => get_no hi ?_⟩
    have : npos = 2 ^ 64 - 1 := rfl
    omega
  | holds i x =>
    rw [hs] at hk
    obtain ⟨-, h1, h2, h3, h4, h5⟩ := hk
    have hi : index (.u k) w = .ok i w := by rw [index_val h1, h2, toSize_lt (by omega)]
    have hg := get_yes hi h4
    refine ⟨h3, hi, ?_, hg.1, hg.2, fun j hj => get_no hi (Ne.symm hj), h5⟩
    rw [valueless_val h1, h2]
    rw [decide_eq_false (by omega)]

/-- **Every history.** A program that keeps to the preconditions never meets undefined behaviour; what it sees is what the specification allows, operation by
operation, whatever the contained objects throw; and in the end each variable says what it should, with every object that was built and is not held any more
destroyed exactly once. -/
theorem C30_history (ok : P.Ok) (c : Client V) (tape : List (Option (V × V))) (hL : Legal P (fun _ => .absent) c) :
    ∃ w' tr s', run P (start tape) c = some (w', tr) ∧ SpecRun P (fun _ => .absent) c tr s' ∧ Observed P w' s' := by
  obtain ⟨w', tr, s', h1, h2, h3⟩ := run_ok ok c (start_ok tape) hL
  exact ⟨w', tr, s', h1, h2, observed_of ok.lt h3⟩

/-- **Exceptions are passed on.** An operation ends with an exception of a contained object exactly if a contained object threw: none is swallowed, none is
made up. -/
theorem C30_threw {w w' : W V} {op : Op V} {out : Out V} (h : step P w op = some (w', out)) :
    ∃ q, w.tape = q ++ w'.tape ∧ (out.threw ↔ ∃ p, some p ∈ q) := step_took h

/-! ## When a variant is valueless -/

theorem set_valueless {s : St V} {k m : Nat} {g : G V} (h : s.set k g m = .valueless) : g = .valueless ∨ s m = .valueless := by
  unfold St.set at h
  split at h
  · exact .inl h
  · exact .inr h

theorem leave_valueless {g : G V} (h : g.leave P = .valueless) : g = .valueless := by
  cases g <;> simp_all [G.leave]

theorem set_holds {s : St V} {k m i : Nat} {x : V} (h : s.set k (.holds i x) m = .valueless) : s m = .valueless := by
  rcases set_valueless h with h | h
  · cases h
  · exact h

/-- A variant becomes valueless only if a contained object throws, or from another that is valueless. -/
theorem C30_becomes_valueless {s s' : St V} {op : Op V} {out : Out V} (h : Post P s s' out op) (hq : ¬ out.threw) {m : Nat} (hm : s' m = .valueless) :
    ∃ l, s l = .valueless := by
  cases op with
  | newIn k i x nt =>
    rcases h with ⟨-, rfl⟩ | ⟨h, -⟩
    · exact ⟨m, set_holds hm⟩
    · exact absurd h hq
  | newCopy k l =>
    rcases h with ⟨-, rfl⟩ | ⟨h, -⟩
    · rcases set_valueless hm with h | h
      · exact ⟨_, h⟩
      · exact ⟨_, h⟩
    · exact absurd h hq
  | newMove k l =>
    rcases h with ⟨-, rfl⟩ | ⟨h, -⟩
    · rcases set_valueless hm with h | h
      · exact ⟨_, leave_valueless h⟩
      · rcases set_valueless h with h | h <;> exact ⟨_, h⟩
    · exact absurd h hq
  | destroy k =>
    obtain ⟨-, rfl⟩ := h
    rcases set_valueless hm with h | h
    · cases h
    · exact ⟨_, h⟩
  | emplace k i x nt =>
    rcases h with ⟨-, rfl⟩ | ⟨h, -⟩
    · exact ⟨m, set_holds hm⟩
    · exact absurd h hq
  | assignArg k i x a b =>
    have h : if _ then _ else _ := h
    split at h
    all_goals
      rcases h with ⟨-, rfl⟩ | ⟨h, -⟩
      · exact ⟨m, set_holds hm⟩
      · exact absurd h hq
  | copyAssign k l =>
    have h : match s l with | .holds j y => _ | g => _ := h
    split at h
    · split at h
      all_goals
        rcases h with ⟨-, rfl⟩ | ⟨h, -⟩
        · exact ⟨m, set_holds hm⟩
        · exact absurd h hq
    · next g hg =>
      obtain ⟨-, rfl⟩ := h
      rcases set_valueless hm with h | h <;> exact ⟨_, h⟩
  | moveAssign k l =>
    have h : match s l with | .holds j y => _ | g => _ := h
    split at h
    · split at h
      · rcases h with ⟨-, rfl⟩ | ⟨h, -⟩
        · exact ⟨m, set_holds hm⟩
        · exact absurd h hq
      · split at h
        all_goals
          rcases h with ⟨-, rfl⟩ | ⟨h, -⟩
          · exact ⟨m, set_holds (set_holds hm)⟩
          · exact absurd h hq
    · next g hg =>
      obtain ⟨-, rfl⟩ := h
      rcases set_valueless hm with h | h <;> exact ⟨_, h⟩
  | swap k l =>
    rcases h with ⟨-, rfl⟩ | ⟨h, -⟩
    · rcases set_valueless hm with h | h
      · exact ⟨_, h⟩
      · rcases set_valueless h with h | h <;> exact ⟨_, h⟩
    · exact absurd h hq
  | store k i x =>
    have h : if _ then _ else _ := h
    split at h
    · obtain ⟨-, rfl⟩ := h
      exact ⟨m, set_holds hm⟩
    · obtain ⟨-, rfl⟩ := h
      exact ⟨m, hm⟩
  | index k => obtain ⟨-, rfl⟩ := h; exact ⟨m, hm⟩
  | valueless k => obtain ⟨-, rfl⟩ := h; exact ⟨m, hm⟩
  | holds k i => obtain ⟨-, rfl⟩ := h; exact ⟨m, hm⟩
  | get k i => obtain ⟨rfl, -⟩ := h; exact ⟨m, hm⟩
  | getIf k i => obtain ⟨rfl, -⟩ := h; exact ⟨m, hm⟩
  | compare r k l => obtain ⟨-, rfl⟩ := h; exact ⟨m, hm⟩
  | hash k => obtain ⟨-, rfl⟩ := h; exact ⟨m, hm⟩
  | visit ks => obtain ⟨rfl, -⟩ := h; exact ⟨m, hm⟩

/-- **Never valueless without an exception**, along a whole history. -/
theorem C30_valueless {s s' : St V} {c : Client V} {tr : List (Op V × Out V)} (h : SpecRun P s c tr s') (hs : ∀ k, s k ≠ .valueless)
    (ht : ∀ op out, (op, out) ∈ tr → ¬ out.threw) : ∀ k, s' k ≠ .valueless := by
  induction h with
  | done => exact hs
  | call hp _ ih =>
    refine ih (fun k hk => ?_) fun op out hm => ht op out (List.mem_cons_of_mem _ hm)
    obtain ⟨l, hl⟩ := C30_becomes_valueless hp (ht _ _ List.mem_cons_self) hk
    exact hs l hl

/-- The operation is an `emplace` by a construction that may throw. -/
def Op.risky : Op V → Prop
  | .emplace _ _ _ nothrow => nothrow = false
  | _ => False

/-- One step of the next theorem. -/
theorem safe_step (hP : ∀ i, P.nmc i = true) {s s' : St V} {op : Op V} {out : Out V} (h : Post P s s' out op) (hr : ¬ op.risky) {m : Nat}
    (hm : s' m = .valueless) : ∃ l, s l = .valueless := by
  by_cases hq : out.threw
  · have no : ∀ i, P.nmc i = false → False := fun i h => by simp [hP i] at h
    have ne : out ≠ .none := fun h => by rw [h] at hq; cases hq
    cases op with
    | newIn k i x nt =>
      rcases h with ⟨h, -⟩ | ⟨-, -, rfl⟩
      · exact absurd h ne
      · exact ⟨m, hm⟩
    | newCopy k l =>
      rcases h with ⟨h, -⟩ | ⟨-, rfl, -⟩
      · exact absurd h ne
      · exact ⟨m, hm⟩
    | newMove k l =>
      rcases h with ⟨h, -⟩ | ⟨-, i, x, b, -, h, -⟩
      · exact absurd h ne
      · exact (no i h).elim
    | destroy k => exact absurd h.1 ne
    | emplace k i x nt =>
      rcases h with ⟨h, -⟩ | ⟨-, h, -⟩
      · exact absurd h ne
      · exact absurd h hr
    | assignArg k i x a b =>
      have h : if _ then _ else _ := h
      split at h
      · rcases h with ⟨h, -⟩ | ⟨-, -, z, rfl⟩
        · exact absurd h ne
        · exact ⟨m, set_holds hm⟩
      · rcases h with ⟨h, -⟩ | ⟨-, -, h⟩
        · exact absurd h ne
        · rw [if_pos (hP i)] at h
          exact ⟨m, h ▸ hm⟩
    | copyAssign k l =>
      have h : match s l with | .holds j y => _ | g => _ := h
      split at h
      · split at h
        · rcases h with ⟨h, -⟩ | ⟨-, -, z, rfl⟩
          · exact absurd h ne
          · exact ⟨m, set_holds hm⟩
        · rcases h with ⟨h, -⟩ | ⟨-, -, h⟩
          · exact absurd h ne
          · rw [if_pos (hP _)] at h
            exact ⟨m, h ▸ hm⟩
      · exact absurd h.1 ne
    | moveAssign k l =>
      have h : match s l with | .holds j y => _ | g => _ := h
      split at h
      · split at h
        · rcases h with ⟨h, -⟩ | ⟨-, -, z, rfl⟩
          · exact absurd h ne
          · exact ⟨m, set_holds hm⟩
        · split at h
          · rcases h with ⟨h, -⟩ | ⟨-, -, y, z, rfl⟩
            · exact absurd h ne
            · exact ⟨m, set_holds (set_holds hm)⟩
          · rcases h with ⟨h, -⟩ | ⟨-, h, -⟩
            · exact absurd h ne
            · exact (no _ h).elim
      · exact absurd h.1 ne
    | swap k l =>
      rcases h with ⟨h, -⟩ | ⟨-, h⟩
      · exact absurd h ne
      · rcases h with ⟨i, x, y, a, b, -, -, -, rfl⟩ | ⟨-, ⟨i, x, b, -, h, -⟩ | ⟨i, x, b, -, h, -⟩ | ⟨i, x, -, h, -⟩⟩
        · exact ⟨m, set_holds (set_holds hm)⟩
        · exact (no i h).elim
        · exact (no i h).elim
        · exact (no i h).elim
    | store k i x =>
      have h : if _ then _ else _ := h
      split at h
      · exact absurd h.1 ne
      · exact ⟨m, h.2 ▸ hm⟩
    | index k => obtain ⟨-, rfl⟩ := h; exact ⟨m, hm⟩
    | valueless k => obtain ⟨-, rfl⟩ := h; exact ⟨m, hm⟩
    | holds k i => obtain ⟨-, rfl⟩ := h; exact ⟨m, hm⟩
    | get k i => obtain ⟨rfl, -⟩ := h; exact ⟨m, hm⟩
    | getIf k i => obtain ⟨rfl, -⟩ := h; exact ⟨m, hm⟩
    | compare r k l => obtain ⟨-, rfl⟩ := h; exact ⟨m, hm⟩
    | hash k => obtain ⟨-, rfl⟩ := h; exact ⟨m, hm⟩
    | visit ks => obtain ⟨rfl, -⟩ := h; exact ⟨m, hm⟩
  · exact C30_becomes_valueless h hq hm

/-- **Never valueless if every alternative can be moved without exceptions**, unless `emplace` is used with a construction that may throw; copies,
assignments and constructions may throw as they like. -/
theorem C30_never_valueless (hP : ∀ i, P.nmc i = true) {s s' : St V} {c : Client V} {tr : List (Op V × Out V)} (h : SpecRun P s c tr s')
    (hs : ∀ k, s k ≠ .valueless) (ht : ∀ op out, (op, out) ∈ tr → ¬ op.risky) : ∀ k, s' k ≠ .valueless := by
  induction h with
  | done => exact hs
  | call hp _ ih =>
    refine ih (fun k hk => ?_) fun op out hm => ht op out (List.mem_cons_of_mem _ hm)
    obtain ⟨l, hl⟩ := safe_step hP hp (ht _ _ List.mem_cons_self) hk
    exact hs l hl

/-! ## The comparisons -/

/-- The comparisons of the alternatives are those of a total order, each. -/
structure Par.Ordered (P : Par V) : Prop where
  eq_refl : ∀ i x, P.rel .eq i x x = true
  eq_symm : ∀ i x y, P.rel .eq i x y = true → P.rel .eq i y x = true
  eq_trans : ∀ i x y z, P.rel .eq i x y = true → P.rel .eq i y z = true → P.rel .eq i x z = true
  ne : ∀ i x y, P.rel .ne i x y = !P.rel .eq i x y
  irrefl : ∀ i x y, P.rel .eq i x y = true → P.rel .lt i x y = false
  trans : ∀ i x y z, P.rel .lt i x y = true → P.rel .lt i y z = true → P.rel .lt i x z = true
  total : ∀ i x y, P.rel .lt i x y = true ∨ P.rel .eq i x y = true ∨ P.rel .lt i y x = true
  gt : ∀ i x y, P.rel .gt i x y = P.rel .lt i y x
  le : ∀ i x y, P.rel .le i x y = !P.rel .lt i y x
  ge : ∀ i x y, P.rel .ge i x y = !P.rel .lt i x y
  hash : ∀ i x y, P.rel .eq i x y = true → P.hash i x = P.hash i y

/-- `hash` of a state -/
def G.hash (P : Par V) : G V → Nat
  | .holds i x => P.hash i x
  | _ => 0

/-- **The comparisons of variants are those of a total order**, if the alternatives' are, and equal variants have equal hashes. -/
theorem C30_order (o : P.Ordered) :
    (∀ a : G V, relSpec P .eq a a = true) ∧
    (∀ a b : G V, relSpec P .eq a b = true → relSpec P .eq b a = true ∧ relSpec P .lt a b = false ∧ a.hash P = b.hash P) ∧
    (∀ a b c : G V, relSpec P .eq a b = true → relSpec P .eq b c = true → relSpec P .eq a c = true) ∧
    (∀ a b c : G V, relSpec P .lt a b = true → relSpec P .lt b c = true → relSpec P .lt a c = true) ∧
    (∀ a b : G V, relSpec P .lt a b = true ∨ relSpec P .eq a b = true ∨ relSpec P .lt b a = true) ∧
    (∀ a b : G V, relSpec P .ne a b = (!relSpec P .eq a b) ∧ relSpec P .gt a b = relSpec P .lt b a ∧ relSpec P .le a b = (!relSpec P .lt b a) ∧
      relSpec P .ge a b = !relSpec P .lt a b) := by
  refine ⟨fun a => ?_, fun a b h => ?_, fun a b c h1 h2 => ?_, fun a b c h1 h2 => ?_, fun a b => ?_, fun a b => ?_⟩
  · cases a <;> simp [relSpec, Rel.nat, G.rank, o.eq_refl]
  · cases a <;> cases b <;> simp [relSpec, Rel.nat, G.rank, G.hash] at h ⊢
    next i x j y =>
      by_cases hij : i = j
      · subst hij
        simp at h
        simp [o.eq_symm _ _ _ h, o.irrefl _ _ _ h, o.hash _ _ _ h]
      · simp [hij] at h
  · cases a <;> cases b <;> cases c <;> simp [relSpec, Rel.nat, G.rank] at h1 h2 ⊢
    next i x j y l z =>
      by_cases hij : i = j <;> by_cases hjl : j = l
      · subst hij hjl
        simp at h1 h2
        simp [o.eq_trans _ _ _ _ h1 h2]
      all_goals simp_all
  · cases a <;> cases b <;> cases c <;> simp [relSpec, Rel.nat, G.rank] at h1 h2 ⊢
    next i x j y l z =>
      by_cases hij : i = j <;> by_cases hjl : j = l
      · subst hij hjl
        simp at h1 h2
        simp [o.trans _ _ _ _ h1 h2]
      · subst hij
        simp_all
      · subst hjl
        simp_all
      · simp [hij, hjl] at h1 h2
        rw [if_neg (by omega)]
        first | exact decide_eq_true (by omega) | omega
  · cases a <;> cases b <;> simp [relSpec, Rel.nat, G.rank]
    next i x j y =>
      by_cases hij : i = j
      · subst hij
        simpa using o.total i x y
      · have : ¬ j = i := fun h => hij h.symm
        simp [hij, this]
        omega
  · cases a <;> cases b <;> simp [relSpec, Rel.nat, G.rank]
    next i x j y =>
      by_cases hij : i = j
      · subst hij
        simp [o.ne, o.gt, o.le, o.ge]
      · have : ¬ j = i := fun h => hij h.symm
        simp [hij, this]
        refine ⟨?_, ?_⟩
        · by_cases h : i ≤ j
          · have : ¬ j < i := by omega
            simp [h, this]
          · have : j < i := by omega
            simp [h, this]
        · by_cases h : j ≤ i
          · have : ¬ i < j := by omega
            simp [h, this]
          · have : i < j := by omega
            simp [h, this]

/-! ## `visit`, `get` and the discriminator -/

/-- **`visit` reaches the right function** for variants of any types: for each of them the number of alternatives and the index (or `variant_npos`); the table is
indexed in mixed radix, without overflow, and the entry holds each index plus one (zero: valueless). -/
theorem C30_visit_index {l : List (Nat × Nat)} (hl : l ≠ []) (hi : ∀ p ∈ l, p.2 < p.1 ∨ p.2 = npos) (hn : ∀ p ∈ l, p.1 < 2 ^ 31)
    (hs : (l.map (·.1 + 1)).prod < 2 ^ 64) :
    (indexVectors (l.map (·.1)))[visitIndex 0 l]? = some (l.map fun p => if p.2 = npos then 0 else p.2 + 1) := by
  have e : ∀ l : List (Nat × Nat), states (l.map (·.1)) = (l.map (·.1 + 1)).prod := by
    intro l
    induction l with
    | nil => rfl
    | cons p l ih =>
      simp only [List.map_cons, List.prod_cons]
      rw [← ih]
      rfl
  have hb : ∀ p ∈ l, (p.2 + 1) % 2 ^ 64 ≤ p.1 := by
    intro p hp
    rcases hi p hp with h | h
    · have := hn p hp
      rw [Nat.mod_eq_of_lt (by omega)]
      omega
    · rw [h]
      unfold npos
      simp
  have h1 := visitIndex_eq (l := l) (acc := 0) hb (by
    have := canon_lt (l := l.map fun p => (p.1, (p.2 + 1) % 2 ^ 64)) (by
      intro p hp
      obtain ⟨q, hq, rfl⟩ := List.mem_map.1 hp
      exact hb q hq)
    rw [List.map_map] at this
    have h4 := e l
    have h5 : states (l.map ((·.1) ∘ fun p : Nat × Nat => (p.1, (p.2 + 1) % 2 ^ 64))) = states (l.map (·.1)) := rfl
    omega) (by rw [e]; exact hs)
  have h2 := product_get (l.map fun p => (p.1, (p.2 + 1) % 2 ^ 64)) (by
    intro p hp
    obtain ⟨q, hq, rfl⟩ := List.mem_map.1 hp
    exact hb q hq) (by simpa using hl)
  rw [List.map_map, List.map_map] at h2
  rw [h1, Nat.zero_add]
  have h3 : (Prod.fst ∘ fun p : Nat × Nat => (p.1, (p.2 + 1) % 2 ^ 64)) = Prod.fst := rfl
  rw [h3] at h2
  rw [h2]
  congr 1
  refine List.map_congr_left fun p hp => ?_
  show (p.2 + 1) % 2 ^ 64 = _
  rcases hi p hp with h | h
  · have := hn p hp
    have h4 : npos = 2 ^ 64 - 1 := rfl
    rw [if_neg (by omega), Nat.mod_eq_of_lt (by omega)]
  · rw [if_pos h, h]
    unfold npos
    simp

/-- **`_Variant_raw_get`**: the unrolled recursion goes down as many tails as the index says. -/
theorem C30_raw_get (i : Nat) : rawGetTails i = i := by
  induction i using Nat.strongRecOn with
  | ind i ih =>
    unfold rawGetTails
    repeat' split
    · rfl
    · rw [ih _ (by omega)]; omega
    · rw [ih _ (by omega)]; omega
    · rw [ih _ (by omega)]; omega
    · rw [ih _ (by omega)]; omega

/-- **The discriminator** has enough bits: each index and `variant_npos` is stored and read back. -/
theorem C30_discriminator {n i : Nat} (hn : n < 2 ^ 31) (hi : i < n) :
    toSize (toIdx n i) = i ∧ ¬ toIdx n i < 0 ∧ toSize (toIdx n npos) = npos ∧ toIdx n npos < 0 := by
  rw [toIdx_lt hn hi, toIdx_npos]
  exact ⟨toSize_lt (by omega), by omega, toSize_neg, by decide⟩

/-! ## The hypotheses can be met -/

/-- Three alternatives: a trivial one, one that may throw when it is copied but not when it is moved, and one that may throw always. -/
def par3 : Par Nat where
  n := 3
  td := fun i => i == 0
  tcc := fun i => i == 0
  tmc := fun i => i == 0
  tca := fun i => i == 0
  tma := fun i => i == 0
  adl := fun _ => false
  ncc := fun i => i == 0
  nmc := fun i => i != 2
  nca := fun i => i == 0
  nma := fun i => i != 2
  nsw := fun i => i != 2
  moved := fun i x => if i = 0 then x else 0
  movedA := fun i x => if i = 0 then x else 0
  selfMoved := fun i x => if i = 0 then x else 0
  rel := fun r _ x y => r.nat x y
  hash := fun _ x => x

/-- The same with many alternatives. -/
def par40 : Par Nat := { par3 with n := 40, nmc := fun i => decide (i < 2) }

theorem par3_ok : par3.Ok where
  pos := by decide
  lt := by decide
  tcc := fun _ h => h
  tmc := fun i h => ⟨h, fun x => by simp [par3] at h ⊢; simp [h]⟩
  tma := fun i h x => by simp [par3] at h ⊢; simp [h]

theorem par40_ok : par40.Ok where
  pos := by decide
  lt := by decide
  tcc := fun _ h => h
  tmc := fun i h => ⟨h, fun x => by simp [par40, par3] at h ⊢; simp [h]⟩
  tma := fun i h x => by simp [par40, par3] at h ⊢; simp [h]

theorem par3_ordered : par3.Ordered where
  eq_refl := by intros; simp [par3, Rel.nat]
  eq_symm := by intros; simp_all [par3, Rel.nat]
  eq_trans := by intros; simp_all [par3, Rel.nat]
  ne := by intros; simp [par3, Rel.nat]
  irrefl := by intros; simp_all [par3, Rel.nat]
  trans := by intro i x y z; simp only [par3, Rel.nat, decide_eq_true_eq]; omega
  total := by intro i x y; simp only [par3, Rel.nat, decide_eq_true_eq]; omega
  gt := by intros; simp [par3, Rel.nat]
  le := by intro i x y; simp [par3, Rel.nat]; by_cases h : x ≤ y <;> simp [h] <;> omega
  ge := by intro i x y; simp [par3, Rel.nat]; by_cases h : y ≤ x <;> simp [h] <;> omega
  hash := by intro i x y; simp [par3, Rel.nat]

/-- A variant is made and given another alternative; a copy is made; they are swapped and destroyed. Legal whatever throws. -/
def demo : Client Nat :=
  .call (.newIn 0 0 5 true) fun
    | .none => .call (.assignArg 0 1 7 false false) fun _ => .call (.newIn 1 2 9 false) fun
      | .none => .call (.copyAssign 0 1) fun _ => .call (.emplace 1 0 3 true) fun _ => .call (.swap 0 1) fun _ => .call (.index 0) fun _ =>
          .call (.compare .lt 0 1) fun _ => .call (.visit [0, 1]) fun _ => .call (.destroy 0) fun _ => .call (.destroy 1) fun _ => .done
      | _ => .done
    | _ => .done

/-- What the outcomes of a run are, as numbers: 0 for nothing, 1 for an exception of a contained object, 2 for `bad_variant_access`. -/
def code : Out Nat → List Nat
  | .none => [0]
  | .exc .user => [1]
  | .exc .badAccess => [2]
  | .num n => [3, n]
  | .bool b => [4, b.toNat]
  | .val x => [5, x]
  | .opt o => 6 :: o.toList
  | .args l => 7 :: (l.map fun p => [p.1, p.2]).flatten

def outs (r : Option (W Nat × List (Op Nat × Out Nat))) : Option (List (List Nat)) := r.map fun r => r.2.map fun p => code p.2

/-- Nothing throws. -/
example : outs (run par3 (start []) demo) = some [[0], [0], [0], [0], [0], [0], [3, 0], [4, 1], [7, 0, 3, 2, 9], [0], [0]] := by decide +kernel

/-- The assignment throws and leaves the first as it was; the copy assignment throws and leaves it valueless; `visit` throws. -/
example : outs (run par3 (start [some (0, 0), none, some (0, 0)]) demo) =
    some [[0], [1], [0], [1], [0], [0], [3, 0], [4, 0], [2], [0], [0]] := by decide +kernel

/-- All objects are destroyed. -/
example : ((run par3 (start [none, none, some (0, 0)]) demo).map fun r => [0, 1].map fun k => ((r.1.cell (.u k)).made, (r.1.cell (.u k)).gone)) =
    some [(1, 1), (1, 1)] := by decide +kernel

/-- With many alternatives a `swap` that throws can leave both valueless. -/
def demo40 : Client Nat :=
  .call (.newIn 0 5 1 true) fun _ => .call (.newIn 1 6 2 true) fun _ => .call (.emplace 1 6 3 false) fun _ => .call (.swap 0 1) fun _ =>
    .call (.valueless 0) fun _ => .call (.valueless 1) fun _ => .done

example : outs (run par40 (start [some (0, 0), none, some (0, 0)]) demo40) = some [[0], [0], [1], [1], [4, 1], [4, 1]] := by decide +kernel

theorem St.set_same (s : St V) (k : Nat) (g : G V) : s.set k g k = g := by simp [St.set]
theorem St.set_ne (s : St V) {k m : Nat} (g : G V) (h : m ≠ k) : s.set k g m = s m := by simp [St.set, h]

/-- `Legal` for a program: what it does is allowed whatever throws. -/
def demo2 : Client Nat :=
  .call (.newIn 0 0 5 true) fun
    | .none => .call (.emplace 0 1 7 false) fun _ => .call (.get 0 1) fun _ => .call (.destroy 0) fun _ => .done
    | _ => .done

theorem demo2_legal : Legal par3 (fun _ => .absent) demo2 := by
  refine ⟨⟨rfl, by decide⟩, fun s1 out h => ?_⟩
  rcases h with ⟨rfl, rfl⟩ | ⟨-, h, -⟩
  · refine ⟨⟨by rw [St.set_same]; simp, by decide⟩, fun s2 out h => ?_⟩
    have hne : s2 0 ≠ .absent := by
      rcases h with ⟨-, rfl⟩ | ⟨-, -, rfl⟩ <;> rw [St.set_same] <;> simp
    refine ⟨⟨hne, by decide⟩, fun s3 out h => ⟨?_, fun _ _ _ => trivial⟩⟩
    obtain ⟨rfl, -⟩ := h
    exact hne
  · cases h

example : outs (run par3 (start []) demo2) = some [[0], [0], [5, 7], [0]] := by decide +kernel
example : outs (run par3 (start [some (0, 0)]) demo2) = some [[0], [1], [2], [0]] := by decide +kernel

/-- `C30_visit_index` for three variants of different types, one of them valueless. -/
example : (indexVectors [3, 2, 4])[visitIndex 0 [(3, 1), (2, npos), (4, 3)]]? = some [2, 0, 4] :=
  C30_visit_index (l := [(3, 1), (2, npos), (4, 3)]) (by simp) (by decide) (by decide) (by decide)

/-- `C30_never_valueless`. -/
example : ∀ i, ({ par3 with nmc := fun _ => true } : Par Nat).nmc i = true := fun _ => rfl

end STL.Var
