import Verif.Variant.Visit

/-! # Histories. Proofs only. -/

namespace STL.Var
open STL

variable {V β γ : Type} {P : Par V} {s : St V}

def G.gh : G V → Gh V
  | .absent => .absent
  | .valueless => .vless
  | .holds i x => .has i x

def lift (s : St V) : Gs V
  | .u k => (s k).gh
  | _ => .absent

theorem lift_upd (s : St V) (k : Nat) (a : G V) : upd (lift s) (.u k) a.gh = lift (s.set k a) := by
  funext m
  cases m with
  | u m =>
    unfold upd lift St.set
    by_cases h : m = k
    · simp [h]
    · simp [h]
  | tv => rfl
  | t => rfl

theorem lift_has (s : St V) (k i : Nat) (x : V) : upd (lift s) (.u k) (.has i x) = lift (s.set k (.holds i x)) := lift_upd s k (.holds i x)
theorem lift_vless (s : St V) (k : Nat) : upd (lift s) (.u k) .vless = lift (s.set k .valueless) := lift_upd s k .valueless
theorem lift_absent (s : St V) (k : Nat) : upd (lift s) (.u k) .absent = lift (s.set k .absent) := lift_upd s k .absent

theorem gh_has {a : G V} {i : Nat} {x : V} (h : a.gh = .has i x) : a = .holds i x := by cases a <;> simp_all [G.gh]
theorem gh_vless {a : G V} (h : a.gh = .vless) : a = .valueless := by cases a <;> simp_all [G.gh]

theorem lift_whole {k : Nat} (h : s k ≠ .absent) : Whole (lift s) (.u k) := by
  unfold Whole lift
  dsimp only
  cases hk : s k with
  | absent => exact absurd hk h
  | valueless => exact .inl rfl
  | holds i x => exact .inr ⟨i, x, rfl⟩

theorem gh_idx (a : G V) : a.gh.idx = a.index := by cases a <;> rfl
theorem gh_leave (a : G V) : a.gh.leave P = (a.leave P).gh := by cases a <;> rfl

theorem lift_has_iff {k i : Nat} {x : V} (h : lift s (.u k) = .has i x) : s k = .holds i x := gh_has h
theorem lift_vless_iff {k : Nat} (h : lift s (.u k) = .vless) : s k = .valueless := gh_vless h

theorem Does.step {m : M V β} {f : β → Out V} {op : Op V} {w : W V} (hw : Rw P w (lift s))
    (h : Does P m (lift s) (fun b g' => ∃ s', g' = lift s' ∧ Post P s s' (f b) op) fun e g' => ∃ s', g' = lift s' ∧ Post P s s' (.exc e) op) :
    ∃ w' out s', outcome f (m w) = some (w', out) ∧ Post P s s' out op ∧ Rw P w' (lift s') := by
  have h := h w hw
  cases hm : m w with
  | ok b w' =>
    rw [hm] at h
    obtain ⟨g', h1, s', rfl, h2⟩ := h
    exact ⟨w', f b, s', rfl, h2, h1⟩
  | exc e w' =>
    rw [hm] at h
    obtain ⟨g', h1, s', rfl, h2⟩ := h
    exact ⟨w', .exc e, s', rfl, h2, h1⟩
  | ub =>
    rw [hm] at h
    exact h.elim

/-- A computation that gives a result and changes nothing. -/
def Pure1 (P : Par V) (s : St V) (m : M V β) (b : β) : Prop := Does P m (lift s) (fun c g' => c = b ∧ g' = lift s) fun _ _ => False

theorem Pure1.step {m : M V β} {b : β} {f : β → Out V} {op : Op V} {w : W V} (hw : Rw P w (lift s)) (h : Pure1 P s m b) (hp : Post P s s (f b) op) :
    ∃ w' out s', outcome f (m w) = some (w', out) ∧ Post P s s' out op ∧ Rw P w' (lift s') :=
  Does.step hw (Does.mono h (fun c g' hc => ⟨s, hc.2, by rw [hc.1]; exact hp⟩) fun _ _ h => h.elim)

theorem nat_refl (r : Rel) : r.refl = r.nat 0 0 := by cases r <;> rfl
theorem nat_left (r : Rel) (i : Nat) : r.nat 1 0 = r.nat (i + 1) 0 := by cases r <;> simp [Rel.nat]
theorem nat_right (r : Rel) (i : Nat) : r.nat 0 1 = r.nat 0 (i + 1) := by cases r <;> simp [Rel.nat]

theorem ghRel_eq (r : Rel) {a b : G V} (ha : a ≠ .absent) (hb : b ≠ .absent) : ghRel P r a.gh b.gh = relSpec P r a b := by
  cases a with
  | absent => exact absurd rfl ha
  | valueless =>
    cases b with
    | absent => exact absurd rfl hb
    | valueless => exact nat_refl r
    | holds j y => exact nat_right r j
  | holds i x =>
    cases b with
    | absent => exact absurd rfl hb
    | valueless => exact nat_left r i
    | holds j y => rfl

theorem rank_ne {a b : G V} (ha : ∀ i x, a = .holds i x → i < 2 ^ 31) (hb : ∀ i x, b = .holds i x → i < 2 ^ 31) (h : a.gh.idx ≠ b.gh.idx) : a.rank ≠ b.rank := by
  cases a <;> cases b <;> simp_all [G.gh, Gh.idx, G.rank]

theorem step_ok (ok : P.Ok) {w : W V} {op : Op V} (hw : Rw P w (lift s)) (hp : Pre P s op) :
    ∃ w' out s', step P w op = some (w', out) ∧ Post P s s' out op ∧ Rw P w' (lift s') := by
  have hn := ok.lt
  have hr : ∀ k i x, s k = .holds i x → i < P.n := by
    intro k i x hk
    have := hw (.u k)
    unfold lift at this
    dsimp only at this
    rw [hk] at this
    exact this.2.2.2.1
  cases op with
  | newIn k i x nt =>
    obtain ⟨h1, h2⟩ := hp
    refine Does.step hw (Does.ctorIn hn (by simp) h2 (by unfold lift; dsimp only; rw [h1]; rfl) ⟨_, lift_has s k i x, .inl ⟨rfl, rfl⟩⟩ fun h3 => ⟨s, rfl, .inr ⟨rfl, h3, rfl⟩⟩)
  | newCopy k l =>
    obtain ⟨h1, h2⟩ := hp
    refine Does.step hw (Does.copyCtor ok (by simp) (by simp) (by unfold lift; dsimp only; rw [h1]; rfl) (lift_whole h2) ⟨_, lift_upd s k (s l), .inl ⟨rfl, rfl⟩⟩ fun i x h3 h4 => ?_)
    exact ⟨s, rfl, .inr ⟨rfl, rfl, i, x, lift_has_iff h3, h4⟩⟩
  | newMove k l =>
    obtain ⟨h1, h2⟩ := hp
    refine Does.step hw (Does.moveCtor ok (by simp) (by simp) (by unfold lift; dsimp only; rw [h1]; rfl) (lift_whole h2)
      ⟨(s.set k (s l)).set l ((s l).leave P), ?_, .inl ⟨rfl, rfl⟩⟩ fun i x h3 h4 b => ?_)
    · show upd (upd (lift s) (.u k) (s l).gh) (.u l) ((s l).gh.leave P) = _
      rw [gh_leave, lift_upd, lift_upd]
    · exact ⟨_, lift_has s l i b, .inr ⟨rfl, i, x, b, lift_has_iff h3, h4, rfl⟩⟩
  | destroy k =>
    exact Does.step hw (Does.destruct hn (lift_whole hp) ⟨_, lift_absent s k, rfl, rfl⟩)
  | emplace k i x nt =>
    exact Does.step hw (Does.emplace hn (by simp) hp.2 (lift_whole hp.1) ⟨_, lift_has s k i x, .inl ⟨rfl, rfl⟩⟩ fun h3 => ⟨_, lift_vless s k, .inr ⟨rfl, h3, rfl⟩⟩)
  | assignArg k i x ntc nta =>
    have hi := gh_idx (s k)
    refine Does.step hw (Does.assignArg hn (by simp) rfl hp.2 (lift_whole hp.1) ⟨_, lift_has s k i x, ?_⟩ (fun y hy h1 a => ⟨_, lift_has s k i a, ?_⟩)
      (fun h1 h2 h3 => ⟨s, rfl, ?_⟩) fun h1 h2 h3 => ⟨_, lift_vless s k, ?_⟩)
    · show if _ then _ else _
      split
      · exact .inl ⟨rfl, rfl⟩
      · exact .inl ⟨rfl, rfl⟩
    · show if _ then _ else _
      rw [lift_has_iff hy]
      rw [if_pos (show (G.holds i y).index = i from rfl)]
      exact .inr ⟨rfl, h1, a, rfl⟩
    · have h1 : (s k).gh.idx ≠ i := h1
      show if _ then _ else _
      rw [if_neg (by rw [← hi]; exact h1)]
      refine .inr ⟨rfl, h2, ?_⟩
      rw [if_pos h3]
    · have h1 : (s k).gh.idx ≠ i := h1
      show if _ then _ else _
      rw [if_neg (by rw [← hi]; exact h1)]
      refine .inr ⟨rfl, h2, ?_⟩
      rw [if_neg (by simp [h3])]
  | copyAssign k l =>
    have hi := gh_idx (s k)
    refine Does.step hw (Does.copyAssign ok (by simp) (by simp) rfl (lift_whole hp.1) (lift_whole hp.2) ⟨_, lift_upd s k (s l), ?_⟩ (fun i x y hx hy h1 a => ⟨_, lift_has s k i a, ?_⟩)
      (fun i y hy h1 h2 h3 => ⟨s, rfl, ?_⟩) fun i y hy h1 h2 h3 => ⟨_, lift_vless s k, ?_⟩)
    · show match s l with | .holds j y => _ | g => _
      cases hl : s l with
      | absent => exact absurd hl hp.2
      | valueless => exact ⟨rfl, rfl⟩
      | holds j y =>
        dsimp only
        split
        · exact .inl ⟨rfl, rfl⟩
        · exact .inl ⟨rfl, rfl⟩
    · show match s l with | .holds j y => _ | g => _
      rw [lift_has_iff hy, lift_has_iff hx]
      dsimp only
      rw [if_pos (show (G.holds i x).index = i from rfl)]
      exact .inr ⟨rfl, h1, a, rfl⟩
    · have h1 : (s k).gh.idx ≠ i := h1
      show match s l with | .holds j y => _ | g => _
      rw [lift_has_iff hy]
      dsimp only
      rw [if_neg (by rw [← hi]; exact h1)]
      refine .inr ⟨rfl, h2, ?_⟩
      rw [if_pos h3]
    · have h1 : (s k).gh.idx ≠ i := h1
      show match s l with | .holds j y => _ | g => _
      rw [lift_has_iff hy]
      dsimp only
      rw [if_neg (by rw [← hi]; exact h1)]
      refine .inr ⟨rfl, h2, ?_⟩
      rw [if_neg (by simp [h3])]
  | moveAssign k l =>
    have hi := gh_idx (s k)
    refine Does.step hw (Does.moveAssign ok (by simp) (by simp) (lift_whole hp.1) (lift_whole hp.2) (fun h0 => ⟨_, lift_vless s k, ?_⟩)
      (fun i y hkl hy => ⟨_, lift_has s k i _, ?_⟩) (fun i x y hkl hx hy => ⟨(s.set k (.holds i y)).set l (.holds i (P.movedA i y)), by rw [lift_has, lift_has], ?_⟩)
      (fun i y hy h1 => ⟨(s.set k (.holds i y)).set l (.holds i (P.moved i y)), by rw [lift_has, lift_has], ?_⟩)
      (fun i x y hx hy h1 a b => ⟨(s.set l (.holds i b)).set k (.holds i a), by rw [lift_has, lift_has], ?_⟩)
      fun i y hy h1 h2 b => ⟨(s.set k .valueless).set l (.holds i b), by rw [lift_vless, lift_has], ?_⟩)
    · show match s l with | .holds j y => _ | g => _
      rw [lift_vless_iff h0]
      exact ⟨rfl, rfl⟩
    · cases hkl
      show match s k with | .holds j y => _ | g => _
      rw [lift_has_iff hy]
      dsimp only
      rw [if_pos rfl]
      exact .inl ⟨rfl, rfl⟩
    · have hkl : k ≠ l := fun h => hkl (by rw [h])
      show match s l with | .holds j y => _ | g => _
      rw [lift_has_iff hy, lift_has_iff hx]
      dsimp only
      rw [if_neg hkl, if_pos (show (G.holds i x).index = i from rfl)]
      exact .inl ⟨rfl, rfl⟩
    · have h1 : (s k).gh.idx ≠ i := h1
      have hkl : k ≠ l := by
        rintro rfl
        rw [lift_has_iff hy] at h1
        exact h1 rfl
      show match s l with | .holds j y => _ | g => _
      rw [lift_has_iff hy]
      dsimp only
      rw [if_neg hkl, if_neg (by rw [← hi]; exact h1)]
      exact .inl ⟨rfl, rfl⟩
    · show match s l with | .holds j y => _ | g => _
      rw [lift_has_iff hy]
      dsimp only
      by_cases hkl : k = l
      · subst hkl
        rw [if_pos rfl]
        refine .inr ⟨rfl, h1, a, ?_⟩
        funext m
        unfold St.set
        split <;> rfl
      · rw [if_neg hkl, lift_has_iff hx, if_pos (show (G.holds i x).index = i from rfl)]
        refine .inr ⟨rfl, h1, a, b, ?_⟩
        funext m
        unfold St.set
        by_cases h2 : m = k
        · subst h2
          simp [hkl]
        · by_cases h3 : m = l <;> simp [h2, h3, Ne.symm hkl]
    · have h1 : (s k).gh.idx ≠ i := h1
      have hkl : k ≠ l := by
        rintro rfl
        rw [lift_has_iff hy] at h1
        exact h1 rfl
      show match s l with | .holds j y => _ | g => _
      rw [lift_has_iff hy]
      dsimp only
      rw [if_neg hkl, if_neg (by rw [← hi]; exact h1)]
      exact .inr ⟨rfl, h2, b, rfl⟩
  | swap k l =>
    have hrank : (lift s (.u k)).idx ≠ (lift s (.u l)).idx → (s k).rank ≠ (s l).rank := by
      intro h
      refine rank_ne (fun i x hx => ?_) (fun i x hx => ?_) h
      · have := hr k i x hx
        omega
      · have := hr l i x hx
        omega
    refine Does.step hw (Does.swap ok (by simp) (by simp) (by simp) (by simp) rfl rfl (lift_whole hp.1) (lift_whole hp.2)
      ⟨(s.set k (s l)).set l (s k), ?_, .inl ⟨rfl, rfl⟩⟩ ⟨fun i x y a b hx hy h1 => ?_, fun i x b h1 hx h2 => ?_, fun j y b h1 hy h2 => ?_, fun i x h1 hx h2 h3 => ?_⟩)
    · show upd (upd (lift s) (.u k) (s l).gh) (.u l) (s k).gh = _
      rw [lift_upd, lift_upd]
    · exact ⟨(s.set l (.holds i b)).set k (.holds i a), by rw [lift_has, lift_has], .inr ⟨rfl, .inl ⟨i, x, y, a, b, lift_has_iff hx, lift_has_iff hy, h1, rfl⟩⟩⟩
    · exact ⟨_, lift_has s k i b, .inr ⟨rfl, .inr ⟨hrank h1, .inl ⟨i, x, b, lift_has_iff hx, h2, rfl⟩⟩⟩⟩
    · exact ⟨(s.set k .valueless).set l (.holds j b), by rw [lift_vless, lift_has], .inr ⟨rfl, .inr ⟨hrank h1, .inr (.inl ⟨j, y, b, lift_has_iff hy, h2, rfl⟩)⟩⟩⟩
    · refine ⟨(s.set k (s l)).set l .valueless, ?_, .inr ⟨rfl, .inr ⟨hrank h1, .inr (.inr ⟨i, x, lift_has_iff hx, h2, fun h4 => h3 ?_, rfl⟩)⟩⟩⟩
      · show upd (upd (lift s) (.u k) (s l).gh) (.u l) .vless = _
        rw [lift_upd, lift_vless]
      · show (s l).gh = _
        rw [h4]
        rfl
  | index k =>
    refine Pure1.step (b := (s k).index) hw ?_ ⟨rfl, rfl⟩
    unfold Pure1 Var.index
    refine Does.read hn (lift_whole hp) fun c hc _ _ => Does.pure ⟨?_, rfl⟩
    rw [hc]
    exact gh_idx (s k)
  | valueless k =>
    refine Pure1.step (b := _) hw ?_ ⟨rfl, rfl⟩
    unfold Pure1 Var.valueless
    refine Does.read hn (lift_whole hp) fun c _ hc _ => Does.pure ⟨?_, rfl⟩
    cases hs : s k with
    | absent => exact absurd hs hp
    | valueless =>
      dsimp only
      rw [decide_eq_true_iff, hc]
      show (s k).gh = _
      rw [hs]
      rfl
    | holds i x =>
      dsimp only
      rw [decide_eq_false_iff_not, hc]
      show ¬ (s k).gh = _
      rw [hs]
      simp [G.gh]
  | holds k i =>
    refine Pure1.step (b := _) hw ?_ ⟨rfl, rfl⟩
    unfold Pure1 Var.holds
    refine Does.index hn (lift_whole hp.1) (Does.pure ⟨?_, rfl⟩)
    rw [show (lift s (.u k)).idx = (s k).index from gh_idx (s k)]
  | get k i =>
    have hi : (lift s (.u k)).idx = (s k).index := gh_idx (s k)
    refine Does.step hw ?_
    unfold Var.get
    refine Does.index hn (lift_whole hp.1) ?_
    rw [hi]
    split
    · next h1 =>
      obtain ⟨x, hx⟩ := idx_has hn hp.2 (lift_whole hp.1) (hi.trans h1)
      have hb : Var.rawGet (V := V) (.u k) i = (Var.rawGet (.u k) i >>= fun y => Pure.pure y) := by
        funext w
        show _ = M.bind _ _ w
        unfold M.bind
        cases Var.rawGet (.u k) i w <;> rfl
      rw [hb]
      refine Does.rawGet Obj.has hx (Does.pure ⟨s, rfl, rfl, ?_⟩)
      rw [if_pos h1]
      exact ⟨x, lift_has_iff hx, rfl⟩
    · next h1 =>
      refine Does.throw ⟨s, rfl, rfl, ?_⟩
      rw [if_neg h1]
  | getIf k i =>
    have hi : (lift s (.u k)).idx = (s k).index := gh_idx (s k)
    refine Does.step hw ?_
    unfold Var.getIf
    refine Does.index hn (lift_whole hp.1) ?_
    rw [hi]
    split
    · next h1 =>
      obtain ⟨x, hx⟩ := idx_has hn hp.2 (lift_whole hp.1) (hi.trans h1)
      refine Does.rawGet Obj.has hx (Does.pure ⟨s, rfl, rfl, ?_⟩)
      rw [if_pos h1]
      exact ⟨x, lift_has_iff hx, rfl⟩
    · next h1 =>
      refine Does.pure ⟨s, rfl, rfl, ?_⟩
      rw [if_neg h1]
  | store k i x =>
    have hi : (lift s (.u k)).idx = (s k).index := gh_idx (s k)
    refine Does.step hw ?_
    unfold Var.store
    refine Does.index hn (lift_whole hp.1) ?_
    rw [hi]
    split
    · next h1 =>
      obtain ⟨y, hy⟩ := idx_has hn hp.2 (lift_whole hp.1) (hi.trans h1)
      refine Does.setObj Obj.has hy ⟨_, lift_has s k i x, ?_⟩
      show if _ then _ else _
      rw [if_pos h1]
      exact ⟨rfl, rfl⟩
    · next h1 =>
      refine Does.throw ⟨s, rfl, ?_⟩
      show if _ then _ else _
      rw [if_neg h1]
      exact ⟨rfl, rfl⟩
  | compare r k l =>
    refine Pure1.step (b := _) hw ?_ ⟨rfl, rfl⟩
    exact Does.compare hn (lift_whole hp.1) (lift_whole hp.2) ⟨ghRel_eq r hp.1 hp.2, rfl⟩
  | hash k =>
    refine Does.step hw ?_
    unfold Var.hashOf
    refine Does.visit hn (lift_whole hp) (fun h1 => Does.pure ⟨s, rfl, ?_, rfl⟩) fun i x h1 hi => Does.rawGet Obj.has h1 (Does.pure ⟨s, rfl, ?_, rfl⟩)
    · rw [lift_vless_iff h1]
    · rw [lift_has_iff h1]
  | visit ks =>
    refine Does.step hw (Does.visitN hn (fun k hk => ?_) (by rw [List.length_map]; exact hp.2) (fun h1 => ⟨s, rfl, rfl, fun _ => rfl, fun h2 => ?_⟩)
      fun l hl => ⟨s, rfl, rfl, fun ⟨k, hk, h2⟩ => ?_, fun h2 => ⟨l, rfl, ?_⟩⟩)
    · obtain ⟨m, hm, rfl⟩ := List.mem_map.1 hk
      exact lift_whole (hp.1 m hm)
    · obtain ⟨k, hk, h3⟩ := h1
      obtain ⟨m, hm, rfl⟩ := List.mem_map.1 hk
      exact absurd (lift_vless_iff h3) (h2 m hm)
    · rw [List.map_map] at hl
      have : (lift s ∘ Nm.u) k ∈ ks.map (lift s ∘ Nm.u) := List.mem_map.2 ⟨k, hk, rfl⟩
      rw [hl] at this
      obtain ⟨p, _, h3⟩ := List.mem_map.1 this
      have h3 : Gh.has p.1 p.2 = (s k).gh := h3
      rw [h2] at h3
      cases h3
    · rw [List.map_map] at hl
      clear hp h2 hw
      induction ks generalizing l with
      | nil =>
        cases l with
        | nil => rfl
        | cons p l => simp at hl
      | cons k ks ih =>
        cases l with
        | nil => simp at hl
        | cons p l =>
          simp only [List.map_cons, List.cons.injEq] at hl ⊢
          exact ⟨gh_has hl.1, ih l hl.2⟩

theorem run_ok (ok : P.Ok) (c : Client V) {w : W V} {s : St V} (hw : Rw P w (lift s)) (hL : Legal P s c) :
    ∃ w' tr s', run P w c = some (w', tr) ∧ SpecRun P s c tr s' ∧ Rw P w' (lift s') := by
  induction c generalizing w s with
  | done => exact ⟨w, [], s, rfl, .done, hw⟩
  | call op k ih =>
    obtain ⟨h1, h2⟩ := hL
    obtain ⟨w1, out, s1, h3, h4, h5⟩ := step_ok ok hw h1
    obtain ⟨w2, tr, s2, h6, h7, h8⟩ := ih out h5 (h2 s1 out h4)
    refine ⟨w2, (op, out) :: tr, s2, ?_, .call h4 h7, h8⟩
    unfold run
    rw [h3]
    simp only [Option.bind_eq_bind, Option.bind_some]
    rw [h6]
    rfl

theorem start_ok (tape : List (Option (V × V))) : Rw P (start tape) (lift fun _ => G.absent) := by
  intro k
  cases k <;> exact ⟨rfl, rfl, rfl⟩

end STL.Var
