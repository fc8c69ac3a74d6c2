import Verif.Conc.StopTokenInv

/-!
# Property C29: stop callbacks
-/

namespace STL.StopToken
open STL STL.Conc Spec

variable {ι κ : Type} [DecidableEq ι] [DecidableEq κ]
variable {σ : State ι κ} {L L' L'' : List κ} {t u : ι} {rs : Rs κ} {k : κ} {r : List (Fr κ)} {b b' b'' : Sh ι κ}

theorem Pres.trans (h : Pres u b b' L L') (h' : Pres u b' b'' L' L'') : Pres u b b'' L L'' := by
  refine ⟨?_, ?_, ?_, fun x => h'.stop (h.stop x), ?_, fun k x => h'.run k (h.run k x)⟩
  · intro j h1 h2
    obtain ⟨a1, a2, a3⟩ := h.ctor j h1 h2
    obtain ⟨c1, c2, c3⟩ := h'.ctor j a1 a2
    exact ⟨c1, c2, c3.trans a3⟩
  · intro j h1 h2
    obtain ⟨a1, a2, a3⟩ := h.dtor j h1 h2
    obtain ⟨c1, c2, c3⟩ := h'.dtor j a1 a2
    exact ⟨c1, c2, fun x => c3 (a3 x)⟩
  · intro h1
    obtain ⟨a1, a2, a3⟩ := h.lock h1
    obtain ⟨c1, c2, c3⟩ := h'.lock a1
    exact ⟨c1, c2.trans a2, fun x => c3 (a3 x)⟩
  · intro h1
    obtain ⟨a1, a2, a3⟩ := h.won h1
    obtain ⟨c1, c2, c3⟩ := h'.won a1
    exact ⟨c1, c2.trans a2, fun x => c3 (a3 x)⟩

theorem Own.trans (h : Own t b b' L L' k) (h' : Own t b' b'' L' L'' k) : Own t b b'' L L'' k := by
  refine ⟨?_, fun x => h'.stop (h.stop x), fun k x => h'.run k (h.run k x)⟩
  intro j hj h1 h2
  obtain ⟨a1, a2, a3⟩ := h.ctor j hj h1 h2
  obtain ⟨c1, c2, c3⟩ := h'.ctor j hj a1 a2
  exact ⟨c1, c2, c3.trans a3⟩

theorem sh_lock (h : ShOk b L) (x : Option ι) : ShOk { b with lock := x } L :=
  ⟨h.chain, h.nodup, h.inL, h.outL, h.run1, h.unborn, h.le, h.won, h.ret, h.idle, h.bad⟩

theorem pres_acquire (h : b.lock = none) : Pres u b { b with lock := some t } L L :=
  ⟨fun _ h1 h2 => ⟨h1, h2, rfl⟩, fun _ h1 h2 => ⟨h1, h2, id⟩, fun hl => absurd (h.symm.trans hl) (by simp), id, fun h => ⟨h, rfl, id⟩, fun _ h => h⟩

theorem pres_release (h : b.lock = some t) (hu : u ≠ t) : Pres u b { b with lock := none } L L :=
  ⟨fun _ h1 h2 => ⟨h1, h2, rfl⟩, fun _ h1 h2 => ⟨h1, h2, id⟩, fun hl => by rw [h] at hl; cases hl; exact absurd rfl hu, id,
    fun h => ⟨h, rfl, id⟩, fun _ h => h⟩

theorem own_lock (x : Option ι) : Own t b { b with lock := x } L L k := ⟨fun _ _ h1 h2 => ⟨h1, h2, rfl⟩, id, fun _ h => h⟩

theorem own_refl : Own t b b L L k := ⟨fun _ _ h1 h2 => ⟨h1, h2, rfl⟩, id, fun _ h => h⟩

/-- the callback is called from its constructor -/
theorem sh_bump (h : ShOk b L) (h1 : b.life k = .ctor) (h2 : b.runs k = 0) (h3 : b.stop = true) :
    ShOk { b with runs := upd b.runs k (b.runs k + 1) } L := by
  have hne : ∀ j, b.life j ≠ .ctor → upd b.runs k (b.runs k + 1) j = b.runs j := by
    intro j hj; exact upd_ne _ _ (fun e => hj (e ▸ h1))
  refine ⟨h.chain, h.nodup, ?_, h.outL, ?_, ?_, ?_, h.won, h.ret, fun hs => absurd h3 (by simp only at hs; simp [hs]), h.bad⟩
  · intro j hj
    obtain ⟨a1, a2, a3⟩ := h.inL j hj
    exact ⟨a1, by simp only; rw [hne j (by rcases a1 with e | e <;> rw [e] <;> simp), a2], a3⟩
  · intro j hj
    have := h.run1 j hj
    simp only at hj ⊢
    rw [hne j (by rcases hj with e | e <;> rw [e] <;> simp)]; exact this
  · intro j hj
    simp only at hj ⊢
    rw [hne j (by rw [hj]; simp)]; exact h.unborn j hj
  · intro j
    simp only
    by_cases e : j = k
    · subst e; rw [upd_self, h2]
    · rw [upd_ne _ _ e]; exact h.le j

theorem pres_bump (h1 : b.life k = .ctor) (h2 : b.by_ k = some t) (hu : u ≠ t) : Pres u b { b with runs := upd b.runs k (b.runs k + 1) } L L := by
  refine ⟨?_, fun _ h1 h2 => ⟨h1, h2, id⟩, fun h => ⟨h, rfl, id⟩, id, fun h => ⟨h, rfl, id⟩, ?_⟩
  · intro j a1 a2
    refine ⟨a1, a2, upd_ne _ _ ?_⟩
    rintro rfl; rw [h2] at a2; cases a2; exact hu rfl
  · intro j hj
    simp only [RsOk] at hj ⊢
    rw [upd_ne _ _ (by rintro rfl; simp [h1] at hj)]
    exact hj

theorem own_bump (h1 : b.life k = .ctor) : Own t b { b with runs := upd b.runs k (b.runs k + 1) } L L k := by
  refine ⟨fun j hj a1 a2 => ⟨a1, a2, upd_ne _ _ hj⟩, id, ?_⟩
  intro j hj
  simp only [RsOk] at hj ⊢
  rw [upd_ne _ _ (by rintro rfl; simp [h1] at hj)]
  exact hj

/-- changing the lifetime stage of `k` -/
theorem sh_life (h : ShOk b L) (x : Life) (hin : k ∈ L → x = .alive ∨ x = .dtor) (hout : k ∉ L → x ≠ .dead → b.life k ≠ .dead)
    (hrun : x = .alive ∨ x = .dtor → k ∈ L ∨ b.runs k = 1) (hun : x ≠ .unborn) (w : κ → Option ι) :
    ShOk { b with life := upd b.life k x, by_ := w } L := by
  have key : ∀ j, j = k ∧ upd b.life k x j = x ∨ j ≠ k ∧ upd b.life k x j = b.life j := by
    intro j
    by_cases e : j = k
    · subst e; exact Or.inl ⟨rfl, upd_self _ _ _⟩
    · exact Or.inr ⟨e, upd_ne _ _ e⟩
  refine ⟨h.chain, h.nodup, ?_, ?_, ?_, ?_, h.le, h.won, h.ret, h.idle, h.bad⟩
  · intro j hj
    obtain ⟨a1, a2, a3⟩ := h.inL j hj
    refine ⟨?_, a2, a3⟩
    simp only
    rcases key j with ⟨rfl, e⟩ | ⟨_, e⟩
    · rw [e]; exact hin hj
    · rw [e]; exact a1
  · intro j hj hd
    simp only at hd
    rcases key j with ⟨rfl, e⟩ | ⟨_, e⟩
    · rw [e] at hd; exact h.outL j hj (hout hj hd)
    · rw [e] at hd; exact h.outL j hj hd
  · intro j hj
    simp only at hj
    rcases key j with ⟨rfl, e⟩ | ⟨_, e⟩
    · rw [e] at hj; exact hrun hj
    · rw [e] at hj; exact h.run1 j hj
  · intro j hj
    simp only at hj
    rcases key j with ⟨rfl, e⟩ | ⟨_, e⟩
    · rw [e] at hj; exact absurd hj hun
    · rw [e] at hj; exact h.unborn j hj

/-- another thread does not care about the lifetime stage of `k` -/
theorem pres_life (x : Life) (w : κ → Option ι) (hw : ∀ j, j ≠ k → w j = b.by_ j)
    (hc : ∀ v, v ≠ t → b.by_ k = some v → b.life k ≠ .ctor ∧ b.life k ≠ .dtor) (hu : u ≠ t)
    (hr : RsOk u b L (.running k) → x = .alive ∨ x = .dtor) : Pres u b { b with life := upd b.life k x, by_ := w } L L := by
  refine ⟨?_, ?_, fun h => ⟨h, rfl, id⟩, id, fun h => ⟨h, rfl, id⟩, ?_⟩
  · intro j h1 h2
    have e : j ≠ k := by rintro rfl; exact (hc u hu h2).1 h1
    exact ⟨by simp only; rw [upd_ne _ _ e, h1], by simp only; rw [hw j e, h2], rfl⟩
  · intro j h1 h2
    have e : j ≠ k := by rintro rfl; exact (hc u hu h2).2 h1
    exact ⟨by simp only; rw [upd_ne _ _ e, h1], by simp only; rw [hw j e, h2], id⟩
  · intro j hj
    by_cases e : j = k
    · subst e
      have := hr hj
      simp only [RsOk] at hj ⊢
      obtain ⟨a1, a2, a3, a4, a5, a6, a7, a8⟩ := hj
      exact ⟨a1, a2, a3, a4, a5, a6, a7, by rw [upd_self]; rcases this with e | e <;> simp [e]⟩
    · simp only [RsOk] at hj ⊢
      rw [upd_ne _ _ e, hw j e]; exact hj

theorem own_life (x : Life) (w : κ → Option ι) (hw : ∀ j, j ≠ k → w j = b.by_ j)
    (hr : RsOk t b L (.running k) → x = .alive ∨ x = .dtor ∨ (x = .dead ∧ w k = some t)) :
    Own t b { b with life := upd b.life k x, by_ := w } L L k := by
  refine ⟨?_, id, ?_⟩
  · intro j e h1 h2
    exact ⟨by simp only; rw [upd_ne _ _ e, h1], by simp only; rw [hw j e, h2], rfl⟩
  · intro j hj
    by_cases e : j = k
    · subst e
      have := hr hj
      simp only [RsOk] at hj ⊢
      obtain ⟨a1, a2, a3, a4, a5, a6, a7, a8⟩ := hj
      exact ⟨a1, a2, a3, a4, a5, a6, a7, by rw [upd_self]; exact this⟩
    · simp only [RsOk] at hj ⊢
      rw [upd_ne _ _ e, hw j e]; exact hj

/-! ### insertion -/

theorem sh_insert (h : ShOk b L) (h1 : b.life k = .ctor) (h2 : b.runs k = 0) (h3 : b.trueRet = 0) : ShOk (insertCb b k) (k :: L) ∧ k ∉ L := by
  have hk : k ∉ L := by intro hk; have := (h.inL k hk).1; simp [h1] at this
  refine ⟨?_, hk⟩
  rw [insertCb_eq h k]
  have hp := h.outL k hk (by simp [h1])
  have key : ∀ (x : Life) j, j = k ∧ upd b.life k x j = x ∨ j ≠ k ∧ upd b.life k x j = b.life j := by
    intro x j
    by_cases e : j = k
    · subst e; exact Or.inl ⟨rfl, upd_self _ _ _⟩
    · exact Or.inr ⟨e, upd_ne _ _ e⟩
  refine ⟨chain_push h.chain h.nodup hk hp, List.nodup_cons.2 ⟨hk, h.nodup⟩, ?_, ?_, ?_, ?_, h.le, h.won, Or.inl h3, h.idle, h.bad⟩
  · intro j hj
    simp only
    rcases List.mem_cons.1 hj with rfl | hj
    · exact ⟨by simp, h2, by simp⟩
    · have e : j ≠ k := fun e => hk (e ▸ hj)
      rw [upd_ne _ _ e, upd_ne _ _ e]; exact h.inL j hj
  · intro j hj hd
    simp only [List.mem_cons, not_or] at hj
    simp only at hd ⊢
    rw [upd_ne _ _ hj.1] at hd
    rw [setPrev_of_ne]
    · exact h.outL j hj.2 hd
    · intro e; have := chain_head h.chain; rw [e] at this; exact hj.2 (List.mem_of_head? this.symm)
  · intro j hj
    simp only at hj ⊢
    by_cases e : j = k
    · subst e; left; simp
    · rw [upd_ne _ _ e] at hj
      rcases h.run1 j hj with h | h
      · left; simp [h]
      · exact Or.inr h
  · intro j hj
    simp only at hj ⊢
    by_cases e : j = k
    · subst e; rw [upd_self] at hj; cases hj
    · rw [upd_ne _ _ e] at hj; exact h.unborn j hj

theorem pres_insert (h : ShOk b L) (h1 : b.life k = .ctor) (hb : b.by_ k = some t) (hlk : b.lock = some t) (hr0 : b.runs k = 0) (hu : u ≠ t) :
    Pres u b (insertCb b k) L (k :: L) := by
  rw [insertCb_eq h k]
  have hne : ∀ j, b.by_ j = some u → j ≠ k := by rintro j hj rfl; rw [hb] at hj; cases hj; exact hu rfl
  refine ⟨?_, ?_, ?_, id, fun h => ⟨h, rfl, id⟩, ?_⟩
  · intro j a1 a2; exact ⟨by simp only; rw [upd_ne _ _ (hne j a2), a1], a2, rfl⟩
  · intro j a1 a2; exact ⟨by simp only; rw [upd_ne _ _ (hne j a2), a1], a2, fun hj => by simp [hj, hne j a2]⟩
  · intro hl; rw [hlk] at hl; cases hl; exact absurd rfl hu
  · intro j hj
    simp only [RsOk] at hj ⊢
    have e : j ≠ k := by rintro rfl; rw [hr0] at hj; exact absurd hj.2.2.2.2.2.1 (by simp)
    rw [upd_ne _ _ e, upd_ne _ _ e]
    simpa [e] using hj

theorem own_insert (h : ShOk b L) (hr0 : b.runs k = 0) : Own t b (insertCb b k) L (k :: L) k := by
  rw [insertCb_eq h k]
  refine ⟨fun j hj a1 a2 => ⟨by simp only; rw [upd_ne _ _ hj, a1], a2, rfl⟩, id, ?_⟩
  intro j hj
  simp only [RsOk] at hj ⊢
  have e : j ≠ k := by rintro rfl; rw [hr0] at hj; exact absurd hj.2.2.2.2.2.1 (by simp)
  rw [upd_ne _ _ e, upd_ne _ _ e]
  simpa [e] using hj

/-! ### removal by the destructor -/

/-- the shared data after unlinking `k` and unlocking -/
theorem sh_remove (h : ShOk b L) {next' prev' : κ → Option κ} {head' : Option κ} (hc : Chain next' prev' none head' L') (hn : L'.Nodup)
    (hm : ∀ j, j ∈ L' ↔ j ∈ L ∧ j ≠ k) (hp : ∀ j, j ∉ L → prev' j = b.prev j) (h3 : k ∈ L) :
    ShOk (({ b with next := next', prev := prev', head := head', lock := none } : Sh ι κ).die k) L' := by
  have key : ∀ j, (upd b.life k .dead j) ≠ .dead → j ≠ k ∧ upd b.life k .dead j = b.life j := by
    intro j hj
    by_cases e : j = k
    · subst e; simp at hj
    · exact ⟨e, upd_ne _ _ e⟩
  refine ⟨hc, hn, ?_, ?_, ?_, ?_, h.le, h.won, ?_, h.idle, h.bad⟩
  · intro j hj
    have := (hm j).1 hj
    obtain ⟨a1, a2, a3⟩ := h.inL j this.1
    refine ⟨?_, a2, a3⟩
    simp only [Sh.die]; rw [upd_ne _ _ this.2]; exact a1
  · intro j hj hd
    obtain ⟨e1, e2⟩ := key j hd
    have hjL : j ∉ L := fun hx => hj ((hm j).2 ⟨hx, e1⟩)
    simp only [Sh.die] at hd ⊢
    rw [e2] at hd
    rw [hp j hjL]; exact h.outL j hjL hd
  · intro j hj
    simp only [Sh.die] at hj ⊢
    obtain ⟨e1, e2⟩ := key j (by rcases hj with e | e <;> rw [e] <;> simp)
    rw [e2] at hj
    rcases h.run1 j hj with h | h
    · exact Or.inl ((hm j).2 ⟨h, e1⟩)
    · exact Or.inr h
  · intro j hj
    simp only [Sh.die] at hj ⊢
    obtain ⟨e1, e2⟩ := key j (by rw [hj]; simp)
    rw [e2] at hj; exact h.unborn j hj
  · rcases h.ret with h | ⟨_, h, _⟩
    · exact Or.inl h
    · rw [h] at h3; cases h3

theorem pres_remove (h : ShOk b L) {next' prev' : κ → Option κ} {head' : Option κ} (hm : ∀ j, j ∈ L' ↔ j ∈ L ∧ j ≠ k) (h3 : k ∈ L)
    (hlk : b.lock = some t) (hb : b.by_ k = some t) (hl : b.life k = .dtor) (hu : u ≠ t) :
    Pres u b (({ b with next := next', prev := prev', head := head', lock := none } : Sh ι κ).die k) L L' := by
  have h0 := (h.inL k h3).2.1
  refine Pres.trans (b' := { b with next := next', prev := prev', head := head', lock := none }) (L' := L') ?_ (pres_die (t := t) (b := { b with next := next', prev := prev', head := head', lock := none }) hb u hu hl ?_)
  · refine ⟨fun _ h1 h2 => ⟨h1, h2, rfl⟩, fun j h1 h2 => ⟨h1, h2, fun hj hx => hj ((hm j).1 hx).1⟩, ?_, id, fun h => ⟨h, rfl, id⟩, ?_⟩
    · intro hl; rw [hlk] at hl; cases hl; exact absurd rfl hu
    · intro j hj
      simp only [RsOk] at hj ⊢
      obtain ⟨a1, a2, a3, a4, a5, a6⟩ := hj
      exact ⟨a1, a2, a3, a4, fun hx => a5 ((hm j).1 hx).1, a6⟩
  · intro v hv hj
    simp only [RsOk] at hj
    rw [h0] at hj; exact absurd hj.2.2.2.2.2.1 (by simp)

theorem own_remove {next' prev' : κ → Option κ} {head' : Option κ} (hm : ∀ j, j ∈ L' ↔ j ∈ L ∧ j ≠ k) (hb : b.by_ k = some t) :
    Own t b (({ b with next := next', prev := prev', head := head', lock := none } : Sh ι κ).die k) L L' k := by
  refine Own.trans (b' := { b with next := next', prev := prev', head := head', lock := none }) (L' := L') ?_ (own_die hb)
  refine ⟨fun j _ h1 h2 => ⟨h1, h2, rfl⟩, id, ?_⟩
  intro j hj
  simp only [RsOk] at hj ⊢
  obtain ⟨a1, a2, a3, a4, a5, a6⟩ := hj
  exact ⟨a1, a2, a3, a4, fun hx => a5 ((hm j).1 hx).1, a6⟩

/-! ### `request_stop` takes the head -/

theorem sh_pop {k : κ} (h : ShOk b (k :: L)) (hst : b.stop = true) (h3 : b.trueRet = 0) : ShOk (popHead b k) L ∧ b.head = some k := by
  have hhd : b.head = some k := by simpa using chain_head h.chain
  refine ⟨?_, hhd⟩
  rw [popHead_eq h hhd]
  have hc := h.chain
  rw [hhd] at hc
  have hn := List.nodup_cons.1 h.nodup
  have h0 := (h.inL k (by simp)).2.1
  have hlk := (h.inL k (by simp)).1
  have hnext : ∀ j, j ∉ L → b.next k ≠ some j := by
    intro j hj e
    have := chain_head hc.2.2
    rw [e] at this; exact hj (List.mem_of_head? this.symm)
  refine ⟨chain_pop hc h.nodup _ (fun j hj => upd_ne _ _ (fun e => hn.1 (e ▸ hj))), hn.2, ?_, ?_, ?_, ?_, ?_, h.won, Or.inl h3,
    fun hs => absurd hst (by simp only at hs; simp [hs]), h.bad⟩
  · intro j hj
    have e : j ≠ k := fun e => hn.1 (e ▸ hj)
    simp only; rw [upd_ne _ _ e]; exact h.inL j (by simp [hj])
  · intro j hj hd
    simp only at hd ⊢
    rw [setPrev_of_ne (hnext j hj)]
    by_cases e : j = k
    · subst e; exact hc.2.1
    · exact h.outL j (by simp [hj, e]) hd
  · intro j hj
    simp only at hj ⊢
    by_cases e : j = k
    · subst e; right; rw [upd_self, h0]
    · rw [upd_ne _ _ e]
      rcases h.run1 j hj with h | h
      · left; simpa [e] using h
      · exact Or.inr h
  · intro j hj
    simp only at hj ⊢
    have e : j ≠ k := by rintro rfl; rw [hj] at hlk; simp at hlk
    rw [upd_ne _ _ e]; exact h.unborn j hj
  · intro j
    simp only
    by_cases e : j = k
    · subst e; rw [upd_self, h0]
    · rw [upd_ne _ _ e]; exact h.le j

theorem pres_pop {k : κ} (h : ShOk b (k :: L)) (hlk : b.lock = some t) (hw : b.won = some t) (hu : u ≠ t) :
    Pres u b (popHead b k) (k :: L) L := by
  have hhd : b.head = some k := by simpa using chain_head h.chain
  rw [popHead_eq h hhd]
  have hl := (h.inL k (by simp)).1
  refine ⟨?_, fun j h1 h2 => ⟨h1, h2, fun hj hx => hj (by simp [hx])⟩, ?_, id, ?_, ?_⟩
  · intro j a1 a2
    refine ⟨a1, a2, upd_ne _ _ ?_⟩
    rintro rfl; rw [a1] at hl; simp at hl
  · intro hl; rw [hlk] at hl; cases hl; exact absurd rfl hu
  · intro hw'; rw [hw] at hw'; cases hw'; exact absurd rfl hu
  · intro j hj
    simp only [RsOk] at hj
    rw [hw] at hj; exact absurd hj.1 (by simpa using fun e => hu e.symm)


/-! ## Every transition preserves the invariant -/

theorem me_of (h : (σ.l t).stk = r) : σ.l t = ⟨(σ.l t).rs, r⟩ := by
  cases hx : σ.l t with
  | mk a c => rw [hx] at h; simp only at h; subst h; rfl

theorem rs_active (hI : Inv σ L) (hw : σ.b.won = some t) (h0 : σ.b.trueRet = 0) : (σ.l t).rs ≠ .off := hI.gl.active t hw h0

theorem not_running_notify {f : Fr κ} {r : List (Fr κ)} (hx : LocOk t b L ⟨rs, f :: r⟩) : rs ≠ .notify := by
  rcases hx.shape (by simp) with e | ⟨j, e⟩ <;> simp only at e <;> rw [e] <;> simp

/-- a transition of a thread with a non-empty stack that keeps `won`, `trueRet`, `cur` -/
theorem assemble' (hI : Inv σ L) (b' : Sh ι κ) (stk' : List (Fr κ)) (h1 : ShOk b' L')
    (h2 : ∀ u, u ≠ t → Pres u σ.b b' L L') (h3 : LocOk t b' L' ⟨(σ.l t).rs, stk'⟩)
    (hw : b'.won = σ.b.won) (ht : b'.trueRet = σ.b.trueRet) (hc : b'.cur = σ.b.cur)
    (h5 : ∀ k r, stk' = .asleep k :: r → b'.cur = some k) : Inv ⟨b', upd σ.l t ⟨(σ.l t).rs, stk'⟩⟩ L' :=
  assemble hI t b' _ h1 h2 h3 (fun a c => hI.gl.active t (hw ▸ a) (ht ▸ c)) (fun u _ a c => ⟨hw ▸ a, ht ▸ c⟩) h5 (Or.inl hc) (fun h => h)

theorem local_frame (hI : Inv σ L) {f : Fr κ} (hs : (σ.l t).stk = f :: r) {a : Act κ} {p : Sh ι κ × Loc κ}
    (hl : local_ t σ.b (σ.l t) a = some p) : ∃ L', Inv ⟨p.1, upd σ.l t p.2⟩ L' := by
  have hx : LocOk t σ.b L ⟨(σ.l t).rs, f :: r⟩ := by have := hI.loc t; rw [me_of hs] at this; exact this
  have hf := hx.fr f (by simp)
  have hcr : ∀ k' r', r ≠ Fr.asleep k' :: r' := by
    rintro k' r' rfl
    obtain ⟨j, e⟩ := hx.tail (.asleep k') (by simp)
    cases e
  unfold local_ at hl
  rw [hs] at hl
  cases f with
  | atFast k =>
    cases a <;> simp only [reduceCtorEq] at hl
    obtain ⟨f1, f2, f3⟩ := hf
    split at hl <;> (simp only [Option.some.injEq] at hl; subst hl)
    · rename_i hst
      refine ⟨L, assemble' hI _ _ (sh_bump hI.sh f1 f3 hst) (fun u hu => pres_bump f1 f2 hu)
        (own_top hx (own_bump f1) rfl ⟨f1, f2, by simp [f3], hst⟩) rfl rfl rfl (by simp)⟩
    · exact ⟨L, assemble' hI _ _ hI.sh (fun u _ => Pres.refl u _ _) (own_top hx own_refl rfl ⟨f1, f2, f3⟩) rfl rfl rfl (by simp)⟩
  | atLock k =>
    cases a <;> simp only [reduceCtorEq] at hl
    obtain ⟨f1, f2, f3⟩ := hf
    split at hl
    · simp only [Option.some.injEq] at hl; subst hl
      rename_i hn
      exact ⟨L, assemble' hI _ _ (sh_lock hI.sh _) (fun u _ => pres_acquire (by simpa using hn))
        (own_top hx (own_lock _) rfl ⟨f1, f2, f3, rfl⟩) rfl rfl rfl (by simp)⟩
    · cases hl
  | atLoad k =>
    cases a <;> simp only [reduceCtorEq] at hl
    obtain ⟨f1, f2, f3, f4⟩ := hf
    simp only [Option.some.injEq] at hl; subst hl
    refine ⟨L, assemble' hI _ _ hI.sh (fun u _ => Pres.refl u _ _) (own_top hx own_refl ?_ ?_) rfl rfl rfl ?_⟩
    · split <;> rfl
    · split
      · exact ⟨f1, f2, f3, f4, by assumption⟩
      · rename_i hst
        refine ⟨f1, f2, f3, f4, ?_⟩
        rcases hI.sh.ret with h | ⟨_, _, h⟩
        · exact h
        · exact absurd h hst
    · intro k r; split <;> simp
  | atCall k =>
    cases a <;> simp only [reduceCtorEq] at hl
    obtain ⟨f1, f2, f3, f4, f5⟩ := hf
    simp only [Option.some.injEq] at hl; subst hl
    refine ⟨L, assemble' hI _ _ (sh_lock (sh_bump hI.sh f1 f3 f5) none)
      (fun u hu => (pres_bump f1 f2 hu).trans (pres_release (b := { σ.b with runs := upd σ.b.runs k (σ.b.runs k + 1) }) f4 hu))
      (own_top hx ((own_bump f1).trans (own_lock none)) rfl ⟨f1, f2, by simp [f3], f5⟩) rfl rfl rfl (by simp)⟩
  | atInsert k =>
    cases a <;> simp only [reduceCtorEq] at hl
    obtain ⟨f1, f2, f3, f4, f5⟩ := hf
    simp only [Option.some.injEq] at hl; subst hl
    have := sh_insert hI.sh f1 f3 f5
    refine ⟨k :: L, assemble' hI _ _ this.1 (fun u hu => pres_insert hI.sh f1 f2 f4 f3 hu)
      (own_pop hx (own_insert hI.sh f3)) ?_ ?_ ?_ (fun k' r' e => absurd e (hcr k' r'))⟩ <;> rw [insertCb_eq hI.sh k]
  | crun k =>
    cases a <;> simp only [reduceCtorEq] at hl
    obtain ⟨f1, f2, f3, f4⟩ := hf
    simp only [Option.some.injEq] at hl; subst hl
    have hk : k ∉ L := by intro hk; have := (hI.sh.inL k hk).1; simp [f1] at this
    refine ⟨L, assemble' hI _ _ (sh_life hI.sh .alive (fun _ => Or.inl rfl) (fun _ _ => by simp [f1]) (fun _ => Or.inr f3) (by simp) _)
      (fun u hu => pres_life (t := t) .alive _ (fun _ _ => rfl) ?_ hu (fun _ => Or.inl rfl))
      (own_pop hx (own_life .alive _ (fun _ _ => rfl) (fun _ => Or.inl rfl))) rfl rfl rfl (fun k' r' e => absurd e (hcr k' r'))⟩
    intro v hv hb; rw [f2] at hb; cases hb; exact absurd rfl hv
  | dtLock k =>
    cases a <;> simp only [reduceCtorEq] at hl
    obtain ⟨f1, f2⟩ := hf
    split at hl
    · simp only [Option.some.injEq] at hl; subst hl
      rename_i hn
      exact ⟨L, assemble' hI _ _ (sh_lock hI.sh _) (fun u _ => pres_acquire (by simpa using hn))
        (own_top hx (own_lock _) rfl ⟨f1, f2, rfl⟩) rfl rfl rfl (by simp)⟩
    · cases hl
  | dtBody k =>
    cases a <;> simp only [reduceCtorEq] at hl
    obtain ⟨f1, f2, f3⟩ := hf
    split at hl
    · -- the head
      rename_i hhd
      simp only [Option.some.injEq] at hl; subst hl
      have hc := hI.sh.chain
      rw [hhd] at hc
      have hL := chain_head hc
      obtain ⟨M, rfl⟩ : ∃ M, L = k :: M := by
        cases L with
        | nil => simp at hL
        | cons a M => simp at hL; exact ⟨M, by rw [hL]⟩
      have hn := List.nodup_cons.1 hI.sh.nodup
      have hm : ∀ j, j ∈ M ↔ j ∈ k :: M ∧ j ≠ k := by
        intro j
        constructor
        · intro hj; exact ⟨by simp [hj], fun e => hn.1 (e ▸ hj)⟩
        · rintro ⟨hj, e⟩; simpa [e] using hj
      have e0 := removeHead_eq hI.sh hhd
      have hnext : ∀ j, j ∉ k :: M → setPrev σ.b.prev (σ.b.next k) none j = σ.b.prev j := by
        intro j hj
        refine setPrev_of_ne ?_
        intro e
        have := chain_head hc.2.2
        rw [e] at this; exact hj (by simp [List.mem_of_head? this.symm])
      rw [e0]
      refine ⟨M, assemble' hI _ _ (sh_remove (next' := σ.b.next) hI.sh (chain_pop hc hI.sh.nodup _ (fun _ _ => rfl)) hn.2 hm hnext (by simp))
        (fun u hu => pres_remove (next' := σ.b.next) hI.sh hm (by simp) f3 f2 f1 hu) (own_pop hx (own_remove (next' := σ.b.next) hm f2)) rfl rfl rfl
        (fun k' r' e => absurd e (hcr k' r'))⟩
    · rename_i hhd
      split at hl
      · rename_i p hp
        simp only [Option.some.injEq] at hl; subst hl
        have hkL : k ∈ L := by
          by_contra hc
          rw [hI.sh.outL k hc (by simp [f1])] at hp; cases hp
        obtain ⟨A, B, rfl⟩ := List.append_of_mem hkL
        have hA : A ≠ [] := by
          rintro rfl
          exact hhd hI.sh.chain.1
        obtain ⟨hc, hpA⟩ := chain_unlink hI.sh.chain hI.sh.nodup hA hp
        have e0 := removeMid_eq hI.sh hkL (show p ∈ A ++ k :: B by simp [hpA])
        rw [e0]
        have hnd := hI.sh.nodup
        have hm : ∀ j, j ∈ A ++ B ↔ j ∈ A ++ k :: B ∧ j ≠ k := by
          intro j
          have : k ∉ A ∧ k ∉ B := by
            rw [List.nodup_append] at hnd
            refine ⟨fun h => hnd.2.2 k h k (by simp) rfl, (List.nodup_cons.1 hnd.2.1).1⟩
          constructor
          · intro hj
            refine ⟨by simp at hj ⊢; tauto, ?_⟩
            rintro rfl; simp at hj; tauto
          · rintro ⟨hj, e⟩; simp [e] at hj ⊢; exact hj
        have hn' : (A ++ B).Nodup := by
          rw [List.nodup_append] at hnd ⊢
          refine ⟨hnd.1, (List.nodup_cons.1 hnd.2.1).2, fun x hx y hy => hnd.2.2 x hx y (by simp [hy])⟩
        have hnext : ∀ j, j ∉ A ++ k :: B → setPrev σ.b.prev (σ.b.next k) (some p) j = σ.b.prev j := by
          intro j hj
          refine setPrev_of_ne ?_
          intro e
          exact hj (chain_next_mem hI.sh.chain hkL e)
        refine ⟨A ++ B, assemble' hI _ _ (sh_remove (head' := σ.b.head) hI.sh hc hn' hm hnext hkL)
          (fun u hu => pres_remove (head' := σ.b.head) hI.sh hm hkL f3 f2 f1 hu) (own_pop hx (own_remove (head' := σ.b.head) hm f2)) rfl rfl rfl
          (fun k' r' e => absurd e (hcr k' r'))⟩
      · rename_i hp
        have hkL : k ∉ L := by
          intro hk
          obtain ⟨p, _, e⟩ := chain_prev hI.sh.chain hk hhd
          rw [hp] at e; cases e
        have hst : σ.b.stop = true := by
          by_contra hc
          have hc' : σ.b.stop = false := by simpa using hc
          rcases hI.sh.run1 k (Or.inr f1) with h | h
          · exact hkL h
          · rw [hI.sh.idle hc' k] at h; cases h
        simp only [check_true hst] at hl
        split at hl <;> (simp only [Option.some.injEq] at hl; subst hl)
        · rename_i hcond
          refine ⟨L, assemble' hI _ _ (sh_die (sh_lock hI.sh none) hkL)
            (fun u hu => (pres_release f3 hu).trans (pres_die (t := t) (b := { σ.b with lock := none }) f2 u hu f1 ?_))
            (own_pop hx ((own_lock none).trans (own_die (b := { σ.b with lock := none }) f2))) rfl rfl rfl (fun k' r' e => absurd e (hcr k' r'))⟩
          intro v hv hj
          simp only [RsOk] at hj
          rcases hcond with h | h
          · exact h hj.2.2.2.1
          · rw [h] at hj; exact hv (by simpa using hj.2.2.1.symm)
        · exact ⟨L, assemble' hI _ _ (sh_lock hI.sh none) (fun u hu => pres_release f3 hu)
            (own_top hx (own_lock none) rfl ⟨f1, f2, hkL⟩) rfl rfl rfl (by simp)⟩
  | dtWait k =>
    cases a <;> simp only [reduceCtorEq] at hl
    obtain ⟨f1, f2, f3⟩ := hf
    split at hl <;> (simp only [Option.some.injEq] at hl; subst hl)
    · exact ⟨L, assemble' hI _ _ hI.sh (fun u _ => Pres.refl u _ _) (own_top hx own_refl rfl ⟨f1, f2, f3⟩) rfl rfl rfl (by simp)⟩
    · rename_i hcur
      refine ⟨L, assemble' hI _ _ (sh_die hI.sh f3) (fun u hu => pres_die f2 u hu f1 ?_) (own_pop hx (own_die f2)) rfl rfl rfl
        (fun k' r' e => absurd e (hcr k' r'))⟩
      intro v hv hj
      exact hcur hj.2.2.2.1
  | dtBlock k =>
    cases a <;> simp only [reduceCtorEq] at hl
    obtain ⟨f1, f2, f3⟩ := hf
    split at hl <;> (simp only [Option.some.injEq] at hl; subst hl)
    · rename_i hcur
      exact ⟨L, assemble' hI _ _ hI.sh (fun u _ => Pres.refl u _ _) (own_top hx own_refl rfl ⟨f1, f2, f3⟩) rfl rfl rfl
        (fun k' r' e => by cases e; exact hcur)⟩
    · exact ⟨L, assemble' hI _ _ hI.sh (fun u _ => Pres.refl u _ _) (own_top hx own_refl rfl ⟨f1, f2, f3⟩) rfl rfl rfl (by simp)⟩
  | asleep k =>
    cases a <;> simp only [reduceCtorEq] at hl
    obtain ⟨f1, f2, f3⟩ := hf
    simp only [Option.some.injEq] at hl; subst hl
    exact ⟨L, assemble' hI _ _ hI.sh (fun u _ => Pres.refl u _ _) (own_top hx own_refl rfl ⟨f1, f2, f3⟩) rfl rfl rfl (by simp)⟩

theorem loc_nil {x : Rs κ} (h : RsOk t b L x) : LocOk t b L ⟨x, []⟩ := ⟨h, by simp, by simp, by simp, by simp⟩

theorem local_rs (hI : Inv σ L) (hs : (σ.l t).stk = []) {a : Act κ} {p : Sh ι κ × Loc κ}
    (hl : local_ t σ.b (σ.l t) a = some p) : ∃ L', Inv ⟨p.1, upd σ.l t p.2⟩ L' := by
  have hx : LocOk t σ.b L ⟨(σ.l t).rs, []⟩ := by have := hI.loc t; rw [me_of hs] at this; exact this
  have hrs := hx.rs
  unfold local_ at hl
  rw [hs] at hl
  have hne : ∀ {v w : ι}, w ≠ v → ∀ {o : Option ι}, o = some v → o ≠ some w := by
    intro v w hvw o ho e; rw [ho] at e; cases e; exact hvw rfl
  cases a with
  | adv =>
    simp only at hl
    split at hl
    · -- set
      rename_i hr
      rw [hr] at hrs
      obtain ⟨h1, h2⟩ := hrs
      simp only [Option.some.injEq] at hl; subst hl
      refine ⟨L, assemble hI t _ _ ⟨hI.sh.chain, hI.sh.nodup, hI.sh.inL, hI.sh.outL, hI.sh.run1, hI.sh.unborn, hI.sh.le, hI.sh.won, hI.sh.ret,
        hI.sh.idle, hI.sh.bad⟩ ?_ (loc_nil ⟨h1, h2, rfl⟩) (by simp) (fun u _ c d => ⟨c, d⟩) (by simp) (Or.inl rfl) (fun h => by rw [hr] at h; cases h)⟩
      intro u hu
      refine ⟨fun _ h1 h2 => ⟨h1, h2, rfl⟩, fun _ h1 h2 => ⟨h1, h2, id⟩, fun h => ⟨h, rfl, id⟩, id, fun h => absurd h (hne hu h1),
        fun k h => absurd h.1 (hne hu h1)⟩
    · -- lock
      rename_i hr
      rw [hr] at hrs
      obtain ⟨h1, h2, h3⟩ := hrs
      split at hl
      · rename_i hn
        simp only [Option.some.injEq] at hl; subst hl
        exact ⟨L, assemble hI t _ _ (sh_lock hI.sh _) (fun u _ => pres_acquire (by simpa using hn)) (loc_nil ⟨h1, h2, h3, rfl⟩) (by simp)
          (fun u _ c d => ⟨c, d⟩) (by simp) (Or.inl rfl) (fun h => by rw [hr] at h; cases h)⟩
      · cases hl
    · -- store
      rename_i hr
      rw [hr] at hrs
      obtain ⟨h1, h2, h3, h4⟩ := hrs
      simp only [Option.some.injEq] at hl; subst hl
      refine ⟨L, assemble hI t _ _ ⟨hI.sh.chain, hI.sh.nodup, hI.sh.inL, hI.sh.outL, hI.sh.run1, hI.sh.unborn, hI.sh.le, hI.sh.won, hI.sh.ret,
        hI.sh.idle, hI.sh.bad⟩ ?_ (loc_nil ⟨h1, h2, h3, h4, rfl⟩) (by simp) (fun u _ c d => ⟨c, d⟩) (by simp) (Or.inr rfl) (fun _ => rfl)⟩
      intro u hu
      refine ⟨fun _ h1 h2 => ⟨h1, h2, rfl⟩, fun _ h1 h2 => ⟨h1, h2, id⟩, fun h => absurd h (hne hu h4), id, fun h => absurd h (hne hu h1),
        fun k h => absurd h.1 (hne hu h1)⟩
    · -- pop
      rename_i hr
      rw [hr] at hrs
      obtain ⟨h1, h2, h3, h4, h5⟩ := hrs
      have hst : σ.b.stop = true := by rw [hI.sh.won, h1]; rfl
      split at hl
      · rename_i hhd
        simp only [Option.some.injEq] at hl; subst hl
        have hL : L = [] := by
          have := chain_head hI.sh.chain
          rw [hhd] at this
          cases L with
          | nil => rfl
          | cons a M => simp at this
        refine ⟨L, assemble hI t _ _ ⟨hI.sh.chain, hI.sh.nodup, hI.sh.inL, hI.sh.outL, hI.sh.run1, hI.sh.unborn, hI.sh.le, hI.sh.won,
          Or.inr ⟨by simp [h2], hL, hst⟩, hI.sh.idle, hI.sh.bad⟩ ?_ (loc_nil trivial) (fun _ h => by simp at h)
          (fun u hu c d => absurd c (hne hu h1)) (by simp) (Or.inl rfl) (fun h => by rw [hr] at h; cases h)⟩
        intro u hu
        refine ⟨fun _ h1 h2 => ⟨h1, h2, rfl⟩, fun _ h1 h2 => ⟨h1, h2, id⟩, fun h => absurd h (hne hu h4), id, fun h => absurd h (hne hu h1),
          fun k h => absurd h.1 (hne hu h1)⟩
      · rename_i k hhd
        simp only [Option.some.injEq] at hl; subst hl
        obtain ⟨M, rfl⟩ : ∃ M, L = k :: M := by
          have := chain_head hI.sh.chain
          rw [hhd] at this
          cases L with
          | nil => simp at this
          | cons a M => simp at this; exact ⟨M, by rw [this]⟩
        have hsp := sh_pop hI.sh hst h2
        have e0 := popHead_eq hI.sh hhd
        have hk := hI.sh.inL k (by simp)
        refine ⟨M, assemble hI t _ _ hsp.1 (fun u hu => pres_pop hI.sh h4 h1 hu) (loc_nil ?_) (by simp) ?_ (by simp) ?_
          (fun h => by rw [hr] at h; cases h)⟩
        · rw [e0]
          refine ⟨h1, h2, h3, by simp only; rw [h5, hhd], (List.nodup_cons.1 hI.sh.nodup).1, by simp [hk.2.1], hk.2.2, ?_⟩
          rcases hk.1 with h | h
          · exact Or.inl h
          · exact Or.inr (Or.inl h)
        · intro u hu hw; rw [e0] at hw; exact absurd hw (hne hu h1)
        · rw [e0]; exact Or.inl rfl
    · cases hl
  | ret =>
    simp only at hl
    split at hl
    · rename_i k hr
      rw [hr] at hrs
      simp only [Option.some.injEq] at hl; subst hl
      exact ⟨L, assemble hI t _ _ hI.sh (fun u _ => Pres.refl u _ _) (loc_nil ⟨hrs.1, hrs.2.1, hrs.2.2.1⟩) (by simp) (fun u _ c d => ⟨c, d⟩)
        (by simp) (Or.inl rfl) (fun h => by rw [hr] at h; cases h)⟩
    · cases hl
  | requestStop => cases hl
  | construct => cases hl
  | destroy => cases hl
  | alt => cases hl

/-- in user code the thread's stack consists of running callbacks only -/
theorem user_stk {x : Loc κ} (hx : LocOk t b L x) (hu : user x = true) : (∀ f ∈ x.stk, ∃ k, f = .crun k) ∧ (x.rs = .off ∨ ∃ k, x.rs = .running k) := by
  obtain ⟨rs, stk⟩ := x
  cases stk with
  | nil =>
    refine ⟨by simp, ?_⟩
    cases rs <;> simp [user] at hu ⊢
  | cons f r =>
    cases f <;> simp [user] at hu
    refine ⟨?_, hx.shape (by simp)⟩
    intro f hf
    rcases List.mem_cons.1 hf with rfl | hf
    · exact ⟨_, rfl⟩
    · exact hx.tail f (by simpa using hf)

theorem call_inv (hI : Inv σ L) (hu : user (σ.l t) = true) {a : Act κ} {p : Sh ι κ × Loc κ}
    (hl : call t σ.b (σ.l t) a = some p) : ∃ L', Inv ⟨p.1, upd σ.l t p.2⟩ L' := by
  have hx := hI.loc t
  obtain ⟨hstk, hrs⟩ := user_stk hx hu
  have hnas : ∀ k r, (σ.l t).stk ≠ .asleep k :: r := by
    intro k r e
    obtain ⟨j, ej⟩ := hstk (.asleep k) (by rw [e]; simp)
    cases ej
  have hrsn : (σ.l t).rs ≠ .notify := by rcases hrs with e | ⟨_, e⟩ <;> rw [e] <;> simp
  -- the stack below a frame for `k`, when the lifetime stage of `k` changes from one that is not `ctor`
  have hold : ∀ (k : κ) (x : Life), σ.b.life k ≠ .ctor → (RsOk t σ.b L (.running k) → x = .alive ∨ x = .dtor ∨ x = .dead) →
      LocOk t { σ.b with life := upd σ.b.life k x, by_ := upd σ.b.by_ k (some t) } L (σ.l t) := by
    intro k x hk hr
    have ho : Own t σ.b { σ.b with life := upd σ.b.life k x, by_ := upd σ.b.by_ k (some t) } L L k := by
      refine own_life x _ (fun j hj => upd_ne _ _ hj) (fun h => ?_)
      rcases hr h with e | e | e
      · exact Or.inl e
      · exact Or.inr (Or.inl e)
      · exact Or.inr (Or.inr ⟨e, upd_self _ _ _⟩)
    refine ⟨?_, ?_, hx.nodup, hx.tail, hx.shape⟩
    · have h1 := hx.rs
      rcases hrs with e | ⟨j, e⟩
      · rw [e]; trivial
      · rw [e] at h1 ⊢; exact ho.run j h1
    · intro f hf
      obtain ⟨j, rfl⟩ := hstk f hf
      obtain ⟨a1, a2, a3, a4⟩ := hx.fr _ hf
      have hj : j ≠ k := by rintro rfl; exact hk a1
      have := ho.ctor j hj a1 a2
      exact ⟨this.1, this.2.1, this.2.2.trans a3, a4⟩
  cases a with
  | requestStop =>
    simp only [call] at hl
    split at hl <;> (simp only [Option.some.injEq] at hl; subst hl)
    · exact ⟨L, assemble hI t _ _ ⟨hI.sh.chain, hI.sh.nodup, hI.sh.inL, hI.sh.outL, hI.sh.run1, hI.sh.unborn, hI.sh.le, hI.sh.won, hI.sh.ret,
        hI.sh.idle, hI.sh.bad⟩ (fun u _ => ⟨fun _ h1 h2 => ⟨h1, h2, rfl⟩, fun _ h1 h2 => ⟨h1, h2, id⟩, fun h => ⟨h, rfl, id⟩, id, fun h => ⟨h, rfl, id⟩, fun _ h => h⟩)
        ⟨by have := hx.rs; rcases hrs with e | ⟨j, e⟩ <;> rw [e] at this ⊢ <;> exact this,
         fun f hf => by obtain ⟨j, rfl⟩ := hstk f hf; exact hx.fr _ hf, hx.nodup, hx.tail, hx.shape⟩ (fun c d => hI.gl.active t c d)
        (fun u _ c d => ⟨c, d⟩) (fun k r e => absurd e (hnas k r)) (Or.inl rfl) (fun h => h)⟩
    · rename_i hst
      have hst' : σ.b.stop = false := by simpa using hst
      have hwon : σ.b.won = none := by
        have := hI.sh.won; rw [hst'] at this
        cases h : σ.b.won with
        | none => rfl
        | some v => rw [h] at this; cases this
      have h0 : σ.b.trueRet = 0 := by
        rcases hI.sh.ret with h | ⟨_, _, h⟩
        · exact h
        · rw [hst'] at h; cases h
      have e1 : (σ.l t).rs = .off := by
        rcases hrs with e | ⟨j, e⟩
        · exact e
        · have h1 := hx.rs; rw [e] at h1; have h2 := h1.1; rw [hwon] at h2; cases h2
      have e2 : (σ.l t).stk = [] := by
        cases hsk : (σ.l t).stk with
        | nil => rfl
        | cons f r =>
          obtain ⟨j, rfl⟩ := hstk f (by rw [hsk]; simp)
          have := hx.fr (.crun j) (by rw [hsk]; simp)
          have h4 := this.2.2.2
          rw [hst'] at h4; cases h4
      rw [check_true (by simp [e1, e2])]
      refine ⟨L, assemble hI t _ _ ⟨hI.sh.chain, hI.sh.nodup, hI.sh.inL, hI.sh.outL, hI.sh.run1, hI.sh.unborn, hI.sh.le, rfl, Or.inl h0,
        fun h => absurd h (by simp), hI.sh.bad⟩ ?_ (loc_nil ⟨rfl, h0⟩) (by simp) ?_ (by simp) (Or.inl rfl) (fun h => absurd h hrsn)⟩
      · intro u hut
        refine ⟨fun _ h1 h2 => ⟨h1, h2, rfl⟩, fun _ h1 h2 => ⟨h1, h2, id⟩, fun h => ⟨h, rfl, id⟩, fun _ => rfl, fun h => ?_, fun k h => ?_⟩
        · rw [hwon] at h; cases h
        · have := h.1; rw [hwon] at this; cases this
      · intro u hut hw; simp only [Option.some.injEq] at hw; exact absurd hw.symm hut
  | construct k =>
    simp only [call] at hl
    split at hl
    · rename_i hk
      simp only [Option.some.injEq] at hl; subst hl
      have hkL : k ∉ L := by intro h; have := (hI.sh.inL k h).1; simp [hk] at this
      have hr0 := hI.sh.unborn k hk
      have hold' := hold k .ctor (by simp [hk]) (fun h => by
        have := h.2.2.2.2.2.1; rw [hr0] at this; cases this)
      refine ⟨L, assemble hI t _ _ (sh_life hI.sh .ctor (fun h => absurd h hkL) (fun _ _ => by simp [hk]) (by simp) (by simp) _)
        (fun u hut => pres_life (t := t) .ctor _ (fun j hj => upd_ne _ _ hj) (fun v _ _ => by simp [hk]) hut (fun h => by
          have := h.2.2.2.2.2.1; rw [hr0] at this; cases this))
        ⟨hold'.rs, ?_, ?_, fun f hf => hstk f (by simpa using hf), fun _ => hrs⟩ (fun c d => hI.gl.active t c d) (fun u _ c d => ⟨c, d⟩) (by simp)
        (Or.inl rfl) (fun h => h)⟩
      · intro f hf
        rcases List.mem_cons.1 hf with rfl | hf
        · exact ⟨by simp, by simp, hr0⟩
        · exact hold'.fr f hf
      · simp only [List.map_cons, List.nodup_cons]
        refine ⟨?_, hx.nodup⟩
        intro hm
        obtain ⟨f, hf, e⟩ := List.mem_map.1 hm
        obtain ⟨j, rfl⟩ := hstk f hf
        have hjk : j = k := e
        have := (hx.fr _ hf).1
        rw [hjk, hk] at this; cases this
    · cases hl
  | destroy k =>
    simp only [call] at hl
    split at hl
    · rename_i hk
      split at hl <;> (simp only [Option.some.injEq] at hl; subst hl)
      · have hold' := hold k .dtor (by simp [hk]) (fun _ => Or.inr (Or.inl rfl))
        refine ⟨L, assemble hI t _ _ (sh_life hI.sh .dtor (fun _ => Or.inr rfl) (fun _ _ => by simp [hk]) (fun _ => hI.sh.run1 k (Or.inl hk)) (by simp) _)
          (fun u hut => pres_life (t := t) .dtor _ (fun j hj => upd_ne _ _ hj) (fun v _ _ => by simp [hk]) hut (fun _ => Or.inr rfl))
          ⟨hold'.rs, ?_, ?_, fun f hf => hstk f (by simpa using hf), fun _ => hrs⟩ (fun c d => hI.gl.active t c d) (fun u _ c d => ⟨c, d⟩) (by simp)
          (Or.inl rfl) (fun h => h)⟩
        · intro f hf
          rcases List.mem_cons.1 hf with rfl | hf
          · exact ⟨by simp, by simp⟩
          · exact hold'.fr f hf
        · simp only [List.map_cons, List.nodup_cons]
          refine ⟨?_, hx.nodup⟩
          intro hm
          obtain ⟨f, hf, e⟩ := List.mem_map.1 hm
          obtain ⟨j, rfl⟩ := hstk f hf
          have hjk : j = k := e
          have := (hx.fr _ hf).1
          rw [hjk, hk] at this; cases this
      · rename_i hpar
        have hkL : k ∉ L := fun h => hpar (hI.sh.inL k h).2.2
        have hold' := hold k .dead (by simp [hk]) (fun _ => Or.inr (Or.inr rfl))
        exact ⟨L, assemble hI t _ _ (sh_life hI.sh .dead (fun h => absurd h hkL) (by simp) (by simp) (by simp) _)
          (fun u hut => pres_life (t := t) .dead _ (fun j hj => upd_ne _ _ hj) (fun v _ _ => by simp [hk]) hut (fun h => absurd h.2.2.2.2.2.2.1 hpar))
          hold' (fun c d => hI.gl.active t c d) (fun u _ c d => ⟨c, d⟩) (fun k r e => absurd e (hnas k r)) (Or.inl rfl) (fun h => h)⟩
    · cases hl
  | ret => cases hl
  | adv => cases hl
  | alt => cases hl

theorem wakeL_ok {x : Loc κ} (hx : LocOk t b L x) : LocOk t b L (wakeL x) ∧ (wakeL x).rs = x.rs ∧ ∀ k r, (wakeL x).stk ≠ .asleep k :: r := by
  obtain ⟨rs, stk⟩ := x
  cases stk with
  | nil => exact ⟨hx, rfl, by simp [wakeL]⟩
  | cons f r =>
    cases f with
    | asleep k =>
      refine ⟨own_top hx own_refl rfl ?_, rfl, by simp [wakeL]⟩
      exact hx.fr (.asleep k) (by simp)
    | _ => exact ⟨hx, rfl, by simp [wakeL]⟩

theorem step_inv {σ' : State ι κ} {a : Act κ} (hI : Inv σ L) (hs : step σ t a = some σ') : ∃ L', Inv σ' L' := by
  unfold step at hs
  split at hs
  · rename_i hstk hrs
    simp only [Option.some.injEq] at hs; subst hs
    have hx := hI.loc t
    rw [me_of hstk, hrs] at hx
    refine ⟨L, hI.sh, ?_, ?_, ?_⟩
    · intro u
      by_cases hu : u = t
      · subst hu; simp only [upd_self]; exact loc_nil hx.rs
      · simp only [upd_ne _ _ hu]; exact (wakeL_ok (hI.loc u)).1
    · intro u hw h0
      by_cases hu : u = t
      · subst hu; simp
      · simp only [upd_ne _ _ hu]; rw [(wakeL_ok (hI.loc u)).2.1]; exact hI.gl.active u hw h0
    · intro u k r e
      simp only at e
      by_cases hu : u = t
      · subst hu; rw [upd_self] at e; cases e
      · rw [upd_ne _ _ hu] at e; exact absurd e ((wakeL_ok (hI.loc u)).2.2 k r)
  · rw [Option.map_eq_some_iff] at hs
    obtain ⟨p, hp, rfl⟩ := hs
    rw [Option.or_eq_some_iff] at hp
    rcases hp with hp | ⟨_, hp⟩
    · split at hp
      · exact call_inv hI (by assumption) hp
      · cases hp
    · cases hstk : (σ.l t).stk with
      | nil => exact local_rs hI hstk hp
      | cons f r => exact local_frame hI hstk hp

theorem reach_inv (hr : Reach σ) : ∃ L, Inv σ L := by
  induction hr with
  | init => exact ⟨[], inv_init⟩
  | step _ hs ih => obtain ⟨L, h⟩ := ih; exact step_inv h hs

/-! ## The property -/

/-- **C29, request_stop.** At most one `request_stop` call returns `true`; one has returned `true` exactly when stop was
requested and that call is over; once all operations are over and stop was requested, exactly one has returned `true`. -/
theorem C29_request_stop (hr : Reach σ) : σ.b.trueRet ≤ 1 ∧ (0 < σ.b.trueRet → σ.b.stop = true) ∧
    (σ.b.stop = true → Quiescent σ → σ.b.trueRet = 1) ∧ (σ.b.falseRet ≠ 0 → σ.b.stop = true) := by
  obtain ⟨L, hI⟩ := reach_inv hr
  refine ⟨?_, ?_, ?_, ?_⟩
  · rcases hI.sh.ret with h | ⟨h, _, _⟩ <;> omega
  · intro h; rcases hI.sh.ret with h' | ⟨_, _, h'⟩
    · omega
    · exact h'
  · intro hst hq
    rcases hI.sh.ret with h | ⟨h, _, _⟩
    · exfalso
      have := hI.sh.won
      rw [hst] at this
      obtain ⟨v, hv⟩ := Option.isSome_iff_exists.1 this.symm
      exact hI.gl.active v hv h (hq v).1
    · exact h
  · clear hI
    induction hr with
    | init => intro h; exact absurd rfl h
    | step hr0 hs ih =>
      rename_i σ σ' t a
      obtain ⟨L0, hI⟩ := reach_inv hr0
      have key : σ'.b.stop = false → σ.b.stop = false ∧ σ'.b.falseRet = σ.b.falseRet := by
        intro hf
        unfold step at hs
        split at hs
        · simp only [Option.some.injEq] at hs; subst hs; exact ⟨hf, rfl⟩
        · rename_i a _ _ _ hsplit
          rw [Option.map_eq_some_iff] at hs
          obtain ⟨p, hp, rfl⟩ := hs
          rw [Option.or_eq_some_iff] at hp
          simp only at hf ⊢
          rcases hp with hp | ⟨_, hp⟩
          · split at hp
            · unfold call at hp
              split at hp
              · split at hp <;> (simp only [Option.some.injEq] at hp; subst hp; simp_all [Sh.check])
              · split at hp
                · simp only [Option.some.injEq] at hp; subst hp; exact ⟨hf, rfl⟩
                · cases hp
              · split at hp
                · split at hp <;> (simp only [Option.some.injEq] at hp; subst hp; exact ⟨hf, rfl⟩)
                · cases hp
              · cases hp
            · cases hp
          · cases hstk : (σ.l t).stk with
            | nil =>
              unfold local_ at hp
              rw [hstk] at hp
              cases a <;> simp only [reduceCtorEq] at hp
              · split at hp
                · simp only [Option.some.injEq] at hp; subst hp; exact ⟨hf, rfl⟩
                · cases hp
              · split at hp
                · simp only [Option.some.injEq] at hp; subst hp; exact ⟨hf, rfl⟩
                · split at hp
                  · simp only [Option.some.injEq] at hp; subst hp; exact ⟨hf, rfl⟩
                  · cases hp
                · simp only [Option.some.injEq] at hp; subst hp; exact ⟨hf, rfl⟩
                · split at hp
                  · simp only [Option.some.injEq] at hp; subst hp; exact ⟨hf, rfl⟩
                  · rename_i hhd
                    simp only [Option.some.injEq] at hp; subst hp
                    rw [popHead_eq hI.sh hhd] at hf ⊢; exact ⟨hf, rfl⟩
                · cases hp
            | cons f r =>
              have hx : LocOk t σ.b L0 ⟨(σ.l t).rs, f :: r⟩ := by have := hI.loc t; rw [me_of hstk] at this; exact this
              unfold local_ at hp
              rw [hstk] at hp
              cases f <;> cases a <;> simp only [reduceCtorEq] at hp
              case dtBody.adv k =>
                split at hp
                · rename_i hhd
                  simp only [Option.some.injEq] at hp; subst hp
                  rw [removeHead_eq hI.sh hhd] at hf ⊢; exact ⟨hf, rfl⟩
                · split at hp
                  · simp only [Option.some.injEq] at hp; subst hp
                    simp only [removeMid, Sh.die, Sh.check] at hf ⊢
                    split at hf <;> rename_i hnx <;> simp only [hnx] <;> exact ⟨hf, trivial⟩
                  · split at hp <;> (simp only [Option.some.injEq] at hp; subst hp; exact ⟨hf, rfl⟩)
              case atInsert.adv k =>
                simp only [Option.some.injEq] at hp; subst hp
                rw [insertCb_eq hI.sh _] at hf ⊢; exact ⟨hf, rfl⟩
              all_goals first
                | (simp only [Option.some.injEq] at hp; subst hp; exact ⟨hf, rfl⟩)
                | (split at hp <;> first | (simp only [Option.some.injEq] at hp; subst hp; exact ⟨hf, rfl⟩) | cases hp)
      intro hne
      by_contra hc
      have hf : σ'.b.stop = false := by simpa using hc
      obtain ⟨h1, h2⟩ := key hf
      rw [h2] at hne
      have := ih hne
      rw [h1] at this; cases this

/-- **C29, at most once.** Every callback is called at most once, and none before stop was requested. -/
theorem C29_at_most_once (hr : Reach σ) (k : κ) : σ.b.runs k ≤ 1 ∧ (σ.b.runs k ≠ 0 → σ.b.stop = true) := by
  obtain ⟨L, hI⟩ := reach_inv hr
  refine ⟨hI.sh.le k, fun h => ?_⟩
  by_contra hc
  exact h (hI.sh.idle (by simpa using hc) k)

/-- **C29, invoked.** When a `request_stop` call has returned `true`, every callback that is constructed and whose destructor
has not been called has been called, and is not running any more. -/
theorem C29_invoked (hr : Reach σ) (h1 : 0 < σ.b.trueRet) (k : κ) (hk : σ.b.life k = .alive) :
    σ.b.runs k = 1 ∧ ∀ t, ¬ RunningOn σ k t := by
  obtain ⟨L, hI⟩ := reach_inv hr
  obtain ⟨h2, h3⟩ : σ.b.trueRet = 1 ∧ L = [] := by
    rcases hI.sh.ret with h | ⟨h, h', _⟩
    · omega
    · exact ⟨h, h'⟩
  constructor
  · rcases hI.sh.run1 k (Or.inl hk) with h | h
    · rw [h3] at h; cases h
    · exact h
  · intro t hrun
    have hx := hI.loc t
    rcases hrun with h | h
    · have := hx.rs; rw [h] at this; have := this.2.1; omega
    · have := (hx.fr _ h).1; rw [hk] at this; cases this

/-- **C29, destruction.** When the destructor of a callback has returned, the callback is not running on any thread other than
the one that destroyed it, and it is not registered. It does not start running later: the same holds in every later state. -/
theorem C29_destroyed (hr : Reach σ) (k : κ) (hk : σ.b.life k = .dead) :
    (∀ t, RunningOn σ k t → σ.b.by_ k = some t) ∧ σ.b.head ≠ some k := by
  obtain ⟨L, hI⟩ := reach_inv hr
  constructor
  · intro t hrun
    have hx := hI.loc t
    rcases hrun with h | h
    · have := hx.rs; rw [h] at this
      rcases this.2.2.2.2.2.2.2 with e | e | e
      · rw [hk] at e; cases e
      · rw [hk] at e; cases e
      · exact e.2
    · have := (hx.fr _ h).1; rw [hk] at this; cases this
  · intro h
    have := chain_head hI.sh.chain
    rw [h] at this
    have := (hI.sh.inL k (List.mem_of_head? this.symm)).1
    rw [hk] at this; simp at this

/-- **C29, memory safety.** No internal check fails and no callback object is accessed outside its lifetime. -/
theorem C29_safe (hr : Reach σ) : σ.b.bad = false := by
  obtain ⟨L, hI⟩ := reach_inv hr
  exact hI.sh.bad

/-- **C29, no lost wake-up.** A destructor sleeps only while its callback is the current one, or the thread running
`request_stop` is about to wake it. -/
theorem C29_no_lost_wakeup (hr : Reach σ) (t : ι) (k : κ) (r : List (Fr κ)) (h : (σ.l t).stk = .asleep k :: r) :
    σ.b.cur = some k ∨ ∃ u, (σ.l u).rs = .notify := by
  obtain ⟨L, hI⟩ := reach_inv hr
  exact hI.gl.asleep t k r h

/-! Non-vacuity: an execution in which thread 0 runs the callback 0 inside `request_stop`, thread 1 starts to destroy it and
falls asleep; the callback returns, thread 0 wakes thread 1, `request_stop` returns `true`; a second call returns `false`. The
callback 1, constructed later, runs in its constructor. -/

def runD : List (Fin 2 × Act (Fin 2)) → State (Fin 2) (Fin 2) → Option (State (Fin 2) (Fin 2))
  | [], σ => some σ
  | (t, a) :: r, σ => (step σ t a).bind (runD r)

theorem reach_runD {tr : List (Fin 2 × Act (Fin 2))} : ∀ {σ σ' : State (Fin 2) (Fin 2)}, Reach σ → runD tr σ = some σ' → Reach σ' := by
  induction tr with
  | nil => intro σ σ' h e; simp [runD] at e; exact e ▸ h
  | cons p r ih =>
    intro σ σ' h e
    obtain ⟨t, a⟩ := p
    simp only [runD, Option.bind_eq_some_iff] at e
    obtain ⟨σ1, h1, h2⟩ := e
    exact ih (.step h h1) h2

/-- the destructor sleeps while the callback runs on the other thread -/
def demoSleep : List (Fin 2 × Act (Fin 2)) :=
  [(1, .construct 0), (1, .adv), (1, .adv), (1, .adv), (1, .adv),
   (0, .requestStop), (0, .adv), (0, .adv), (0, .adv), (0, .adv), (0, .adv),
   (1, .destroy 0), (1, .adv), (1, .adv), (1, .adv), (1, .adv)]

example : ∃ σ : State (Fin 2) (Fin 2), Reach σ ∧ RunningOn σ 0 0 ∧ (σ.l 1).stk = [.asleep 0] ∧ σ.b.life 0 = .dtor := by
  cases h : runD demoSleep init with
  | none => exact absurd h (by decide)
  | some σ =>
    refine ⟨σ, reach_runD .init h, ?_⟩
    obtain rfl : (runD demoSleep init).get (by decide) = σ := by simp [h]
    exact ⟨Or.inl (by decide), by decide, by decide⟩

/-- … and is woken; then the second callback -/
def demoAll : List (Fin 2 × Act (Fin 2)) :=
  demoSleep ++ [(0, .ret), (0, .adv), (0, .adv), (0, .adv), (0, .adv), (1, .adv), (1, .requestStop), (1, .construct 1), (1, .adv), (1, .ret)]

example : ∃ σ : State (Fin 2) (Fin 2), Reach σ ∧ σ.b.trueRet = 1 ∧ σ.b.falseRet = 1 ∧ σ.b.runs 0 = 1 ∧ σ.b.runs 1 = 1 ∧
    σ.b.life 0 = .dead ∧ σ.b.life 1 = .alive := by
  cases h : runD demoAll init with
  | none => exact absurd h (by decide)
  | some σ =>
    refine ⟨σ, reach_runD .init h, ?_⟩
    obtain rfl : (runD demoAll init).get (by decide) = σ := by simp [h]
    decide

end STL.StopToken
