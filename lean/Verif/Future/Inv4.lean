import Verif.Future.Inv3

/-!
# `future`: every transition keeps the further invariants, continued
-/

namespace STL.Future
open STL STL.Conc

variable {ι : Type} [Fintype ι] [DecidableEq ι]

theorem start_B {k : Kind} {s : St ι} (h : Inv k s) (b : InvB k s) {t : ι} {o : Op} (hok : okAct s (.start o)) (hi : (s.l t).pc = .idle) (hc : canStart k s (s.l t) o = true) :
    InvB k (startStep k s t o) := by
  have h' := start_inv h hok hi hc
  have hfu : 0 < (s.l t).fut → s.retrieved = false := by
    intro hf
    cases hr : s.retrieved with
    | false => rfl
    | true =>
      have h1 := h.num.ret hr
      have h2 := le_tot (fun x => (nums x).uf) s.l t
      change _ ≤ (numsTot s.l).uf at h2
      simp only [nums] at h2; omega
  have hp : ∃ p, startPC k s.retrieved o = (p, none) := by
    cases o <;> simp only [startPC, canStart] at hc ⊢
    all_goals (try exact ⟨_, rfl⟩)
    · have := hfu (by simpa using hc); simp [this]
    · rename_i sh; cases sh
      · have := hfu (by simpa using hc); simp [this]
      · simp
    · rename_i sh; cases sh
      · have := hfu (by simpa using hc); simp [this]
      · simp
  obtain ⟨p, hp⟩ := hp
  rw [startStep_eq hp]
  refine b.upd h t ⟨fun _ e => e, id, id, .inl rfl, fun e => .inl e, fun u hu => .inl (upd_ne _ _ hu), fun e => by simp [e]⟩ (.inl rfl) ?_ ?_ b.dfr ?_ (fun e => .inl e)
  · simp only [upd_self]
    unfold LB
    cases o <;> simp only [startPC] at hp
    all_goals (repeat' split at hp)
    all_goals cases hp
    all_goals simp [isCall, Op.waits]
  · simp only [upd_self]
    intro ex r hm
    refine b.done t ex r ?_
    cases o <;> exact hm
  · intro e1 e2
    have := b.regx t e1 e2
    rw [hi] at this; simp at this

theorem hand_B {k : Kind} {s s' : St ι} (h : Inv k s) (b : InvB k s) {t : ι} (hl : ∀ u, ∃ f g, s'.l u = { s.l u with fut := f, sh := g }) (h1 : s'.stored = s.stored) (h2 : s'.ready = s.ready)
    (h3 : s'.reg = s.reg) (h4 : s'.running = s.running) (h5 : s'.prov = s.prov) (h6 : s'.calls = s.calls) (h7 : s'.runs = s.runs) : InvB k s' := by
  refine b.upd h t ⟨by rw [h1]; exact fun _ e => e, by rw [h2]; exact id, by rw [h4]; exact id, .inl h3, by rw [h2]; exact fun e => .inl e, fun u _ => .inr (.inr (hl u)), by rw [h5]; exact id⟩ (.inl h6)
    ?_ ?_ (by rw [h6, h7, h1]; exact b.dfr) ?_ (by rw [h1]; exact fun e => .inl e)
  · obtain ⟨f, g, e⟩ := hl t
    rw [e]
    have := b.lb t
    unfold LB at *
    simp only [h6, h1, h3, h4]; exact this
  · obtain ⟨f, g, e⟩ := hl t
    rw [e, h6]; exact b.done t
  · obtain ⟨f, g, e⟩ := hl t
    rw [e, h3, h2]; exact b.regx t

theorem step_B {k : Kind} {s s' : St ι} (h : Inv k s) (b : InvB k s) {t : ι} {a : Act ι} (hok : okAct s a) (he : step k s t a = some s') : InvB k s' := by
  have self : ∀ u, ∃ f g, s.l u = { s.l u with fut := f, sh := g } := fun u => ⟨_, _, rfl⟩
  cases a with
  | start o =>
    simp only [step, Option.ite_none_right_eq_some, Option.some.injEq] at he
    obtain ⟨⟨h1, h2⟩, rfl⟩ := he
    exact start_B h b hok h1 h2
  | adv r => exact adv_B h b he
  | wakeup tm =>
    simp only [step, Option.ite_none_right_eq_some, Option.some.injEq] at he
    obtain ⟨⟨hp, h2⟩, rfl⟩ := he
    have hb := b.lb t
    simp only [LB, hp] at hb
    refine b.upd h t ⟨fun _ e => e, id, id, .inl rfl, fun e => .inl e, fun u hu => .inl (upd_ne _ _ hu), id⟩ (.inl rfl) ?_ ?_ b.dfr (fun e => absurd e hb.2) (fun e => .inl e)
    · simp only [St.goto, upd_self, LB]; exact hb.1
    · simp only [St.goto, upd_self]; exact b.done t
  | getFuture u =>
    simp only [step, Option.ite_none_right_eq_some, Option.some.injEq] at he
    obtain ⟨⟨hi, hp, hf⟩, rfl⟩ := he
    refine hand_B (t := t) h b (fun v => ?_) rfl rfl rfl rfl rfl rfl rfl
    simp only [St.goto]
    by_cases hv : v = t
    · subst hv; rw [upd_self]
      by_cases hvu : v = u
      · subst hvu; rw [upd_self]; exact ⟨_, _, by simp only [hi]; rfl⟩
      · rw [upd_ne _ _ hvu]
        have : s.l v = { s.l v with pc := .idle } := by rw [← hi]
        rw [← this]; exact self v
    · rw [upd_ne _ _ hv]
      by_cases hvu : v = u
      · subst hvu; rw [upd_self]; exact ⟨_, _, rfl⟩
      · rw [upd_ne _ _ hvu]; exact self v
  | share =>
    simp only [step, Option.ite_none_right_eq_some, Option.some.injEq] at he
    obtain ⟨⟨hi, hp⟩, rfl⟩ := he
    refine hand_B (t := t) h b (fun v => ?_) rfl rfl rfl rfl rfl rfl rfl
    by_cases hv : v = t
    · subst hv; simp only [upd_self]; exact ⟨_, _, rfl⟩
    · simp only [upd_ne _ _ hv]; exact self v
  | copy =>
    simp only [step, Option.ite_none_right_eq_some, Option.some.injEq] at he
    obtain ⟨⟨hi, hp⟩, rfl⟩ := he
    refine hand_B (t := t) h b (fun v => ?_) rfl rfl rfl rfl rfl rfl rfl
    simp only [St.goto]
    by_cases hv : v = t
    · subst hv; simp only [upd_self, ← hi]; exact ⟨_, _, rfl⟩
    · simp only [upd_ne _ _ hv]; exact self v
  | giveFut u =>
    simp only [step, Option.ite_none_right_eq_some, Option.some.injEq] at he
    obtain ⟨⟨hi, hp⟩, rfl⟩ := he
    refine hand_B (t := t) h b (fun v => ?_) rfl rfl rfl rfl rfl rfl rfl
    obtain ⟨f, g, e, _⟩ := give_cases s.l t u 1 0 v
    refine ⟨f, g, ?_⟩
    rw [← e]; simp [giveL]
  | giveSh u =>
    simp only [step, Option.ite_none_right_eq_some, Option.some.injEq] at he
    obtain ⟨⟨hi, hp⟩, rfl⟩ := he
    refine hand_B (t := t) h b (fun v => ?_) rfl rfl rfl rfl rfl rfl rfl
    obtain ⟨f, g, e, _⟩ := give_cases s.l t u 0 1 v
    refine ⟨f, g, ?_⟩
    rw [← e]; simp [giveL]
  | exit =>
    simp only [step, Option.ite_none_right_eq_some] at he
    obtain ⟨⟨hi, hx⟩, he⟩ := he
    have hreg : s.reg = some t → s.ready = true → False := fun e1 e2 => by
      have := b.regx t e1 e2
      rw [hi] at this; simp at this
    split at he
    · simp only [Option.some.injEq] at he; subst he
      refine b.upd h t ⟨fun _ e => e, id, id, .inl rfl, fun e => .inl e, fun u hu => .inl (upd_ne _ _ hu), id⟩ (.inl rfl) ?_ ?_ b.dfr (fun e1 e2 => (hreg e1 e2).elim) (fun e => .inl e)
      · simp only [upd_self, LB]
      · simp only [upd_self]; exact b.done t
    · simp only [Option.some.injEq] at he; subst he
      refine b.upd h t ⟨fun _ e => e, id, id, .inl rfl, fun e => .inl e, fun u hu => .inl (upd_ne _ _ hu), id⟩ (.inl rfl) ?_ ?_ b.dfr (fun e1 e2 => (hreg e1 e2).elim) (fun e => .inl e)
      · simp only [upd_self, LB]
      · simp only [upd_self]; exact b.done t

theorem Reach.invB {k : Kind} {t0 : ι} {s : St ι} (h : Reach k t0 s) : InvB k s := by
  induction h with
  | init =>
    refine ⟨fun u => trivial, fun u ex r h => by simp [STL.Future.init] at h, fun _ => ⟨rfl, fun r e => by simp [STL.Future.init] at e⟩, fun w e => by simp [STL.Future.init] at e, fun e => by simp [STL.Future.init] at e⟩
  | step t a hr hok he ih => exact step_B hr.inv ih hok he

end STL.Future
