import Verif.Future.Step2

/-!
# `future`: further invariants
-/

namespace STL.Future
open STL STL.Conc

variable {ι : Type} [Fintype ι] [DecidableEq ι]

def isCall : Op → Bool
  | .call _ => true
  | _ => false

def LB (k : Kind) (s : St ι) (u : ι) (x : Loc) : Prop :=
  match x.pc with
  | .sLock r | .sCrit r => (isCall x.op = true → (u, r) ∈ s.calls ∨ s.stored.isSome = true) ∧ (k = .dfr → x.op.waits = true → s.calls = [(u, r)])
  | .sRdy r | .sNtf r => isCall x.op = true → (u, r) ∈ s.calls
  | .sUnl _ o => isCall x.op = true → ∀ r, o = .okv r → (u, r) ∈ s.calls
  | .wLoop _ | .wRelock _ => k = .dfr → s.running = true
  | .wSleep => (k = .dfr → s.running = true) ∧ s.reg ≠ some u
  | _ => True

structure InvB (k : Kind) (s : St ι) : Prop where
  lb : ∀ u, LB k s u (s.l u)
  done : ∀ u ex r, (.call ex, .okv r) ∈ (s.l u).done → (u, r) ∈ s.calls
  dfr : k = .dfr → s.calls.length = s.runs ∧ ∀ r, s.stored = some r → ∃ u, s.calls = [(u, r)]
  regx : ∀ w, s.reg = some w → s.ready = true → (s.l w).pc = .x2 ∨ (s.l w).pc = .x3
  brk : s.stored = some .broken → s.prov = false

/-- What a step of `t` may do to the shared state and to the others. -/
structure Chg (k : Kind) (s s' : St ι) (t : ι) : Prop where
  st : ∀ r, s.stored = some r → s'.stored = some r
  rd : s.ready = true → s'.ready = true
  rn : s.running = true → s'.running = true
  reg : s'.reg = s.reg ∨ s'.reg = none ∨ s'.reg = some t
  rdn : s'.ready = true → s.ready = true ∨ s'.reg = none ∨ s'.reg = some t
  oth : ∀ u, u ≠ t → s'.l u = s.l u ∨ s'.l u = wake (s.l u) ∨ ∃ f g, s'.l u = { s.l u with fut := f, sh := g }
  pr : s.prov = false → s'.prov = false

theorem InvB.upd {k : Kind} {s s' : St ι} (h : Inv k s) (b : InvB k s) (t : ι) (c : Chg k s s' t)
    (hc : s'.calls = s.calls ∨ ((s.l t).pc = .run ∧ ∃ r, s'.calls = s.calls ++ [(t, r)]))
    (ht : LB k s' t (s'.l t)) (hd : ∀ ex r, (.call ex, .okv r) ∈ (s'.l t).done → (t, r) ∈ s'.calls)
    (hf : k = .dfr → s'.calls.length = s'.runs ∧ ∀ r, s'.stored = some r → ∃ u, s'.calls = [(u, r)])
    (hx : s'.reg = some t → s'.ready = true → (s'.l t).pc = .x2 ∨ (s'.l t).pc = .x3)
    (hb : s'.stored = some .broken → s.stored = some .broken ∨ s'.prov = false) : InvB k s' := by
  have hm : ∀ p, p ∈ s.calls → p ∈ s'.calls := by
    intro p hp
    rcases hc with e | ⟨_, r, e⟩ <;> rw [e]
    · exact hp
    · exact List.mem_append_left _ hp
  have hs : s.stored.isSome = true → s'.stored.isSome = true := by
    intro h1; obtain ⟨r, e⟩ := Option.isSome_iff_exists.1 h1; simp [c.st r e]
  refine ⟨fun u => ?_, fun u ex r hu => ?_, hf, fun w hw hr => ?_, fun e => ?_⟩
  · by_cases hut : u = t
    · subst hut; exact ht
    · have hlu := b.lb u
      have hpc : (s'.l u).op = (s.l u).op ∧ ((s'.l u).pc = (s.l u).pc ∨ ((s.l u).pc = .wSleep ∧ (s'.l u).pc = .wRelock false)) := by
        rcases c.oth u hut with e | e | ⟨f, g, e⟩ <;> rw [e]
        · exact ⟨rfl, .inl rfl⟩
        · unfold wake; split
          · exact ⟨rfl, .inr ⟨by assumption, rfl⟩⟩
          · exact ⟨rfl, .inl rfl⟩
        · exact ⟨rfl, .inl rfl⟩
      obtain ⟨e1, e2⟩ := hpc
      have hpre : isPre (s.l u).pc = true → (s.l u).op.waits = true → k = .dfr → s'.calls = s.calls := by
        intro q1 q2 q3
        rcases hc with e | ⟨hp, r, e⟩
        · exact e
        · exfalso
          have hlt := h.loc t
          simp only [LocOK, hp] at hlt
          have hnd := h.num.dfr q3
          have hw : (s.l t).op.waits = true := by
            rcases hlt with ⟨ex, ho⟩ | ho
            · have h1 := h.num.npr hnd.2.2.1
              have h2 := le_tot (fun x => (nums x).u) s.l t
              change _ ≤ (numsTot s.l).u at h2
              simp [nums, hp, ho, isUse, active] at h2; omega
            · exact ho.1
          have h2 := le_tot_two (fun x => (nums x).p) s.l (Ne.symm hut)
          change _ ≤ (numsTot s.l).p at h2
          have h3 : s.running.toNat ≤ 1 := Bool.toNat_le _
          simp [nums, hp, hw, q1, q2] at h2
          simp [isPre] at h2; omega
      have hrg : s.reg ≠ some u → s'.reg ≠ some u := by
        intro q e
        rcases c.reg with e' | e' | e' <;> rw [e] at e'
        · exact q e'.symm
        · cases e'
        · exact hut (Option.some.inj e')
      rcases e2 with e2 | ⟨e2, e3⟩
      · unfold LB at *
        rw [e1, e2]
        cases hp : (s.l u).pc <;> simp only [hp] at hlu hpre ⊢ <;> (try trivial)
        · exact ⟨fun q => (hlu.1 q).imp (hm _) hs, fun q q' => by rw [hpre rfl q' q]; exact hlu.2 q q'⟩
        · exact ⟨fun q => (hlu.1 q).imp (hm _) hs, fun q q' => by rw [hpre rfl q' q]; exact hlu.2 q q'⟩
        · exact fun q => hm _ (hlu q)
        · exact fun q => hm _ (hlu q)
        · exact fun q r q' => hm _ (hlu q r q')
        · exact fun q => c.rn (hlu q)
        · exact fun q => c.rn (hlu q)
        · exact ⟨fun q => c.rn (hlu.1 q), hrg hlu.2⟩
      · unfold LB at *
        rw [e2] at hlu; rw [e3]
        exact fun q => c.rn (hlu.1 q)
  · by_cases hut : u = t
    · subst hut; exact hd ex r hu
    · apply hm; apply b.done u ex r
      rcases c.oth u hut with e | e | ⟨f, g, e⟩ <;> rw [e] at hu
      · exact hu
      · unfold wake at hu; split at hu <;> exact hu
      · exact hu
  · by_cases hut : w = t
    · subst hut; exact hx hw hr
    · have h1 : s.reg = some w := by
        rcases c.reg with e' | e' | e' <;> rw [hw] at e'
        · exact e'.symm
        · cases e'
        · exact absurd (Option.some.inj e') hut
      have h2 : s.ready = true := by
        rcases c.rdn hr with e' | e' | e'
        · exact e'
        · rw [hw] at e'; cases e'
        · rw [hw] at e'; exact absurd (Option.some.inj e') hut
      have h3 := b.regx w h1 h2
      rcases c.oth w hut with e | e | ⟨f, g, e⟩ <;> rw [e]
      · exact h3
      · rcases h3 with h3 | h3 <;> simp [wake, h3]
      · exact h3
  · rcases hb e with e' | e'
    · exact c.pr (b.brk e')
    · exact e'

omit [Fintype ι] in
set_option maxHeartbeats 4000000 in
/-- What one step of `t` changes. -/
theorem adv_chg {k : Kind} {s s' : St ι} {t : ι} {r : Res} (he : advStep k s t r = some s') (hrg : ∀ v, (s.l t).pc = .sRdy v → s.reg = none)
    (hx1 : (s.l t).pc = .x1 → s.reg = some t) : Chg k s s' t := by
  have gl : ∀ (s0 : St ι) p u, u ≠ t → (s0.goto t p).l u = s0.l u := fun s0 p u hu => by simp [St.goto, upd_ne _ _ hu]
  have rl : ∀ (s0 : St ι) o u, u ≠ t → (s0.ret t o).l u = s0.l u := fun s0 p u hu => by simp [St.ret, upd_ne _ _ hu]
  cases hp : (s.l t).pc <;> simp only [advStep, hp] at he
  all_goals try cases he
  all_goals try simp only [St.lock] at he
  all_goals (repeat' split at he)
  all_goals try cases he
  all_goals try simp only [lockErr, critStep, afterSet, firstStep, maybeRun]
  all_goals (repeat' split)
  all_goals constructor
  all_goals first
    | (intro u hu; simp [gl _ _ _ hu, rl _ _ _ hu, St.unlock]; done)
    | (simp_all [St.goto, St.ret, St.unlock]; done)

theorem Inv.chg {k : Kind} {s s' : St ι} (h : Inv k s) {t : ι} {r : Res} (he : advStep k s t r = some s') : Chg k s s' t := by
  have hl := h.loc t
  refine adv_chg he (fun v hv => ?_) (fun hv => ?_)
  · simp only [LocOK, hv] at hl; exact hl.2.2.2
  · simp only [LocOK, hv] at hl; exact hl.1

end STL.Future
