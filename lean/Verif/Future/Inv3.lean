import Verif.Future.Inv2

/-!
# `future`: every transition keeps the further invariants
-/

namespace STL.Future
open STL STL.Conc

variable {ι : Type} [Fintype ι] [DecidableEq ι]

set_option maxHeartbeats 4000000 in
theorem adv_B {k : Kind} {s s' : St ι} (h : Inv k s) (b : InvB k s) {t : ι} {r : Res} (he : advStep k s t r = some s') : InvB k s' := by
  have c := h.chg he
  have hl := h.loc t
  have hb := b.lb t
  have hd := b.done t
  have hf := b.dfr
  have F1 : k = .dfr → active (s.l t).pc = true → isUse (s.l t).op = false := by
    intro hk ha
    have h1 := h.num.npr (h.num.dfr hk).2.2.1
    have h2 := le_tot (fun x => (nums x).u) s.l t
    change _ ≤ (numsTot s.l).u at h2
    cases hu : isUse (s.l t).op with
    | false => rfl
    | true => simp [nums, ha, hu] at h2; omega
  have F2 : k = .dfr → (s.l t).pc = .run → (s.l t).op.waits = true → s.calls = [] ∧ s.runs = 0 := by
    intro hk hp hw
    have h1 := (h.num.dfr hk).2.1
    have h2 := le_tot (fun x => (nums x).q) s.l t
    change _ ≤ (numsTot s.l).q at h2
    have h3 : s.running.toNat ≤ 1 := Bool.toNat_le _
    simp [nums, hp, hw, isPreRun] at h2
    have h4 : s.runs = 0 := by omega
    exact ⟨List.length_eq_zero_iff.1 (by rw [(b.dfr hk).1, h4]), h4⟩
  have F3 : k = .dfr → s.stored.isSome = true → s.running = true := by
    intro hk hs
    have h1 := (h.num.dfr hk).1
    cases hr : s.running with
    | true => rfl
    | false => simp [hs, hr] at h1
  have F4 : s.own = some t → isCrit (s.l t).pc = false → s.stored.isSome = true := by
    intro ho hc
    exact (h.num.reg (by rw [h.own_cases ho hc]; rfl)).1
  have F5 : isCrit (s.l t).pc = true → s.reg = none := h.no_reg
  have F6 : (s.l t).op.isDrop = true → active (s.l t).pc = true → s.prov = false := by
    intro hdp ha
    cases hpv : s.prov with
    | false => rfl
    | true =>
      have h1 := h.num.prv hpv
      have h2 := le_tot (fun x => (nums x).dr) s.l t
      change _ ≤ (numsTot s.l).dr at h2
      simp [nums, ha, hdp] at h2; omega
  have F7 := b.regx t
  have F8 := h.num.rdy
  have B := fun s' (c : Chg k s s' t) => InvB.upd h b t c
  clear b h
  cases hp : (s.l t).pc <;> simp only [advStep, hp] at he
  all_goals try cases he
  all_goals try simp only [St.lock] at he
  all_goals (repeat' split at he)
  all_goals try cases he
  all_goals refine B _ c ?_ ?_ ?_ ?_ ?_ ?_
  all_goals clear B c
  all_goals simp only [hp, LocOK, LB, active, isCrit] at hl hb F1 F2 F4 F5 F6 F7
  all_goals try simp only [lockErr, critStep, afterSet, firstStep, maybeRun]
  all_goals (repeat' split)
  all_goals first
    | (simp_all [St.goto, St.ret, St.unlock, LB, isCall, isUse, Op.waits, Op.isDrop, SetOK, OutOK]; done)
    | (cases hop : (s.l t).op <;> simp_all [St.goto, St.ret, St.unlock, LB, isCall, isUse, Op.waits, Op.isDrop, SetOK, OutOK, wake] <;> done)
    | (cases hop : (s.l t).op <;> simp_all [St.goto, St.ret, St.unlock, LB, isCall, isUse, Op.waits, Op.isDrop, SetOK, OutOK, wake, ownsRef] <;> grind)
    | (cases hop : (s.l t).op <;> simp_all [St.goto, St.ret, ownsRef] <;> grind)

end STL.Future
