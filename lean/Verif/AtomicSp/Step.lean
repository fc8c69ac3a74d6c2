import Verif.AtomicSp.Inv

/-!
# `atomic<shared_ptr<T>>`: every transition keeps the invariant
-/

namespace STL.AtomicSp
open STL STL.Conc Spec

variable {ι : Type} [Fintype ι] [DecidableEq ι]

theorem addr_of0 {w : Nat} (h : w % 4 = 0) : addr w = w := by unfold addr; omega
theorem addr_add {w k : Nat} (h : w % 4 = 0) (hk : k < 4) : addr (w + k) = w := by unfold addr; omega

theorem Inv.lk_of_crit {v0 : Val} {s : St ι} (h : Inv v0 s) {t : ι} (hc : isCrit (s.l t) = 1) : s.m.word % 4 ≠ 0 := by
  have h1 := le_tot isCrit s.l t
  have h2 := h.cr
  unfold lk at h2
  split at h2 <;> omega

theorem Inv.not_gone {v0 : Val} {s : St ι} (h : Inv v0 s) {t : ι} (hc : (s.l t).pc ≠ .idle) : s.m.gone = false := by
  by_contra hg
  exact hc (h.gn (by simpa using hg) t)

theorem try_inv {v0 : Val} {s : St ι} (h : Inv v0 s) {t : ι} {rep : Nat} (hp : (s.l t).pc = .lTry rep) (spur : Bool) : Inv v0 (tryStep s t rep spur) := by
  have hl := h.loc t
  simp only [LocOK, hp] at hl
  have hng := h.not_gone (t := t) (by rw [hp]; simp)
  have hnt : ∀ c, (s.l t).pc ≠ .ntf c := by rw [hp]; simp
  have hal := h.al t
  have hc0 : isCrit (s.l t) = 0 := by simp [isCrit, hp]
  have hgo : ∀ w : Nat, w % 4 ≤ 2 → Inv v0 { s with l := upd s.l t { s.l t with pc := .lTry w } } := fun w hw =>
    h.updL t (fun r _ => by simp [cnt, opCnt, hp]) (by simp [isCrit, hp]) (by simpa [LocOK] using hw) hal (by simp) hnt (by simp [hng]) (by simp [pend, hp])
  unfold tryStep
  simp only
  split
  · rename_i h0
    split
    · rename_i hw
      have hw0 : s.m.word % 4 = 0 := by rw [hw.1]; exact h0
      have e1 : addr (rep + 1) = rep := addr_add h0 (by omega)
      have e2 : addr s.m.word = rep := by rw [hw.1]; exact addr_of0 h0
      refine h.upd1 t (fun r _ => ?_) h.life h.bad (by simp; omega) ?_ (by simp [e1]; rw [h.rg, e2]) (fun hh => ?_) (.inl ⟨by simp [e1, e2], rfl, rfl⟩) ?_ hal (by simp) (fun hh => ?_) hnt (by simp [hng]) h.lg.1
        fun u => ?_
      · simp [cnt, opCnt, hp, holds, e1, e2]
      · simp [isCrit, hp, lk, hw0]; omega
      · simp only at hh; omega
      · simp [LocOK, e1, h.pt hw0]
      · omega
      · split
        · rename_i hu; subst hu; simp [h.lg.2, pend, hp]
        · rfl
    · exact hgo _ h.bits
  · rename_i h0
    split
    · rename_i h1
      split
      · rename_i hw
        have e1 : addr (addr rep + 2) = addr rep := addr_add (addr_mod _) (by omega)
        have e3 := addr_mod rep
        refine h.upd1 t (fun r _ => ?_) h.life h.bad (by simp; omega) ?_ (by simp [e1]; rw [h.rg, hw.1]) (fun hh => ?_) (.inl ⟨by simp [e1, hw.1], rfl, rfl⟩) ?_ hal (by simp) (fun hh => ?_) hnt (by simp [hng])
          h.lg.1 fun u => ?_
        · simp [cnt, opCnt, hp, holds, e1, hw.1]
        · have : (addr rep + 2) % 4 ≠ 0 := by omega
          simp [isCrit, hp, lk, hw.1, h1, this]
        · simp only at hh; omega
        · simp [LocOK]; omega
        · left; simp; omega
        · split
          · rename_i hu; subst hu; simp [h.lg.2, pend, hp]
          · rfl
      · exact hgo _ h.bits
    · rename_i h1
      have h2 : rep % 4 = 2 := by omega
      rw [if_pos h2]
      exact h.updL t (fun r _ => by simp [cnt, opCnt, hp]) (by simp [isCrit, hp]) (by simpa [LocOK] using h2) hal (by simp) hnt (by simp [hng]) (by simp [pend, hp])

theorem holds_pos {v0 : Val} {s : St ι} (h : Inv v0 s) (hg : s.m.gone = false) (h0 : addr s.m.word ≠ 0) : 0 < s.m.uses (addr s.m.word) := by
  have := h.cn _ h0
  simp [holds, hg] at this; omega

/-- Writing `_Ptr` in the critical section. -/
theorem Inv.updP {v0 : Val} {s : St ι} (h : Inv v0 s) (t : ι) {x' : Loc} {p : Nat} (hc : isCrit (s.l t) = 1)
    (hcn : ∀ r, r ≠ 0 → cnt r (s.l t) = cnt r x') (hcr : isCrit x' = 1) (hloc : LocOK { s.m with ptr := p } s.reg x') (hal : (∀ v ∈ x'.hs, v.r % 4 = 0) ∧ argsAl x'.op)
    (hsl : ∀ rep, x'.pc ≠ .lAsleep rep) (hgn : s.m.gone = false)
    (hev : (s.l t).done ++ pend (s.l t) = x'.done ++ pend x') : Inv v0 { s with m := { s.m with ptr := p }, l := upd s.l t x' } := by
  refine h.upd1 t (fun r hr => ?_) h.life h.bad h.bits (by change _ = _ + lk s.m; omega) h.rg (fun hh => absurd hh (h.lk_of_crit hc)) (.inr hc) hloc hal (fun rep hh => absurd hh (hsl rep))
    (fun h => .inl h) (fun c hh => by simp [isCrit, hh] at hc) (by simp [hgn]) h.lg.1 fun u => ?_
  · have := hcn r hr
    change _ = _ + holds r s.m
    simp only; omega
  · split
    · rename_i hu; subst hu; rw [h.lg.2, hev]
    · rfl

theorem crit2_inv {v0 : Val} {s : St ι} (h : Inv v0 s) {t : ι} {c : Cs} (hp : (s.l t).pc = .c2 c) : Inv v0 (critStep s t c false) := by
  have hl := h.loc t
  simp only [LocOK, hp] at hl
  obtain ⟨l1, l2, l3, l4, l5⟩ := hl
  have hng := h.not_gone (t := t) (by rw [hp]; simp)
  have hnt : ∀ c, (s.l t).pc ≠ .ntf c := by rw [hp]; simp
  have hal := h.al t
  have hc : isCrit (s.l t) = 1 := by simp [isCrit, hp]
  unfold critStep
  simp only
  cases ho : (s.l t).op with
  | store v =>
    simp only
    exact h.updP t hc (fun r _ => by simp [cnt, opCnt, hp, ho, argCnt, incCnt]) (by simp [isCrit]) (by simp [LocOK, ho, newReg, l1, l3, okOK]) ⟨hal.1, by simpa [ho] using hal.2⟩ (by simp) hng (by simp [pend, hp])
  | xchg v =>
    simp only
    exact h.updP t hc (fun r _ => by simp [cnt, opCnt, hp, ho, argCnt, incCnt]) (by simp [isCrit]) (by simp [LocOK, ho, newReg, l1, l3, okOK]) ⟨hal.1, by simpa [ho] using hal.2⟩ (by simp) hng (by simp [pend, hp])
  | load =>
    simp only
    refine h.updInc t (fun h0 => ?_) (fun r _ => by simp [cnt, opCnt, hp, ho, argCnt, incCnt]) (by simp [isCrit, hp]) (by simp [LocOK, ho, newReg, l1, l2, l3, okOK]) ⟨hal.1, by simpa [ho] using hal.2⟩ (by simp) hnt
      (by simp [hng]) (by simp [pend, hp])
    rw [l1] at h0 ⊢; exact holds_pos h hng h0
  | cas e d =>
    simp only [if_true]
    refine h.updL t (fun r _ => by simp [cnt, opCnt, hp, ho]) (by simp [isCrit, hp]) ?_ ⟨hal.1, by simpa [ho] using hal.2⟩ (by simp) hnt (by simp [hng]) (by simp [pend, hp])
    have l4' := l4
    simp only [okOK, ho] at l4'
    simp [LocOK, ho, l1, l2, okOK, isCas, l4', l3]
  | wait o => simp [isWait, ho] at l5

theorem crit3_inv {v0 : Val} {s : St ι} (h : Inv v0 s) {t : ι} {c : Cs} (hp : (s.l t).pc = .c3 c) : Inv v0 (critStep s t c true) := by
  have hl := h.loc t
  simp only [LocOK, hp] at hl
  obtain ⟨l1, l2, l3, l4, l5⟩ := hl
  have hng := h.not_gone (t := t) (by rw [hp]; simp)
  have hnt : ∀ c, (s.l t).pc ≠ .ntf c := by rw [hp]; simp
  have hal := h.al t
  have hc : isCrit (s.l t) = 1 := by simp [isCrit, hp]
  unfold critStep
  simp only
  cases ho : (s.l t).op with
  | store v => simp [isCas, ho] at l5
  | xchg v => simp [isCas, ho] at l5
  | load => simp [isCas, ho] at l5
  | wait v => simp [isCas, ho] at l5
  | cas e d =>
    simp only [Bool.true_eq_false, if_false]
    have l4' := l4
    simp only [okOK, ho] at l4'
    split
    · rename_i hok
      exact h.updP t hc (fun r _ => by simp [cnt, opCnt, hp, ho, argCnt, incCnt, hok]) (by simp [isCrit]) (by simp [LocOK, ho, newReg, hok, l1, l3, okOK]; rw [← l3, ← l1]; simpa [hok] using l4') ⟨hal.1, by simpa [ho] using hal.2⟩
        (by simp) hng (by simp [pend, hp])
    · rename_i hok
      refine h.updInc t (fun h0 => ?_) (fun r _ => by simp [cnt, opCnt, hp, ho, argCnt, incCnt, hok]; omega) (by simp [isCrit, hp])
        (by simp [LocOK, ho, newReg, hok, l1, l2, l3, okOK]; rw [← l3, ← l1]; simpa [hok] using l4') ⟨hal.1, by simpa [ho] using hal.2⟩ (by simp) hnt (by simp [hng]) (by simp [pend, hp])
      rw [l1] at h0 ⊢; exact holds_pos h hng h0

omit [Fintype ι] in
theorem ops_append (u t : ι) (lg : List (ι × Op × Ret)) (e : Op × Ret) : ops u (lg ++ [(t, e)]) = if u = t then ops u lg ++ [e] else ops u lg := by
  unfold ops
  rw [List.filter_append, List.map_append]
  by_cases h : u = t
  · subst h; simp
  · have h' : ¬ t = u := fun e => h e.symm
    simp [h, h']

omit [Fintype ι] in
theorem replay_append {v0 v w : Val} {lg : List (ι × Op × Ret)} {t : ι} {o : Op} {r : Ret} (h : replay v0 lg = some v) (ha : apply v o r = some w) : replay v0 (lg ++ [(t, o, r)]) = some w := by
  unfold replay at *
  rw [List.foldlM_append, h]
  simp [ha]

theorem unl_inv {v0 : Val} {s : St ι} (h : Inv v0 s) {t : ι} {c : Cs} (hp : (s.l t).pc = .unl c) : Inv v0 (unlockStep s t c) := by
  have hl := h.loc t
  simp only [LocOK, hp] at hl
  obtain ⟨l1, l2, l3, l4⟩ := hl
  have hng := h.not_gone (t := t) (by rw [hp]; simp)
  have hnt : ∀ c, (s.l t).pc ≠ .ntf c := by rw [hp]; simp
  have hal := h.al t
  have hc : isCrit (s.l t) = 1 := by simp [isCrit, hp]
  have hlk := h.lk_of_crit hc
  have hrep : c.rep % 4 = 0 := by rw [l1]; exact addr_mod _
  have hnr : newRep (s.l t).op c % 4 = 0 := by
    have := hal.2
    unfold newRep; unfold argsAl at this
    cases ho : (s.l t).op <;> rw [ho] at this <;> simp at this ⊢ <;> try first | exact this | exact hrep
    split
    · exact this.2
    · exact hrep
  have hnrr : (newReg (s.l t).op c s.reg).r = newRep (s.l t).op c := by
    unfold newRep newReg
    have : s.reg.r = c.rep := by rw [h.rg, l1]
    cases (s.l t).op <;> simp [this]
    split <;> simp [this]
  have hap : logs (s.l t).op c = true → apply s.reg (s.l t).op (retOf (s.l t).op c) = some (newReg (s.l t).op c s.reg) := by
    intro hlg
    have hreg : (⟨c.q, c.rep⟩ : Val) = s.reg := by rw [l2, l1, ← h.rg]
    have hdec : ∀ e : Val, (c.q = e.p ∧ c.rep = e.r) ↔ s.reg = e := by
      intro e; rw [← hreg]; cases e; simp
    cases ho : (s.l t).op with
    | store v => simp [retOf, apply, newReg]
    | load => simp [retOf, apply, newReg, hreg]
    | xchg v => simp [retOf, apply, newReg, hreg]
    | cas e d =>
      simp only [okOK, ho] at l4
      simp only [retOf, newReg, hreg]
      by_cases he : s.reg = e
      · have : c.ok = true := by rw [l4]; simpa using (hdec e).2 he
        simp [this, apply, he]
      · have : c.ok = false := by rw [l4]; simpa using fun h1 => fun h2 => he ((hdec e).1 ⟨h1, h2⟩)
        simp [this, apply, he]
    | wait e =>
      simp only [okOK, ho] at l4
      simp only [logs, ho, l4] at hlg
      have he : s.reg ≠ e := fun hh => by simp [(hdec e).2 hh] at hlg
      simp [retOf, newReg, apply, he]
  have hreg' : logs (s.l t).op c = false → newReg (s.l t).op c s.reg = s.reg := by
    intro hlg
    cases ho : (s.l t).op <;> simp [logs, ho] at hlg
    simp [newReg]
  have hpc : (if s.m.word % 4 = 2 then PC.ntf c else PC.fin c) = .ntf c ∨ (if s.m.word % 4 = 2 then PC.ntf c else PC.fin c) = .fin c := by split <;> simp
  have hbal : ∀ r, argCnt r (s.l t).op + incCnt r c (s.l t).op + ind r (addr s.m.word) = finCnt r c (s.l t).op + ind r (addr (newRep (s.l t).op c)) := by
    intro r
    rw [addr_of0 hnr, ← l1]
    cases ho : (s.l t).op <;> simp only [argCnt, incCnt, finCnt, newRep] <;> try omega
    split <;> omega
  have hholds : ∀ r w, holds r { s.m with word := w } = ind r (addr w) := by intro r w; simp [holds, hng, ind]
  unfold unlockStep
  simp only
  refine h.upd1 t (fun r _ => ?_) h.life h.bad (by simp; omega) ?_ (by simp only; rw [hnrr, addr_of0 hnr]) (fun _ => l3) (.inr hc) ?_ ⟨hal.1, hal.2⟩ ?_ (fun hh => ?_) hnt (by simp [hng]) ?_ fun u => ?_
  · have h1 := hbal r
    have h2 : holds r s.m = ind r (addr s.m.word) := hholds r s.m.word
    have h2' := hholds r (newRep (s.l t).op c)
    rw [h2, h2']
    have h3 : cnt r { s.l t with pc := if s.m.word % 4 = 2 then PC.ntf c else PC.fin c } = ((s.l t).hs.map (·.r)).count r + finCnt r c (s.l t).op := by
      rcases hpc with e | e <;> rw [e] <;> simp [cnt, opCnt]
    rw [h3]
    simp only [cnt, opCnt, hp]; omega
  · rw [hc]
    have h3 : isCrit { s.l t with pc := if s.m.word % 4 = 2 then PC.ntf c else PC.fin c } = 0 := by
      rcases hpc with e | e <;> rw [e] <;> simp [isCrit]
    rw [h3]; simp [lk, hlk, hnr]
  · rcases hpc with e | e <;> rw [e] <;> simpa [LocOK] using hrep
  · intro rep hh
    rcases hpc with e | e <;> rw [e] at hh <;> simp at hh
  · right
    exact ⟨c, by simp [hh]⟩
  · split
    · rename_i hlg; exact replay_append h.lg.1 (hap hlg)
    · rename_i hlg
      rw [hreg' (by simpa using hlg)]; exact h.lg.1
  · have h3 : pend { s.l t with pc := if s.m.word % 4 = 2 then PC.ntf c else PC.fin c } = if logs (s.l t).op c then [((s.l t).op, retOf (s.l t).op c)] else [] := by
      rcases hpc with e | e <;> rw [e] <;> simp [pend]
    rw [h3]
    have h4 : ops t s.log = (s.l t).done := by rw [h.lg.2]; simp [pend, hp]
    by_cases hlg : logs (s.l t).op c = true
    · simp only [hlg, if_true]
      rw [ops_append]
      split
      · rename_i hu; subst hu; simp [h4]
      · rfl
    · simp only [hlg, Bool.false_eq_true, if_false]
      split
      · rename_i hu; subst hu; simpa using h4
      · rfl

theorem erase_cnt {hs : List Val} {v : Val} (hv : v ∈ hs) (r : Nat) : (hs.map (·.r)).count r = ((hs.erase v).map (·.r)).count r + ind r v.r := by
  have h1 : hs.Perm (v :: hs.erase v) := List.perm_cons_erase hv
  rw [(h1.map (·.r)).count_eq, List.map_cons, List.count_cons]
  simp only [ind, beq_iff_eq]

theorem mem_cnt {hs : List Val} {v : Val} (hv : v ∈ hs) : 0 < (hs.map (·.r)).count v.r := List.count_pos_iff.2 (List.mem_map_of_mem hv)

omit [DecidableEq ι] in
theorem tot_congr {L : Type} {f : L → Nat} {l l' : ι → L} (h : ∀ u, f (l' u) = f (l u)) : tot f l' = tot f l := by
  unfold tot; exact Finset.sum_congr rfl fun u _ => h u

theorem ntf_inv {v0 : Val} {s : St ι} (h : Inv v0 s) {t : ι} {c : Cs} (hp : (s.l t).pc = .ntf c) : Inv v0 { s with l := upd (fun u => wake (s.l u)) t { s.l t with pc := .fin c } } := by
  set x' : Loc := { s.l t with pc := .fin c } with hx
  have hw : ∀ u, (upd (fun u => wake (s.l u)) t x' u) = if u = t then x' else wake (s.l u) := fun u => by
    by_cases hu : u = t
    · subst hu; simp
    · simp [upd_ne _ _ hu, hu]
  have h1 : ∀ (P : Loc → Prop), (P (s.l t) → P x') → (∀ u, P (s.l u) → P (wake (s.l u))) → (∀ u, P (s.l u)) → ∀ u, P (upd (fun u => wake (s.l u)) t x' u) := by
    intro P a b d u
    rw [hw]; split
    · exact a (d t)
    · exact b u (d u)
  have h2 : ∀ {α : Type} (f : Loc → α), f x' = f (s.l t) → (∀ u, f (wake (s.l u)) = f (s.l u)) → ∀ u, f (upd (fun u => wake (s.l u)) t x' u) = f (s.l u) := by
    intro α f a b u
    rw [hw]; split
    · rename_i hu; rw [hu]; exact a
    · exact b u
  have wk : ∀ (P : Loc → Loc → Prop) u, (∀ x, P x x) → (∀ x r, x.pc = .lAsleep r → P { x with pc := .lWait r } x) → P (wake (s.l u)) (s.l u) := by
    intro P u a b
    unfold wake
    split
    · rename_i r hr; exact b _ r hr
    · exact a _
  have hng := h.not_gone (t := t) (by rw [hp]; simp)
  refine ⟨fun r hr => ?_, h.life, h.bad, h.bits, ?_, h.rg, h.pt, ?_, ?_, fun u rep hu => ?_, fun hg => ?_, h.lg.1, fun u => ?_⟩
  · rw [h.cn r hr]
    congr 1
    refine (tot_congr fun u => ?_).symm
    exact h2 (cnt r) (by simp [hx, cnt, opCnt, hp]) (fun u => wk (fun a b => cnt r a = cnt r b) u (fun _ => rfl) fun x r hr => by simp [cnt, opCnt, hr]) u
  · rw [← h.cr]
    refine tot_congr fun u => ?_
    exact h2 isCrit (by simp [hx, isCrit, hp]) (fun u => wk (fun a b => isCrit a = isCrit b) u (fun _ => rfl) fun x r hr => by simp [isCrit, hr]) u
  · refine h1 _ (fun hh => ?_) (fun u hh => ?_) h.loc
    · simp only [LocOK, hp] at hh; simpa [hx, LocOK] using hh
    · refine wk (fun a b => LocOK s.m s.reg b → LocOK s.m s.reg a) u (fun _ h => h) (fun x r hr hh => ?_) hh
      simp only [LocOK, hr] at hh; simpa [LocOK] using hh
  · refine h1 (fun x => (∀ v ∈ x.hs, v.r % 4 = 0) ∧ argsAl x.op) (fun hh => hh) (fun u hh => ?_) h.al
    exact wk (fun a b => ((∀ v ∈ b.hs, v.r % 4 = 0) ∧ argsAl b.op) → ((∀ v ∈ a.hs, v.r % 4 = 0) ∧ argsAl a.op)) u (fun _ h => h) (fun x r hr hh => hh) hh
  · exfalso
    simp only [hw] at hu
    split at hu
    · simp [hx] at hu
    · unfold wake at hu
      split at hu
      · simp at hu
      · rename_i hh; exact hh rep hu
  · simp [hng] at hg
  · have e : ∀ u, (fun x : Loc => x.done ++ pend x) (upd (fun u => wake (s.l u)) t x' u) = (fun x : Loc => x.done ++ pend x) (s.l u) :=
      h2 (fun x : Loc => x.done ++ pend x) (by simp [hx, pend, hp]) (fun u => wk (fun a b => a.done ++ pend a = b.done ++ pend b) u (fun _ => rfl) fun x r hr => by simp [pend, hr])
    have := e u
    simp only at this
    rw [this]; exact h.lg.2 u

theorem fin_inv {v0 : Val} {s : St ι} (h : Inv v0 s) {t : ι} {c : Cs} (hp : (s.l t).pc = .fin c) : Inv v0 (finStep s t c) := by
  have hl := h.loc t
  simp only [LocOK, hp] at hl
  have hng := h.not_gone (t := t) (by rw [hp]; simp)
  have hnt : ∀ c, (s.l t).pc ≠ .ntf c := by rw [hp]; simp
  have hal := h.al t
  unfold finStep
  simp only
  cases ho : (s.l t).op with
  | store v =>
    simp only
    exact h.updDec t (fun r _ => by simp [cnt, opCnt, hp, ho, finCnt, Loc.ret]) (by simp [isCrit, hp, Loc.ret]) (by simp [LocOK, Loc.ret]) ⟨hal.1, hal.2⟩ (by simp [Loc.ret]) hnt
      (by simp [Loc.ret]) (by simp [pend, hp, Loc.ret, logs, ho])
  | load =>
    simp only
    refine h.updL t (fun r _ => ?_) (by simp [isCrit, hp, Loc.ret]) (by simp [LocOK, Loc.ret]) ⟨?_, hal.2⟩ (by simp [Loc.ret]) hnt (by simp [Loc.ret]) (by simp [pend, hp, Loc.ret, logs, ho])
    · simp [cnt, opCnt, hp, ho, finCnt, Loc.ret, List.count_cons, ind]
    · simp only [Loc.ret, List.mem_cons, forall_eq_or_imp]; exact ⟨hl, hal.1⟩
  | xchg v =>
    simp only
    refine h.updL t (fun r _ => ?_) (by simp [isCrit, hp, Loc.ret]) (by simp [LocOK, Loc.ret]) ⟨?_, hal.2⟩ (by simp [Loc.ret]) hnt (by simp [Loc.ret]) (by simp [pend, hp, Loc.ret, logs, ho])
    · simp [cnt, opCnt, hp, ho, finCnt, Loc.ret, List.count_cons, ind]
    · simp only [Loc.ret, List.mem_cons, forall_eq_or_imp]; exact ⟨hl, hal.1⟩
  | cas e d =>
    have h2 := hal.2
    simp only [argsAl, ho] at h2
    simp only
    split
    · rename_i hok
      refine h.updDec t (fun r _ => ?_) (by simp [isCrit, hp, Loc.ret]) (by simp [LocOK, Loc.ret]) ⟨?_, hal.2⟩ (by simp [Loc.ret]) hnt (by simp [Loc.ret]) (by simp [pend, hp, Loc.ret, logs, ho])
      · simp [cnt, opCnt, hp, ho, finCnt, hok, Loc.ret, List.count_cons, ind]; omega
      · simp only [Loc.ret, List.mem_cons, forall_eq_or_imp]; exact ⟨h2.1, hal.1⟩
    · rename_i hok
      refine h.updDec t (fun r _ => ?_) (by simp [isCrit, hp]) ?_ ⟨hal.1, by simpa [ho] using hal.2⟩ (by simp) hnt (by simp [hng]) (by simp [pend, hp, logs, ho])
      · simp [cnt, opCnt, hp, ho, finCnt, hok]; omega
      · simp [LocOK, ho, isCas, hl, hok]
  | wait old =>
    simp only
    split
    · rename_i hok
      exact h.updL t (fun r _ => by simp [cnt, opCnt, hp, ho, finCnt, argCnt]) (by simp [isCrit, hp]) (by simp [LocOK, ho, isWait]) ⟨hal.1, by simpa [ho] using hal.2⟩ (by simp) hnt (by simp [hng])
        (by simp [pend, hp, logs, ho, hok])
    · rename_i hok
      exact h.updDec t (fun r _ => by simp [cnt, opCnt, hp, ho, finCnt, Loc.ret]) (by simp [isCrit, hp, Loc.ret]) (by simp [LocOK, Loc.ret]) ⟨hal.1, hal.2⟩ (by simp [Loc.ret]) hnt
        (by simp [Loc.ret]) (by simp [pend, hp, Loc.ret, logs, ho, hok])

theorem fin2_inv {v0 : Val} {s : St ι} (h : Inv v0 s) {t : ι} {c : Cs} (hp : (s.l t).pc = .fin2 c) : Inv v0 (fin2Step s t c) := by
  have hl := h.loc t
  simp only [LocOK, hp] at hl
  obtain ⟨l1, l2, l3⟩ := hl
  have hnt : ∀ c, (s.l t).pc ≠ .ntf c := by rw [hp]; simp
  have hal := h.al t
  unfold fin2Step
  simp only
  cases ho : (s.l t).op with
  | cas e d =>
    simp only
    refine h.updDec t (fun r _ => ?_) (by simp [isCrit, hp, Loc.ret]) (by simp [LocOK, Loc.ret]) ⟨?_, hal.2⟩ (by simp [Loc.ret]) hnt (by simp [Loc.ret]) (by simp [pend, hp, Loc.ret])
    · simp [cnt, opCnt, hp, ho, Loc.ret, List.count_cons, ind]; omega
    · simp only [Loc.ret, List.mem_cons, forall_eq_or_imp]; exact ⟨l1, hal.1⟩
  | store v => simp [isCas, ho] at l2
  | xchg v => simp [isCas, ho] at l2
  | load => simp [isCas, ho] at l2
  | wait v => simp [isCas, ho] at l2

theorem adv_inv {v0 : Val} {s s' : St ι} (h : Inv v0 s) {t : ι} {spur : Bool} (he : advStep s t spur = some s') : Inv v0 s' := by
  have hal := h.al t
  have hl := h.loc t
  unfold advStep at he
  simp only at he
  cases hp : (s.l t).pc with
  | idle => simp [hp] at he
  | lAsleep r => simp [hp] at he
  | pAsleep => simp [hp] at he
  | lLoad =>
    have hng := h.not_gone (t := t) (by rw [hp]; simp)
    simp only [hp, Option.some.injEq] at he; subst he
    exact h.updL t (fun r _ => by simp [cnt, opCnt, hp]) (by simp [isCrit, hp]) (by simpa [LocOK] using h.bits) hal (by simp) (by simp [hp]) (by simp [hng]) (by simp [pend, hp])
  | lTry rep =>
    simp only [hp, Option.some.injEq] at he; subst he; exact try_inv h hp spur
  | lWait rep =>
    have hng := h.not_gone (t := t) (by rw [hp]; simp)
    simp only [LocOK, hp] at hl
    simp only [hp, Option.some.injEq] at he; subst he
    split
    · exact h.updL t (fun r _ => by simp [cnt, opCnt, hp]) (by simp [isCrit, hp]) (by simpa [LocOK] using hl) hal (by simp) (by simp [hp]) (by simp [hng]) (by simp [pend, hp])
    · exact h.updL t (fun r _ => by simp [cnt, opCnt, hp]) (by simp [isCrit, hp]) (by simp [LocOK]) hal (by simp) (by simp [hp]) (by simp [hng]) (by simp [pend, hp])
  | lSlp rep =>
    have hng := h.not_gone (t := t) (by rw [hp]; simp)
    simp only [LocOK, hp] at hl
    simp only [hp, Option.some.injEq] at he; subst he
    split
    · rename_i hw
      exact h.updL t (fun r _ => by simp [cnt, opCnt, hp]) (by simp [isCrit, hp]) (by simpa [LocOK] using hl) hal (by rw [hw]; simp [hl]) (by simp [hp]) (by simp [hng]) (by simp [pend, hp])
    · exact h.updL t (fun r _ => by simp [cnt, opCnt, hp]) (by simp [isCrit, hp]) (by simpa [LocOK] using hl) hal (by simp) (by simp [hp]) (by simp [hng]) (by simp [pend, hp])
  | c1 rep =>
    have hng := h.not_gone (t := t) (by rw [hp]; simp)
    simp only [LocOK, hp] at hl
    simp only [hp, Option.some.injEq] at he; subst he
    cases ho : (s.l t).op with
    | store v =>
      exact h.updL t (fun r _ => by simp [cnt, opCnt, hp, afterLoad, ho]) (by simp [isCrit, hp, afterLoad]) (by simp [LocOK, afterLoad, ho, okOK, isWait, hl.1, hl.2]) ⟨hal.1, by simpa [ho] using hal.2⟩ (by simp [afterLoad])
        (by simp [hp]) (by simp [hng]) (by simp [pend, hp, afterLoad])
    | xchg v =>
      exact h.updL t (fun r _ => by simp [cnt, opCnt, hp, afterLoad, ho]) (by simp [isCrit, hp, afterLoad]) (by simp [LocOK, afterLoad, ho, okOK, isWait, hl.1, hl.2]) ⟨hal.1, by simpa [ho] using hal.2⟩ (by simp [afterLoad])
        (by simp [hp]) (by simp [hng]) (by simp [pend, hp, afterLoad])
    | load =>
      exact h.updL t (fun r _ => by simp [cnt, opCnt, hp, afterLoad, ho]) (by simp [isCrit, hp, afterLoad]) (by simp [LocOK, afterLoad, ho, okOK, isWait, hl.1, hl.2]) ⟨hal.1, by simpa [ho] using hal.2⟩ (by simp [afterLoad])
        (by simp [hp]) (by simp [hng]) (by simp [pend, hp, afterLoad])
    | cas e d =>
      exact h.updL t (fun r _ => by simp [cnt, opCnt, hp, afterLoad, ho]) (by simp [isCrit, hp, afterLoad]) (by simp [LocOK, afterLoad, ho, okOK, isWait, hl.1, hl.2]) ⟨hal.1, by simpa [ho] using hal.2⟩ (by simp [afterLoad])
        (by simp [hp]) (by simp [hng]) (by simp [pend, hp, afterLoad])
    | wait o =>
      exact h.updL t (fun r _ => by simp [cnt, opCnt, hp, afterLoad, ho, incCnt]) (by simp [isCrit, hp, afterLoad]) (by simp [LocOK, afterLoad, ho, okOK, newReg, hl.1, hl.2]) ⟨hal.1, by simpa [ho] using hal.2⟩
        (by simp [afterLoad]) (by simp [hp]) (by simp [hng]) (by simp [pend, hp, afterLoad])
  | c2 c => simp only [hp, Option.some.injEq] at he; subst he; exact crit2_inv h hp
  | c3 c => simp only [hp, Option.some.injEq] at he; subst he; exact crit3_inv h hp
  | unl c => simp only [hp, Option.some.injEq] at he; subst he; exact unl_inv h hp
  | ntf c => simp only [hp, Option.some.injEq] at he; subst he; exact ntf_inv h hp
  | fin c => simp only [hp, Option.some.injEq] at he; subst he; exact fin_inv h hp
  | fin2 c => simp only [hp, Option.some.injEq] at he; subst he; exact fin2_inv h hp
  | pSlp =>
    have hng := h.not_gone (t := t) (by rw [hp]; simp)
    simp only [LocOK, hp] at hl
    cases ho : (s.l t).op <;> simp [isWait, ho] at hl
    simp only [hp, ho, Option.some.injEq] at he; subst he
    split
    · exact h.updL t (fun r _ => by simp [cnt, opCnt, hp, ho]) (by simp [isCrit, hp]) (by simp [LocOK, isWait]) ⟨hal.1, by simpa [ho] using hal.2⟩ (by simp) (by simp [hp]) (by simp [hng]) (by simp [pend, hp])
    · exact h.updL t (fun r _ => by simp [cnt, opCnt, hp, ho]) (by simp [isCrit, hp]) (by simp [LocOK]) ⟨hal.1, by simpa [ho] using hal.2⟩ (by simp) (by simp [hp]) (by simp [hng]) (by simp [pend, hp])

theorem takeArgs_ok {o : Op} {hs hs' : List Val} (h : takeArgs o hs = some hs') (hal : ∀ v ∈ hs, v.r % 4 = 0) :
    (∀ r, (hs.map (·.r)).count r = (hs'.map (·.r)).count r + argCnt r o) ∧ (∀ v ∈ hs', v.r % 4 = 0) ∧ argsAl o := by
  cases o with
  | load => simp only [takeArgs, Option.some.injEq] at h; subst h; exact ⟨fun r => by simp [argCnt], hal, trivial⟩
  | cas e d =>
    simp only [takeArgs, Option.ite_none_right_eq_some, Option.some.injEq] at h
    obtain ⟨⟨h1, h2⟩, rfl⟩ := h
    refine ⟨fun r => ?_, fun v hv => hal v (List.mem_of_mem_erase (List.mem_of_mem_erase hv)), hal e h1, hal d (List.mem_of_mem_erase h2)⟩
    rw [erase_cnt h1, erase_cnt h2]; simp [argCnt]; omega
  | store v =>
    simp only [takeArgs, Option.ite_none_right_eq_some, Option.some.injEq] at h
    obtain ⟨h1, rfl⟩ := h
    exact ⟨fun r => erase_cnt h1 r, fun v hv => hal v (List.mem_of_mem_erase hv), hal v h1⟩
  | xchg v =>
    simp only [takeArgs, Option.ite_none_right_eq_some, Option.some.injEq] at h
    obtain ⟨h1, rfl⟩ := h
    exact ⟨fun r => erase_cnt h1 r, fun v hv => hal v (List.mem_of_mem_erase hv), hal v h1⟩
  | wait v =>
    simp only [takeArgs, Option.ite_none_right_eq_some, Option.some.injEq] at h
    obtain ⟨h1, rfl⟩ := h
    exact ⟨fun r => erase_cnt h1 r, fun v hv => hal v (List.mem_of_mem_erase hv), hal v h1⟩

/-- Every transition keeps the invariant; the atomic object is destroyed only if no operation is in progress. -/
theorem step_inv {v0 : Val} {s s' : St ι} (h : Inv v0 s) {t : ι} {a : Act ι} (hd : a = .destroy → ∀ u, (s.l u).pc = .idle) (he : step s t a = some s') : Inv v0 s' := by
  have hal := h.al t
  unfold step at he
  simp only at he
  cases a with
  | make p r =>
    simp only [Option.ite_none_right_eq_some, Option.some.injEq] at he
    obtain ⟨⟨h1, h2, h3, h4⟩, rfl⟩ := he
    refine h.upd1 t (fun q hq => ?_) (fun q => ?_) h.bad h.bits (by simp [isCrit, Mem.create]; rfl) h.rg h.pt (.inl ⟨rfl, rfl, rfl⟩) (by simp [LocOK, h1]) ⟨?_, hal.2⟩ (by simp [h1]) (fun h => .inl h) (by simp [h1])
      (fun hg => ⟨h1, h.gn hg⟩) h.lg.1 fun u => ?_
    · change _ = _ + holds q s.m
      simp only [Mem.create, fset, cnt, List.map_cons, List.count_cons, beq_iff_eq]
      by_cases hqr : q = r
      · subst hqr; rw [if_pos rfl, if_pos rfl, h4]; omega
      · have : ¬ r = q := fun e => hqr e.symm
        rw [if_neg hqr, if_neg this]; omega
    · have := h.life q
      simp only [Mem.create, fset]
      by_cases hqr : q = r
      · subst hqr; rw [h4] at this; simp at this ⊢; exact this
      · simp only [hqr, if_false]; exact this
    · simp only [List.mem_cons, forall_eq_or_imp]; exact ⟨h3, hal.1⟩
    · split
      · rename_i hu; subst hu; rw [h.lg.2]; simp [pend, h1]
      · rfl
  | null p =>
    simp only [Option.ite_none_right_eq_some, Option.some.injEq] at he
    obtain ⟨h1, rfl⟩ := he
    refine h.updL t (fun r hr => ?_) (by simp [isCrit]) (by simp [LocOK, h1]) ⟨?_, hal.2⟩ (by simp [h1]) (by simp [h1]) (fun _ => h1) (by simp [pend])
    · simp [cnt, Ne.symm hr]
    · simp only [List.mem_cons, forall_eq_or_imp]; exact ⟨by trivial, hal.1⟩
  | copy u v p =>
    simp only [Option.ite_none_right_eq_some, Option.some.injEq] at he
    obtain ⟨⟨h1, h2⟩, rfl⟩ := he
    refine h.updInc t (fun h0 => h.uses_pos (t := u) h0 (by have := mem_cnt h2; simp only [cnt]; omega)) (fun r hr => ?_) (by simp [isCrit]) (by simp [LocOK, h1]) ⟨?_, hal.2⟩ (by simp [h1]) (by simp [h1])
      (fun _ => h1) (by simp [pend])
    · simp only [cnt, List.map_cons, List.count_cons, beq_iff_eq, ind]; omega
    · simp only [List.mem_cons, forall_eq_or_imp]; exact ⟨(h.al u).1 v h2, hal.1⟩
  | drop v =>
    simp only [Option.ite_none_right_eq_some, Option.some.injEq] at he
    obtain ⟨⟨h1, h2⟩, rfl⟩ := he
    refine h.updDec t (fun r hr => ?_) (by simp [isCrit]) (by simp [LocOK, h1]) ⟨fun w hw => hal.1 w (List.mem_of_mem_erase hw), hal.2⟩ (by simp [h1]) (by simp [h1]) (fun _ => h1) (by simp [pend])
    simp only [cnt, erase_cnt h2 r]; omega
  | call o =>
    simp only [Option.ite_none_right_eq_some, Option.map_eq_some_iff] at he
    · obtain ⟨h1, hs', h2, rfl⟩ := he
      obtain ⟨k1, k2, k3⟩ := takeArgs_ok h2 hal.1
      refine h.updL t (fun r hr => ?_) (by simp [isCrit, h1.1]) (by simp [LocOK]) ⟨k2, k3⟩ (by simp) (by simp [h1.1]) (by simp [h1.2]) (by simp [pend, h1.1])
      simp only [cnt, opCnt, h1.1, k1 r, Nat.add_zero]
  | adv spur => exact adv_inv h he
  | wakeUp =>
    cases hp : (s.l t).pc <;> simp only [hp, Option.some.injEq, reduceCtorEq] at he
    · subst he
      have hng := h.not_gone (t := t) (by rw [hp]; simp)
      have hl := h.loc t
      simp only [LocOK, hp] at hl
      exact h.updL t (fun r _ => by simp [cnt, opCnt, hp]) (by simp [isCrit, hp]) (by simpa [LocOK] using hl) hal (by simp) (by simp [hp]) (by simp [hng]) (by simp [pend, hp])
    · subst he
      have hng := h.not_gone (t := t) (by rw [hp]; simp)
      exact h.updL t (fun r _ => by simp [cnt, opCnt, hp]) (by simp [isCrit, hp]) (by simp [LocOK]) hal (by simp) (by simp [hp]) (by simp [hng]) (by simp [pend, hp])
  | destroy =>
    simp only [Option.ite_none_right_eq_some, Option.some.injEq] at he
    obtain ⟨⟨h1, h2⟩, rfl⟩ := he
    have hid := hd rfl
    have hw : s.m.word % 4 = 0 := by
      have h3 := h.cr
      rw [tot_eq_zero fun u => by simp [isCrit, hid u]] at h3
      unfold lk at h3; split at h3 <;> omega
    have ha : addr s.m.word = s.m.word := addr_of0 hw
    have hu : s.m.word ≠ 0 → 0 < s.m.uses s.m.word := fun h0 => by have := holds_pos h h2 (by rwa [ha]); rwa [ha] at this
    have e := decref_eq h.bad hu
    rw [e]
    have hx : upd s.l t (s.l t) = s.l := by funext u; by_cases hu : u = t <;> simp [upd, hu]
    have := h.upd1 t (x' := s.l t) (reg' := s.reg) (log' := s.log)
      (m' := ⟨s.m.word, s.m.ptr, fun x => s.m.uses x - if s.m.word ≠ 0 ∧ x = s.m.word then 1 else 0, s.m.ctor,
        fun x => s.m.dtor x + if s.m.word ≠ 0 ∧ x = s.m.word ∧ s.m.uses s.m.word = 1 then 1 else 0, s.m.bad, true⟩)
      (fun r hr => by
        simp only [holds, ha, h2]
        by_cases hwr : s.m.word = r
        · subst hwr; have := hu hr; simp [hr]; omega
        · have : ¬ r = s.m.word := fun e => hwr e.symm
          simp [hwr, this])
      (fun r => life_dec (h.life r) hu) h.bad h.bits rfl h.rg h.pt (.inl ⟨rfl, rfl, rfl⟩) (loc_other (h.loc t) (.inl ⟨rfl, rfl, rfl⟩)) hal (by simp [h1]) (fun h => .inl h) (by simp [h1]) (fun _ => ⟨h1, hid⟩)
      h.lg.1 (fun u => by
        split
        · rename_i hu; subst hu; exact h.lg.2 _
        · rfl)
    rw [hx] at this
    exact this

end STL.AtomicSp
