import Verif.Conc.StopToken

/-!
# Property C29: stop callbacks
-/

namespace STL.StopToken
open STL STL.Conc

variable {ι κ : Type} [DecidableEq ι] [DecidableEq κ]

namespace Spec

/-- States reached by any interleaving. -/
inductive Reach : State ι κ → Prop
  | init : Reach init
  | step {σ σ' t a} : Reach σ → step σ t a = some σ' → Reach σ'

/-- Callback `k` is being run by thread `t` (called by `request_stop` or by its own constructor). -/
def RunningOn (σ : State ι κ) (k : κ) (t : ι) : Prop := (σ.l t).rs = .running k ∨ Fr.crun k ∈ (σ.l t).stk

/-- No operation is in progress in any thread. -/
def Quiescent (σ : State ι κ) : Prop := ∀ t, (σ.l t).rs = .off ∧ (σ.l t).stk = []

end Spec
open Spec

/-! ## The doubly linked list -/

/-- `next` / `prev` link the elements of `L`, entered from `h`, where the element before the first is `p`. -/
def Chain (next prev : κ → Option κ) : Option κ → Option κ → List κ → Prop
  | _, h, [] => h = none
  | p, h, k :: L => h = some k ∧ prev k = p ∧ Chain next prev (some k) (next k) L

theorem chain_congr {next prev next' prev' : κ → Option κ} {L : List κ} : ∀ {p h : Option κ}, Chain next prev p h L →
    (∀ k ∈ L, next' k = next k ∧ prev' k = prev k) → Chain next' prev' p h L := by
  induction L with
  | nil => intro p h hc _; exact hc
  | cons k L ih =>
    intro p h hc hk
    obtain ⟨h1, h2, h3⟩ := hc
    have := hk k (by simp)
    refine ⟨h1, by rw [this.2, h2], ?_⟩
    rw [this.1]
    exact ih h3 (fun j hj => hk j (by simp [hj]))

/-- changing what the first element thinks is before it -/
def setPrev (prev : κ → Option κ) (h : Option κ) (p : Option κ) : κ → Option κ :=
  match h with | none => prev | some m => upd prev m p

theorem setPrev_of_ne {prev : κ → Option κ} {h p : Option κ} {k : κ} (hk : h ≠ some k) : setPrev prev h p k = prev k := by
  unfold setPrev
  cases h with
  | none => rfl
  | some m => exact upd_ne _ _ (fun e => hk (by rw [e]))

theorem chain_head {next prev : κ → Option κ} {p h : Option κ} {L : List κ} (hc : Chain next prev p h L) : h = L.head? := by
  cases L with
  | nil => simpa [Chain] using hc
  | cons k L => simp [hc.1]

theorem chain_setPrev {next prev : κ → Option κ} {p q h : Option κ} {L : List κ} (hc : Chain next prev p h L) (hn : L.Nodup) :
    Chain next (setPrev prev h q) q h L := by
  cases L with
  | nil => exact hc
  | cons k L =>
    obtain ⟨h1, h2, h3⟩ := hc
    subst h1
    refine ⟨rfl, by simp [setPrev], chain_congr h3 (fun j hj => ⟨rfl, ?_⟩)⟩
    refine setPrev_of_ne ?_
    intro e; cases e
    exact (List.nodup_cons.1 hn).1 hj

theorem chain_push {next prev : κ → Option κ} {h : Option κ} {L : List κ} {k : κ} (hc : Chain next prev none h L) (hn : L.Nodup)
    (hk : k ∉ L) (hp : prev k = none) : Chain (upd next k h) (setPrev prev h (some k)) none (some k) (k :: L) := by
  have hh := chain_head hc
  refine ⟨rfl, ?_, ?_⟩
  · rw [setPrev_of_ne, hp]
    intro e; rw [e] at hh; exact hk (List.mem_of_head? hh.symm)
  · rw [upd_self]
    refine chain_congr (chain_setPrev (q := some k) hc hn) (fun j hj => ⟨upd_ne _ _ (fun e => hk (e ▸ hj)), rfl⟩)

theorem chain_pop {next prev : κ → Option κ} {k : κ} {L : List κ} (hc : Chain next prev none (some k) (k :: L)) (hn : (k :: L).Nodup)
    (next' : κ → Option κ) (hnx : ∀ j ∈ L, next' j = next j) : Chain next' (setPrev prev (next k) none) none (next k) L := by
  obtain ⟨_, _, h3⟩ := hc
  have hn' := List.nodup_cons.1 hn
  exact chain_congr (chain_setPrev (q := none) h3 hn'.2) (fun j hj => ⟨hnx j hj, rfl⟩)

theorem chain_unlink {next prev : κ → Option κ} {k p : κ} {B : List κ} : ∀ {A : List κ} {q h : Option κ}, Chain next prev q h (A ++ k :: B) →
    (A ++ k :: B).Nodup → A ≠ [] → prev k = some p →
    Chain (upd next p (next k)) (setPrev prev (next k) (some p)) q h (A ++ B) ∧ p ∈ A := by
  intro A
  induction A with
  | nil => intro q h _ _ hA; exact absurd rfl hA
  | cons a A ih =>
    intro q h hc hn _ hp
    obtain ⟨h1, h2, h3⟩ := hc
    rw [List.cons_append] at hn
    have hn' := List.nodup_cons.1 hn
    have hnk : next k ≠ some a := by
      intro e
      have hsuf : ∀ {A : List κ} {q h : Option κ}, Chain next prev q h (A ++ k :: B) → Chain next prev (some k) (next k) B := by
        intro A
        induction A with
        | nil => intro q h hc; exact hc.2.2
        | cons a A ih => intro q h hc; exact ih hc.2.2
      have := chain_head (hsuf h3)
      rw [e] at this
      have hm := List.mem_of_head? this.symm
      exact hn'.1 (by simp [hm])
    cases A with
    | nil =>
      simp only [List.nil_append] at h3 hn' hn ⊢
      obtain ⟨g1, g2, g3⟩ := h3
      rw [hp] at g2; cases g2
      have hnB := List.nodup_cons.1 hn'.2
      refine ⟨⟨h1, ?_, ?_⟩, by simp⟩
      · rw [setPrev_of_ne hnk, h2]
      · rw [upd_self]
        refine chain_congr (chain_setPrev (q := some p) g3 hnB.2) (fun j hj => ⟨upd_ne _ _ ?_, rfl⟩)
        rintro rfl
        have hj' : j ∈ B := hj
        exact hn'.1 (List.mem_cons_of_mem _ hj')
    | cons a2 A =>
      obtain ⟨r1, r2⟩ := ih h3 hn'.2 (by simp) hp
      refine ⟨⟨h1, by rw [setPrev_of_ne hnk, h2], ?_⟩, List.mem_cons_of_mem _ r2⟩
      rw [upd_ne _ _ (fun e => hn'.1 (by rw [e]; simp at r2 ⊢; tauto))]
      exact r1

theorem chain_prev {next prev : κ → Option κ} {k : κ} : ∀ {L : List κ} {q h : Option κ}, Chain next prev q h L → k ∈ L → h ≠ some k →
    ∃ p ∈ L, prev k = some p := by
  intro L
  induction L with
  | nil => intro q h _ hk; cases hk
  | cons a L ih =>
    intro q h hc hk hh
    obtain ⟨h1, h2, h3⟩ := hc
    rcases List.mem_cons.1 hk with rfl | hk
    · exact absurd h1 hh
    · by_cases e : next a = some k
      · cases L with
        | nil => cases hk
        | cons b L =>
          obtain ⟨g1, g2, g3⟩ := h3
          rw [e] at g1; cases g1
          exact ⟨a, by simp, g2⟩
      · obtain ⟨p, hp, e⟩ := ih h3 hk e
        exact ⟨p, by simp [hp], e⟩


/-! ## The invariant -/

def fkey : Fr κ → κ
  | .atFast k => k | .atLock k => k | .atLoad k => k | .atCall k => k | .atInsert k => k | .crun k => k
  | .dtLock k => k | .dtBody k => k | .dtWait k => k | .dtBlock k => k | .asleep k => k

/-- what a frame of thread `t` knows -/
def FrOk (t : ι) (b : Sh ι κ) (L : List κ) : Fr κ → Prop
  | .atFast k => b.life k = .ctor ∧ b.by_ k = some t ∧ b.runs k = 0
  | .atLock k => b.life k = .ctor ∧ b.by_ k = some t ∧ b.runs k = 0
  | .atLoad k => b.life k = .ctor ∧ b.by_ k = some t ∧ b.runs k = 0 ∧ b.lock = some t
  | .atCall k => b.life k = .ctor ∧ b.by_ k = some t ∧ b.runs k = 0 ∧ b.lock = some t ∧ b.stop = true
  | .atInsert k => b.life k = .ctor ∧ b.by_ k = some t ∧ b.runs k = 0 ∧ b.lock = some t ∧ b.trueRet = 0
  | .crun k => b.life k = .ctor ∧ b.by_ k = some t ∧ b.runs k = 1 ∧ b.stop = true
  | .dtLock k => b.life k = .dtor ∧ b.by_ k = some t
  | .dtBody k => b.life k = .dtor ∧ b.by_ k = some t ∧ b.lock = some t
  | .dtWait k => b.life k = .dtor ∧ b.by_ k = some t ∧ k ∉ L
  | .dtBlock k => b.life k = .dtor ∧ b.by_ k = some t ∧ k ∉ L
  | .asleep k => b.life k = .dtor ∧ b.by_ k = some t ∧ k ∉ L

/-- what the position in `request_stop` knows -/
def RsOk (t : ι) (b : Sh ι κ) (L : List κ) : Rs κ → Prop
  | .off => True
  | .set => b.won = some t ∧ b.trueRet = 0
  | .lock => b.won = some t ∧ b.trueRet = 0 ∧ b.stopper = some t
  | .store => b.won = some t ∧ b.trueRet = 0 ∧ b.stopper = some t ∧ b.lock = some t
  | .notify => b.won = some t ∧ b.trueRet = 0 ∧ b.stopper = some t ∧ b.lock = some t ∧ b.cur = b.head
  | .pop => b.won = some t ∧ b.trueRet = 0 ∧ b.stopper = some t ∧ b.lock = some t ∧ b.cur = b.head
  | .running k => b.won = some t ∧ b.trueRet = 0 ∧ b.stopper = some t ∧ b.cur = some k ∧ k ∉ L ∧ b.runs k = 1 ∧ b.parent k = true ∧
      (b.life k = .alive ∨ b.life k = .dtor ∨ (b.life k = .dead ∧ b.by_ k = some t))

structure LocOk (t : ι) (b : Sh ι κ) (L : List κ) (x : Loc κ) : Prop where
  rs : RsOk t b L x.rs
  fr : ∀ f ∈ x.stk, FrOk t b L f
  nodup : (x.stk.map fkey).Nodup
  tail : ∀ f ∈ x.stk.tail, ∃ k, f = .crun k
  shape : x.stk ≠ [] → x.rs = .off ∨ ∃ k, x.rs = .running k

structure ShOk (b : Sh ι κ) (L : List κ) : Prop where
  chain : Chain b.next b.prev none b.head L
  nodup : L.Nodup
  inL : ∀ k ∈ L, (b.life k = .alive ∨ b.life k = .dtor) ∧ b.runs k = 0 ∧ b.parent k = true
  outL : ∀ k, k ∉ L → b.life k ≠ .dead → b.prev k = none
  run1 : ∀ k, b.life k = .alive ∨ b.life k = .dtor → k ∈ L ∨ b.runs k = 1
  unborn : ∀ k, b.life k = .unborn → b.runs k = 0
  le : ∀ k, b.runs k ≤ 1
  won : b.stop = b.won.isSome
  ret : b.trueRet = 0 ∨ (b.trueRet = 1 ∧ L = [] ∧ b.stop = true)
  idle : b.stop = false → ∀ k, b.runs k = 0
  bad : b.bad = false

structure Glob (b : Sh ι κ) (l : ι → Loc κ) : Prop where
  active : ∀ t, b.won = some t → b.trueRet = 0 → (l t).rs ≠ .off
  asleep : ∀ t k r, (l t).stk = .asleep k :: r → b.cur = some k ∨ ∃ u, (l u).rs = .notify

structure Inv (σ : State ι κ) (L : List κ) : Prop where
  sh : ShOk σ.b L
  loc : ∀ t, LocOk t σ.b L (σ.l t)
  gl : Glob σ.b σ.l

theorem inv_init : Inv (init : State ι κ) [] := by
  refine ⟨⟨rfl, List.nodup_nil, by simp, fun _ _ _ => rfl, by simp [init], fun _ _ => rfl, fun _ => by simp [init], rfl, Or.inl rfl,
    fun _ _ => rfl, rfl⟩, fun t => ⟨trivial, by simp [init], by simp [init], by simp [init], by simp [init]⟩, ⟨by simp [init], by simp [init]⟩⟩

/-- a change of the shared data that keeps what thread `t` knows -/
structure Pres (t : ι) (b b' : Sh ι κ) (L L' : List κ) : Prop where
  ctor : ∀ k, b.life k = .ctor → b.by_ k = some t → b'.life k = .ctor ∧ b'.by_ k = some t ∧ b'.runs k = b.runs k
  dtor : ∀ k, b.life k = .dtor → b.by_ k = some t → b'.life k = .dtor ∧ b'.by_ k = some t ∧ (k ∉ L → k ∉ L')
  lock : b.lock = some t → b'.lock = some t ∧ b'.trueRet = b.trueRet ∧ (b.cur = b.head → b'.cur = b'.head)
  stop : b.stop = true → b'.stop = true
  won : b.won = some t → b'.won = some t ∧ b'.trueRet = b.trueRet ∧ (b.stopper = some t → b'.stopper = some t)
  run : ∀ k, RsOk t b L (.running k) → RsOk t b' L' (.running k)

theorem Pres.refl (t : ι) (b : Sh ι κ) (L : List κ) : Pres t b b L L :=
  ⟨fun _ h1 h2 => ⟨h1, h2, rfl⟩, fun _ h1 h2 => ⟨h1, h2, id⟩, fun h => ⟨h, rfl, id⟩, id, fun h => ⟨h, rfl, id⟩, fun _ h => h⟩

theorem Pres.fr {t : ι} {b b' : Sh ι κ} {L L' : List κ} (h : Pres t b b' L L') {f : Fr κ} (hf : FrOk t b L f) : FrOk t b' L' f := by
  obtain ⟨c, d, lk, st, _, _⟩ := h
  cases f <;> simp only [FrOk] at hf ⊢
  case atFast k => obtain ⟨a1, a2, a3⟩ := hf; have := c k a1 a2; exact ⟨this.1, this.2.1, this.2.2.trans a3⟩
  case atLock k => obtain ⟨a1, a2, a3⟩ := hf; have := c k a1 a2; exact ⟨this.1, this.2.1, this.2.2.trans a3⟩
  case atLoad k => obtain ⟨a1, a2, a3, a4⟩ := hf; have := c k a1 a2; exact ⟨this.1, this.2.1, this.2.2.trans a3, (lk a4).1⟩
  case atCall k => obtain ⟨a1, a2, a3, a4, a5⟩ := hf; have := c k a1 a2; exact ⟨this.1, this.2.1, this.2.2.trans a3, (lk a4).1, st a5⟩
  case atInsert k =>
    obtain ⟨a1, a2, a3, a4, a5⟩ := hf; have := c k a1 a2
    exact ⟨this.1, this.2.1, this.2.2.trans a3, (lk a4).1, (lk a4).2.1.trans a5⟩
  case crun k => obtain ⟨a1, a2, a3, a4⟩ := hf; have := c k a1 a2; exact ⟨this.1, this.2.1, this.2.2.trans a3, st a4⟩
  case dtLock k => obtain ⟨a1, a2⟩ := hf; have := d k a1 a2; exact ⟨this.1, this.2.1⟩
  case dtBody k => obtain ⟨a1, a2, a3⟩ := hf; have := d k a1 a2; exact ⟨this.1, this.2.1, (lk a3).1⟩
  all_goals obtain ⟨a1, a2, a3⟩ := hf; have := d _ a1 a2; exact ⟨this.1, this.2.1, this.2.2 a3⟩

theorem Pres.rs {t : ι} {b b' : Sh ι κ} {L L' : List κ} (h : Pres t b b' L L') {r : Rs κ} (hr : RsOk t b L r) : RsOk t b' L' r := by
  cases r with
  | running k => exact h.run k hr
  | off => trivial
  | set => have := h.won hr.1; exact ⟨this.1, this.2.1.trans hr.2⟩
  | lock => have := h.won hr.1; exact ⟨this.1, this.2.1.trans hr.2.1, this.2.2 hr.2.2⟩
  | store => have := h.won hr.1; exact ⟨this.1, this.2.1.trans hr.2.1, this.2.2 hr.2.2.1, (h.lock hr.2.2.2).1⟩
  | notify => have := h.won hr.1; exact ⟨this.1, this.2.1.trans hr.2.1, this.2.2 hr.2.2.1, (h.lock hr.2.2.2.1).1, (h.lock hr.2.2.2.1).2.2 hr.2.2.2.2⟩
  | pop => have := h.won hr.1; exact ⟨this.1, this.2.1.trans hr.2.1, this.2.2 hr.2.2.1, (h.lock hr.2.2.2.1).1, (h.lock hr.2.2.2.1).2.2 hr.2.2.2.2⟩

theorem Pres.loc {t : ι} {b b' : Sh ι κ} {L L' : List κ} (h : Pres t b b' L L') {x : Loc κ} (hx : LocOk t b L x) : LocOk t b' L' x :=
  ⟨h.rs hx.rs, fun f hf => h.fr (hx.fr f hf), hx.nodup, hx.tail, hx.shape⟩

/-- assembling the invariant after a transition of `t` -/
theorem assemble {σ : State ι κ} {L L' : List κ} (hI : Inv σ L) (t : ι) (b' : Sh ι κ) (x' : Loc κ) (h1 : ShOk b' L')
    (h2 : ∀ u, u ≠ t → Pres u σ.b b' L L') (h3 : LocOk t b' L' x')
    (h4 : b'.won = some t → b'.trueRet = 0 → x'.rs ≠ .off)
    (h4' : ∀ u, u ≠ t → b'.won = some u → b'.trueRet = 0 → σ.b.won = some u ∧ σ.b.trueRet = 0)
    (h5 : ∀ k r, x'.stk = .asleep k :: r → b'.cur = some k)
    (h6 : b'.cur = σ.b.cur ∨ x'.rs = .notify) (h7 : (σ.l t).rs = .notify → x'.rs = .notify) :
    Inv ⟨b', upd σ.l t x'⟩ L' := by
  refine ⟨h1, ?_, ⟨?_, ?_⟩⟩
  · intro u
    by_cases hu : u = t
    · subst hu; simp only [upd_self]; exact h3
    · simp only [upd_ne _ _ hu]; exact (h2 u hu).loc (hI.loc u)
  · intro u hw hr
    by_cases hu : u = t
    · subst hu; simp only [upd_self]; exact h4 hw hr
    · simp only [upd_ne _ _ hu]
      have := h4' u hu hw hr
      exact hI.gl.active u this.1 this.2
  · intro u k r hs
    simp only at hs ⊢
    by_cases hu : u = t
    · subst hu; rw [upd_self] at hs; exact Or.inl (h5 k r hs)
    · rw [upd_ne _ _ hu] at hs
      rcases h6 with h6 | h6
      · rcases hI.gl.asleep u k r hs with h | ⟨v, hv⟩
        · exact Or.inl (h6 ▸ h)
        · right
          by_cases hvt : v = t
          · subst hvt; exact ⟨v, by rw [upd_self]; exact h7 hv⟩
          · exact ⟨v, by rw [upd_ne _ _ hvt]; exact hv⟩
      · exact Or.inr ⟨t, by rw [upd_self]; exact h6⟩


/-! ## Effects of the list operations -/

theorem check_true {b : Sh ι κ} {c : Bool} (h : c = true) : b.check c = b := by
  cases b; simp [Sh.check, h]

theorem live_of {x : Life} (h : x = .alive ∨ x = .dtor) : live x = true := by rcases h with rfl | rfl <;> rfl

theorem chain_next_mem {next prev : κ → Option κ} {k m : κ} : ∀ {L : List κ} {p h : Option κ}, Chain next prev p h L → k ∈ L →
    next k = some m → m ∈ L := by
  intro L
  induction L with
  | nil => intro p h _ hk; cases hk
  | cons a L ih =>
    intro p h hc hk hm
    obtain ⟨h1, h2, h3⟩ := hc
    rcases List.mem_cons.1 hk with rfl | hk
    · have := chain_head h3
      rw [hm] at this
      exact List.mem_cons_of_mem _ (List.mem_of_head? this.symm)
    · exact List.mem_cons_of_mem _ (ih h3 hk hm)

theorem popHead_eq {b : Sh ι κ} {L : List κ} (h : ShOk b L) {k : κ} (hk : b.head = some k) :
    popHead b k = { b with next := upd b.next k none, prev := setPrev b.prev (b.next k) none, head := b.next k, lock := none,
                           runs := upd b.runs k (b.runs k + 1) } := by
  have hc := h.chain
  rw [hk] at hc
  have hL := chain_head hc
  obtain ⟨L', rfl⟩ : ∃ L', L = k :: L' := by
    cases L with
    | nil => simp at hL
    | cons a L' => simp at hL; exact ⟨L', by rw [hL]⟩
  have hlive := live_of (h.inL k (by simp)).1
  have hp : b.prev k = none := hc.2.1
  unfold popHead
  simp only
  rw [check_true (by simp [hlive, hp])]
  cases hn : b.next k with
  | none => simp [setPrev]
  | some m =>
    have hm := chain_next_mem h.chain (by simp) hn
    simp only [setPrev]
    rw [check_true (live_of (h.inL m hm).1)]

theorem insertCb_eq {b : Sh ι κ} {L : List κ} (h : ShOk b L) (k : κ) :
    insertCb b k = { b with parent := upd b.parent k true, next := upd b.next k b.head, prev := setPrev b.prev b.head (some k),
                            head := some k, lock := none, life := upd b.life k .alive } := by
  have hL := chain_head h.chain
  unfold insertCb
  simp only
  cases hn : b.head with
  | none => simp [setPrev]
  | some m =>
    rw [hn] at hL
    simp only [setPrev]
    rw [check_true (live_of (h.inL m (List.mem_of_head? hL.symm)).1)]

theorem removeHead_eq {b : Sh ι κ} {L : List κ} (h : ShOk b L) {k : κ} (hk : b.head = some k) :
    removeHead b k = { b with prev := setPrev b.prev (b.next k) none, head := b.next k, lock := none } := by
  have hc := h.chain
  rw [hk] at hc
  have hL := chain_head hc
  obtain ⟨L', rfl⟩ : ∃ L', L = k :: L' := by
    cases L with
    | nil => simp at hL
    | cons a L' => simp at hL; exact ⟨L', by rw [hL]⟩
  have hp : b.prev k = none := hc.2.1
  unfold removeHead
  simp only
  cases hn : b.next k with
  | none => simp only [setPrev, hp]; rw [check_true (by simp)]; simp [hn]
  | some m =>
    have hm := chain_next_mem h.chain (by simp) hn
    simp only [setPrev]
    rw [check_true (live_of (h.inL m hm).1), check_true]
    · simp [hn]
    · by_cases e : k = m
      · subst e; simp
      · rw [upd_ne _ _ e, hp]; rfl

theorem removeMid_eq {b : Sh ι κ} {L : List κ} (h : ShOk b L) {k p : κ} (hk : k ∈ L) (hp : p ∈ L) :
    removeMid b k p = { b with prev := setPrev b.prev (b.next k) (some p), next := upd b.next p (b.next k), lock := none } := by
  unfold removeMid
  simp only
  have hlp := live_of (h.inL p hp).1
  cases hn : b.next k with
  | none => simp only [setPrev]; rw [check_true hlp]; simp [hn]
  | some m =>
    have hm := chain_next_mem h.chain hk hn
    simp only [setPrev]
    rw [check_true (live_of (h.inL m hm).1), check_true (by simpa using hlp)]
    simp [hn]

/-! ## The thread's own part -/

structure Own (t : ι) (b b' : Sh ι κ) (L L' : List κ) (k : κ) : Prop where
  ctor : ∀ j, j ≠ k → b.life j = .ctor → b.by_ j = some t → b'.life j = .ctor ∧ b'.by_ j = some t ∧ b'.runs j = b.runs j
  stop : b.stop = true → b'.stop = true
  run : ∀ j, RsOk t b L (.running j) → RsOk t b' L' (.running j)

theorem own_rest {t : ι} {b b' : Sh ι κ} {L L' : List κ} {rs : Rs κ} {f : Fr κ} {r : List (Fr κ)} (hx : LocOk t b L ⟨rs, f :: r⟩)
    (h : Own t b b' L L' (fkey f)) : RsOk t b' L' rs ∧ (∀ g ∈ r, FrOk t b' L' g) := by
  constructor
  · rcases hx.shape (by simp) with e | ⟨j, e⟩
    · simp only at e; rw [e]; trivial
    · simp only at e; rw [e]; exact h.run j (by have := hx.rs; simp only [e] at this; exact this)
  · intro g hg
    obtain ⟨j, rfl⟩ := hx.tail g (by simpa using hg)
    have := hx.fr (.crun j) (by simp [hg])
    obtain ⟨a1, a2, a3, a4⟩ := this
    have hj : j ≠ fkey f := by
      rintro rfl
      have hn := hx.nodup
      simp only [List.map_cons, List.nodup_cons] at hn
      exact hn.1 (List.mem_map.2 ⟨_, hg, rfl⟩)
    have := h.ctor j hj a1 a2
    exact ⟨this.1, this.2.1, this.2.2.trans a3, h.stop a4⟩

theorem own_top {t : ι} {b b' : Sh ι κ} {L L' : List κ} {rs : Rs κ} {f f' : Fr κ} {r : List (Fr κ)} (hx : LocOk t b L ⟨rs, f :: r⟩)
    (h : Own t b b' L L' (fkey f)) (hk : fkey f' = fkey f) (hf : FrOk t b' L' f') : LocOk t b' L' ⟨rs, f' :: r⟩ := by
  obtain ⟨h1, h2⟩ := own_rest hx h
  refine ⟨h1, ?_, ?_, hx.tail, fun _ => hx.shape (by simp)⟩
  · intro g hg
    rcases List.mem_cons.1 hg with rfl | hg
    · exact hf
    · exact h2 g hg
  · have := hx.nodup
    simp only [List.map_cons, hk] at this ⊢
    exact this

theorem own_pop {t : ι} {b b' : Sh ι κ} {L L' : List κ} {rs : Rs κ} {f : Fr κ} {r : List (Fr κ)} (hx : LocOk t b L ⟨rs, f :: r⟩)
    (h : Own t b b' L L' (fkey f)) : LocOk t b' L' ⟨rs, r⟩ := by
  obtain ⟨h1, h2⟩ := own_rest hx h
  refine ⟨h1, h2, ?_, fun g hg => hx.tail g (List.mem_of_mem_tail hg), fun _ => hx.shape (by simp)⟩
  have := hx.nodup
  simp only [List.map_cons, List.nodup_cons] at this
  exact this.2

/-! ## Preservation by the transitions inside callbacks' constructors and destructors -/

section
variable {σ : State ι κ} {L : List κ} {t : ι} {rs : Rs κ} {k : κ} {r : List (Fr κ)}

/-- the destructor finishing for a callback not in the list -/
theorem sh_die {b : Sh ι κ} (h : ShOk b L) (hk : k ∉ L) : ShOk (b.die k) L := by
  obtain ⟨a1, a2, a3, a4, a5, a6, a7, a8, a9, a10, a11⟩ := h
  have hne : ∀ j, (b.die k).life j ≠ .dead → (b.die k).life j = b.life j ∧ j ≠ k := by
    intro j hj
    by_cases e : j = k
    · subst e; simp [Sh.die] at hj
    · exact ⟨upd_ne _ _ e, e⟩
  refine ⟨a1, a2, ?_, ?_, ?_, ?_, a7, a8, a9, a10, a11⟩
  · intro j hj
    have e : j ≠ k := fun e => hk (e ▸ hj)
    have := a3 j hj
    exact ⟨by simpa [Sh.die, upd_ne _ _ e] using this.1, this.2⟩
  · intro j hj hd
    have := hne j hd
    exact a4 j hj (this.1 ▸ hd)
  · intro j hj
    have := hne j (by rcases hj with e | e <;> rw [e] <;> simp)
    rw [this.1] at hj
    exact a5 j hj
  · intro j hj
    have := hne j (by rw [hj]; simp)
    rw [this.1] at hj
    exact a6 j hj

theorem pres_die {b : Sh ι κ} (hb : b.by_ k = some t) (u : ι) (hu : u ≠ t)
    (hl : b.life k = .dtor) (hr : ∀ v, v ≠ t → ¬ RsOk v b L (.running k)) : Pres u b (b.die k) L L := by
  have hne : ∀ j, b.by_ j = some u → j ≠ k := by rintro j hj rfl; rw [hb] at hj; cases hj; exact hu rfl
  refine ⟨?_, ?_, fun h => ⟨h, rfl, id⟩, id, fun h => ⟨h, rfl, id⟩, ?_⟩
  · intro j h1 h2; exact ⟨by rw [← h1]; exact upd_ne _ _ (hne j h2), h2, rfl⟩
  · intro j h1 h2; exact ⟨by rw [← h1]; exact upd_ne _ _ (hne j h2), h2, id⟩
  · intro j hj
    have e : j ≠ k := by rintro rfl; exact hr u hu hj
    simp only [RsOk] at hj ⊢
    simpa [Sh.die, upd_ne _ _ e] using hj

theorem own_die {b : Sh ι κ} (hb : b.by_ k = some t) : Own t b (b.die k) L L k := by
  refine ⟨?_, id, ?_⟩
  · intro j hj h1 h2; exact ⟨by rw [← h1]; exact upd_ne _ _ hj, h2, rfl⟩
  · intro j hj
    simp only [RsOk] at hj ⊢
    by_cases e : j = k
    · subst e
      obtain ⟨h1, h2, h3, h4, h5, h6, h7, h8⟩ := hj
      exact ⟨h1, h2, h3, h4, h5, h6, h7, Or.inr (Or.inr ⟨by simp [Sh.die], hb⟩)⟩
    · simpa [Sh.die, upd_ne _ _ e] using hj

end

end STL.StopToken
