import Verif.Par.ScanChunk
import Verif.Par.FindProps

/-! # C40: parallel scans give the sequential result under every interleaving -/

namespace STL.Par.Scan
open STL STL.Conc STL.Par.Spec Spec

variable {ι : Type} [DecidableEq ι] [Fintype ι] {α : Type} {op : α → α → α}

/-- The chunk a thread works on. -/
def chunkOf : PC α → Option Nat
  | .start c _ _ => some c
  | .full c _ _ => some c
  | .pubSum c => some c
  | .locl c _ _ => some c
  | .pubLocal c _ _ => some c
  | .wait c _ _ => some c
  | .look c _ _ _ _ => some c
  | .apply c _ _ _ => some c
  | .store c _ _ _ => some c
  | .fix c _ _ _ => some c
  | _ => none

/-- Data that do not change: positions, algorithm, input. -/
structure Par (α : Type) where
  n : Nat
  k : Nat
  A : Alg α
  op : α → α → α
  out0 : Nat → α
  v : Nat → α

variable (Q : Par α)

abbrev F (c : Nat) : Nat := off Q.n Q.k c
def Fresh (s : Shared α) (c : Nat) : Prop := s.state c = 0 ∧ ∀ x, F Q c ≤ x → x < F Q (c + 1) → s.out x = Q.out0 x
def OutFin (s : Shared α) (c : Nat) : Prop := ∀ x, F Q c ≤ x → x < F Q (c + 1) → s.out x = fin Q.A Q.op Q.v x
def L (c : Nat) : α := sum1 Q.op Q.v (F Q c) (F Q (c + 1) - F Q c - 1)
def S (c : Nat) : α := inc Q.A Q.op Q.v (F Q (c + 1) - 1)

structure StOk (s : Shared α) (c : Nat) : Prop where
  le : s.state c ≤ 3
  loc : s.state c = 1 ∨ s.state c = 3 → s.locl c = some (L Q c)
  sum : s.state c = 2 ∨ s.state c = 3 → s.sum c = some (S Q c)
  zero : c = 0 → s.state c ≠ 1

def pcOk (s : Shared α) : PC α → Prop
  | .start c a b => a = F Q c ∧ b = F Q (c + 1) ∧ Fresh Q s c
  | .full c a b => a = F Q c ∧ b = F Q (c + 1) ∧ Fresh Q s c ∧ 0 < c ∧ hasSum (s.state (c - 1)) = true
  | .pubSum c => s.state c = 0 ∧ s.sum c = some (S Q c) ∧ OutFin Q s c
  | .locl c a b => a = F Q c ∧ b = F Q (c + 1) ∧ Fresh Q s c ∧ 0 < c
  | .pubLocal c a b => a = F Q c ∧ b = F Q (c + 1) ∧ s.state c = 0 ∧ 0 < c ∧ s.locl c = some (L Q c) ∧ LocalOk Q.A Q.op Q.v a b s.out
  | .wait c a b => a = F Q c ∧ b = F Q (c + 1) ∧ s.state c = 1 ∧ 0 < c ∧ LocalOk Q.A Q.op Q.v a b s.out
  | .look c a b p acc => a = F Q c ∧ b = F Q (c + 1) ∧ s.state c = 1 ∧ p + 1 < c ∧ LocalOk Q.A Q.op Q.v a b s.out ∧ acc = sum1 Q.op Q.v (F Q (p + 1)) (F Q c - F Q (p + 1) - 1)
  | .apply c a b pre => a = F Q c ∧ b = F Q (c + 1) ∧ s.state c = 1 ∧ 0 < c ∧ LocalOk Q.A Q.op Q.v a b s.out ∧ pre = inc Q.A Q.op Q.v (F Q c - 1)
  | .store c a b pre => a = F Q c ∧ b = F Q (c + 1) ∧ s.state c = 1 ∧ 0 < c ∧ LocalOk Q.A Q.op Q.v a b s.out ∧ pre = inc Q.A Q.op Q.v (F Q c - 1) ∧ s.sum c = some (S Q c)
  | .fix c a b pre => a = F Q c ∧ b = F Q (c + 1) ∧ s.state c = 3 ∧ 0 < c ∧ LocalOk Q.A Q.op Q.v a b s.out ∧ pre = inc Q.A Q.op Q.v (F Q c - 1)
  | .done => Q.k ≤ s.consumed
  | .crash => False
  | _ => True

def isDone : PC α → Nat
  | .done => 1
  | _ => 0

/-- Steps to come with what the thread holds. -/
def weight (k : Nat) : PC α → Nat
  | .idle => 1
  | .start _ _ _ => k + 8
  | .full _ _ _ => 2
  | .pubSum _ => 1
  | .locl _ _ _ => k + 7
  | .pubLocal _ _ _ => k + 6
  | .wait _ _ _ => k + 5
  | .look _ _ _ p _ => p + 4
  | .apply _ _ _ _ => 3
  | .store _ _ _ _ => 2
  | .fix _ _ _ _ => 1
  | _ => 0

structure Inv (m : Nat) (σ : State ι α) : Prop where
  own : ∀ t c, chunkOf (σ.l t) = some c → c < min σ.s.consumed Q.k
  uniq : ∀ t u c, chunkOf (σ.l t) = some c → chunkOf (σ.l u) = some c → t = u
  held : ∀ c, c < min σ.s.consumed Q.k → (hasSum (σ.s.state c) = true ∧ OutFin Q σ.s c) ∨ ∃ t, chunkOf (σ.l t) = some c
  fresh : ∀ c, σ.s.consumed ≤ c → c < Q.k → Fresh Q σ.s c
  good : ∀ c, c < Q.k → StOk Q σ.s c
  pcs : ∀ t, pcOk Q σ.s (σ.l t)
  outer : ∀ x, Q.n ≤ x → σ.s.out x = Q.out0 x
  bound : σ.s.consumed ≤ Q.k + tot isDone σ.l
  meas : m + (Q.k + 9) * (Q.k + Fintype.card ι - σ.s.consumed) + tot (weight Q.k) σ.l ≤ (Q.k + 9) * (Q.k + Fintype.card ι) + Fintype.card ι

/-- `s'` differs from `s` at most in what belongs to chunk `c`. -/
structure Same (s s' : Shared α) (c : Nat) : Prop where
  consumed : s'.consumed = s.consumed
  state : ∀ c', c' ≠ c → s'.state c' = s.state c'
  locl : ∀ c', c' ≠ c → s'.locl c' = s.locl c'
  sum : ∀ c', c' ≠ c → s'.sum c' = s.sum c'
  out : ∀ x, ¬ (F Q c ≤ x ∧ x < F Q (c + 1)) → s'.out x = s.out x

variable {Q}

theorem Same.refl (s : Shared α) (c : Nat) : Same Q s s c := ⟨rfl, fun _ _ => rfl, fun _ _ => rfl, fun _ _ => rfl, fun _ _ => rfl⟩

theorem disj (C : Cut Q.n Q.k (F Q)) {c c' x : Nat} (h : c' ≠ c) (hc : c < Q.k) (hc' : c' < Q.k) (h1 : F Q c' ≤ x) (h2 : x < F Q (c' + 1)) : ¬ (F Q c ≤ x ∧ x < F Q (c + 1)) := by
  rintro ⟨h3, h4⟩
  rcases Nat.lt_or_gt_of_ne h with h | h
  · have := C.mono (show c' + 1 ≤ c by omega) (by omega); omega
  · have := C.mono (show c + 1 ≤ c' by omega) (by omega); omega

theorem Same.fresh (C : Cut Q.n Q.k (F Q)) {s s' : Shared α} {c c' : Nat} (h : Same Q s s' c) (hne : c' ≠ c) (hc : c < Q.k) (hc' : c' < Q.k) (hf : Fresh Q s c') : Fresh Q s' c' :=
  ⟨by rw [h.state c' hne]; exact hf.1, fun x h1 h2 => by rw [h.out x (disj C hne hc hc' h1 h2)]; exact hf.2 x h1 h2⟩

theorem Same.fin (C : Cut Q.n Q.k (F Q)) {s s' : Shared α} {c c' : Nat} (h : Same Q s s' c) (hne : c' ≠ c) (hc : c < Q.k) (hc' : c' < Q.k) (hf : OutFin Q s c') : OutFin Q s' c' :=
  fun x h1 h2 => by rw [h.out x (disj C hne hc hc' h1 h2)]; exact hf x h1 h2

theorem Same.localOk (C : Cut Q.n Q.k (F Q)) {s s' : Shared α} {c c' : Nat} (h : Same Q s s' c) (hne : c' ≠ c) (hc : c < Q.k) (hc' : c' < Q.k)
    (hl : LocalOk Q.A Q.op Q.v (F Q c') (F Q (c' + 1)) s.out) : LocalOk Q.A Q.op Q.v (F Q c') (F Q (c' + 1)) s'.out := by
  generalize Q.A = A at hl ⊢
  cases A with
  | excl i => intro y h1 h2; rw [h.out y (disj C hne hc hc' (by omega) h2)]; exact hl y h1 h2
  | incl o => intro y h1 h2; rw [h.out y (disj C hne hc hc' h1 h2)]; exact hl y h1 h2

theorem Same.stOk {s s' : Shared α} {c c' : Nat} (h : Same Q s s' c) (hne : c' ≠ c) (hs : StOk Q s c') : StOk Q s' c' := by
  refine ⟨?_, ?_, ?_, ?_⟩
  · rw [h.state c' hne]; exact hs.le
  · rw [h.state c' hne, h.locl c' hne]; exact hs.loc
  · rw [h.state c' hne, h.sum c' hne]; exact hs.sum
  · rw [h.state c' hne]; exact hs.zero

theorem Same.pcOk (C : Cut Q.n Q.k (F Q)) {s s' : Shared α} {c : Nat} (h : Same Q s s' c) (hc : c < Q.k) (hsum : hasSum (s.state c) = true → hasSum (s'.state c) = true) {p : PC α}
    (hne : ∀ c', chunkOf p = some c' → c' ≠ c ∧ c' < Q.k) (hp : pcOk Q s p) : pcOk Q s' p := by
  cases p with
  | idle => trivial
  | take => trivial
  | start c' a b =>
    obtain ⟨e1, e2⟩ := hne c' rfl
    obtain ⟨h1, h2, h3⟩ := hp
    exact ⟨h1, h2, h.fresh C e1 hc e2 h3⟩
  | full c' a b =>
    obtain ⟨e1, e2⟩ := hne c' rfl
    obtain ⟨h1, h2, h3, h4, h5⟩ := hp
    refine ⟨h1, h2, h.fresh C e1 hc e2 h3, h4, ?_⟩
    by_cases e : c' - 1 = c
    · rw [e] at h5 ⊢; exact hsum h5
    · rw [h.state _ e]; exact h5
  | pubSum c' =>
    obtain ⟨e1, e2⟩ := hne c' rfl
    obtain ⟨h1, h2, h3⟩ := hp
    exact ⟨by rw [h.state _ e1]; exact h1, by rw [h.sum _ e1]; exact h2, h.fin C e1 hc e2 h3⟩
  | locl c' a b =>
    obtain ⟨e1, e2⟩ := hne c' rfl
    obtain ⟨h1, h2, h3, h4⟩ := hp
    exact ⟨h1, h2, h.fresh C e1 hc e2 h3, h4⟩
  | pubLocal c' a b =>
    obtain ⟨e1, e2⟩ := hne c' rfl
    obtain ⟨rfl, rfl, h3, h4, h5, h6⟩ := hp
    exact ⟨rfl, rfl, by rw [h.state _ e1]; exact h3, h4, by rw [h.locl _ e1]; exact h5, h.localOk C e1 hc e2 h6⟩
  | wait c' a b =>
    obtain ⟨e1, e2⟩ := hne c' rfl
    obtain ⟨rfl, rfl, h3, h4, h6⟩ := hp
    exact ⟨rfl, rfl, by rw [h.state _ e1]; exact h3, h4, h.localOk C e1 hc e2 h6⟩
  | look c' a b p acc =>
    obtain ⟨e1, e2⟩ := hne c' rfl
    obtain ⟨rfl, rfl, h3, h4, h6, h7⟩ := hp
    exact ⟨rfl, rfl, by rw [h.state _ e1]; exact h3, h4, h.localOk C e1 hc e2 h6, h7⟩
  | apply c' a b pre =>
    obtain ⟨e1, e2⟩ := hne c' rfl
    obtain ⟨rfl, rfl, h3, h4, h6, h7⟩ := hp
    exact ⟨rfl, rfl, by rw [h.state _ e1]; exact h3, h4, h.localOk C e1 hc e2 h6, h7⟩
  | store c' a b pre =>
    obtain ⟨e1, e2⟩ := hne c' rfl
    obtain ⟨rfl, rfl, h3, h4, h6, h7, h8⟩ := hp
    exact ⟨rfl, rfl, by rw [h.state _ e1]; exact h3, h4, h.localOk C e1 hc e2 h6, h7, by rw [h.sum _ e1]; exact h8⟩
  | fix c' a b pre =>
    obtain ⟨e1, e2⟩ := hne c' rfl
    obtain ⟨rfl, rfl, h3, h4, h6, h7⟩ := hp
    exact ⟨rfl, rfl, by rw [h.state _ e1]; exact h3, h4, h.localOk C e1 hc e2 h6, h7⟩
  | done => show Q.k ≤ s'.consumed; rw [h.consumed]; exact hp
  | crash => exact hp

theorem isDone_le (p : PC α) : isDone p ≤ 1 := by cases p <;> simp [isDone]

/-- A step of the thread that holds chunk `c`. -/
theorem inv_own {m : Nat} (C : Cut Q.n Q.k (F Q)) {σ : State ι α} {t : ι} {c : Nat} {s' : Shared α} {p' : PC α} (I : Inv Q m σ) (ht : chunkOf (σ.l t) = some c) (hS : Same Q σ.s s' c)
    (hst : StOk Q s' c) (hsum : hasSum (σ.s.state c) = true → hasSum (s'.state c) = true) (hpc : pcOk Q s' p')
    (hp : chunkOf p' = some c ∨ (chunkOf p' = none ∧ hasSum (s'.state c) = true ∧ OutFin Q s' c)) (hd : isDone p' = 0) (hw : weight Q.k p' < weight Q.k (σ.l t)) :
    Inv Q (m + 1) ⟨s', upd σ.l t p'⟩ := by
  have hc := I.own t c ht
  have hck : c < Q.k := by omega
  have hch : ∀ u c', chunkOf (upd σ.l t p' u) = some c' → chunkOf (σ.l u) = some c' := by
    intro u c' h
    by_cases e : u = t
    · subst e
      rw [upd_self] at h
      rcases hp with hp | ⟨hp, _⟩
      · rw [hp] at h; rw [ht]; exact h
      · rw [hp] at h; exact absurd h (by simp)
    · rwa [upd_ne _ _ e] at h
  obtain ⟨rD, hD1, hD2⟩ := split_tot isDone σ.l t
  obtain ⟨rW, hW1, hW2⟩ := split_tot (weight Q.k) σ.l t
  refine ⟨?_, ?_, ?_, ?_, ?_, ?_, ?_, ?_, ?_⟩
  · intro u c' h
    dsimp only; rw [hS.consumed]
    exact I.own u c' (hch u c' h)
  · intro u w c' h1 h2
    exact I.uniq u w c' (hch u c' h1) (hch w c' h2)
  · intro c' hc'
    dsimp only at hc'
    rw [hS.consumed] at hc'
    by_cases e : c' = c
    · subst e
      rcases hp with hp | ⟨_, hp⟩
      · exact Or.inr ⟨t, by dsimp only; rw [upd_self]; exact hp⟩
      · exact Or.inl hp
    · rcases I.held c' hc' with ⟨h1, h2⟩ | ⟨u, hu⟩
      · exact Or.inl ⟨by dsimp only; rw [hS.state _ e]; exact h1, hS.fin C e hck (by omega) h2⟩
      · refine Or.inr ⟨u, ?_⟩
        have : u ≠ t := by
          rintro rfl
          rw [ht] at hu
          simp only [Option.some.injEq] at hu
          exact e hu.symm
        dsimp only
        rw [upd_ne _ _ this]; exact hu
  · intro c' h1 h2
    dsimp only at h1
    rw [hS.consumed] at h1
    exact hS.fresh C (by omega) hck h2 (I.fresh c' h1 h2)
  · intro c' hc'
    by_cases e : c' = c
    · subst e; exact hst
    · exact hS.stOk e (I.good c' hc')
  · intro u
    dsimp only
    by_cases e : u = t
    · subst e; rw [upd_self]; exact hpc
    · rw [upd_ne _ _ e]
      refine hS.pcOk C hck hsum (fun c' h => ⟨?_, ?_⟩) (I.pcs u)
      · rintro rfl
        exact e (I.uniq u t c' h ht)
      · have := I.own u c' h; omega
  · intro x hx
    have hl : F Q (c + 1) ≤ Q.n := C.le (by omega)
    dsimp only
    rw [hS.out x (by omega)]
    exact I.outer x hx
  · have := I.bound
    dsimp only; rw [hS.consumed, hD2, hd]
    have h0 : isDone (σ.l t) = 0 := by
      generalize σ.l t = q at ht
      cases q <;> first | rfl | simp [chunkOf] at ht
    omega
  · have := I.meas
    dsimp only; rw [hS.consumed, hW2]
    rw [hW1] at this
    omega

theorem inv_init : Inv Q 0 (init (ι := ι) Q.out0) := by
  refine ⟨?_, ?_, ?_, ?_, ?_, fun t => trivial, fun _ _ => rfl, by simp [init], ?_⟩
  · intro t c h; simp [init, chunkOf] at h
  · intro t u c h; simp [init, chunkOf] at h
  · intro c hc; simp [init] at hc
  · intro c _ _; exact ⟨rfl, fun x _ _ => rfl⟩
  · intro c _
    refine ⟨by simp [init], ?_, ?_, ?_⟩ <;> simp [init]
  · have : tot (weight Q.k) (init (ι := ι) Q.out0).l ≤ Fintype.card ι := by
      have h : tot (weight Q.k) (init (ι := ι) Q.out0).l ≤ ∑ _t : ι, 1 := Finset.sum_le_sum fun t _ => Nat.le_refl 1
      simpa using h
    simp only [init, Nat.sub_zero] at this ⊢
    omega

theorem hasSum_iff {st : Nat} (h : st ≤ 3) : hasSum st = true ↔ st = 2 ∨ st = 3 := by
  have : st = 0 ∨ st = 1 ∨ st = 2 ∨ st = 3 := by omega
  rcases this with rfl | rfl | rfl | rfl <;> decide

theorem stOk_ne {s s' : Shared α} {c : Nat} (h : StOk Q s c) (h1 : s'.state c = s.state c) (h2 : s'.locl c = s.locl c ∨ s.state c = 0 ∨ s.state c = 2)
    (h3 : s'.sum c = s.sum c ∨ s.state c = 0 ∨ s.state c = 1) : StOk Q s' c := by
  refine ⟨by rw [h1]; exact h.le, fun hh => ?_, fun hh => ?_, fun hh => by rw [h1]; exact h.zero hh⟩
  · rw [h1] at hh
    rcases h2 with e | e
    · rw [e]; exact h.loc hh
    · omega
  · rw [h1] at hh
    rcases h3 with e | e
    · rw [e]; exact h.sum hh
    · omega

/-- The scan of a chunk with the right predecessor sum. -/
theorem doFull_ok {m : Nat} (C : Cut Q.n Q.k (F Q)) {I : Src α} (hv : ∀ x, Q.v x = I.rd Q.out0 x) {σ : State ι α} {t : ι} {c : Nat} {pre : Option α} (J : Inv Q m σ) (ht : chunkOf (σ.l t) = some c)
    (hf : Fresh Q σ.s c) (h0 : c = 0 → pre = Q.A.init) (h1 : 0 < c → pre = some (S Q (c - 1))) (hw : 1 < weight Q.k (σ.l t)) {s' : Shared α} {p' : PC α}
    (hs : doFull Q.A I Q.op σ.s c (F Q c) (F Q (c + 1)) pre = (s', p')) : Inv Q (m + 1) ⟨s', upd σ.l t p'⟩ := by
  have hc := J.own t c ht
  have hst := C.step c (by omega)
  have hF0 : c = 0 ↔ F Q c = 0 := by
    constructor
    · rintro rfl; exact C.first
    · intro h
      by_contra hne
      have h2 := C.step 0 (by omega)
      have h3 := C.mono (show 0 + 1 ≤ c by omega) (by omega)
      omega
  obtain ⟨r, e1, e2, e3, e4⟩ := full_ok (op := Q.op) Q.A I (v := Q.v) (a := F Q c) (b := F Q (c + 1)) (pre := pre) (out := σ.s.out) hst
    (fun y u w => by rw [hv y]; exact rd_congr I (hf.2 y u w)) (fun h => h0 (hF0.2 h))
    (fun h => by
      have hc0 : 0 < c := by
        rcases Nat.eq_zero_or_pos c with h' | h'
        · have := hF0.1 h'; omega
        · exact h'
      rw [h1 hc0]
      unfold S
      rw [show c - 1 + 1 = c by omega])
  unfold doFull at hs
  rw [e1] at hs
  simp only [Prod.mk.injEq] at hs
  obtain ⟨rfl, rfl⟩ := hs
  refine inv_own C J ht ⟨rfl, fun _ _ => rfl, fun _ _ => rfl, fun c' h => upd_ne _ _ h, e4⟩ ?_ (fun h => h) ⟨hf.1, ?_, e3⟩ (Or.inl rfl) rfl hw
  · exact stOk_ne (s := σ.s) (J.good c (by omega)) rfl (Or.inl rfl) (Or.inr (Or.inl hf.1))
  · show upd σ.s.sum c (some r.2) c = _
    rw [upd_self, e2]
    rfl

set_option maxHeartbeats 1600000 in
theorem inv_step {m : Nat} (hk : 1 ≤ Q.k) (hn : Q.k ≤ Q.n) (hB : Q.n < 2 ^ 63) (hT : Q.k + Fintype.card ι < 2 ^ 64) {I : Src α} (hv : ∀ x, Q.v x = I.rd Q.out0 x)
    (assoc : ∀ x y z, Q.op (Q.op x y) z = Q.op x (Q.op y z)) {σ σ' : State ι α} {t : ι} (J : Inv Q m σ) (h : step (team Q.n Q.k) Q.A I Q.op σ t = some σ') : Inv Q (m + 1) σ' := by
  have C : Cut Q.n Q.k (F Q) := off_cut hk hn
  unfold step at h
  rw [Option.map_eq_some_iff] at h
  obtain ⟨⟨s', p'⟩, hs, rfl⟩ := h
  have pt := J.pcs t
  cases hpc : σ.l t with
  | idle =>
    rw [hpc] at hs
    simp only [stepL, Option.some.injEq, Prod.mk.injEq] at hs
    obtain ⟨rfl, rfl⟩ := hs
    obtain ⟨rD, hD1, hD2⟩ := split_tot isDone σ.l t
    obtain ⟨rW, hW1, hW2⟩ := split_tot (weight Q.k) σ.l t
    have hch : ∀ u, chunkOf (upd σ.l t .take u) = chunkOf (σ.l u) := by
      intro u
      by_cases e : u = t
      · subst e; rw [upd_self, hpc]; rfl
      · rw [upd_ne _ _ e]
    refine ⟨fun u c' h => J.own u c' (by rw [← hch u]; exact h), fun u w c' h1 h2 => J.uniq u w c' (by rw [← hch u]; exact h1) (by rw [← hch w]; exact h2), fun c' h => ?_, J.fresh, J.good,
      upd_all J.pcs trivial, J.outer, ?_, ?_⟩
    · rcases J.held c' h with h | ⟨u, hu⟩
      · exact Or.inl h
      · exact Or.inr ⟨u, by dsimp only; rw [hch u]; exact hu⟩
    · have := J.bound
      rw [hD1, hpc] at this
      dsimp only; rw [hD2]; exact this
    · have := J.meas
      rw [hW1, hpc] at this
      dsimp only; rw [hW2]; simp only [weight] at this ⊢; omega
  | take =>
    rw [hpc] at hs
    simp only [stepL, nextChunk_ok hk hn hB, Option.some.injEq, Prod.mk.injEq] at hs
    obtain ⟨rfl, hp⟩ := hs
    obtain ⟨rD, hD1, hD2⟩ := split_tot isDone σ.l t
    obtain ⟨rW, hW1, hW2⟩ := split_tot (weight Q.k) σ.l t
    rw [hpc] at hD1 hW1
    have bound := J.bound
    have meas := J.meas
    have hlt : tot isDone σ.l + 1 ≤ Fintype.card ι := by
      have h1 : tot isDone (upd σ.l t .done) ≤ Fintype.card ι := Find.A.tot_le_card isDone_le _
      rw [hD2] at h1
      rw [hD1]
      simpa [isDone] using h1
    have hc : (nextKey (team Q.n Q.k) σ.s.consumed).2 = σ.s.consumed + 1 := by
      show (σ.s.consumed + 1) % 2 ^ 64 = _
      exact Nat.mod_eq_of_lt (by omega)
    rw [hc]
    obtain ⟨r, hr⟩ : ∃ r, Q.k + Fintype.card ι - σ.s.consumed = r + 1 := ⟨Q.k + Fintype.card ι - σ.s.consumed - 1, by omega⟩
    have hr' : Q.k + Fintype.card ι - (σ.s.consumed + 1) = r := by omega
    have hpcs : ∀ u, pcOk Q { σ.s with consumed := σ.s.consumed + 1 } (σ.l u) := by
      intro u
      have := J.pcs u
      generalize σ.l u = q at this
      cases q with
      | done => show Q.k ≤ σ.s.consumed + 1; have h : Q.k ≤ σ.s.consumed := this; omega
      | _ => exact this
    by_cases hck : σ.s.consumed < Q.k
    · rw [if_pos hck] at hp
      dsimp only at hp
      subst hp
      refine ⟨?_, ?_, ?_, ?_, fun c' h => ⟨(J.good c' h).le, (J.good c' h).loc, (J.good c' h).sum, (J.good c' h).zero⟩, upd_all hpcs ⟨rfl, rfl, J.fresh _ (Nat.le_refl _) hck⟩, J.outer, ?_, ?_⟩
      · intro u c' h
        dsimp only at h ⊢
        by_cases e : u = t
        · subst e; rw [upd_self] at h; simp only [chunkOf, Option.some.injEq] at h; omega
        · rw [upd_ne _ _ e] at h; have := J.own u c' h; omega
      · intro u w c' h1 h2
        dsimp only at h1 h2
        by_cases e1 : u = t
        · by_cases e2 : w = t
          · rw [e1, e2]
          · subst e1
            rw [upd_self] at h1
            rw [upd_ne _ _ e2] at h2
            have := J.own w c' h2
            simp only [chunkOf, Option.some.injEq] at h1
            omega
        · rw [upd_ne _ _ e1] at h1
          by_cases e2 : w = t
          · subst e2
            rw [upd_self] at h2
            have := J.own u c' h1
            simp only [chunkOf, Option.some.injEq] at h2
            omega
          · rw [upd_ne _ _ e2] at h2
            exact J.uniq u w c' h1 h2
      · intro c' h
        dsimp only at h
        by_cases e : c' = σ.s.consumed
        · exact Or.inr ⟨t, by dsimp only; rw [upd_self, e]; rfl⟩
        · rcases J.held c' (by omega) with hh | hh
          · exact Or.inl hh
          · exact upd_ex (P := fun q => chunkOf q = some c') _ hh fun hx => by rw [hpc] at hx; simp [chunkOf] at hx
      · intro c' h1 h2
        dsimp only at h1
        exact J.fresh c' (by omega) h2
      · dsimp only; rw [hD2]; rw [hD1] at bound; simp only [isDone] at bound ⊢; omega
      · dsimp only
        rw [hr', hW2]
        rw [hr, hW1, Nat.mul_add, Nat.mul_one] at meas
        simp only [weight] at meas ⊢
        omega
    · rw [if_neg hck] at hp
      dsimp only at hp
      subst hp
      refine ⟨?_, ?_, ?_, ?_, fun c' h => ⟨(J.good c' h).le, (J.good c' h).loc, (J.good c' h).sum, (J.good c' h).zero⟩, upd_all hpcs (show Q.k ≤ σ.s.consumed + 1 by omega), J.outer, ?_, ?_⟩
      · intro u c' h
        dsimp only at h ⊢
        by_cases e : u = t
        · subst e; rw [upd_self] at h; simp [chunkOf] at h
        · rw [upd_ne _ _ e] at h; have := J.own u c' h; omega
      · intro u w c' h1 h2
        dsimp only at h1 h2
        by_cases e1 : u = t
        · subst e1; rw [upd_self] at h1; simp [chunkOf] at h1
        · rw [upd_ne _ _ e1] at h1
          by_cases e2 : w = t
          · subst e2; rw [upd_self] at h2; simp [chunkOf] at h2
          · rw [upd_ne _ _ e2] at h2
            exact J.uniq u w c' h1 h2
      · intro c' h
        dsimp only at h
        rcases J.held c' (by omega) with hh | hh
        · exact Or.inl hh
        · exact upd_ex (P := fun q => chunkOf q = some c') _ hh fun hx => by rw [hpc] at hx; simp [chunkOf] at hx
      · intro c' h1 h2
        dsimp only at h1
        exact J.fresh c' (by omega) h2
      · dsimp only; rw [hD2]; rw [hD1] at bound; simp only [isDone] at bound ⊢; omega
      · dsimp only
        rw [hr', hW2]
        rw [hr, hW1, Nat.mul_add, Nat.mul_one] at meas
        simp only [weight] at meas ⊢
        omega
  | start c a b =>
    rw [hpc] at hs pt
    have ht : chunkOf (σ.l t) = some c := by rw [hpc]; rfl
    have hc := J.own t c ht
    obtain ⟨rfl, rfl, hf⟩ := pt
    simp only [stepL, Option.some.injEq] at hs
    by_cases h0 : c = 0
    · rw [if_pos h0] at hs
      exact doFull_ok C hv J ht hf (fun _ => rfl) (fun h => by omega) (by rw [hpc]; simp only [weight]; omega) hs
    · rw [if_neg h0] at hs
      simp only [Prod.mk.injEq] at hs
      obtain ⟨rfl, rfl⟩ := hs
      by_cases hsm : hasSum (σ.s.state (c - 1)) = true
      · rw [if_pos hsm]
        exact inv_own C J ht (Same.refl _ _) (J.good c (by omega)) (fun h => h) ⟨rfl, rfl, hf, by omega, hsm⟩ (Or.inl rfl) rfl (by rw [hpc]; simp only [weight]; omega)
      · rw [if_neg hsm]
        exact inv_own C J ht (Same.refl _ _) (J.good c (by omega)) (fun h => h) ⟨rfl, rfl, hf, by omega⟩ (Or.inl rfl) rfl (by rw [hpc]; simp only [weight]; omega)
  | full c a b =>
    rw [hpc] at hs pt
    have ht : chunkOf (σ.l t) = some c := by rw [hpc]; rfl
    have hc := J.own t c ht
    obtain ⟨rfl, rfl, hf, hc0, hsm⟩ := pt
    have hg := J.good (c - 1) (by omega)
    simp only [stepL, hg.sum ((hasSum_iff hg.le).1 hsm), Option.some.injEq] at hs
    exact doFull_ok C hv J ht hf (fun h => by omega) (fun _ => rfl) (by rw [hpc]; simp only [weight]; omega) hs
  | pubSum c =>
    rw [hpc] at hs pt
    have ht : chunkOf (σ.l t) = some c := by rw [hpc]; rfl
    have hc := J.own t c ht
    obtain ⟨p1, p2, p3⟩ := pt
    simp only [stepL, Option.some.injEq, Prod.mk.injEq] at hs
    obtain ⟨rfl, rfl⟩ := hs
    refine inv_own C J ht ⟨rfl, fun c' h => upd_ne _ _ h, fun _ _ => rfl, fun _ _ => rfl, fun _ _ => rfl⟩ ?_ (fun _ => by dsimp only; rw [upd_self]; rfl) trivial (Or.inr ⟨rfl, by dsimp only; rw [upd_self]; rfl, p3⟩) rfl
      (by rw [hpc]; simp only [weight]; omega)
    refine ⟨by dsimp only; rw [upd_self]; omega, fun h => ?_, fun _ => p2, fun _ => by dsimp only; rw [upd_self]; omega⟩
    dsimp only at h; rw [upd_self] at h; omega
  | locl c a b =>
    rw [hpc] at hs pt
    have ht : chunkOf (σ.l t) = some c := by rw [hpc]; rfl
    have hc := J.own t c ht
    obtain ⟨rfl, rfl, hf, hc0⟩ := pt
    simp only [stepL, Option.some.injEq, Prod.mk.injEq] at hs
    obtain ⟨rfl, rfl⟩ := hs
    obtain ⟨e1, e2, e3⟩ := local_ok (op := Q.op) Q.A I (v := Q.v) (out := σ.s.out) (C.step c (by omega)) (fun y u w => by rw [hv y]; exact rd_congr I (hf.2 y u w))
    refine inv_own C J ht ⟨rfl, fun _ _ => rfl, fun c' h => upd_ne _ _ h, fun _ _ => rfl, e3⟩ ?_ (fun h => h) ⟨rfl, rfl, hf.1, hc0, ?_, e2⟩ (Or.inl rfl) rfl (by rw [hpc]; simp only [weight]; omega)
    · exact stOk_ne (s := σ.s) (J.good c (by omega)) rfl (Or.inr (Or.inl hf.1)) (Or.inl rfl)
    · dsimp only; rw [upd_self, e1]; rfl
  | pubLocal c a b =>
    rw [hpc] at hs pt
    have ht : chunkOf (σ.l t) = some c := by rw [hpc]; rfl
    have hc := J.own t c ht
    obtain ⟨rfl, rfl, p1, p2, p3, p4⟩ := pt
    simp only [stepL, Option.some.injEq, Prod.mk.injEq] at hs
    obtain ⟨rfl, rfl⟩ := hs
    refine inv_own C J ht ⟨rfl, fun c' h => upd_ne _ _ h, fun _ _ => rfl, fun _ _ => rfl, fun _ _ => rfl⟩ ?_ (fun h => by rw [p1] at h; exact absurd h (by decide)) ⟨rfl, rfl, by dsimp only; rw [upd_self], p2, p4⟩
      (Or.inl rfl) rfl (by rw [hpc]; simp only [weight]; omega)
    refine ⟨by dsimp only; rw [upd_self]; omega, fun _ => p3, fun h => ?_, fun h => by omega⟩
    dsimp only at h; rw [upd_self] at h; omega
  | wait c a b =>
    rw [hpc] at hs pt
    have ht : chunkOf (σ.l t) = some c := by rw [hpc]; rfl
    have hc := J.own t c ht
    obtain ⟨rfl, rfl, p1, p2, p4⟩ := pt
    unfold stepL at hs
    dsimp only at hs
    by_cases hz : σ.s.state (c - 1) = 0
    · rw [if_pos hz] at hs; exact absurd hs (by simp)
    · rw [if_neg hz] at hs
      simp only [Option.some.injEq, Prod.mk.injEq] at hs
      obtain ⟨rfl, rfl⟩ := hs
      have hg := J.good (c - 1) (by omega)
      unfold waited
      by_cases hsm : hasSum (σ.s.state (c - 1)) = true
      · rw [if_pos hsm, hg.sum ((hasSum_iff hg.le).1 hsm)]
        refine inv_own C J ht (Same.refl _ _) (J.good c (by omega)) (fun h => h) ⟨rfl, rfl, p1, p2, p4, ?_⟩ (Or.inl rfl) rfl (by rw [hpc]; simp only [weight]; omega)
        unfold S
        rw [show c - 1 + 1 = c by omega]
      · rw [if_neg hsm]
        have hle := hg.le
        have hsm' : ¬ (σ.s.state (c - 1) = 2 ∨ σ.s.state (c - 1) = 3) := fun h => hsm ((hasSum_iff hle).2 h)
        have h1 : σ.s.state (c - 1) = 1 := by omega
        have hc2 : ¬ c < 2 := by
          intro h
          exact hg.zero (by omega) h1
        rw [if_neg hc2, hg.loc (Or.inl h1)]
        refine inv_own C J ht (Same.refl _ _) (J.good c (by omega)) (fun h => h) ⟨rfl, rfl, p1, by omega, p4, ?_⟩ (Or.inl rfl) rfl (by rw [hpc]; simp only [weight]; omega)
        unfold L
        rw [show c - 1 + 1 = c by omega, show c - 2 + 1 = c - 1 by omega]
  | look c a b p acc =>
    rw [hpc] at hs pt
    have ht : chunkOf (σ.l t) = some c := by rw [hpc]; rfl
    have hc := J.own t c ht
    obtain ⟨rfl, rfl, p1, p2, p4, p5⟩ := pt
    unfold stepL at hs
    dsimp only at hs
    by_cases hz : σ.s.state p = 0
    · rw [if_pos hz] at hs; exact absurd hs (by simp)
    · rw [if_neg hz] at hs
      simp only [Option.some.injEq, Prod.mk.injEq] at hs
      obtain ⟨rfl, rfl⟩ := hs
      have hg := J.good p (by omega)
      have hstp := C.step p (by omega)
      have hst1 := C.step (p + 1) (by omega)
      have hm1 := C.mono (show p + 2 ≤ c by omega) (by omega)
      have hst1 : F Q (p + 1) < F Q (p + 2) := hst1
      unfold looked prevVal
      by_cases hsm : hasSum (σ.s.state p) = true
      · rw [if_pos hsm, hg.sum ((hasSum_iff hg.le).1 hsm)]
        dsimp only
        rw [if_pos hsm]
        refine inv_own C J ht (Same.refl _ _) (J.good c (by omega)) (fun h => h) ⟨rfl, rfl, p1, by omega, p4, ?_⟩ (Or.inl rfl) rfl (by rw [hpc]; simp only [weight]; omega)
        rw [p5]
        unfold S inc
        have := incl_split assoc Q.A.init Q.v (F Q (p + 1) - 1) (F Q c - F Q (p + 1) - 1)
        rw [show F Q (p + 1) - 1 + 1 = F Q (p + 1) by omega, show F Q (p + 1) + (F Q c - F Q (p + 1) - 1) = F Q c - 1 by omega] at this
        exact this.symm
      · rw [if_neg hsm]
        have hle := hg.le
        have hsm' : ¬ (σ.s.state p = 2 ∨ σ.s.state p = 3) := fun h => hsm ((hasSum_iff hle).2 h)
        have h1 : σ.s.state p = 1 := by omega
        have hp0 : ¬ p = 0 := fun h => hg.zero h h1
        rw [hg.loc (Or.inl h1)]
        dsimp only
        rw [if_neg hsm, if_neg hp0]
        refine inv_own C J ht (Same.refl _ _) (J.good c (by omega)) (fun h => h) ⟨rfl, rfl, p1, by omega, p4, ?_⟩ (Or.inl rfl) rfl (by rw [hpc]; simp only [weight]; omega)
        rw [p5]
        unfold L
        have := sum1_split assoc Q.v (F Q p) (F Q (p + 1) - F Q p - 1) (F Q c - F Q (p + 1) - 1)
        rw [show F Q p + (F Q (p + 1) - F Q p - 1) + 1 = F Q (p + 1) by omega, show F Q (p + 1) - F Q p - 1 + 1 + (F Q c - F Q (p + 1) - 1) = F Q c - F Q p - 1 by omega] at this
        rw [show p - 1 + 1 = p by omega]
        exact this
  | apply c a b pre =>
    rw [hpc] at hs pt
    have ht : chunkOf (σ.l t) = some c := by rw [hpc]; rfl
    have hc := J.own t c ht
    obtain ⟨rfl, rfl, p1, p2, p4, p5⟩ := pt
    have hg := J.good c (by omega)
    have hst := C.step c (by omega)
    have hF := C.step 0 (by omega)
    have hF' := C.mono (show 0 + 1 ≤ c by omega) (by omega)
    unfold stepL doApply at hs
    dsimp only at hs
    rw [hg.loc (Or.inl p1)] at hs
    simp only [Option.some.injEq, Prod.mk.injEq] at hs
    obtain ⟨rfl, rfl⟩ := hs
    refine inv_own C J ht ⟨rfl, fun _ _ => rfl, fun _ _ => rfl, fun c' h => upd_ne _ _ h, fun _ _ => rfl⟩ ?_ (fun h => h) ⟨rfl, rfl, p1, p2, p4, p5, ?_⟩ (Or.inl rfl) rfl (by rw [hpc]; simp only [weight]; omega)
    · exact stOk_ne (s := σ.s) hg rfl (Or.inl rfl) (Or.inr (Or.inr p1))
    · dsimp only
      rw [upd_self, p5]
      unfold L S inc
      have := incl_split assoc Q.A.init Q.v (F Q c - 1) (F Q (c + 1) - F Q c - 1)
      rw [show F Q c - 1 + 1 = F Q c by omega, show F Q c + (F Q (c + 1) - F Q c - 1) = F Q (c + 1) - 1 by omega] at this
      rw [this]
  | store c a b pre =>
    rw [hpc] at hs pt
    have ht : chunkOf (σ.l t) = some c := by rw [hpc]; rfl
    have hc := J.own t c ht
    obtain ⟨rfl, rfl, p1, p2, p4, p5, p6⟩ := pt
    have hg := J.good c (by omega)
    simp only [stepL, Option.some.injEq, Prod.mk.injEq] at hs
    obtain ⟨rfl, rfl⟩ := hs
    refine inv_own C J ht ⟨rfl, fun c' h => upd_ne _ _ h, fun _ _ => rfl, fun _ _ => rfl, fun _ _ => rfl⟩ ?_ (fun _ => by dsimp only; rw [upd_self]; rfl) ⟨rfl, rfl, by dsimp only; rw [upd_self], p2, p4, p5⟩
      (Or.inl rfl) rfl (by rw [hpc]; simp only [weight]; omega)
    refine ⟨by dsimp only; rw [upd_self], fun _ => hg.loc (Or.inl p1), fun _ => p6, fun h => by omega⟩
  | fix c a b pre =>
    rw [hpc] at hs pt
    have ht : chunkOf (σ.l t) = some c := by rw [hpc]; rfl
    have hc := J.own t c ht
    obtain ⟨rfl, rfl, p1, p2, p4, rfl⟩ := pt
    have hg := J.good c (by omega)
    have hst := C.step c (by omega)
    have hF := C.step 0 (by omega)
    have hF' := C.mono (show 0 + 1 ≤ c by omega) (by omega)
    simp only [stepL, Option.some.injEq, Prod.mk.injEq] at hs
    obtain ⟨rfl, rfl⟩ := hs
    obtain ⟨e1, e2⟩ := apply_ok assoc Q.A (v := Q.v) (out := σ.s.out) (a := F Q c) (b := F Q (c + 1)) (by omega) hst p4
    have hsm : hasSum (σ.s.state c) = true := by rw [p1]; rfl
    exact inv_own C J ht ⟨rfl, fun _ _ => rfl, fun _ _ => rfl, fun _ _ => rfl, e2⟩ ⟨hg.le, hg.loc, hg.sum, hg.zero⟩ (fun h => h) trivial (Or.inr ⟨rfl, hsm, e1⟩) rfl (by rw [hpc]; simp only [weight]; omega)
  | done => rw [hpc] at hs; simp [stepL] at hs
  | crash => rw [hpc] at hs; simp [stepL] at hs

theorem inv {m : Nat} (hk : 1 ≤ Q.k) (hn : Q.k ≤ Q.n) (hB : Q.n < 2 ^ 63) (hT : Q.k + Fintype.card ι < 2 ^ 64) {I : Src α} (hv : ∀ x, Q.v x = I.rd Q.out0 x)
    (assoc : ∀ x y z, Q.op (Q.op x y) z = Q.op x (Q.op y z)) {σ : State ι α} (h : Reach (team Q.n Q.k) Q.A I Q.op Q.out0 m σ) : Inv Q m σ := by
  induction h with
  | init => exact inv_init
  | step _ hs ih => exact inv_step hk hn hB hT hv assoc ih hs

/-! ## The theorems -/

/-- **C40**: parallel scans of `n` elements in `k` chunks by any number of threads, any interleaving, for an associative operation; the input may be the destination itself.
When the algorithm returns, the destination holds what the sequential algorithm stores; nothing undefined happens (no value is read before it was constructed). -/
theorem C40_scan {n k m : Nat} (hk : 1 ≤ k) (hn : k ≤ n) (hB : n < 2 ^ 63) (hT : k + Fintype.card ι < 2 ^ 64) {T : Team} (hm : mkTeam n k = .ok T)
    (assoc : ∀ x y z, op (op x y) z = op x (op y z)) {A : Alg α} {I : Src α} {out : Nat → α} {σ : State ι α} (h : Reach T A I op out m σ) :
    (∀ t, σ.l t ≠ .crash) ∧ ∀ caller, Finished caller σ →
      (∀ x, x < n → σ.s.out x = match A with
        | .excl i => exclusive op i (I.rd out) x
        | .incl o => inclusive op o (I.rd out) x) ∧
      ∀ x, n ≤ x → σ.s.out x = out x := by
  rw [mkTeam_ok hk hn hB] at hm
  simp only [Except.ok.injEq] at hm
  subst hm
  have J := inv (Q := ⟨n, k, A, op, out, I.rd out⟩) hk hn hB hT (fun _ => rfl) assoc h
  have C := off_cut hk hn
  refine ⟨fun t ht => by have := J.pcs t; rw [ht] at this; exact this, ?_⟩
  rintro caller ⟨hc, hall⟩
  have hd := J.pcs caller
  rw [hc] at hd
  have hd : k ≤ σ.s.consumed := hd
  refine ⟨fun x hx => ?_, ?_⟩
  · obtain ⟨c, ⟨hck, h1, h2⟩, _⟩ := C.unique hx
    rcases J.held c (by show c < min σ.s.consumed k; omega) with ⟨_, hf⟩ | ⟨t, ht⟩
    · have := hf x h1 h2
      cases A with
      | excl i => exact this
      | incl o => exact this
    · exfalso
      rcases hall t with e | e <;> rw [e] at ht <;> simp [chunkOf] at ht
  · exact J.outer

/-- **C40**: no deadlock and no endless run: unless every started thread is done, a started thread can go on, and no execution is longer than this. -/
theorem C40_scan_terminates {n k m : Nat} (hk : 1 ≤ k) (hn : k ≤ n) (hB : n < 2 ^ 63) (hT : k + Fintype.card ι < 2 ^ 64) {T : Team} (hm : mkTeam n k = .ok T)
    (assoc : ∀ x y z, op (op x y) z = op x (op y z)) {A : Alg α} {I : Src α} {out : Nat → α} {σ : State ι α} (h : Reach T A I op out m σ) :
    m ≤ (k + 9) * (k + Fintype.card ι) + Fintype.card ι ∧ ∀ t, σ.l t ≠ .idle → σ.l t ≠ .done → ∃ u σ', σ.l u ≠ .idle ∧ step T A I op σ u = some σ' := by
  rw [mkTeam_ok hk hn hB] at hm
  simp only [Except.ok.injEq] at hm
  subst hm
  have J := inv (Q := ⟨n, k, A, op, out, I.rd out⟩) hk hn hB hT (fun _ => rfl) assoc h
  refine ⟨by have := J.meas; dsimp only at this; omega, fun t hti htd => ?_⟩
  have en : ∀ u, σ.l u ≠ .idle → (stepL (team n k) A I op σ.s (σ.l u)).isSome = true → ∃ u σ', σ.l u ≠ .idle ∧ step (team n k) A I op σ u = some σ' := by
    intro u hui hu
    obtain ⟨r, hr⟩ := Option.isSome_iff_exists.1 hu
    exact ⟨u, ⟨r.1, upd σ.l u r.2⟩, hui, by unfold step; rw [hr]; rfl⟩
  -- whoever has not published anything for its chunk can go on
  have key : ∀ p, p < min σ.s.consumed k → σ.s.state p = 0 → ∃ u σ', σ.l u ≠ .idle ∧ step (team n k) A I op σ u = some σ' := by
    intro p hp hz
    rcases J.held p hp with ⟨h1, _⟩ | ⟨u, hu⟩
    · rw [hz] at h1; exact absurd h1 (by decide)
    · have hpu := J.pcs u
      refine en u (fun e => by rw [e] at hu; simp [chunkOf] at hu) ?_
      cases hq : σ.l u with
      | wait c a b =>
        rw [hq] at hu hpu
        simp only [chunkOf, Option.some.injEq] at hu
        subst hu
        have := hpu.2.2.1
        omega
      | look c a b q acc =>
        rw [hq] at hu hpu
        simp only [chunkOf, Option.some.injEq] at hu
        subst hu
        have := hpu.2.2.1
        omega
      | idle => rw [hq] at hu; simp [chunkOf] at hu
      | done => rw [hq] at hu; simp [chunkOf] at hu
      | crash => rw [hq] at hu; simp [chunkOf] at hu
      | _ => rfl
  have hpt := J.pcs t
  cases hp : σ.l t with
  | wait c a b =>
    by_cases hz : σ.s.state (c - 1) = 0
    · have := J.own t c (by rw [hp]; rfl)
      have : c < min σ.s.consumed k := this
      exact key (c - 1) (by omega) hz
    · refine en t hti ?_
      rw [hp]
      unfold stepL
      dsimp only
      rw [if_neg hz]; rfl
  | look c a b p acc =>
    by_cases hz : σ.s.state p = 0
    · have := J.own t c (by rw [hp]; rfl)
      have : c < min σ.s.consumed k := this
      rw [hp] at hpt
      have := hpt.2.2.2.1
      exact key p (by omega) hz
    · refine en t hti ?_
      rw [hp]
      unfold stepL
      dsimp only
      rw [if_neg hz]; rfl
  | idle => exact absurd hp hti
  | done => exact absurd hp htd
  | crash => rw [hp] at hpt; exact hpt.elim
  | _ => exact en t hti (by rw [hp]; rfl)

end STL.Par.Scan
