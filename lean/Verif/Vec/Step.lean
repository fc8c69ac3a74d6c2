import Verif.Vec.World

/-! # The code refines the specification. Proofs only. -/

namespace STL.Vec
open STL
variable {α β : Type}

theorem Sat.and {m : M α β} {w : W α} {Q1 Q2 : β → W α → Prop} {E1 E2 : Exc → W α → Prop} (h1 : Sat m w Q1 E1) (h2 : Sat m w Q2 E2) :
    Sat m w (fun b w' => Q1 b w' ∧ Q2 b w') (fun e w' => E1 e w' ∧ E2 e w') := by
  unfold Sat at *
  cases hm : m w with
  | ok b w' => rw [hm] at h1 h2; exact ⟨h1, h2⟩
  | exc e w' => rw [hm] at h1 h2; exact ⟨h1, h2⟩
  | ub => rw [hm] at h1; exact h1

/-- It is certain that `length_error` is thrown. -/
def TooLong (m : M α β) (w : W α) : Prop := Sat m w (fun _ _ => False) (fun e _ => e = .lengthError)

theorem Sat.must {m : M α β} {w : W α} {Q : β → W α → Prop} {E : Exc → W α → Prop} {N n : Nat} (h : Sat m w Q E) (ht : N < n → TooLong m w) :
    Sat m w (fun b w' => Q b w' ∧ n ≤ N) (fun e w' => E e w' ∧ (N < n → e = .lengthError)) := by
  by_cases hn : N < n
  · exact (h.and (ht hn)).mono (fun _ _ h => absurd h.2 id) fun _ _ h => ⟨h.1, fun _ => h.2⟩
  · exact h.mono (fun _ _ h => ⟨h, by omega⟩) fun _ _ h => ⟨h, fun h => absurd h hn⟩

section
variable {P : Par α} {w : W α} {X : List α}

theorem tooLong_emplaceRealloc (own : Own P w X) (h : P.max < X.length + 1) {off : Nat} {a : Arg α} : TooLong (emplaceRealloc P off a) w := by
  have := own.len
  have := own.le
  have := own.mx
  unfold emplaceRealloc
  exact Sat.getV (Sat.ite (fun _ => Sat.throw rfl) fun h => absurd (by omega) h)

theorem tooLong_emplaceBack (own : Own P w X) (h : P.max < X.length + 1) {a : Arg α} : TooLong (emplaceBack P a) w := by
  have := own.len
  have := own.le
  have := own.mx
  unfold emplaceBack
  exact Sat.getV (Sat.ite (fun h => by omega) fun _ => tooLong_emplaceRealloc own h)

theorem tooLong_emplace (own : Own P w X) (h : P.max < X.length + 1) {pos : Nat} {a : Arg α} : TooLong (emplace P pos a) w := by
  have := own.len
  have := own.le
  have := own.mx
  unfold emplace
  exact Sat.getV (Sat.ite (fun h => by omega) fun _ => tooLong_emplaceRealloc own h)

theorem tooLong_insertN (own : Own P w X) {n : Nat} (h : P.max < X.length + n) {pos : Nat} {src : Src α} : TooLong (insertN P pos n src) w := by
  have := own.len
  have := own.le
  have := own.mx
  unfold insertN
  refine Sat.getV ?_
  dsimp only
  exact Sat.ite (fun h => by omega) fun _ => Sat.ite (fun _ => Sat.ite (fun _ => Sat.throw rfl) fun h => by omega) fun h => by omega

theorem tooLong_append (own : Own P w X) {xs : List α} (h : P.max < X.length + xs.length) : TooLong (append P xs) w := by
  have := own.len
  have := own.le
  have := own.mx
  unfold append
  exact Sat.getV (Sat.ite (fun h => by omega) fun _ => Sat.ite (fun _ => Sat.ite (fun _ => Sat.throw rfl) fun h => by omega) fun h => by omega)

theorem tooLong_insertRange (own : Own P w X) {xs : List α} (h : P.max < X.length + xs.length) {pos : Nat} : TooLong (insertRange P pos xs) w := by
  have := own.len
  have := own.le
  have := own.mx
  unfold insertRange
  refine Sat.getV ?_
  dsimp only
  exact Sat.ite (fun h => by omega) fun _ => Sat.ite (fun _ => Sat.ite (fun _ => Sat.throw rfl) fun h => by omega) fun h => by omega

theorem tooLong_assignRange (own : Own P w X) {xs : List α} (h : P.max < xs.length) : TooLong (assignRange P xs) w := by
  have := own.mx
  unfold assignRange clearAndReserve
  refine Sat.getV ?_
  dsimp only
  exact Sat.ite (fun _ => Sat.bind (Sat.ite (fun _ => Sat.throw rfl) fun h => by omega)) fun h => by omega

theorem tooLong_resize (own : Own P w X) {n : Nat} (h : P.max < n) {src : Src α} : TooLong (resize P n src) w := by
  have := own.le
  have := own.mx
  unfold resize
  exact Sat.getV (Sat.ite (fun h => by omega) fun _ => Sat.ite (fun _ => Sat.ite (fun _ => Sat.ite (fun _ => Sat.throw rfl) fun h => by omega)
    fun h => by omega) fun h => by omega)

theorem tooLong_reserve (own : Own P w X) {n : Nat} (h : P.max < n) : TooLong (reserve P n) w := by
  have := own.mx
  unfold reserve
  exact Sat.getV (Sat.ite (fun _ => Sat.ite (fun _ => Sat.throw rfl) fun h => by omega) fun h => by omega)

end

section
variable {P : Par α} {g : Pg α} {s : St α} {k : Nat} {w : W α}

theorem Inv.keeps (I : Inv P g s) {X' : List α} (h : Same { g.mem with v := g.vs k } w) : keeps (s k) ⟨X', w.v.cap, w.v.buf⟩ :=
  ⟨by rw [I.loc]; exact h.1, by rw [I.cap]; exact h.2⟩

theorem Inv.eqEnt (I : Inv P g s) (h : Same { g.mem with v := g.vs k } w) : (⟨(s k).X, w.v.cap, w.v.buf⟩ : Ent α) = s k := by
  rw [I.ent k, h.1, h.2]

theorem Inv.relocates (I : Inv P g s) {X' : List α} {n : Nat} (h1 : g.mem.nxt ≤ w.v.buf) (h2 : n ≤ w.v.cap) :
    relocates s n ⟨X', w.v.cap, w.v.buf⟩ := by
  refine ⟨?_, ?_, h2⟩
  · have := I.sane.pos
    show w.v.buf ≠ 0
    omega
  · intro m
    have : (g.vs m).buf < g.mem.nxt := (I.own m).lt (I.sane' m)
    rw [I.loc]
    show (g.vs m).buf ≠ w.v.buf
    omega

theorem Inv.grows (I : Inv P g s) {X' : List α} {n : Nat} (h : Room P n { g.mem with v := g.vs k } w) : grows P s n (s k) ⟨X', w.v.cap, w.v.buf⟩ := by
  unfold Vec.grows
  rw [I.cap]
  split
  · next hn => exact I.keeps (h.1 hn)
  · next hn =>
    obtain ⟨a, b, c⟩ := h.2 (show (g.vs k).cap < n by omega)
    exact ⟨I.relocates a b, c⟩

/-- A member function. -/
theorem Inv.member (I : Inv P g s) {m : M α β} {f : β → Out α} {Q : β → W α → Prop} {E : Exc → W α → Prop} {F : Ent α → Out α → Prop}
    (h : Sat m { g.mem with v := g.vs k } Q E)
    (hQ : ∀ b w, Q b w → ∃ X', Good P { g.mem with v := g.vs k } w X' ∧ F ⟨X', w.v.cap, w.v.buf⟩ (f b))
    (hE : ∀ e w, E e w → ∃ X', Good P { g.mem with v := g.vs k } w X' ∧ F ⟨X', w.v.cap, w.v.buf⟩ (.exc e)) :
    ∃ g' out s', member g k m f = some (g', out) ∧ Inv P g' s' ∧ on s s' k fun _ e' => F e' out := by
  unfold Sat at h
  unfold Vec.member
  cases hm : m { g.mem with v := g.vs k } with
  | ok b w =>
    rw [hm] at h
    obtain ⟨X', G, hF⟩ := hQ b w h
    exact ⟨_, _, _, rfl, I.slot G, _, hF, rfl⟩
  | exc e w =>
    rw [hm] at h
    obtain ⟨X', G, hF⟩ := hE e w h
    exact ⟨_, _, _, rfl, I.slot G, _, hF, rfl⟩
  | ub => rw [hm] at h; exact absurd h id

/-- Adding elements failed. -/
theorem Inv.failed (I : Inv P g s) {X2 Y : List α} {n : Nat} {e : Exc} {G : List α → Prop} (h : Fail P { g.mem with v := g.vs k } w (s k).X X2 n e)
    (hm : P.max < n → e = .lengthError) (hG : G X2) : added P s n Y G (s k) ⟨X2, w.v.cap, w.v.buf⟩ (.exc e) := by
  rcases h.kind with rfl | rfl | rfl
  · obtain ⟨a, b⟩ := h.length rfl
    subst b
    exact ⟨a, I.eqEnt h.same⟩
  · obtain ⟨a, b⟩ := h.alloc rfl
    subst b
    refine ⟨?_, ?_, I.eqEnt h.same⟩
    · by_cases hh : P.max < n
      · cases hm hh
      · omega
    · rw [I.cap]
      exact a
  · refine ⟨?_, I.keeps h.same, hG⟩
    by_cases hh : P.max < n
    · cases hm hh
    · omega

theorem Inv.afailed (I : Inv P g s) {X2 xs : List α} {e : Exc} (h : AFail P { g.mem with v := g.vs k } w (s k).X X2 xs.length e)
    (hm : P.max < xs.length → e = .lengthError) : assigned P s xs (s k) ⟨X2, w.v.cap, w.v.buf⟩ (.exc e) := by
  rcases h.kind with rfl | rfl | rfl
  · obtain ⟨a, b, c⟩ := h.length rfl
    subst b
    exact ⟨a, I.eqEnt c⟩
  · obtain ⟨a, b⟩ := h.alloc rfl
    subst b
    refine ⟨?_, ?_, rfl⟩
    · by_cases hh : P.max < xs.length
      · cases hm hh
      · omega
    · rw [I.cap]
      exact a
  · refine ⟨?_, ?_⟩
    · by_cases hh : P.max < xs.length
      · cases hm hh
      · omega
    · rw [I.cap]
      rcases h.user rfl with ⟨a, b⟩ | ⟨a, b, c⟩
      · exact .inl ⟨a, b⟩
      · exact .inr ⟨a, I.keeps c, b⟩

theorem Inv.parted (I : Inv P g s) {X2 xs Y : List α} {e : Exc} {n : Nat} {strong : Prop} (h : Part P { g.mem with v := g.vs k } w (s k).X xs X2 strong e n) :
    addedOneByOne P s xs Y strong (s k) ⟨X2, w.v.cap, w.v.buf⟩ (.exc e) := by
  refine ⟨n, h.le, I.grows h.room, h.len, h.strong, ?_⟩
  rcases h.kind with rfl | rfl | rfl
  · obtain ⟨a, b, c⟩ := h.length rfl
    exact .inl ⟨rfl, b, a, c⟩
  · obtain ⟨a, b, c⟩ := h.alloc rfl
    exact .inr (.inl ⟨rfl, b, a, c⟩)
  · exact .inr (.inr rfl)

theorem Inv.built (I : Inv P g s) (hk : s k = Ent.null) {xs : List α} (h : Built P { g.mem with v := g.vs k } w xs) :
    built P s xs ⟨xs, w.v.cap, w.v.buf⟩ .none := by
  refine ⟨rfl, ?_⟩
  split
  · next hx =>
    rw [h.null hx, hx]
    show (⟨[], (g.vs k).cap, (g.vs k).buf⟩ : Ent α) = Ent.null
    rw [I.null hk]
    rfl
  · next hx =>
    obtain ⟨a, b⟩ := h.new hx
    exact I.relocates a b

theorem Inv.builtFail {xs : List α} {e : Exc} (h : CFail P { g.mem with v := g.vs k } w xs e) :
    Vec.built P s xs ⟨[], w.v.cap, w.v.buf⟩ (.exc e) := by
  have hn : (⟨[], w.v.cap, w.v.buf⟩ : Ent α) = Ent.null := by
    rw [h.null]
    rfl
  rw [hn]
  rcases h.kind with rfl | rfl | rfl
  · exact ⟨h.length rfl, rfl⟩
  · exact ⟨h.ne, rfl⟩
  · exact ⟨h.ne, rfl⟩

end

theorem argIs {X : List α} {a : Arg α} {x : α} (h : argVal X a = some x) : ArgIs X a x := by
  cases a with
  | ext y => exact Option.some.inj h
  | copy i => exact h
  | move i => exact h

theorem srcIs {X : List α} {a : Src α} {x : α} (h : srcVal' X a = some x) : ArgIs X a.arg x := by
  cases a with
  | ext y => exact Option.some.inj h
  | self i => exact h

theorem sat_readAll {b N : Nat} : ∀ (n i : Nat) {X : List α} {w : W α} {E : Exc → W α → Prop}, (0 < n → w.caps b = some N) → (0 < n → i + n ≤ N) →
    (∀ j, j < n → w.cel b (i + j) = X[j]?) → X.length = n → Sat (readAll b i n) w (fun xs w' => xs = X ∧ w' = w) E
  | 0, i, X, w, E, _, _, _, hl => Sat.pure' ⟨(List.length_eq_zero_iff.1 hl).symm, rfl⟩
  | n + 1, i, [], w, E, _, _, _, hl => by cases hl
  | n + 1, i, x :: X, w, E, hc, hN, hX, hl => by
    have h2 := hN (by omega)
    unfold readAll
    refine Sat.bind (Sat.rd (n := N) (x := x) (hc (by omega)) (by omega) (hX 0 (by omega)) ?_)
    refine Sat.then (sat_readAll n (i + 1) (X := X) (fun _ => hc (by omega)) (fun _ => by omega) ?_ (by simpa using hl)) (fun _ _ h => h) ?_
    · intro j hj
      have := hX (j + 1) (by omega)
      rw [show i + 1 + j = i + (j + 1) by omega, this]
      rfl
    · rintro xs w' ⟨rfl, rfl⟩
      exact Sat.pure' ⟨rfl, rfl⟩

theorem Inv.readAll {P : Par α} {g : Pg α} {s : St α} (I : Inv P g s) {k l : Nat} {E : Exc → W α → Prop} :
    Sat (readAll (g.vs l).buf 0 (g.vs l).size) { g.mem with v := g.vs k } (fun xs w' => xs = (s l).X ∧ w' = { g.mem with v := g.vs k }) E := by
  have O := I.own l
  have h1 : (g.vs l).size ≤ (g.vs l).cap := O.le
  refine sat_readAll (N := (g.vs l).cap) _ _ ?_ ?_ ?_ (I.len l)
  · intro h
    exact O.caps (by show 0 < (g.vs l).cap; omega)
  · omega
  · intro j _
    rw [Nat.zero_add]
    exact O.cell j

theorem afterMatch {P : Par α} {X : List α} {a : Arg α} {x : α} : argLeft P X a x = afterArg P.mv X a x := by
  cases a <;> rfl

theorem insertIdx_eq {X : List α} {x : α} : ∀ {pos : Nat}, pos ≤ X.length → X.insertIdx pos x = X.take pos ++ [x] ++ X.drop pos := by
  intro pos h
  induction X generalizing pos with
  | nil =>
    have : pos = 0 := by simpa using h
    subst this
    rfl
  | cons y X ih =>
    cases pos with
    | zero => rfl
    | succ pos =>
      rw [List.insertIdx_succ_cons, ih (by simpa using h)]
      rfl

theorem notLong {N n : Nat} {e : Exc} (h : N < n → e = .lengthError) (he : e ≠ .lengthError) : n ≤ N := by
  by_cases hh : N < n
  · exact absurd (h hh) he
  · omega

theorem onE {s s' : St α} {k : Nat} {f : Ent α → Ent α → Prop} (h : on s s' k fun _ e' => f (s k) e') : on s s' k f := h

theorem step_ok {P : Par α} {g : Pg α} {s : St α} (I : Inv P g s) {op : Op α} (hp : pre s op) :
    ∃ g' out s', step P g op = some (g', out) ∧ Inv P g' s' ∧ sem P s op s' out := by
  have hnull : ∀ k, s k = Ent.null → Own P { g.mem with v := g.vs k } [] := by
    intro k hk
    have := I.own k
    rw [hk] at this
    exact this
  have hr : ∀ k l {m : List α → M α Unit} {Q : Unit → W α → Prop} {E : Exc → W α → Prop}, Sat (m (s l).X) { g.mem with v := g.vs k } Q E →
      Sat (readAll (g.vs l).buf 0 (g.vs l).size >>= m) { g.mem with v := g.vs k } Q E := by
    intro k l m Q E h
    refine Sat.then (I.readAll (E := fun _ _ => False)) (fun _ _ h => absurd h id) ?_
    rintro xs w ⟨rfl, rfl⟩
    exact h
  cases op with
  | newN k n x =>
    have hp : s k = Ent.null := hp
    unfold step sem
    dsimp only
    rw [ctorN_eq]
    exact I.member (F := fun e' out => built P s (List.replicate n x) e' out) (sat_ctorRange (I.null hp) (hnull k hp) (I.sane' k))
      (fun _ w h => ⟨_, h.good, I.built hp h⟩) fun e w h => ⟨_, h.good, Inv.builtFail h⟩
  | newRange k xs =>
    have hp : s k = Ent.null := hp
    exact I.member (F := fun e' out => built P s xs e' out) (sat_ctorRange (I.null hp) (hnull k hp) (I.sane' k))
      (fun _ w h => ⟨_, h.good, I.built hp h⟩) fun e w h => ⟨_, h.good, Inv.builtFail h⟩
  | newInput k xs =>
    have hp : s k = Ent.null := hp
    exact I.member (F := fun e' out => built P s xs e' out) (sat_ctorInput (I.null hp) (hnull k hp) (I.sane' k))
      (fun _ w h => ⟨_, h.good, I.built hp h⟩) fun e w h => ⟨_, h.good, Inv.builtFail h⟩
  | newCopy k l =>
    have hp : s k = Ent.null := hp
    exact I.member (F := fun e' out => built P s (s l).X e' out) (hr k l (sat_ctorRange (I.null hp) (hnull k hp) (I.sane' k)))
      (fun _ w h => ⟨_, h.good, I.built hp h⟩) fun e w h => ⟨_, h.good, Inv.builtFail h⟩
  | newMove k l =>
    obtain ⟨h1, h2⟩ := hp
    exact ⟨_, _, _, rfl, I.take h2 h1, rfl, rfl⟩
  | destroy k =>
    obtain ⟨g', out, s', h1, h2, e', ⟨h3, h4⟩, h5⟩ := I.member (k := k) (f := fun _ => .none) (F := fun e' out => out = .none ∧ e' = Ent.null)
      (sat_tidy (I.own k) (I.sane' k) (E := fun _ _ => False)) (fun _ w h => ⟨_, h.1, rfl, by rw [h.2.1]; rfl⟩) fun e w h => absurd h id
    rw [h4] at h5
    exact ⟨g', out, s', h1, h2, h3, h5⟩
  | emplaceBack k a =>
    have hp : (argVal (s k).X a).isSome := hp
    obtain ⟨x, hx⟩ := Option.isSome_iff_exists.1 hp
    refine I.member (F := fun e' out => ∀ x, argVal (s k).X a = some x →
      added P s ((s k).X.length + 1) (argLeft P (s k).X a x ++ [x])
        (fun Z => Z.length = (s k).X.length ∧ (P.nmc = true ∨ P.cc = true → spared (s k).X a Z)) (s k) e' out)
      ((sat_emplaceBack (I.own k) (I.sane' k) (argIs hx)).must (N := P.max) (n := (s k).X.length + 1) fun h => tooLong_emplaceBack (I.own k) h) ?_ ?_
    · rintro _ w ⟨⟨G, r⟩, hm⟩
      refine ⟨_, G, ?_⟩
      intro y hy
      obtain rfl := Option.some.inj (hx.symm.trans hy)
      rw [afterMatch]
      exact ⟨rfl, hm, I.grows r⟩
    · rintro e w ⟨⟨X2, F, hl, hs⟩, hm⟩
      exact ⟨X2, F.good, fun y _ => I.failed F hm ⟨hl, hs⟩⟩
  | emplace k pos a =>
    obtain ⟨hp, hpos⟩ := hp
    obtain ⟨x, hx⟩ := Option.isSome_iff_exists.1 hp
    refine I.member (F := fun e' out => ∀ x, argVal (s k).X a = some x →
      added P s ((s k).X.length + 1) ((argLeft P (s k).X a x).insertIdx pos x)
        (fun Z => P.nmc = true ∧ (P.nma = true ∨ pos = (s k).X.length) ∨ pos = (s k).X.length ∧ P.cc = true → spared (s k).X a Z) (s k) e' out)
      ((sat_emplace (I.own k) (I.sane' k) (argIs hx) hpos).must (N := P.max) (n := (s k).X.length + 1) fun h => tooLong_emplace (I.own k) h) ?_ ?_
    · rintro _ w ⟨⟨G, r⟩, hm⟩
      refine ⟨_, G, ?_⟩
      intro y hy
      obtain rfl := Option.some.inj (hx.symm.trans hy)
      rw [afterMatch, insertIdx_eq (by rw [afterArg_length]; exact hpos)]
      exact ⟨rfl, hm, I.grows r⟩
    · rintro e w ⟨⟨X2, F, hs⟩, hm⟩
      exact ⟨X2, F.good, fun y _ => I.failed F hm hs⟩
  | insertN k pos n src =>
    obtain ⟨hp, hpos⟩ := hp
    obtain ⟨x, hx⟩ := Option.isSome_iff_exists.1 hp
    refine I.member (F := fun e' out => ∀ x, srcVal' (s k).X src = some x →
      added P s ((s k).X.length + n) ((s k).X.take pos ++ List.replicate n x ++ (s k).X.drop pos)
        (fun Z => pos = (s k).X.length ∧ n = 1 ∧ (P.nmc = true ∨ P.cc = true) → Z = (s k).X) (s k) e' out)
      ((sat_insertN (I.own k) (I.sane' k) (srcIs hx) hpos).must (N := P.max) (n := (s k).X.length + n) fun h => tooLong_insertN (I.own k) h) ?_ ?_
    · rintro _ w ⟨⟨G, r⟩, hm⟩
      refine ⟨_, G, ?_⟩
      intro y hy
      obtain rfl := Option.some.inj (hx.symm.trans hy)
      exact ⟨rfl, hm, I.grows r⟩
    · rintro e w ⟨⟨X2, F, hs⟩, hm⟩
      exact ⟨X2, F.good, fun y _ => I.failed F hm fun h => hs h.1 h.2.1 h.2.2⟩
  | append k xs =>
    refine I.member (F := fun e' out => added P s ((s k).X.length + xs.length) ((s k).X ++ xs)
        (fun Z => P.nmc = true ∨ xs.length = 1 ∧ P.cc = true ∨ (s k).X.length + xs.length ≤ (s k).cap → Z = (s k).X) (s k) e' out)
      ((sat_append (I.own k) (I.sane' k)).must (N := P.max) (n := (s k).X.length + xs.length) fun h => tooLong_append (I.own k) h) ?_ ?_
    · rintro _ w ⟨⟨G, r⟩, hm⟩
      exact ⟨_, G, rfl, hm, I.grows r⟩
    · rintro e w ⟨⟨X2, F, hs⟩, hm⟩
      refine ⟨X2, F.good, I.failed F hm fun h => hs ?_⟩
      rw [I.cap] at h
      unfold RangeStrong
      rcases h with h | h | h
      · exact .inl ⟨h, .inr rfl⟩
      · exact .inr ⟨rfl, .inl h⟩
      · exact .inr ⟨rfl, .inr h⟩
  | insertRange k pos xs =>
    refine I.member (F := fun e' out => added P s ((s k).X.length + xs.length) ((s k).X.take pos ++ xs ++ (s k).X.drop pos)
        (fun Z => P.nmc = true ∧ P.nma = true ∨ pos = (s k).X.length ∧ (P.nmc = true ∨ xs.length = 1 ∧ P.cc = true ∨
          (s k).X.length + xs.length ≤ (s k).cap) → Z = (s k).X) (s k) e' out)
      ((sat_insertRange (I.own k) (I.sane' k) hp).must (N := P.max) (n := (s k).X.length + xs.length) fun h => tooLong_insertRange (I.own k) h) ?_ ?_
    · rintro _ w ⟨⟨G, r⟩, hm⟩
      exact ⟨_, G, rfl, hm, I.grows r⟩
    · rintro e w ⟨⟨X2, F, hs⟩, hm⟩
      refine ⟨X2, F.good, I.failed F hm fun h => hs ?_⟩
      rw [I.cap] at h
      unfold RangeStrong
      rcases h with h | ⟨h', h | h | h⟩
      · exact .inl ⟨h.1, .inl h.2⟩
      · exact .inl ⟨h, .inr h'⟩
      · exact .inr ⟨h', .inl h⟩
      · exact .inr ⟨h', .inr h⟩
  | appendInput k xs =>
    refine I.member (F := fun e' out => addedOneByOne P s xs ((s k).X ++ xs) (P.nmc = true ∨ P.cc = true) (s k) e' out)
      (sat_appendInput (I.own k) (I.sane' k)) ?_ ?_
    · rintro _ w ⟨G, r⟩
      exact ⟨_, G, rfl, I.grows r⟩
    · rintro e w ⟨X2, n, h⟩
      exact ⟨X2, h.good, I.parted h⟩
  | insertInput k pos xs =>
    refine I.member (F := fun e' out => addedOneByOne P s xs ((s k).X.take pos ++ xs ++ (s k).X.drop pos) (P.nmc = true ∧ P.nma = true) (s k) e' out)
      (sat_insertInput (I.own k) (I.sane' k) hp) ?_ ?_
    · rintro _ w ⟨G, r⟩
      exact ⟨_, G, rfl, I.grows r⟩
    · rintro e w ⟨X2, n, h⟩
      exact ⟨X2, h.good, I.parted h⟩
  | assignN k n x =>
    unfold step sem
    dsimp only
    rw [assignN_eq]
    refine I.member (F := fun e' out => assigned P s (List.replicate n x) (s k) e' out)
      ((sat_assignRange (I.own k) (I.sane' k)).must (N := P.max) (n := (List.replicate n x).length) fun h => tooLong_assignRange (I.own k) h) ?_ ?_
    · rintro _ w ⟨⟨G, r⟩, hm⟩
      exact ⟨_, G, rfl, hm, I.grows r⟩
    · rintro e w ⟨⟨X2, F⟩, hm⟩
      exact ⟨X2, F.good, I.afailed F hm⟩
  | assignRange k xs =>
    refine I.member (F := fun e' out => assigned P s xs (s k) e' out)
      ((sat_assignRange (I.own k) (I.sane' k)).must (N := P.max) (n := xs.length) fun h => tooLong_assignRange (I.own k) h) ?_ ?_
    · rintro _ w ⟨⟨G, r⟩, hm⟩
      exact ⟨_, G, rfl, hm, I.grows r⟩
    · rintro e w ⟨⟨X2, F⟩, hm⟩
      exact ⟨X2, F.good, I.afailed F hm⟩
  | assignInput k xs =>
    refine I.member (F := fun e' out => assignedOneByOne P s xs (s k) e' out) (sat_assignInput (I.own k) (I.sane' k)) ?_ ?_
    · rintro _ w ⟨G, r⟩
      exact ⟨_, G, rfl, I.grows r⟩
    · rintro e w ⟨X2, F⟩
      refine ⟨X2, F.good, ?_⟩
      rcases F.kind with rfl | rfl | rfl
      · exact F.length rfl
      · obtain ⟨a, b⟩ := F.alloc rfl
        exact ⟨by rw [I.cap]; exact a, b⟩
      · exact F.user rfl
  | copyAssign k l =>
    unfold step sem
    dsimp only
    by_cases hkl : k = l
    · rw [if_pos hkl]
      simp only [if_pos hkl]
      exact ⟨g, .none, s, rfl, I, rfl, rfl⟩
    · rw [if_neg hkl]
      simp only [if_neg hkl]
      refine I.member (F := fun e' out => assigned P s (s l).X (s k) e' out)
        (hr k l ((sat_assignRange (I.own k) (I.sane' k)).must (N := P.max) (n := (s l).X.length) fun h => tooLong_assignRange (I.own k) h)) ?_ ?_
      · rintro _ w ⟨⟨G, r⟩, hm⟩
        exact ⟨_, G, rfl, hm, I.grows r⟩
      · rintro e w ⟨⟨X2, F⟩, hm⟩
        exact ⟨X2, F.good, I.afailed F hm⟩
  | moveAssign k l =>
    unfold step sem
    dsimp only
    by_cases hkl : k = l
    · rw [if_pos hkl]
      simp only [if_pos hkl]
      exact ⟨g, .none, s, rfl, I, rfl, rfl⟩
    · rw [if_neg hkl]
      simp only [if_neg hkl]
      obtain ⟨g', out, s', h1, h2, e', ⟨h3, h4⟩, h5⟩ := I.member (k := k) (f := fun _ => .none) (F := fun e' out => out = .none ∧ e' = Ent.null)
        (sat_tidy (I.own k) (I.sane' k) (E := fun _ _ => False)) (fun _ w h => ⟨_, h.1, rfl, by rw [h.2.1]; rfl⟩) fun e w h => absurd h id
      subst h3 h4 h5
      rw [h1]
      refine ⟨_, _, _, rfl, h2.take hkl updS_self, rfl, ?_⟩
      funext j
      unfold updS
      by_cases hj : j = k
      · rw [if_pos hj, if_pos hj, if_neg (Ne.symm hkl)]
      · simp only [if_neg hj]
  | swap k l =>
    unfold step sem
    dsimp only
    by_cases hkl : k = l
    · rw [if_pos hkl]
      refine ⟨g, .none, _, rfl, ?_, rfl, rfl⟩
      have : updS (updS s k (s l)) l (s k) = s := by
        subst hkl
        funext j
        unfold updS
        split
        · next h => rw [h]
        · rfl
      rw [this]
      exact I
    · rw [if_neg hkl]
      exact ⟨_, _, _, rfl, I.swap hkl, rfl, rfl⟩
  | resize k n src =>
    have hp : (srcVal' (s k).X src).isSome := hp
    obtain ⟨x, hx⟩ := Option.isSome_iff_exists.1 hp
    refine I.member (F := fun e' out => ∀ x, srcVal' (s k).X src = some x →
      added P s n ((s k).X.take n ++ List.replicate (n - (s k).X.length) x) (fun Z => P.nmc = true ∨ P.cc = true → Z = (s k).X) (s k) e' out)
      ((sat_resize (I.own k) (I.sane' k) (srcIs hx)).must (N := P.max) (n := n) fun h => tooLong_resize (I.own k) h) ?_ ?_
    · rintro _ w ⟨⟨G, r⟩, hm⟩
      refine ⟨_, G, ?_⟩
      intro y hy
      obtain rfl := Option.some.inj (hx.symm.trans hy)
      exact ⟨rfl, hm, I.grows r⟩
    · rintro e w ⟨⟨X2, F, hs⟩, hm⟩
      exact ⟨X2, F.good, fun y _ => I.failed F hm hs⟩
  | reserve k n =>
    refine I.member (F := fun e' out => match out with
      | .none => e'.X = (s k).X ∧ n ≤ P.max ∧ (if n ≤ (s k).cap then keeps (s k) e' else relocates s n e')
      | .exc .lengthError => P.max < n ∧ e' = s k
      | .exc .badAlloc => n ≤ P.max ∧ (s k).cap < n ∧ e' = s k
      | .exc .user => n ≤ P.max ∧ (s k).cap < n ∧ keeps (s k) e' ∧ e'.X.length = (s k).X.length ∧ (P.nmc = true ∨ P.cc = true → e' = s k)
      | _ => False)
      ((sat_reserve (I.own k) (I.sane' k) (n := n)).must (N := P.max) (n := n) fun h => tooLong_reserve (I.own k) h) ?_ ?_
    · rintro _ w ⟨⟨G, r1, r2⟩, hm⟩
      refine ⟨_, G, rfl, hm, ?_⟩
      rw [I.cap]
      split
      · next h => exact I.keeps (r1 h)
      · next h =>
        obtain ⟨a, b⟩ := r2 (show (g.vs k).cap < n by omega)
        exact I.relocates a b
    · rintro e w ⟨⟨hc, X2, F, hl, hs⟩, hm⟩
      refine ⟨X2, F.good, ?_⟩
      rcases F.kind with rfl | rfl | rfl
      · obtain ⟨a, b⟩ := F.length rfl
        subst b
        exact ⟨a, I.eqEnt F.same⟩
      · obtain ⟨a, b⟩ := F.alloc rfl
        subst b
        exact ⟨notLong hm (by simp), by rw [I.cap]; exact a, I.eqEnt F.same⟩
      · refine ⟨notLong hm (by simp), ?_, I.keeps F.same, hl, fun h => ?_⟩
        · rw [I.cap]
          exact hc
        · obtain rfl := hs h
          exact I.eqEnt F.same
  | shrink k =>
    refine I.member (F := fun e' out => match out with
      | .none => e'.X = (s k).X ∧ e'.cap = (s k).X.length
      | .exc .badAlloc => e' = s k
      | .exc .user => keeps (s k) e' ∧ e'.X.length = (s k).X.length ∧ (P.nmc = true ∨ P.cc = true → e' = s k)
      | _ => False) (sat_shrinkToFit (I.own k) (I.sane' k)) ?_ ?_
    · rintro _ w ⟨G, h⟩
      exact ⟨_, G, rfl, h⟩
    · rintro e w ⟨X2, G, h1, h2, ⟨rfl, rfl⟩ | ⟨rfl, h3⟩⟩
      · exact ⟨_, G, I.eqEnt h1⟩
      · refine ⟨X2, G, I.keeps h1, h2, fun h => ?_⟩
        obtain rfl := h3 h
        exact I.eqEnt h1
  | popBack k =>
    refine I.member (F := fun e' out => out = .none ∧ e'.X = (s k).X.dropLast ∧ keeps (s k) e')
      (sat_popBack (I.own k) (I.sane' k) (List.length_pos_iff.2 hp) (E := fun _ _ => False)) ?_ fun _ _ h => absurd h id
    rintro _ w ⟨G, h⟩
    exact ⟨_, G, rfl, rfl, I.keeps h⟩
  | eraseOne k pos =>
    refine I.member (F := fun e' out => removed P pos (pos + 1) (s k) e' out) (sat_eraseOne (I.own k) (I.sane' k) hp) ?_ ?_
    · rintro _ w ⟨G, h⟩
      rw [List.eraseIdx_eq_take_drop_succ] at G
      exact ⟨_, G, rfl, I.keeps h⟩
    · rintro e w ⟨h1, X2, h⟩
      refine ⟨X2, h.good, ?_⟩
      rw [h.kind]
      exact ⟨h.may, by omega, h1, I.keeps h.same, h.len, h.keep⟩
  | eraseRange k first last =>
    obtain ⟨hp1, hp2⟩ := hp
    refine I.member (F := fun e' out => removed P first last (s k) e' out) (sat_eraseRange (I.own k) (I.sane' k) hp1 hp2) ?_ ?_
    · rintro _ w ⟨G, h⟩
      exact ⟨_, G, rfl, I.keeps h⟩
    · rintro e w ⟨h1, h2, X2, h⟩
      refine ⟨X2, h.good, ?_⟩
      rw [h.kind]
      exact ⟨h.may, h1, h2, I.keeps h.same, h.len, h.keep⟩
  | clear k =>
    refine I.member (F := fun e' out => out = .none ∧ e'.X = [] ∧ keeps (s k) e')
      (sat_clear (I.own k) (I.sane' k) (E := fun _ _ => False)) ?_ fun _ _ h => absurd h id
    rintro _ w ⟨G, h⟩
    exact ⟨_, G, rfl, rfl, I.keeps h⟩
  | «at» k i =>
    have hs := sat_at (I.own k) (i := i)
    have hu : updV g.vs k (g.vs k) = g.vs := by
      funext j
      unfold updV
      split
      · next h => rw [h]
      · rfl
    unfold step sem member
    dsimp only
    unfold Sat at hs
    have hI : Inv P ⟨{ g.mem with v := g.vs k }, g.vs⟩ s := ⟨I.own, I.ent, I.sane' k, I.inj, I.leak, I.raw⟩
    cases hm : at_ i { g.mem with v := g.vs k } with
    | ok x w =>
      rw [hm] at hs
      obtain ⟨h1, rfl⟩ := hs
      refine ⟨_, _, s, rfl, ?_, rfl, ?_⟩
      · rw [hu]
        exact hI
      · rw [h1]
    | exc e w =>
      rw [hm] at hs
      obtain ⟨h1, h2, rfl⟩ := hs
      refine ⟨_, _, s, rfl, ?_, rfl, ?_⟩
      · rw [hu]
        exact hI
      · rw [List.getElem?_eq_none h2, h1]
    | ub =>
      rw [hm] at hs
      exact absurd hs id
  | size k => exact ⟨_, _, s, rfl, I, rfl, by rw [I.len]⟩
  | capacity k => exact ⟨_, _, s, rfl, I, rfl, by rw [I.cap]⟩
  | data k => exact ⟨_, _, s, rfl, I, rfl, by rw [I.loc]⟩
  | load p i =>
    obtain ⟨k, h1, h2⟩ := hp
    rw [I.loc] at h1
    subst h1
    have O := I.own k
    have ol : (g.vs k).size ≤ (g.vs k).cap := O.le
    have hl := I.len k
    have hx : g.mem.cel (g.vs k).buf i = some (s k).X[i] := (O.cell i).trans (List.getElem?_eq_getElem h2)
    have hs : Sat (rd (g.vs k).buf i) g.mem (fun y w => y = (s k).X[i] ∧ w = g.mem) (fun _ _ => False) :=
      Sat.rd (O.caps (by show 0 < (g.vs k).cap; omega)) (by show i < (g.vs k).cap; omega) hx ⟨rfl, rfl⟩
    unfold step sem
    dsimp only
    unfold Sat at hs
    cases hm : rd (g.vs k).buf i g.mem with
    | ok y w =>
      rw [hm] at hs
      refine ⟨g, .val y, s, rfl, I, rfl, ?_⟩
      intro l z hl' hz
      rw [I.loc] at hl'
      by_cases hkl : l = k
      · rw [hkl, List.getElem?_eq_getElem h2] at hz
        rw [hs.1, Option.some.inj hz]
      · have h0 := I.inj l k hkl hl'
        have := (I.own k).null (by show (g.vs k).buf = 0; omega)
        have : (g.vs k).cap = 0 := this
        omega
    | exc e w => rw [hm] at hs; exact absurd hs id
    | ub => rw [hm] at hs; exact absurd hs id
  | store p i x =>
    obtain ⟨k, h1, h2⟩ := hp
    rw [I.loc] at h1
    subst h1
    have O := I.own k
    have ol : (g.vs k).size ≤ (g.vs k).cap := O.le
    have hl := I.len k
    have hx : g.mem.cel (g.vs k).buf i = some (s k).X[i] := (O.cell i).trans (List.getElem?_eq_getElem h2)
    have hu : updV g.vs k (g.vs k) = g.vs := by
      funext j
      unfold updV
      split
      · next h => rw [h]
      · rfl
    have hu' : ∀ l, (s l).loc = (g.vs k).buf → i < (s l).X.length → l = k := by
      intro l hl' hi
      rw [I.loc] at hl'
      by_cases hkl : l = k
      · exact hkl
      · have h0 := I.inj l k hkl hl'
        have := (I.own k).null (by show (g.vs k).buf = 0; omega)
        have : (g.vs k).cap = 0 := this
        omega
    have key : ∀ y t, Good P { g.mem with v := g.vs k } { g.mem with v := g.vs k, cel := put g.mem.cel (g.vs k).buf i (some y), tape := t } ((s k).X.set i y) ∧
        Same { g.mem with v := g.vs k } { g.mem with v := g.vs k, cel := put g.mem.cel (g.vs k).buf i (some y), tape := t } := by
      intro y t
      refine Good.inplace O (I.sane' k) rfl (Nat.le_refl _) rfl rfl (by rw [List.length_set]; exact O.len) O.le ?_ ?_
      · intro j
        show put g.mem.cel (g.vs k).buf i (some y) (g.vs k).buf j = _
        rw [set_get h2]
        unfold put
        split
        · next h => rw [if_pos h.2]
        · rw [if_neg (by omega)]
          exact O.cell j
      · intro q hq j
        show put g.mem.cel (g.vs k).buf i (some y) q j = _
        unfold put
        rw [if_neg (fun h => hq h.1)]
    have key2 : ∀ y t, Inv P ⟨{ g.mem with cel := put g.mem.cel (g.vs k).buf i (some y), tape := t }, g.vs⟩
        (updS s k ⟨(s k).X.set i y, (g.vs k).cap, (g.vs k).buf⟩) := by
      intro y t
      have := I.slot (key y t).1
      simp only [hu] at this
      exact ⟨this.own, this.ent, ⟨this.sane.zero, this.sane.fresh, this.sane.pos⟩, this.inj, this.leak, this.raw⟩
    have hs : Sat (copyA P x (g.vs k).buf i) g.mem
        (fun _ w => ∃ t, w = { g.mem with cel := put g.mem.cel (g.vs k).buf i (some x), tape := t })
        (fun e w => e = .user ∧ ∃ y t, w = { g.mem with cel := put g.mem.cel (g.vs k).buf i (some y), tape := t }) :=
      Sat.copyA (O.caps (by show 0 < (g.vs k).cap; omega)) (by show i < (g.vs k).cap; omega) hx (fun t => ⟨t, rfl⟩) fun t => ⟨rfl, _, t, rfl⟩
    unfold step sem
    dsimp only
    unfold Sat at hs
    cases hm : copyA P x (g.vs k).buf i g.mem with
    | ok y w =>
      rw [hm] at hs
      obtain ⟨t, rfl⟩ := hs
      refine ⟨_, _, _, rfl, key2 x t, ?_⟩
      intro l hl' hi
      obtain rfl := hu' l hl' hi
      exact ⟨_, ⟨⟨(I.loc l).symm, (I.cap l).symm⟩, .inl ⟨rfl, rfl⟩⟩, rfl⟩
    | exc e w =>
      rw [hm] at hs
      obtain ⟨rfl, y, t, rfl⟩ := hs
      refine ⟨_, _, _, rfl, key2 y t, ?_⟩
      intro l hl' hi
      obtain rfl := hu' l hl' hi
      exact ⟨_, ⟨⟨(I.loc l).symm, (I.cap l).symm⟩, .inr ⟨rfl, y, rfl⟩⟩, rfl⟩
    | ub => rw [hm] at hs; exact absurd hs id

theorem run_ok {P : Par α} : ∀ {c : Client α} {g : Pg α} {s : St α}, Inv P g s → Legal P s c →
    ∃ g' tr s', run P g c = some (g', tr) ∧ SpecRun P s c tr s' ∧ Inv P g' s'
  | .done, g, s, I, _ => ⟨g, [], s, rfl, .done, I⟩
  | .call op k, g, s, I, hL => by
    obtain ⟨g1, out, s1, h1, I1, h2⟩ := step_ok I hL.1
    obtain ⟨g2, tr, s2, h3, h4, I2⟩ := run_ok I1 (hL.2 s1 out h2)
    refine ⟨g2, (op, out) :: tr, s2, ?_, .call hL.1 h2 h4, I2⟩
    unfold run
    rw [h1]
    show (run P g1 (k out)).bind _ = _
    rw [h3]
    rfl

end STL.Vec
