import Verif.Hash.Merge

/-!
# Property C07: the unordered containers over every history

The specification is `Verif/Hash/Spec.lean`: a sequence of identified elements.
-/

namespace STL.UH
open STL STL.DL
variable {α K : Type}

theorem filt_split {β : Type} {p : β → Bool} {X : List β} (h : Contig p X) : ∃ A C, X = A ++ X.filter p ++ C := by
  obtain ⟨A, B, C, e, h1, h2, h3⟩ := h
  refine ⟨A, C, ?_⟩
  have : X.filter p = B := by
    rw [e, List.filter_append, List.filter_append, filter_none.2 h1, filter_none.2 h3, List.filter_eq_self.2 h2]; simp
  rw [this]; exact e

/-- **C07, every history.** Take any history of operations on an unordered container, unique or multi, with any hash function and key equality
that meet the requirements and any maximum load factor: `emplace`, `insert` and `try_emplace` with and without hints, node extraction and
insertion, the forms of `erase`, `clear`, `rehash`, `reserve`, all look-ups and the bucket interface, issued by a caller that respects the
preconditions and may look at the results; allocations may fail, and hash function or equality may throw in the middle of any rehash. The code
never does anything undefined and returns results that the specification allows. Afterwards an iteration visits exactly the specified elements
(the same objects at the same addresses), elements with equal keys are adjacent, in a container with unique keys no two keys are equal, the
elements of a bucket are adjacent, the number of buckets is a power of two and at least 8, and exactly the nodes of the elements and of the
nonempty node handles are allocated. -/
theorem C07_history (P : Par α K) (good : Good P) (x : Nat) (hx : x ≠ 0) (lf : LF) (c : Client α K) (hc : Legal P (empty x lf) c) :
    ∃ g tr s, runNew P x lf c = .ok (g, tr) ∧ SpecRun P (empty x lf) c tr s ∧
      (∃ b, step P g .begin = .ok (g, .it b) ∧ walk g.h s.hd (s.X.length + 1) b = .ok s.X) ∧
      g.t.con.size = s.X.length ∧ g.t.maxidx = s.nb ∧
      (∀ k, ∃ A B, s.X = A ++ grp P k s.X ++ B) ∧ (P.multi = false → ∀ k, (grp P k s.X).length ≤ 1) ∧
      (∀ b, ∃ A B, s.X = A ++ inBucket P s.nb b s.X ++ B) ∧ (∃ n, 3 ≤ n ∧ s.nb = 2 ^ n) ∧
      (∀ q, g.h q ≠ none ↔ q ∈ adr s) ∧ (adr s).Nodup := by
  obtain ⟨h, e0, I0⟩ := init_ok P x hx lf
  obtain ⟨g, tr, s, e1, S, I⟩ := run_ok good c I0 hc
  have T := I.tok
  obtain ⟨n, hn, hp⟩ := T.pow
  refine ⟨g, tr, s, by unfold runNew; rw [e0, R.ok_bind]; exact e1, S, ⟨atFirst s.hd s.X, ?_, ?_⟩, I.size, I.nb.symm, ?_, T.uniq, ?_, ⟨n, hn, I.nb.trans hp⟩, ?_, I.nd⟩
  · unfold step; rw [WF.ndHd T.wf, R.ok_bind, I.hd]
  · rw [I.hd]; exact walk_spec (A := []) T.wf (by omega)
  · intro k; exact filt_split (T.ok.grp k)
  · intro b; rw [I.nb, inBucket_eq T]; exact filt_split (T.ok.cont b)
  · intro q
    refine ⟨I.cover q, fun hq => ?_⟩
    rcases mem_adr.1 hq with h | h | h
    · exact T.wf.live (Or.inl (h.trans I.hd))
    · exact T.wf.live (Or.inr h)
    · exact I.hLive h

/-! ## Consequences of the specification -/

/-- If all groups agree, the elements are the same up to reordering. -/
theorem same_perm {P : Par α K} (g : Good P) {X Y : List (Nat × α)} (s : ∀ k, grp P k Y = grp P k X) : Y.Perm X := by
  classical
  rw [List.perm_iff_count]
  intro a
  have h : ∀ Z : List (Nat × α), Z.count a = (grp P (P.kfn a.2) Z).count a := by
    intro Z
    unfold grp
    rw [List.count_filter (by exact g.refl _)]
  rw [h Y, h X, s]

/-- **C07, rehashing.** A successful `rehash` or `reserve` keeps exactly the same elements (only their order may change, and not within a group
of equal keys), and afterwards there are at least as many buckets as asked for and as the load factor demands. -/
theorem C07_rehash (P : Par α K) (good : Good P) (s s' : St α) (n m : Nat) (vok : Bool) (thr : Option Nat) (op : Op α K)
    (ho : op = .rehash n vok thr ∧ m = n ∨ op = .reserve n vok thr ∧ m = s.lf.minBk n) (h : sem P s op s' .none) :
    s'.X.Perm s.X ∧ (∀ k, grp P k s'.X = grp P k s.X) ∧ s'.H = s.H ∧ s.lf.minBk s.X.length ≤ s'.nb ∧ m ≤ s'.nb := by
  have key : ∀ m, rehashed P m vok thr s s' .none → s'.X.Perm s.X ∧ (∀ k, grp P k s'.X = grp P k s.X) ∧ s'.H = s.H ∧ s.lf.minBk s.X.length ≤ s'.nb ∧ m ≤ s'.nb := by
    rintro m ⟨h1, h2, h3, _, h5, _⟩
    exact ⟨same_perm good h1, h1, by rw [h5], h3, h2⟩
  rcases ho with ⟨rfl, rfl⟩ | ⟨rfl, rfl⟩
  · exact key _ h
  · exact key _ h

/-- Operations that take elements away or change them. -/
def removes : Op α K → Prop
  | .extractAt _ | .extractKey _ | .eraseAt _ | .eraseRange _ _ | .eraseKey _ | .clear | .write _ _ => True
  | _ => False

theorem insAfter_perm {hint : Option Nat} {G : List (Nat × α)} {a : Nat × α} : (insAfter hint G a).Perm (a :: G) := by
  unfold insAfter
  cases hint with
  | none => exact List.perm_append_singleton a G
  | some p =>
    simp only
    split
    · exact List.perm_append_singleton a G
    · rename_i b F hF
      have : G = bef G p ++ b :: F := by rw [← hF]; exact (DL.bf G p).symm
      conv_rhs => rw [this]
      exact ((List.Perm.swap a b F).append_left (bef G p)).trans (List.perm_middle)

theorem inserted_perm {P : Par α K} (g : Good P) {hint : Option Nat} {a : Nat × α} {s s' : St α} (h : inserted P hint a s s') : s'.X.Perm (a :: s.X) := by
  classical
  rw [List.perm_iff_count]
  intro b
  have hc : ∀ Z : List (Nat × α), Z.count b = (grp P (P.kfn b.2) Z).count b := by
    intro Z; unfold grp; rw [List.count_filter (by exact g.refl _)]
  rw [hc, h.1]
  split
  · rw [(insAfter_perm).count_eq, List.count_cons, List.count_cons, ← hc]
  · rename_i hk
    rw [← hc, List.count_cons_of_ne]
    rintro rfl; exact hk (g.refl _)

/-- **C07, references.** Inserting, rehashing, reserving and looking up invalidate and change no element: every element that was in the
container (address and value) is still there, whether the operation succeeds or fails, unless the hash function or the equality throws during a
rehash. -/
theorem C07_references (P : Par α K) (good : Good P) (s s' : St α) (op : Op α K) (out : Out α) (ho : ¬ removes op) (h : sem P s op s' out) (hu : out ≠ .exc .user)
    (a : Nat × α) (ha : a ∈ s.X) : a ∈ s'.X := by
  have ins : ∀ {hint b}, inserted P hint b s s' → a ∈ s'.X := by
    intro hint b hi; exact (inserted_perm good hi).mem_iff.2 (List.mem_cons_of_mem _ ha)
  have fl : ∀ {nm vok thr e}, failed P s s' nm vok thr e → e ≠ .user → a ∈ s'.X := by
    intro nm vok thr e hf he
    cases e <;> simp only [failed] at hf
    · rw [hf.1]; exact ha
    · rw [hf.1]; exact ha
    · exact absurd rfl he
  have rh : ∀ {n vok thr}, rehashed P n vok thr s s' out → a ∈ s'.X := by
    intro n vok thr hr
    unfold rehashed at hr
    split at hr
    · exact (same_perm good hr.1).mem_iff.2 ha
    · rw [hr.1]; exact ha
    · rw [hr.1]; exact ha
    · exact absurd rfl hu
    · exact hr.elim
  cases op with
  | emplace viaKey hint v e =>
    simp only [sem] at h
    split at h
    · rw [h.2.1]; exact ha
    · exact ins h.2.2.1
    · rename_i x
      exact fl h.1 (fun he => hu (by rw [he]))
    · exact h.elim
  | insertNode hint x vok thr =>
    obtain ⟨v, _, h⟩ := h
    split at h
    · rw [h.2.1]; exact ha
    · exact ins h.2.2.1
    · rename_i x
      exact fl h.1 (fun he => hu (by rw [he]))
    · exact h.elim
  | rehash n vok thr => exact rh h
  | reserve n vok thr => exact rh h
  | deref p => obtain ⟨v, _, h, _⟩ := h; rw [h]; exact ha
  | dropNode x | writeNode x v | maxLoad lf | find k | contains k | count k | equalRange k | size | bucketCount | bucket k | beginB b | endB b | bucketSize b | begin | next p => rw [h.1]; exact ha
  | _ => exact absurd trivial ho

/-- **C07, exceptions.** When an operation reports that memory, `max_size` or the number of buckets is exhausted, everything is as it was before
the call. -/
theorem C07_strong_guarantee (P : Par α K) (s s' : St α) (op : Op α K) (out : Out α) (h : sem P s op s' out) (ho : out = .exc .badAlloc ∨ out = .exc .lengthError) : s' = s := by
  have fl : ∀ {nm vok thr}, ∀ e, out = .exc e → failed P s s' nm vok thr e → s' = s := by
    intro nm vok thr e he hf
    cases e <;> simp only [failed] at hf
    · exact hf.1
    · exact hf.1
    · rw [he] at ho; rcases ho with ho | ho <;> cases ho
  have rh : ∀ {n vok thr}, rehashed P n vok thr s s' out → s' = s := by
    intro n vok thr hr
    rcases ho with rfl | rfl <;> exact hr.1
  have no : ∀ {o : Out α} {q : Prop}, out = o → (∀ e, o ≠ .exc e) → q := by
    intro o q h1 h2; rcases ho with ho | ho <;> exact absurd (h1.symm.trans ho) (h2 _)
  cases op with
  | emplace viaKey hint v e =>
    simp only [sem] at h
    split at h
    · exact h.2.1
    · rcases ho with ho | ho <;> cases ho
    · exact fl _ rfl h.1
    · exact h.elim
  | insertNode hint x vok thr =>
    obtain ⟨v, _, h⟩ := h
    split at h
    · exact h.2.1
    · rcases ho with ho | ho <;> cases ho
    · exact fl _ rfl h.1
    · exact h.elim
  | rehash n vok thr => exact rh h
  | reserve n vok thr => exact rh h
  | extractAt p => obtain ⟨v, _, _, h⟩ := h; exact no h (by simp)
  | extractKey k =>
    simp only [sem] at h
    split at h
    · exact h.1
    · exact no h.2 (by simp)
  | deref p => obtain ⟨v, _, _, h⟩ := h; exact no h (by simp)
  | equalRange k => exact h.1
  | endB b => exact h.1
  | _ => exact no h.2 (by simp)

/-- The computations with the maximum load factor fit together. With exact arithmetic `need n b` is `b * f < n` and `minBk n` is the ceiling of
`n / f`. -/
structure Coherent (lf : LF) : Prop where
  enough : ∀ n b, lf.minBk n ≤ b → lf.need n b = false
  mono : ∀ n m b, n ≤ m → lf.need m b = false → lf.need n b = false
  zero : ∀ b, lf.need 0 b = false

theorem load_step {P : Par α K} (good : Good P) {lf : LF} (co : Coherent lf) {s s' : St α} {op : Op α K} {out : Out α} (h : sem P s op s' out) (ho : ∀ l, op ≠ .maxLoad l) (hl : s.lf = lf)
    (hi : lf.need s.X.length s.nb = false) : s'.lf = lf ∧ lf.need s'.X.length s'.nb = false := by
  subst hl
  have ins : ∀ {hint b}, inserted P hint b s s' → s'.lf = s.lf ∧ s.lf.need s'.X.length s'.nb = false := by
    intro hint b hI
    have hp := (inserted_perm good hI).length_eq
    obtain ⟨_, _, h3, h4⟩ := hI
    refine ⟨h3, ?_⟩
    rw [hp, List.length_cons]
    split at h4
    · exact co.enough _ _ h4.2
    · rename_i hn; rw [h4.1]; simpa using hn
  have fl : ∀ {nm vok thr e}, failed P s s' nm vok thr e → s'.lf = s.lf ∧ s.lf.need s'.X.length s'.nb = false := by
    intro nm vok thr e hf
    cases e <;> simp only [failed] at hf
    · rw [hf.1]; exact ⟨rfl, hi⟩
    · rw [hf.1]; exact ⟨rfl, hi⟩
    · rw [hf.1]; exact ⟨rfl, co.zero _⟩
  have rh : ∀ {n vok thr}, rehashed P n vok thr s s' out → s'.lf = s.lf ∧ s.lf.need s'.X.length s'.nb = false := by
    intro n vok thr hr
    unfold rehashed at hr
    split at hr
    · refine ⟨by rw [hr.2.2.2.2.1], ?_⟩
      rw [(same_perm good hr.1).length_eq]; exact co.enough _ _ hr.2.2.1
    · rw [hr.1]; exact ⟨rfl, hi⟩
    · rw [hr.1]; exact ⟨rfl, hi⟩
    · rw [hr.1]; exact ⟨rfl, co.zero _⟩
    · exact hr.elim
  have lt : ∀ {X H}, X.length ≤ s.X.length → s' = { s with X := X, H := H } → s'.lf = s.lf ∧ s.lf.need s'.X.length s'.nb = false := by
    intro X H hX hs; subst hs; exact ⟨rfl, co.mono _ _ _ hX hi⟩
  have cut : ∀ p, (bef s.X p ++ (fro s.X p).tail).length ≤ s.X.length := by
    intro p
    have := congrArg List.length (DL.bf s.X p)
    rw [List.length_append] at this ⊢; rw [List.length_tail]; omega
  cases op with
  | emplace viaKey hint v e =>
    simp only [sem] at h
    split at h
    · rw [h.2.1]; exact ⟨rfl, hi⟩
    · exact ins h.2.2.1
    · exact fl h.1
    · exact h.elim
  | insertNode hint x vok thr =>
    obtain ⟨v, _, h⟩ := h
    split at h
    · rw [h.2.1]; exact ⟨rfl, hi⟩
    · exact ins h.2.2.1
    · exact fl h.1
    · exact h.elim
  | rehash n vok thr => exact rh h
  | reserve n vok thr => exact rh h
  | extractAt p => obtain ⟨v, _, h, _⟩ := h; exact lt (cut p) h
  | extractKey k =>
    simp only [sem] at h
    split at h
    · rw [h.1]; exact ⟨rfl, hi⟩
    · exact lt (cut _) h.1
  | eraseAt p => exact lt (cut p) h.1
  | eraseRange p q =>
    refine lt (X := without s.X p q) (H := s.H) ?_ h.1
    have h1 := congrArg List.length (DL.bf s.X p)
    have h2 := congrArg List.length (DL.bf (fro s.X p) q)
    unfold without
    rw [List.length_append] at h1 h2 ⊢; omega
  | eraseKey k => exact lt (H := s.H) (List.length_filter_le _ _) h.1
  | clear => exact lt (X := []) (H := s.H) (by simp) h.1
  | write p v => exact lt (H := s.H) (by rw [List.length_map]) h.1
  | maxLoad l => exact absurd rfl (ho l)
  | deref p => obtain ⟨v, _, h, _⟩ := h; rw [h]; exact ⟨rfl, hi⟩
  | _ => rw [h.1]; exact ⟨rfl, hi⟩

theorem load_run {P : Par α K} (good : Good P) {lf : LF} (co : Coherent lf) {c : Client α K} {s s' : St α} {tr : List (Op α K × Out α)} (h : SpecRun P s c tr s') :
    (∀ x ∈ tr, ∀ l, x.1 ≠ .maxLoad l) → s.lf = lf → lf.need s.X.length s.nb = false → lf.need s'.X.length s'.nb = false := by
  induction h with
  | done => intro _ _ hi; exact hi
  | call hp hs hr ih =>
    intro ht hl hi
    have h1 := load_step good co hs (ht _ (List.mem_cons_self ..)) hl hi
    exact ih (fun x hx => ht x (List.mem_cons_of_mem _ hx)) h1.1 h1.2

/-- **C07, load factor.** In every history in which the maximum load factor is not changed, the load factor never exceeds it. -/
theorem C07_load_factor (P : Par α K) (good : Good P) (x : Nat) (hx : x ≠ 0) (lf : LF) (co : Coherent lf) (c : Client α K) (hc : Legal P (empty x lf) c) :
    ∃ g tr, runNew P x lf c = .ok (g, tr) ∧ ((∀ y ∈ tr, ∀ l, y.1 ≠ .maxLoad l) → lf.need g.t.con.size g.t.maxidx = false) := by
  obtain ⟨g, tr, s, e, S, _, h1, h2, _⟩ := C07_history P good x hx lf c hc
  refine ⟨g, tr, e, fun ht => ?_⟩
  rw [h1, h2]
  exact load_run good co S ht rfl (co.zero _)

/-! ## `merge` -/

/-- Two heaps side by side. -/
def beside (h k : Hp α) : Hp α := fun q => (h q).or (k q)

theorem beside_left {h k : Hp α} {q : Nat} (hq : h q ≠ none) : beside h k q = h q := by
  unfold beside; cases e : h q with
  | none => exact absurd e hq
  | some v => rfl

theorem beside_right {h k : Hp α} (hd : ∀ q, h q = none ∨ k q = none) {q : Nat} (hq : k q ≠ none) : beside h k q = k q := by
  unfold beside; rcases hd q with e | e
  · rw [e]; rfl
  · exact absurd e hq

theorem findMerged {P : Par α K} (g : Good P) {h : Hp α} {t : Tab} {X : List (Nat × α)} (T : TOK P h t X) (k : K) : find P h t k = .ok (atFirst t.con.hd (grp P k X)) := by
  have I := findFirst_ok g T.wf T.ok k
  unfold find
  cases hm : P.multi with
  | true => rw [if_pos rfl]; exact I
  | false =>
    rw [if_neg (by simp)]
    obtain ⟨r, er, f⟩ := findLast_ok g T.wf T.ok k
    rw [er, R.ok_bind]
    have hu := T.uniq hm k
    cases hr : r.2 with
    | none =>
      have f' := f.found g (hint := none) (by simp)
      have : grp P k X = [] := f'.no hr
      rw [this]; rfl
    | some d =>
      have f' := f.found g (hint := none) (by simp)
      obtain ⟨a, ha, hd⟩ := f'.yes d hr
      have hg : grp P k X = X.filter (eqk P k) := rfl
      rw [hg]
      match hX : X.filter (eqk P k), hu, ha with
      | [b], _, ha => simp at ha; subst ha; simp [atFirst, hd]
      | b :: c :: L, hu, _ => simp at hu

theorem oH {P Q : Par α K} {g k : Pg α} {s r : St α} (I : Rep P g s) (J : Rep Q k r) (ds : ∀ q, g.h q = none ∨ k.h q = none) {q : Nat} (hq : q ∈ ids s.H ++ ids r.H) :
    q ≠ g.t.con.hd ∧ q ≠ k.t.con.hd ∧ q ∉ ids s.X ∧ q ∉ ids r.X := by
  have d := ds q
  rcases List.mem_append.1 hq with h | h
  · have h1 := I.hX h
    have h2 := I.hLive h
    have h3 : k.h q = none := d.resolve_left h2
    exact ⟨by rw [← I.hd]; exact h1.1, fun e => J.tok.wf.live (Or.inl e) h3, h1.2, fun e => J.tok.wf.live (Or.inr e) h3⟩
  · have h1 := J.hX h
    have h2 := J.hLive h
    have h3 : g.h q = none := d.resolve_right h2
    exact ⟨fun e => I.tok.wf.live (Or.inl e) h3, by rw [← J.hd]; exact h1.1, fun e => I.tok.wf.live (Or.inr e) h3, h1.2⟩

/-- **C07, `merge`.** Take two unordered containers after any two histories (unique or multi, with different equality functions if need be, but
the same hash function), and merge the second one into the first. The code does nothing undefined. Each element of the source, in turn, is
transferred (the same object at the same address) unless the target has unique keys and already has its key; an exception leaves everything
transferred so far transferred. Afterwards iteration and `find` in both containers give what the specification says, sizes are right, no other
memory is touched, and exactly the nodes of the two containers and of the node handles are allocated. -/
theorem C07_merge (P Q : Par α K) (gP : Good P) (gQ : Good Q) (hk : ∀ v, Q.kfn v = P.kfn v) (hh : ∀ k, Q.hash k = P.hash k)
    (x y : Nat) (hx : x ≠ 0) (hy : y ≠ 0) (lx ly : LF) (c d : Client α K) (hc : Legal P (empty x lx) c) (hd : Legal Q (empty y ly) d) :
    ∃ g tr s k tr' r, runNew P x lx c = .ok (g, tr) ∧ SpecRun P (empty x lx) c tr s ∧ runNew Q y ly d = .ok (k, tr') ∧ SpecRun Q (empty y ly) d tr' r ∧
      ((∀ q, g.h q = none ∨ k.h q = none) → ∀ env, ∃ h' t' u' e X' Y', merge P (beside g.h k.h) g.t k.t env = .ok (h', t', u', e) ∧
        Merged P s.X r.X env X' Y' e ∧
        t'.con.size = X'.length ∧ u'.con.size = Y'.length ∧
        (∃ b, step P ⟨h', t'⟩ .begin = .ok (⟨h', t'⟩, .it b) ∧ walk h' s.hd (X'.length + 1) b = .ok X') ∧
        (∃ b, step Q ⟨h', u'⟩ .begin = .ok (⟨h', u'⟩, .it b) ∧ walk h' r.hd (Y'.length + 1) b = .ok Y') ∧
        (∀ z, find P h' t' z = .ok (atFirst s.hd (grp P z X'))) ∧ (∀ z, find Q h' u' z = .ok (atFirst r.hd (grp Q z Y'))) ∧
        (∀ q ∈ ids s.H ++ ids r.H, h' q = beside g.h k.h q) ∧
        (∀ q, h' q ≠ none ↔ q ∈ s.hd :: r.hd :: ids X' ++ ids Y' ++ ids s.H ++ ids r.H)) := by
  obtain ⟨h1, e1, I1⟩ := init_ok P x hx lx
  obtain ⟨g, tr, s, f1, S1, I⟩ := run_ok gP c I1 hc
  obtain ⟨h2, e2, I2⟩ := init_ok Q y hy ly
  obtain ⟨k, tr', r, f2, S2, J⟩ := run_ok gQ d I2 hd
  refine ⟨g, tr, s, k, tr', r, by unfold runNew; rw [e1, R.ok_bind]; exact f1, S1, by unfold runNew; rw [e2, R.ok_bind]; exact f2, S2, ?_⟩
  intro ds env
  have T1 := I.tok.frame (h' := beside g.h k.h) fun q hq => beside_left (I.tok.wf.live hq)
  have T2 := J.tok.frame (h' := beside g.h k.h) fun q hq => beside_right ds (J.tok.wf.live hq)
  have Tw : Two P Q (beside g.h k.h) g.t k.t s.X r.X := by
    refine ⟨T1, T2, ?_, ?_⟩
    · intro q hq hq'
      rcases ds q with e | e
      · exact I.tok.wf.live hq e
      · exact J.tok.wf.live hq' e
    · unfold beside; rw [I.zero, J.zero]; rfl
  obtain ⟨h', t', u', e, X', Y', em, c1, c2, I', E, M⟩ := merge_ok gP hk hh Tw env
  refine ⟨h', t', u', e, X', Y', em, M, I'.tk.wf.size, I'.uk.wf.size, ⟨atFirst s.hd X', ?_, ?_⟩, ⟨atFirst r.hd Y', ?_, ?_⟩, ?_, ?_, ?_, ?_⟩
  · unfold step; rw [WF.ndHd I'.tk.wf, R.ok_bind, I.hd, c1]
  · rw [I.hd, ← c1]; exact walk_spec (A := []) I'.tk.wf (by omega)
  · unfold step; rw [WF.ndHd I'.uk.wf, R.ok_bind, J.hd, c2]
  · rw [J.hd, ← c2]; exact walk_spec (A := []) I'.uk.wf (by omega)
  · intro z; rw [I.hd, ← c1]; exact findMerged gP I'.tk z
  · intro z; rw [J.hd, ← c2]; exact findMerged gQ I'.uk z
  · intro q hq
    exact (E.out q (oH I J ds hq).1 (oH I J ds hq).2.1 (oH I J ds hq).2.2.1 (oH I J ds hq).2.2.2).1
  · intro q
    have lv : ∀ q, beside g.h k.h q ≠ none ↔ q ∈ adr s ∨ q ∈ adr r := by
      intro q
      constructor
      · intro hq
        unfold beside at hq
        cases e : g.h q with
        | none => rw [e] at hq; exact Or.inr (J.cover q hq)
        | some v => exact Or.inl (I.cover q (by simp [e]))
      · have aux : ∀ {P : Par α K} {g : Pg α} {s : St α}, Rep P g s → q ∈ adr s → g.h q ≠ none := by
          intro P g s I hq
          rcases mem_adr.1 hq with h | h | h
          · exact I.tok.wf.live (Or.inl (h.trans I.hd))
          · exact I.tok.wf.live (Or.inr h)
          · exact I.hLive h
        rintro (hq | hq)
        · have := aux I hq; rwa [beside_left this]
        · have := aux J hq; rwa [beside_right ds this]
    simp only [List.cons_append, List.mem_cons, List.mem_append]
    constructor
    · intro hq
      by_contra hn
      simp only [not_or] at hn
      obtain ⟨n1, n2, ⟨⟨n3, n4⟩, n5⟩, n6⟩ := hn
      by_cases hm : q ∈ ids s.X ∨ q ∈ ids r.X
      · exact hq (E.gone q hm n3 n4)
      · rw [(E.out q (by rw [← I.hd]; exact n1) (by rw [← J.hd]; exact n2) (fun h => hm (Or.inl h)) (fun h => hm (Or.inr h))).1, lv, mem_adr, mem_adr] at hq
        tauto
    · have hH : q ∈ ids s.H ++ ids r.H → h' q ≠ none := by
        intro hq
        rw [(E.out q (oH I J ds hq).1 (oH I J ds hq).2.1 (oH I J ds hq).2.2.1 (oH I J ds hq).2.2.2).1, lv, mem_adr, mem_adr]
        rcases List.mem_append.1 hq with h | h <;> tauto
      rintro (h | h | ((h | h) | h) | h)
      · exact I'.tk.wf.live (Or.inl (by rw [c1, ← I.hd]; exact h))
      · exact I'.uk.wf.live (Or.inl (by rw [c2, ← J.hd]; exact h))
      · exact I'.tk.wf.live (Or.inr h)
      · exact I'.uk.wf.live (Or.inr h)
      · exact hH (List.mem_append.2 (Or.inl h))
      · exact hH (List.mem_append.2 (Or.inr h))

theorem moves_stays {P : Par α K} : ∀ (Y X : List (Nat × α)), (moves P X Y ++ stays P X Y).Perm Y
  | [], _ => .refl _
  | a :: Y, X => by
    unfold moves stays
    by_cases h : P.multi = false ∧ grp P (P.kfn a.2) X ≠ []
    · rw [if_pos h, if_pos h]; exact List.perm_middle.trans ((moves_stays Y X).cons a)
    · rw [if_neg h, if_neg h]; exact (moves_stays Y (X ++ [a])).cons a

theorem stays_grp {P : Par α K} : ∀ (Y X : List (Nat × α)), ∀ a ∈ stays P X Y, P.multi = false ∧ grp P (P.kfn a.2) (X ++ moves P X Y) ≠ []
  | [], _, a, ha => by simp [stays] at ha
  | b :: Y, X, a, ha => by
    unfold stays at ha
    unfold moves
    by_cases h : P.multi = false ∧ grp P (P.kfn b.2) X ≠ []
    · rw [if_pos h] at ha ⊢
      rcases List.mem_cons.1 ha with rfl | ha
      · refine ⟨h.1, fun hn => h.2 ?_⟩
        unfold grp at hn ⊢
        rw [List.filter_append] at hn
        exact (List.append_eq_nil_iff.1 hn).1
      · exact stays_grp Y X a ha
    · rw [if_neg h] at ha ⊢
      have := stays_grp Y (X ++ [b]) a ha
      simpa using this

/-- **C07, `merge`, what the specification says.** If `merge` returns normally, no element has been lost, added or changed, a target with
non-unique keys has received everything, and what remains in the source has a key that a target with unique keys contains. -/
theorem C07_merge_all (P : Par α K) (good : Good P) (X Y : List (Nat × α)) (env : List (Bool × Option Nat)) (X' Y' : List (Nat × α)) (h : Merged P X Y env X' Y' none) :
    (X' ++ Y').Perm (X ++ Y) ∧ (∀ a ∈ X, a ∈ X') ∧ (P.multi = true → Y' = []) ∧ ∀ a ∈ Y', grp P (P.kfn a.2) X' ≠ [] := by
  obtain ⟨i, hi, hY, rfl, hX⟩ := h
  rw [List.take_length] at hY hX
  rw [List.drop_length, List.append_nil] at hY
  have hp : X'.Perm (X ++ moves P X Y) := same_perm good (by intro k; rw [hX]; unfold grp; rw [List.filter_append])
  subst hY
  refine ⟨?_, ?_, ?_, ?_⟩
  · refine (hp.append_right _).trans ?_
    rw [List.append_assoc]; exact (moves_stays Y X).append_left X
  · intro a ha; exact hp.mem_iff.2 (List.mem_append_left _ ha)
  · intro hm
    rw [List.eq_nil_iff_forall_not_mem]
    intro a ha; have := (stays_grp Y X a ha).1; rw [hm] at this; cases this
  · intro a ha
    have := (stays_grp Y X a ha).2
    rw [hX]; unfold grp at this ⊢; rw [List.filter_append] at this; exact this

/-! ## Examples -/

/-- `unordered_set<int>` (or `unordered_multiset`) with some hash function. -/
def exP (multi : Bool) (hash : Nat → Nat) : Par Nat Nat := ⟨id, hash, fun a b => a == b, multi, true, 1000, 1000⟩
/-- A maximum load factor of 1. -/
def exLF : LF := ⟨fun n b => decide (b < n), fun n => n⟩

example : Coherent exLF := ⟨fun n b h => by simp [exLF] at h ⊢; exact h, fun n m b h1 h2 => by simp [exLF] at h2 ⊢; omega, fun b => by simp [exLF]⟩

/-- Insert a value, without a hint, with the node at `x`. -/
def exIns (v x : Nat) : Op Nat Nat := .emplace true none v ⟨some x, true, none⟩

/-- A client that looks at the results: nine insertions into a multiset, two of them with equal keys, which force a rehash, then it erases what
`find` returns. -/
def exClient : Client Nat Nat :=
  .call (exIns 1 11) fun _ => .call (exIns 9 12) fun _ => .call (exIns 1 13) fun _ => .call (.find 1) fun o =>
    match o with
    | .it p => if p = 11 then .call (.eraseAt p) fun _ => .call (.rehash 10 true none) fun _ => .done else .done
    | _ => .done

theorem exGood (multi : Bool) (hash : Nat → Nat) : Good (exP multi hash) := by
  refine ⟨by simp [exP], by simp [exP], by simp [exP], by simp [exP]⟩

theorem exStep {s s' : St Nat} {v x : Nat} {out : Out Nat} {multi : Bool} {hash : Nat → Nat} (h : sem (exP multi hash) s (exIns v x) s' out) : s'.hd = s.hd ∧ ∀ q ∈ adr s', q = x ∨ q ∈ adr s := by
  simp only [exIns, sem] at h
  split at h
  · rw [h.2.1]; exact ⟨rfl, fun q hq => Or.inr hq⟩
  · obtain ⟨h1, _, h3, h4⟩ := h
    simp only [Option.some.injEq] at h1; subst h1
    refine ⟨h3.2.1, ?_⟩
    intro q hq
    have hm : q ∈ ids s'.X ↔ q ∈ ids ((x, v) :: s.X) := ((inserted_perm (exGood multi hash) h3).map Prod.fst).mem_iff
    rw [mem_adr, h3.2.1, h4, hm] at hq
    rw [mem_adr]
    simp only [ids, List.map_cons, List.mem_cons] at hq ⊢; tauto
  · rename_i e
    have h := h.1
    cases e <;> simp only [failed] at h
    · rw [h.1]; exact ⟨rfl, fun q hq => Or.inr hq⟩
    · rw [h.1]; exact ⟨rfl, fun q hq => Or.inr hq⟩
    · exact absurd rfl h.2.2
  · exact h.elim

theorem exLegal (multi : Bool) (hash : Nat → Nat) : Legal (exP multi hash) (empty 10 exLF) exClient := by
  refine ⟨⟨by simp, by intro x hx; simp at hx; subst hx; simp [adr, empty]⟩, ?_⟩
  intro s1 o1 h1
  obtain ⟨e1, a1⟩ := exStep h1
  have a1' : ∀ q ∈ adr s1, q = 11 ∨ q = 10 := fun q hq => by have := a1 q hq; simpa [adr, empty] using this
  refine ⟨⟨by simp, by intro x hx; simp at hx; subst hx; exact ⟨by simp, fun h => by have := a1' _ h; simp at this⟩⟩, ?_⟩
  intro s2 o2 h2
  obtain ⟨e2, a2⟩ := exStep h2
  refine ⟨⟨by simp, by intro x hx; simp at hx; subst hx; exact ⟨by simp, fun h => by rcases a2 _ h with h | h; · simp at h
                                                                                     · have := a1' _ h; simp at this⟩⟩, ?_⟩
  intro s3 o3 h3
  obtain ⟨e3, a3⟩ := exStep h3
  refine ⟨trivial, ?_⟩
  rintro s4 o4 ⟨rfl, rfl⟩
  simp only
  split
  · rename_i hp
    refine ⟨?_, fun s5 o5 _ => ⟨trivial, fun _ _ _ => trivial⟩⟩
    simp only [pre]
    have hd : s4.hd = 10 := by rw [e3, e2, e1]; rfl
    cases hg : grp (exP multi hash) 1 s4.X with
    | nil => rw [hg, hd] at hp; simp [atFirst] at hp
    | cons a L =>
      have : a ∈ grp (exP multi hash) 1 s4.X := by rw [hg]; simp
      exact List.mem_map_of_mem (List.mem_filter.1 this).1
  · trivial

/-- Another client: two insertions into a container at `b`. -/
def exClient2 (b : Nat) : Client Nat Nat := .call (exIns 1 (b + 1)) fun _ => .call (exIns 9 (b + 2)) fun _ => .done

theorem exLegal2 (multi : Bool) (hash : Nat → Nat) (b : Nat) : Legal (exP multi hash) (empty b exLF) (exClient2 b) := by
  refine ⟨⟨by simp, by intro x hx; simp at hx; subst hx; simp [adr, empty]⟩, ?_⟩
  intro s1 o1 h1
  obtain ⟨e1, a1⟩ := exStep h1
  have a1' : ∀ q ∈ adr s1, q = b + 1 ∨ q = b := fun q hq => by have := a1 q hq; simpa [adr, empty] using this
  exact ⟨⟨by simp, by intro x hx; simp at hx; subst hx; exact ⟨by simp, fun h => by have := a1' _ h; simp at this⟩⟩, fun _ _ _ => trivial⟩

set_option maxRecDepth 100000 in
/-- The traces of the examples: a multiset with 1, 9, 1, where `find(1)` gives the older of the two equal elements. -/
example : (runNew (exP true id) 10 exLF exClient).toOption.map (fun x => (x.2.map (fun y => match y.2 with | .it p => p | .ins p _ => p | _ => 0), x.1.t.con.size, x.1.t.maxidx)) =
    some ([11, 12, 13, 11, 13, 0], 2, 16) := by rfl

set_option maxRecDepth 100000 in
/-- The same client with a set. -/
example : (runNew (exP false id) 10 exLF exClient).toOption.map (fun x => (x.2.map (fun y => match y.2 with | .it p => p | .ins p _ => p | _ => 0), x.1.t.con.size, x.1.t.maxidx)) =
    some ([11, 12, 11, 11, 10, 0], 1, 16) := by rfl

/-- Two containers that do not overlap, as `C07_merge` assumes. -/
example : ∃ g tr k tr', runNew (exP true id) 10 exLF (exClient2 10) = .ok (g, tr) ∧ runNew (exP false id) 20 exLF (exClient2 20) = .ok (k, tr') ∧ ∀ q, g.h q = none ∨ k.h q = none := by
  obtain ⟨g, tr, s, e1, S1, _, _, _, _, _, _, _, hl, _⟩ := C07_history (exP true id) (exGood _ _) 10 (by simp) exLF (exClient2 10) (exLegal2 _ _ _)
  obtain ⟨k, tr', r, e2, S2, _, _, _, _, _, _, _, hl', _⟩ := C07_history (exP false id) (exGood _ _) 20 (by simp) exLF (exClient2 20) (exLegal2 _ _ _)
  refine ⟨g, tr, k, tr', e1, e2, ?_⟩
  have key : ∀ {multi : Bool} {b : Nat} {tr s}, SpecRun (exP multi id) (empty b exLF) (exClient2 b) tr s → ∀ q ∈ adr s, q = b ∨ q = b + 1 ∨ q = b + 2 := by
    intro multi b tr s S q hq
    cases S with
    | call _ h1 S => cases S with
      | call _ h2 S => cases S with
        | done =>
          rcases (exStep h2).2 q hq with h | h
          · exact Or.inr (Or.inr h)
          · rcases (exStep h1).2 q h with h | h
            · exact Or.inr (Or.inl h)
            · simp [adr, empty] at h; exact Or.inl h
  intro q
  by_contra hn
  simp only [not_or] at hn
  have h1 := key S1 q ((hl q).1 hn.1)
  have h2 := key S2 q ((hl' q).1 hn.2)
  omega

set_option maxRecDepth 100000 in
/-- **The hash functions of the two containers of `merge` must agree: a defect of the code.** `merge` computes the bucket that the element has in
the source with the hash function of the target (xhash:1381, 1398). If the source has another one, the element stays in the bucket array of
the source: here the set `{1}` is merged into an empty set. Afterwards the source has size 0, but `contains(1)` is still true and `find(1)`
gives the element that now belongs to the target. -/
theorem C07_merge_defect : ∃ g tr k tr' h' t' u', runNew (exP false (fun _ => 0)) 10 exLF .done = .ok (g, tr) ∧
    runNew (exP false id) 20 exLF (.call (exIns 1 21) fun _ => .done) = .ok (k, tr') ∧
    merge (exP false (fun _ => 0)) (beside g.h k.h) g.t k.t [] = .ok (h', t', u', none) ∧
    t'.con.size = 1 ∧ u'.con.size = 0 ∧ contains (exP false id) h' u' 1 = .ok true ∧ find (exP false id) h' u' 1 = .ok 21 ∧ u'.con.hd = 20 := by
  refine ⟨_, _, _, _, _, _, _, rfl, rfl, rfl, rfl, rfl, rfl, rfl, rfl⟩

end STL.UH
