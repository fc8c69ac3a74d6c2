import Verif.RBTree.World

/-!
# Properties C05 and C06: ordered associative containers over every history

The specification is `Verif/RBTree/Spec.lean`: containers as lists.
-/

namespace STL.RBT
open STL
variable {α κ : Type}

/-! ## What a caller can observe of a container -/

/-- `for (it = begin(); it != end(); ++it) visit(*it)`, where `vis` collects address and value. `g`: fuel of `operator++`. -/
def walk (h : Hp α) (hd g : Nat) : Nat → Nat → R (List (Nat × α))
  | 0, _ => .error .fuel
  | f + 1, p =>
    if p = hd then .ok []
    else do
      let n ← nd h p
      match n.val with
      | none => .error .ub
      | some v => do
        let q ← next h g p
        let r ← walk h hd g f q
        .ok ((p, v) :: r)

/-- `for (it = end(); it != begin();) visit(*--it)`. -/
def walkBack (h : Hp α) (hd g b : Nat) : Nat → Nat → R (List (Nat × α))
  | 0, _ => .error .fuel
  | f + 1, p =>
    if p = b then .ok []
    else do
      let q ← prev h g p
      let n ← nd h q
      match n.val with
      | none => .error .ub
      | some v => do
        let r ← walkBack h hd g b f q
        .ok ((q, v) :: r)

theorem walk_spec {h : Hp α} {hd g : Nat} : ∀ {f : Nat} {A B : List (Nat × α)}, WF hd h (A ++ B) → hb (A.length + B.length) ≤ g → B.length < f → walk h hd g f (firstId hd B) = .ok B
  | 0, _, _, _, _, hf => by omega
  | f + 1, A, [], W, hg, hf => by simp [walk, firstId]
  | f + 1, A, b :: B, W, hg, hf => by
    obtain ⟨n, m1, m2, m3⟩ := W.mem (q := b.1) (v := b.2) (by simp)
    have hnd := W.nodup
    have hne : b.1 ≠ hd := by
      rintro hh; rw [List.nodup_cons] at hnd; exact hnd.1 (by rw [← hh]; simp)
    unfold walk
    rw [show firstId hd (b :: B) = b.1 from rfl, if_neg hne, nd_some m1, R.ok_bind, m3]
    simp only
    rw [WF.next (e := b.1) (v := b.2) W (by rw [List.length_cons] at hg; rw [← Nat.add_assoc] at hg; exact hg), R.ok_bind,
      walk_spec (A := A ++ [b]) (by simpa using W) (by simpa [Nat.add_assoc, Nat.add_comm 1] using hg) (by simp at hf; omega), R.ok_bind]

theorem walkBack_spec {h : Hp α} {hd g : Nat} : ∀ {f : Nat} {A B : List (Nat × α)}, WF hd h (A.reverse ++ B) → hb (A.length + B.length) ≤ g → A.length < f →
    walkBack h hd g (firstId hd (A.reverse ++ B)) f (firstId hd B) = .ok A
  | 0, _, _, _, _, hf => by omega
  | f + 1, [], B, W, hg, hf => by simp [walkBack]
  | f + 1, a :: A, B, W, hg, hf => by
    have hnd := W.nodup
    have hX : (a :: A).reverse ++ B = A.reverse ++ (a :: B) := by simp
    rw [hX] at W hnd ⊢
    have hne : firstId hd B ≠ firstId hd (A.reverse ++ a :: B) := by
      have hl : firstId hd (A.reverse ++ a :: B) ∈ (A.reverse ++ [a]).map Prod.fst := by
        rw [show A.reverse ++ a :: B = (A.reverse ++ [a]) ++ B by simp]
        cases hA : A.reverse ++ [a] with
        | nil => simp at hA
        | cons x l => simp [firstId]
      intro hh
      rw [← hh] at hl
      rw [show A.reverse ++ a :: B = (A.reverse ++ [a]) ++ B by simp, List.map_append] at hnd
      rcases firstId_mem hd B with e' | ⟨w, e'⟩
      · rw [e'] at hl; nds at hnd; grind
      · have : firstId hd B ∈ B.map Prod.fst := List.mem_map.2 ⟨_, e', rfl⟩
        nds at hnd; grind
    have hprev : prev h g (firstId hd B) = .ok a.1 := by
      cases B with
      | nil =>
        rw [show firstId hd ([] : List (Nat × α)) = hd from rfl, W.prev_end]; simp [lastId]
      | cons b B =>
        have W' := W; rw [show A.reverse ++ a :: b :: B = (A.reverse ++ [a]) ++ (b.1, b.2) :: B by simp] at W'
        rw [show firstId hd (b :: B) = b.1 from rfl, W'.prev (by simpa [Nat.add_assoc, Nat.add_comm 1, Nat.add_left_comm] using hg)]; simp [lastId]
    obtain ⟨n, m1, m2, m3⟩ := W.mem (q := a.1) (v := a.2) (by simp)
    unfold walkBack
    rw [if_neg hne, hprev, R.ok_bind, nd_some m1, R.ok_bind, m3]
    simp only
    have hg' : hb (A.length + (a :: B).length) ≤ g := by
      rw [List.length_cons] at hg ⊢; rw [show A.length + (B.length + 1) = A.length + 1 + B.length by omega]; exact hg
    have := walkBack_spec (f := f) (A := A) (B := a :: B) W hg' (by simp at hf; omega)
    rw [show firstId hd (a :: B) = a.1 from rfl] at this
    rw [this, R.ok_bind]

/-- `p` is reached from `r` by `n` steps to children, all through nodes of the tree. -/
inductive Path (h : Hp α) : Nat → Nat → Nat → Prop
  | here {p n} : h p = some n → n.nil = false → Path h p p 0
  | left {r p k n} : h r = some n → n.nil = false → Path h n.left p k → Path h r p (k + 1)
  | right {r p k n} : h r = some n → n.nil = false → Path h n.right p k → Path h r p (k + 1)

theorem path_ht {hd : Nat} {h : Hp α} (h0 : ∀ n, h hd = some n → n.nil = true) : ∀ {t : T α} {par p k : Nat}, Lk hd h par t → Path h (ptr hd t) p k → k + 1 ≤ ht t
  | .nil, par, p, k, _, hp => by
    exfalso
    rw [ptr_nil] at hp
    cases hp with
    | here a b => rw [h0 _ a] at b; cases b
    | left a b => rw [h0 _ a] at b; cases b
    | right a b => rw [h0 _ a] at b; cases b
  | .node i v c l r, par, p, k, ⟨a, b, d⟩, hp => by
    rw [ptr_node] at hp
    simp only [ht]
    cases hp with
    | here => omega
    | left a' _ hp => rw [a] at a'; injection a' with a'; subst a'; have := path_ht h0 b hp; omega
    | right a' _ hp => rw [a] at a'; injection a' with a'; subst a'; have := path_ht h0 d hp; omega

/-- every element is reached -/
theorem path_ex {hd : Nat} {h : Hp α} : ∀ {t : T α} {par : Nat}, Lk hd h par t → ∀ a ∈ items t, ∃ k, Path h (ptr hd t) a.1 k
  | .nil, _, _, a, ha => by simp [items] at ha
  | .node i v c l r, par, ⟨x, b, d⟩, a, ha => by
    simp only [items, List.mem_append, List.mem_cons] at ha
    rw [ptr_node]
    rcases ha with ha | rfl | ha
    · obtain ⟨k, hk⟩ := path_ex b a ha; exact ⟨k + 1, .left x rfl hk⟩
    · exact ⟨0, .here x rfl⟩
    · obtain ⟨k, hk⟩ := path_ex d a ha; exact ⟨k + 1, .right x rfl hk⟩

/-- **C05.** Take any strict weak ordering and any history of constructions, destructions, insertions (with and without hint, with allocation
failures, up to `max_size`), erasures, `merge`s, `swap`s and lookups on any number of `set`/`map`/`multiset`/`multimap` objects, issued by a
caller that respects the preconditions. The code, whose loops are given only logarithmically many iterations in the size of the container,
returns exactly the results that the list specification prescribes, without undefined behaviour; every container has the size and, traversed
forwards or backwards, the elements (the same objects at the same addresses, in the same order) of its list; and exactly the nodes of live
containers are allocated: nothing leaks and nothing in use has been freed. -/
theorem C05_history (key : α → κ) (lt : κ → κ → Bool) (o : SWO lt) (maxsz : Nat) (ops : List (Op α κ)) (outs : List Out) (s : St α)
    (hr : SpecRun key lt maxsz (fun _ => none) ops outs s) :
    ∃ g, steps key lt maxsz start ops = .ok (g, outs) ∧
      (∀ n e, s n = some e → ∃ c b, g.w n = some ⟨c, e.multi⟩ ∧ c.hd = e.hd ∧ c.size = e.X.length ∧
        step key lt maxsz g (.begin n : Op α κ) = .ok (g, .it b) ∧
        walk g.h c.hd (fu c.size) (c.size + 1) b = .ok e.X ∧ walkBack g.h c.hd (fu c.size) b (c.size + 1) c.hd = .ok e.X.reverse) ∧
      (∀ n, s n = none → g.w n = none) ∧
      (∀ q, g.h q ≠ none ↔ used s q) := by
  obtain ⟨g, e1, I⟩ := steps_ok o hr inv_start
  refine ⟨g, e1, ?_, I.none_, ?_⟩
  · intro n e hn
    obtain ⟨c, hc, hR⟩ := I.some_ n e hn
    obtain ⟨r, hh⟩ := hR.wf.wf.head
    refine ⟨c.c, firstId c.c.hd e.X, by rw [hc, ← hR.multi], hR.hd, hR.wf.size, ?_, ?_, ?_⟩
    · simp only [step]; rw [conOf_ok hc, R.ok_bind, nd_some hh, R.ok_bind]
    · exact walk_spec (A := []) hR.wf.wf (by rw [hR.wf.size, fu_hb]; simp) (by rw [hR.wf.size]; omega)
    · have W := hR.wf.wf
      have := walkBack_spec (hd := c.c.hd) (h := g.h) (g := fu c.c.size) (f := c.c.size + 1) (A := e.X.reverse) (B := []) (by simpa using W) (by rw [hR.wf.size, fu_hb]; simp) (by rw [hR.wf.size]; simp)
      simpa [firstId] using this
  · intro q
    refine ⟨I.leak q, ?_⟩
    rintro ⟨n, e, hn, hq⟩
    obtain ⟨c, hc, hR⟩ := I.some_ n e hn
    exact hR.live hq

/-- **C05, order.** After any history every container is sorted: a `set`/`map` has strictly increasing keys, so no two equivalent ones; a
`multiset`/`multimap` has non-decreasing keys; and no element occurs twice in a container or in two containers. -/
theorem C05_sorted (key : α → κ) (lt : κ → κ → Bool) (o : SWO lt) (maxsz : Nat) (ops : List (Op α κ)) (outs : List Out) (s : St α)
    (hr : SpecRun key lt maxsz (fun _ => none) ops outs s) :
    (∀ n e, s n = some e → (e.multi = false → e.X.Pairwise (fun a b => lt (key a.2) (key b.2) = true)) ∧
      (e.multi = true → e.X.Pairwise (fun a b => lt (key b.2) (key a.2) = false)) ∧ (adr e).Nodup) ∧
    (∀ n n' e e', n ≠ n' → s n = some e → s n' = some e' → ∀ q ∈ adr e, q ∉ adr e') := by
  obtain ⟨g, e1, I⟩ := steps_ok o hr inv_start
  refine ⟨?_, I.disj⟩
  intro n e hn
  obtain ⟨c, hc, hR⟩ := I.some_ n e hn
  have hS := hR.srt
  refine ⟨fun h => ?_, fun h => ?_, ?_⟩
  · rw [h] at hS; exact hS
  · rw [h] at hS; exact hS
  · have := hR.wf.wf.nodup; rw [hR.hd] at this; exact this

/-- **C05, exceptions.** An insertion that throws leaves everything as it was. -/
theorem C05_strong_guarantee (key : α → κ) (lt : κ → κ → Bool) (maxsz : Nat) (s : St α) (op : Op α κ) (x : Exc)
    (hop : (∃ n v b y, op = .emplace n v b y) ∨ (∃ n i v y, op = .emplaceHint n i v y)) (he : (sem key lt maxsz s op).2 = .exc x) :
    (sem key lt maxsz s op).1 = s := by
  have hput : ∀ (n : Nat) (slow : Bool) (v : α) (y : Option Nat) (put : Nat × α → List (Nat × α) → List (Nat × α)),
      (on s n fun e => insSpec key lt maxsz slow e v y put).2 = .exc x → (on s n fun e => insSpec key lt maxsz slow e v y put).1 = s := by
    intro n slow v y put
    unfold on
    cases hn : s n with
    | none => intro _; rfl
    | some e =>
      simp only
      intro hx
      have : (insSpec key lt maxsz slow e v y put).1 = e.X := by
        unfold insSpec at hx ⊢
        cases hf : e.X.find? (eqv key lt (key v)) <;> rw [hf] at hx <;> simp only at hx ⊢ <;> (repeat' split at hx) <;> simp_all <;> split <;> rfl
      rw [this]; funext k; by_cases hk : k = n
      · subst hk; rw [upd_self, hn]
      · rw [upd_ne hk]
  rcases hop with ⟨n, v, b, y, rfl⟩ | ⟨n, i, v, y, rfl⟩
  · simp only [sem] at he ⊢; exact hput _ _ _ _ _ he
  · simp only [sem] at he ⊢; exact hput _ _ _ _ _ he

theorem mem_upIns {key : α → κ} {lt : κ → κ → Bool} {a b : Nat × α} {X : List (Nat × α)} : b ∈ upIns key lt a X ↔ b = a ∨ b ∈ X := by
  have h := List.takeWhile_append_dropWhile (p := fun b => !(lt (key a.2) (key b.2))) (l := X)
  unfold upIns
  simp only [List.mem_append, List.mem_cons]
  rw [show b ∈ X ↔ b ∈ X.takeWhile (fun b => !(lt (key a.2) (key b.2))) ∨ b ∈ X.dropWhile (fun b => !(lt (key a.2) (key b.2))) by rw [← List.mem_append, h]]
  tauto

theorem mem_loIns {key : α → κ} {lt : κ → κ → Bool} {a b : Nat × α} {X : List (Nat × α)} : b ∈ loIns key lt a X ↔ b = a ∨ b ∈ X := by
  have h := List.takeWhile_append_dropWhile (p := fun b => lt (key b.2) (key a.2)) (l := X)
  unfold loIns
  simp only [List.mem_append, List.mem_cons]
  rw [show b ∈ X ↔ b ∈ X.takeWhile (fun b => lt (key b.2) (key a.2)) ∨ b ∈ X.dropWhile (fun b => lt (key b.2) (key a.2)) by rw [← List.mem_append, h]]
  tauto

theorem mem_hintIns {key : α → κ} {lt : κ → κ → Bool} {a b : Nat × α} {X : List (Nat × α)} {hint : Nat} : b ∈ hintIns key lt hint a X ↔ b = a ∨ b ∈ X := by
  have h := List.takeWhile_append_dropWhile (p := fun b : Nat × α => b.1 != hint) (l := X)
  unfold hintIns
  split
  · exact mem_upIns
  · split
    · exact mem_loIns
    · simp only [List.mem_append, List.mem_cons, bef, fro]
      rw [show b ∈ X ↔ b ∈ X.takeWhile (fun b => b.1 != hint) ∨ b ∈ X.dropWhile (fun b => b.1 != hint) by rw [← List.mem_append, h]]
      tauto

theorem mem_mergeSpec {key : α → κ} {lt : κ → κ → Bool} {multi : Bool} {maxsz : Nat} {b : Nat × α} : ∀ {S D K : List (Nat × α)},
    (b ∈ (mergeSpec key lt multi maxsz D K S).1 ∨ b ∈ (mergeSpec key lt multi maxsz D K S).2.1) ↔ (b ∈ D ∨ b ∈ K ∨ b ∈ S)
  | [], D, K => by simp [mergeSpec]
  | a :: S, D, K => by
    unfold mergeSpec
    split
    · rw [mem_mergeSpec]; simp; tauto
    · split
      · simp
      · rw [mem_mergeSpec, mem_upIns]; simp; tauto

/-- **C05, iterators.** Operations other than erasing, clearing and destroying never invalidate an iterator, pointer or reference and never
change an element: every element is still there, at the same address and with the same value, though possibly (`merge`, `swap`) in another
container. -/
theorem C05_iterators_stay (key : α → κ) (lt : κ → κ → Bool) (maxsz : Nat) (s : St α) (op : Op α κ) (hp : pre s op)
    (hop : (∀ n, op ≠ .destroy n) ∧ (∀ n, op ≠ .clear n) ∧ (∀ n p, op ≠ .eraseAt n p) ∧ (∀ n p q, op ≠ .eraseRange n p q) ∧ (∀ n k, op ≠ .eraseKey n k))
    (a : Nat × α) (n : Nat) (e : Ent α) (hn : s n = some e) (ha : a ∈ e.X) :
    ∃ n' e', (sem key lt maxsz s op).1 n' = some e' ∧ a ∈ e'.X := by
  have hon : ∀ (m : Nat) (f : Ent α → List (Nat × α) × Out), (∀ e b, b ∈ e.X → b ∈ (f e).1) → ∃ n' e', (on s m f).1 n' = some e' ∧ a ∈ e'.X := by
    intro m f hf
    unfold on
    cases hm : s m with
    | none => exact ⟨n, e, hn, ha⟩
    | some e2 =>
      simp only
      by_cases h : n = m
      · subst h; rw [hn] at hm; injection hm with hm; subst hm
        exact ⟨n, _, upd_self, hf e a ha⟩
      · exact ⟨n, e, by rw [upd_ne h, hn], ha⟩
  have hins : ∀ (slow : Bool) (v : α) (y : Option Nat) (put : Nat × α → List (Nat × α) → List (Nat × α)), (∀ a b X, b ∈ X → b ∈ put a X) → ∀ (e : Ent α) b, b ∈ e.X →
      b ∈ (insSpec key lt maxsz slow e v y put).1 := by
    intro slow v y put hput e b hb
    unfold insSpec
    repeat' split
    all_goals first | exact hb | exact hput _ _ _ hb | exact mem_upIns.2 (Or.inr hb)
  obtain ⟨o1, o2, o3, o4, o5⟩ := hop
  cases op with
  | new m b x =>
    refine ⟨n, e, ?_, ha⟩
    simp only [sem]; rw [upd_ne, hn]; rintro rfl; rw [hp.1] at hn; cases hn
  | destroy m => exact absurd rfl (o1 m)
  | clear m => exact absurd rfl (o2 m)
  | eraseAt m p => exact absurd rfl (o3 m p)
  | eraseRange m p q => exact absurd rfl (o4 m p q)
  | eraseKey m k => exact absurd rfl (o5 m k)
  | emplace m v b x => exact hon m _ (hins _ _ _ _ fun _ _ _ h => mem_upIns.2 (Or.inr h))
  | emplaceHint m i v x => exact hon m _ (hins _ _ _ _ fun _ _ _ h => mem_hintIns.2 (Or.inr h))
  | merge m m' =>
    obtain ⟨hne, ⟨e1, h1⟩, ⟨e2, h2⟩⟩ := hp
    simp only [sem, h1, h2]
    have hmm := mem_mergeSpec (key := key) (lt := lt) (multi := e1.multi) (maxsz := maxsz) (b := a) (D := e1.X) (K := []) (S := e2.X)
    by_cases hx : n = m ∨ n = m'
    · have : a ∈ e1.X ∨ a ∈ ([] : List (Nat × α)) ∨ a ∈ e2.X := by
        rcases hx with rfl | rfl
        · rw [hn] at h1; injection h1 with h1; subst h1; exact Or.inl ha
        · rw [hn] at h2; injection h2 with h2; subst h2; exact Or.inr (Or.inr ha)
      rcases hmm.2 this with h | h
      · exact ⟨m, _, by rw [upd_ne hne, upd_self], h⟩
      · exact ⟨m', _, upd_self, h⟩
    · rw [not_or] at hx
      exact ⟨n, e, by rw [upd_ne hx.2, upd_ne hx.1, hn], ha⟩
  | swap m m' =>
    simp only [sem]
    by_cases h1 : n = m'
    · subst h1; exact ⟨m, e, by simp [hn], ha⟩
    · by_cases h2 : n = m
      · subst h2; exact ⟨m', e, by simp [Ne.symm h1, hn], ha⟩
      · exact ⟨n, e, by simp [h1, h2, hn], ha⟩
  | find m k => exact hon m _ fun _ _ h => h
  | count m k => exact hon m _ fun _ _ h => h
  | contains m k => exact hon m _ fun _ _ h => h
  | lowerBound m k => exact hon m _ fun _ _ h => h
  | upperBound m k => exact hon m _ fun _ _ h => h
  | equalRange m k => exact hon m _ fun _ _ h => h
  | begin m => exact hon m _ fun _ _ h => h
  | next m p => exact hon m _ fun _ _ h => h
  | prev m p => exact hon m _ fun _ _ h => h

/-- **C06.** After any history, in every container every element is reached from the root, and no path from the root has more than
`2 * log2(size + 1)` nodes. -/
theorem C06_height (key : α → κ) (lt : κ → κ → Bool) (o : SWO lt) (maxsz : Nat) (ops : List (Op α κ)) (outs : List Out) (s : St α)
    (hr : SpecRun key lt maxsz (fun _ => none) ops outs s) (g : Pg α) (hg : steps key lt maxsz start ops = .ok (g, outs))
    (n : Nat) (e : Ent α) (hn : s n = some e) :
    ∃ c head, g.w n = some c ∧ g.h c.c.hd = some head ∧
      (∀ a ∈ e.X, ∃ k, Path g.h head.parent a.1 k) ∧
      (∀ p k, Path g.h head.parent p k → k + 1 ≤ 2 * Nat.log2 (e.X.length + 1)) := by
  obtain ⟨g', e1, I⟩ := steps_ok o hr inv_start
  rw [hg] at e1; injection e1 with e1; injection e1 with e1 _; subst e1
  obtain ⟨c, hc, hR⟩ := I.some_ n e hn
  obtain ⟨t, F, et⟩ := hR.wf.wf.foc
  have hX : items t = e.X := by rw [← et]; simp [inord, itL, itR]
  have hh : g.h c.c.hd = some ⟨_, ptr c.c.hd t, _, false, true, none⟩ := F.at_.head
  refine ⟨c, _, hc, hh, ?_, ?_⟩
  · intro a ha; exact path_ex F.at_.sub a (by rw [hX]; exact ha)
  · intro p k hp
    have h1 := path_ht (hd := c.c.hd) (by intro n hn; rw [hh] at hn; injection hn with hn; subst hn; rfl) F.at_.sub hp
    have h2 := F.len
    rw [et] at h2; simp only [hb, List.length_nil] at h2; omega

/-! ## A concrete history -/

def ltN (a b : Nat) : Bool := decide (a < b)

theorem swo_ltN : SWO ltN := by
  constructor <;> simp [ltN] <;> omega

/-- two `set<int>`s (elements at their own addresses), insertions in an order that forces rotations, an erasure with two children, a merge with a
duplicate, a failed allocation -/
def demo : List (Op Nat Nat) :=
  [.new 0 false 1000, .new 1 false 2000] ++ [1, 2, 3, 4, 5, 6, 7, 8].map (fun i => .emplace 0 (10 * i) false (some i)) ++
  [.emplace 1 35 true (some 20), .emplaceHint 1 20 25 (some 21), .emplace 1 50 false (some 22), .emplace 1 60 false none,
   .eraseAt 0 4, .emplace 0 10 false (some 30), .merge 0 1, .eraseKey 0 20, .lowerBound 0 26, .count 0 35, .eraseRange 0 5 7, .swap 0 1, .prev 1 1000]

example : ((steps id ltN 100 start demo).toOption.map fun r => r.2) = some
    [.none, .none, .ins 1 true, .ins 2 true, .ins 3 true, .ins 4 true, .ins 5 true, .ins 6 true, .ins 7 true, .ins 8 true,
     .ins 20 true, .ins 21 true, .ins 22 true, .exc .badAlloc, .it 5, .ins 1 false, .none, .num 1, .it 3, .num 1, .it 7, .none, .it 8] := by decide

/-- The hypotheses of the theorems are met by a non-trivial history. -/
example : ∃ outs s, SpecRun id ltN 100 (fun _ => none) ([.new 0 true 1000, .emplace 0 5 false (some 1), .emplaceHint 0 1000 3 (some 2), .eraseAt 0 1] : List (Op Nat Nat)) outs s ∧
    s 0 = some ⟨1000, true, [(2, 3)]⟩ := by
  have fr : ∀ (s : St Nat) (q : Nat), (∀ n, n ≠ 0 → s n = none) → (∀ e, s 0 = some e → q ∉ adr e) → ¬ used s q := by
    rintro s q h1 h2 ⟨n, e, hn, hq⟩
    by_cases h : n = 0
    · subst h; exact h2 e hn hq
    · rw [h1 n h] at hn; cases hn
  refine ⟨_, _, .cons ⟨rfl, ?_⟩ (.cons ⟨⟨_, rfl⟩, ?_⟩ (.cons ⟨⟨_, rfl, by decide⟩, ?_⟩ (.cons ⟨_, rfl, by decide⟩ .nil))), rfl⟩
  · exact fr _ _ (fun _ _ => rfl) (fun e h => by cases h)
  · rintro i h; injection h with h; subst h
    refine fr _ _ (fun n hn => by simp only [sem]; exact upd_ne hn) (fun e h => ?_)
    simp only [sem, upd_self] at h; injection h with h; subst h; decide
  · rintro i h; injection h with h; subst h
    refine fr _ _ (fun n hn => by simp only [sem]; exact (upd_ne hn).trans (upd_ne hn)) (fun e h => ?_)
    injection h with h; subst h; decide

end STL.RBT
