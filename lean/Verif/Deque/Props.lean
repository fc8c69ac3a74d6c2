import Verif.Deque.Mid

/-!
# Property C08: `deque` behaves as a sequence over every history of operations
-/

namespace STL.Deque
open STL

variable {α : Type}

/-- The member functions of a history. The `Fail` arguments say what throws during the call. -/
inductive Op (α : Type) where
  | pushBack (x : α) (f : Fail)
  | pushFront (x : α) (f : Fail)
  | popBack
  | popFront
  | set (i : Nat) (x : α)
  | insert (p : Nat) (x : α) (f : Fail)
  | insertN (p n : Nat) (x : α) (fs : Nat → Fail)
  | insertRange (p : Nat) (xs : List α) (bidi : Bool) (fs : Nat → Fail)
  | erase (p q : Nat)
  | resize (n : Nat) (x : α) (fs : Nat → Fail)
  | clear
  | shrinkToFit (f : Fail)

/-- Run one call on the model. -/
def exec (B maxsz : Nat) (d : Dq (Option α)) : Op α → R (Dq (Option α) × Option Exc)
  | .pushBack x f => emplaceBack B maxsz d (some x) f
  | .pushFront x f => emplaceFront B maxsz d (some x) f
  | .popBack => do let d ← popBack B d; .ok (d, none)
  | .popFront => do let d ← popFront B d; .ok (d, none)
  | .set i x => do let d ← assign B d (d.off + i) (some x); .ok (d, none)
  | .insert p x f => emplace B maxsz d p x f
  | .insertN p n x fs => insertN B maxsz fs d p n x
  | .insertRange p xs bidi fs => insertRange B maxsz bidi fs d p xs
  | .erase p q => do let d ← erase B d p q; .ok (d, none)
  | .resize n x fs => resize B maxsz fs d n (some x)
  | .clear => do let d ← tidy B d; .ok (d, none)
  | .shrinkToFit f => shrink B d f

namespace Spec

/-- Preconditions of the calls, on the mathematical sequence. -/
def pre (l : List α) : Op α → Prop
  | .popBack => l ≠ []
  | .popFront => l ≠ []
  | .set i _ => i < l.length
  | .insert p _ _ => p ≤ l.length
  | .insertN p _ _ _ => p ≤ l.length
  | .insertRange p _ _ _ => p ≤ l.length
  | .erase p q => p ≤ q ∧ q ≤ l.length
  | _ => True

/-- The sequence after a successful call. -/
def after (l : List α) : Op α → List α
  | .pushBack x _ => l ++ [x]
  | .pushFront x _ => x :: l
  | .popBack => l.dropLast
  | .popFront => l.tail
  | .set i x => l.set i x
  | .insert p x _ => l.take p ++ [x] ++ l.drop p
  | .insertN p n x _ => l.take p ++ List.replicate n x ++ l.drop p
  | .insertRange p xs _ _ => l.take p ++ xs ++ l.drop p
  | .erase p q => l.take p ++ l.drop q
  | .resize n x _ => l.take n ++ List.replicate (n - l.length) x
  | .clear => []
  | .shrinkToFit _ => l

/-- What a call that leaves by an exception may have done: nothing (strong guarantee), except `resize`, which may have appended some
of the new elements. -/
def afterThrow (l : List α) (l' : List α) : Op α → Prop
  | .resize n x _ => ∃ k < n - l.length, l' = l ++ List.replicate k x
  | _ => l' = l

def Post (op : Op α) (l : List α) (e : Option Exc) (l' : List α) : Prop :=
  (e = none → l' = after l op) ∧ (e ≠ none → afterThrow l l' op)

/-- Does anything but the length check throw? -/
def quiet : Op α → Prop
  | .pushBack _ f | .pushFront _ f | .insert _ _ f | .shrinkToFit f => f = .no
  | .insertN _ _ _ fs | .insertRange _ _ _ fs | .resize _ _ fs => ∀ i, fs i = .no
  | _ => True

/-- The deque and the sequence after any history of calls that meet their preconditions. -/
inductive Hist (B maxsz : Nat) : Dq (Option α) → List α → Prop
  | new : Hist B maxsz empty []
  | step {d l op d' e l'} : Hist B maxsz d l → pre l op → exec B maxsz d op = .ok (d', e) → Post op l e l' → d'.size = l'.length →
      Hist B maxsz d' l'

end Spec
open Spec

theorem resize_spec {B b maxsz : Nat} (hB : B = 2 ^ b) (hmax : 8 ≤ maxsz / B) (fs : Nat → Fail) {d : Dq (Option α)} {L : List α}
    (h : Rep B maxsz d (full L)) (n : Nat) (x : α) :
    ∃ d' e, resize B maxsz fs d n (some x) = .ok (d', e) ∧ (e = none → Rep B maxsz d' (full (L.take n ++ List.replicate (n - L.length) x))) ∧
      (e ≠ none → ∃ k < n - L.length, Rep B maxsz d' (full (L ++ List.replicate k x))) ∧ ((∀ i, fs i = .no) → e = none ∨ e = some .lengthError) := by
  have hsz : d.size = L.length := by rw [h.size]; simp
  obtain ⟨d1, e1, he1, hd, ht, hw⟩ := pushBacks_spec hB hmax (List.replicate (n - d.size) (some x)) fs h
  unfold resize
  rw [he1]
  simp only [R.ok_bind]
  rw [hsz] at hd ht
  cases e1 with
  | some e =>
    refine ⟨d1, some e, rfl, by simp, fun _ => ?_, hw⟩
    obtain ⟨k, hk, hV⟩ := ht (by simp)
    simp only [List.length_replicate] at hk
    refine ⟨k, hk, ?_⟩
    rw [List.take_replicate, Nat.min_eq_left (by omega)] at hV
    simpa [full] using hV
  | none =>
    have hr := hd rfl
    have hs1 : d1.size = L.length + (n - L.length) := by rw [hr.size]; simp
    obtain ⟨d2, e2, hr2, _⟩ := popBackN_spec (d1.size - n) hr (by simp; omega)
    refine ⟨d2, none, by simp only; rw [e2]; rfl, fun _ => ?_, by simp, by simp⟩
    have e3 : (full L ++ List.replicate (n - L.length) (some x)).take ((full L ++ List.replicate (n - L.length) (some x)).length - (d1.size - n))
        = full (L.take n ++ List.replicate (n - L.length) x) := by
      rw [hs1]
      simp only [full, List.length_append, List.length_map, List.length_replicate, List.map_append, List.map_take, List.map_replicate]
      rw [List.take_append]
      congr 1
      · rw [show L.length + (n - L.length) - (L.length + (n - L.length) - n) = n by omega]
      · rw [List.take_of_length_le (by simp; omega)]
    rw [e3] at hr2
    exact hr2

/-- every call succeeds in the model and represents the specified sequence -/
theorem exec_spec {B b maxsz : Nat} (hB : B = 2 ^ b) (hmax : 8 ≤ maxsz / B) {d : Dq (Option α)} {l : List α} (h : Rep B maxsz d (full l)) (op : Op α)
    (hp : pre l op) : ∃ d' e l', exec B maxsz d op = .ok (d', e) ∧ Post op l e l' ∧ Rep B maxsz d' (full l') ∧ (quiet op → e = none ∨ e = some .lengthError) := by
  have hB0 : 0 < B := by rw [hB]; exact Nat.two_pow_pos b
  have gen : ∀ {d' : Dq (Option α)} {e : Option Exc} (op : Op α), (∀ l', afterThrow l l' op ↔ l' = l) → exec B maxsz d op = .ok (d', e) →
      (e = none → Rep B maxsz d' (full (after l op))) → (e ≠ none → Rep B maxsz d' (full l)) → (quiet op → e = none ∨ e = some .lengthError) →
      ∃ d' e l', exec B maxsz d op = .ok (d', e) ∧ Post op l e l' ∧ Rep B maxsz d' (full l') ∧ (quiet op → e = none ∨ e = some .lengthError) := by
    intro d' e op ha he h1 h2 h3
    cases e with
    | none => exact ⟨d', none, _, he, ⟨fun _ => rfl, by simp⟩, h1 rfl, by simp⟩
    | some e => exact ⟨d', some e, l, he, ⟨by simp, fun _ => (ha l).2 rfl⟩, h2 (by simp), h3⟩
  cases op with
  | pushBack x f =>
    obtain ⟨d', e, he, hs⟩ := emplaceBack_spec hB hmax h (some x) f
    refine gen _ (fun _ => Iff.rfl) he (fun e => by simpa [full, after] using hs.done e) hs.thrown (fun hq => ?_)
    by_contra hc; push Not at hc; exact hs.why hc.1 hc.2 hq
  | pushFront x f =>
    obtain ⟨d', e, he, hs⟩ := emplaceFront_spec hB hmax h (some x) f
    refine gen _ (fun _ => Iff.rfl) he (fun e => by simpa [full, after] using hs.done e) hs.thrown (fun hq => ?_)
    by_contra hc; push Not at hc; exact hs.why hc.1 hc.2 hq
  | popBack =>
    have hl : 0 < l.length := List.length_pos_iff.2 hp
    obtain ⟨d', e, hr, _⟩ := popBackN_spec 1 h (by simp; omega)
    have e' : popBack B d = .ok d' := by
      rw [popBackN] at e
      cases hh : popBack B d with
      | error r => rw [hh] at e; cases e
      | ok v => rw [hh, R.ok_bind, popBackN] at e; exact e
    refine gen _ (fun _ => Iff.rfl) (by simp only [exec]; rw [e']; rfl) (fun _ => ?_) (by simp) (by simp)
    rw [after, List.dropLast_eq_take]; simpa [full] using hr
  | popFront =>
    have hl : 0 < l.length := List.length_pos_iff.2 hp
    obtain ⟨d', e, hr, _⟩ := popFrontN_spec hB0 1 h (by simp; omega)
    have e' : popFront B d = .ok d' := by
      rw [popFrontN] at e
      cases hh : popFront B d with
      | error r => rw [hh] at e; cases e
      | ok v => rw [hh, R.ok_bind, popFrontN] at e; exact e
    refine gen _ (fun _ => Iff.rfl) (by simp only [exec]; rw [e']; rfl) (fun _ => ?_) (by simp) (by simp)
    rw [after]; simpa [full] using hr
  | set i x =>
    obtain ⟨d', e, hr, _, _⟩ := assign_rep h (i := i) (by simpa [pre] using hp) (some x)
    refine gen _ (fun _ => Iff.rfl) (by simp only [exec]; rw [e]; rfl) (fun _ => ?_) (by simp) (by simp)
    rw [after]; simpa [full] using hr
  | insert p x f =>
    obtain ⟨d', e, he, h1, h2, h3⟩ := emplace_spec hB hmax h p hp x f
    exact gen _ (fun _ => Iff.rfl) he (fun e => by simpa [after] using h1 e) h2 h3
  | insertN p n x fs =>
    have hl : l.take p ++ l.drop p = l := List.take_append_drop p l
    have hpl : (l.take p).length = p := by simp only [pre] at hp; simp; omega
    obtain ⟨d', e, he, h1, h2, h3⟩ := insertN_spec (P := l.take p) (Q := l.drop p) hB hmax fs (by rw [hl]; exact h) n x
    rw [hpl] at he
    rw [hl] at h2
    exact gen _ (fun _ => Iff.rfl) he h1 h2 h3
  | insertRange p xs bidi fs =>
    obtain ⟨d', e, he, h1, h2, h3⟩ := insertRange_spec hB hmax bidi fs h p hp xs
    exact gen _ (fun _ => Iff.rfl) he h1 h2 h3
  | erase p q =>
    simp only [pre] at hp
    obtain ⟨A, hA⟩ : ∃ A, A = l.take p := ⟨_, rfl⟩
    obtain ⟨H, hH⟩ : ∃ H, H = (l.drop p).take (q - p) := ⟨_, rfl⟩
    obtain ⟨C, hC⟩ : ∃ C, C = l.drop q := ⟨_, rfl⟩
    have hl : l = A ++ H ++ C := by
      rw [hA, hH, hC, List.append_assoc]
      have : l.drop q = (l.drop p).drop (q - p) := by rw [List.drop_drop]; congr 1; omega
      rw [this, List.take_append_drop, List.take_append_drop]
    have hAl : A.length = p := by rw [hA]; simp; omega
    have hHl : H.length = q - p := by rw [hH]; simp; omega
    obtain ⟨d', e, hr⟩ := erase_spec (A := A) (H := H) (C := C) hB0 (by rw [← hl]; exact h)
    rw [hAl, hHl, show p + (q - p) = q by omega] at e
    refine gen _ (fun _ => Iff.rfl) (by simp only [exec]; rw [e]; rfl) (fun _ => ?_) (by simp) (by simp)
    rw [after, ← hA, ← hC]; exact hr
  | resize n x fs =>
    obtain ⟨d', e, he, h1, h2, h3⟩ := resize_spec hB hmax fs h n x
    cases e with
    | none => exact ⟨d', none, _, he, ⟨fun _ => rfl, by simp⟩, h1 rfl, by simp⟩
    | some e =>
      obtain ⟨k, hk, hr⟩ := h2 (by simp)
      exact ⟨d', some e, _, he, ⟨by simp, fun _ => ⟨k, hk, rfl⟩⟩, hr, h3⟩
  | clear =>
    obtain ⟨d', e, hr, _⟩ := tidy_spec hB0 h
    exact gen _ (fun _ => Iff.rfl) (by simp only [exec]; rw [e]; rfl) (fun _ => hr) (by simp) (by simp)
  | shrinkToFit f =>
    obtain ⟨d', e, he, hr, _, hw⟩ := shrink_spec hB0 h f
    refine gen _ (fun _ => Iff.rfl) he (fun _ => hr) (fun _ => hr) (fun hq => ?_)
    by_contra hc; push Not at hc; exact hw hc.1 hq

theorem post_det {op : Op α} {l l1 l2 : List α} {e : Option Exc} (h1 : Post op l e l1) (h2 : Post op l e l2) (hl : l1.length = l2.length) : l1 = l2 := by
  cases e with
  | none => rw [h1.1 rfl, h2.1 rfl]
  | some e =>
    have a1 := h1.2 (by simp)
    have a2 := h2.2 (by simp)
    cases op <;> simp only [afterThrow] at a1 a2 <;> first
      | (rw [a1, a2])
      | (obtain ⟨k, _, rfl⟩ := a1
         obtain ⟨k', _, rfl⟩ := a2
         simp at hl; subst hl; rfl)

theorem hist_rep {B b maxsz : Nat} (hB : B = 2 ^ b) (hmax : 8 ≤ maxsz / B) {d : Dq (Option α)} {l : List α} (h : Hist B maxsz d l) : Rep B maxsz d (full l) := by
  induction h with
  | new => exact rep_nomap rfl rfl rfl (fun _ => rfl)
  | step h hp he hpost hs ih =>
    obtain ⟨d1, e1, l1, he1, hp1, hr1, _⟩ := exec_spec hB hmax ih _ hp
    rw [he] at he1
    cases he1
    have := post_det hpost hp1 (by rw [← hs, hr1.size]; simp)
    rw [this]; exact hr1

/-- **C08.** After any history: `size()` and the elements are those of the mathematical sequence; every further call meeting its
precondition runs without undefined behaviour and without touching a cell in which no object lives, has the specified effect, and
nothing but an allocation, an element constructor or the length check throws. `B` is the block size, a power of two. -/
theorem C08_history {B b maxsz : Nat} (hB : B = 2 ^ b) (hmax : 8 ≤ maxsz / B) {d : Dq (Option α)} {l : List α} (h : Hist B maxsz d l) :
    d.size = l.length ∧ (∀ i, ∀ hi : i < l.length, load B d (d.off + i) = .ok (some l[i])) ∧
    ∀ op, pre l op → ∃ d' e l', exec B maxsz d op = .ok (d', e) ∧ Post op l e l' ∧ Hist B maxsz d' l' ∧ (quiet op → e = none ∨ e = some .lengthError) := by
  have hr := hist_rep hB hmax h
  refine ⟨by rw [hr.size]; simp, fun i hi => ?_, fun op hp => ?_⟩
  · rw [load_rep hr (by simpa using hi)]; simp [full]
  · obtain ⟨d', e, l', he, hpost, hr', hq⟩ := exec_spec hB hmax hr op hp
    exact ⟨d', e, l', he, hpost, .step h hp he hpost (by rw [hr'.size]; simp), hq⟩

/-- No length error below half of `max_size()`. -/
theorem C08_length {B b maxsz : Nat} (hB : B = 2 ^ b) (hmax : 8 ≤ maxsz / B) {d d' : Dq (Option α)} {l : List α} (h : Hist B maxsz d l) (x : α) (f : Fail)
    (he : exec B maxsz d (.pushBack x f) = .ok (d', some .lengthError) ∨ exec B maxsz d (.pushFront x f) = .ok (d', some .lengthError)) :
    maxsz / B < 2 * (l.length / B + 1) := by
  have hr := hist_rep hB hmax h
  rcases he with he | he
  · obtain ⟨d1, e1, he1, hp1⟩ := emplaceBack_spec hB hmax hr (some x) f
    simp only [exec] at he; rw [he1] at he; cases he
    simpa using hp1.len rfl
  · obtain ⟨d1, e1, he1, hp1⟩ := emplaceFront_spec hB hmax hr (some x) f
    simp only [exec] at he; rw [he1] at he; cases he
    simpa using hp1.len rfl

/-- The address of element `i`: block and offset in the block. -/
def address (B : Nat) (d : Dq (Option α)) (i : Nat) : R (Nat × Nat) := addr B d (d.off + i)

theorem address_addrs {B maxsz : Nat} {d : Dq (Option α)} {l : List α} (h : Rep B maxsz d (full l)) {i : Nat} (hi : i < l.length) :
    ∃ a, address B d i = .ok a ∧ addrs B d i = some a ∧ (d.blk a.1).isSome ∧ d.map[(d.off + i) / B % d.map.length]? = some (some a.1) ∧ a.2 = (d.off + i) % B := by
  have hN : i < d.map.length * B := by have := h.span; have := h.size; simp at this; omega
  have hc := h.cells i hN
  rw [List.getElem?_eq_getElem (by simpa using hi)] at hc
  obtain ⟨b, c, h1, h2, h3, _⟩ := addr_of_atp h.core hc
  exact ⟨_, h1, by unfold addrs; rw [h2]; rfl, by rw [h3]; rfl, h2, rfl⟩

/-- **C08, addresses.** Distinct elements live at distinct addresses in allocated blocks. No element changes its address when an
element is pushed or popped at either end, assigned, or when the deque shrinks its map, and this also holds when the call throws. -/
theorem C08_addresses {B b maxsz : Nat} (hB : B = 2 ^ b) (hmax : 8 ≤ maxsz / B) {d d' : Dq (Option α)} {l : List α} (h : Hist B maxsz d l) :
    (∀ i < l.length, ∃ a, address B d i = .ok a ∧ (d.blk a.1).isSome ∧ ∀ j < l.length, address B d j = .ok a → i = j) ∧
    (∀ x f e, exec B maxsz d (.pushBack x f) = .ok (d', e) → ∀ i < l.length, address B d' i = address B d i) ∧
    (∀ x f e, exec B maxsz d (.pushFront x f) = .ok (d', e) → ∀ i < l.length, address B d' (if e = none then i + 1 else i) = address B d i) ∧
    (∀ e, l ≠ [] → exec B maxsz d .popBack = .ok (d', e) → ∀ i < l.length - 1, address B d' i = address B d i) ∧
    (∀ e, l ≠ [] → exec B maxsz d .popFront = .ok (d', e) → ∀ i < l.length - 1, address B d' i = address B d (i + 1)) ∧
    (∀ f e, exec B maxsz d (.shrinkToFit f) = .ok (d', e) → ∀ i < l.length, address B d' i = address B d i) ∧
    (∀ j x e, j < l.length → exec B maxsz d (.set j x) = .ok (d', e) → ∀ i < l.length, address B d' i = address B d i) := by
  have hB0 : 0 < B := by rw [hB]; exact Nat.two_pow_pos b
  have hr := hist_rep hB hmax h
  have conv : ∀ {l' : List α} {i j : Nat}, Rep B maxsz d' (full l') → j < l'.length → i < l.length → addrs B d' j = addrs B d i → address B d' j = address B d i := by
    intro l' i j hr' hj hi he
    obtain ⟨a, h1, h2, _⟩ := address_addrs hr hi
    obtain ⟨a', h1', h2', _⟩ := address_addrs hr' hj
    rw [h2, h2'] at he
    cases he
    rw [h1, h1']
  refine ⟨fun i hi => ?_, fun x f e he i hi => ?_, fun x f e he i hi => ?_, fun e hl he i hi => ?_, fun e hl he i hi => ?_, fun f e he i hi => ?_, fun j x e hj he i hi => ?_⟩
  · obtain ⟨a, h1, _, h3, h4, h5⟩ := address_addrs hr hi
    refine ⟨a, h1, h3, fun j hj hja => ?_⟩
    obtain ⟨a', h1', _, _, h4', h5'⟩ := address_addrs hr hj
    rw [h1'] at hja
    cases hja
    have hsp := hr.span
    have hs := hr.size
    simp at hs
    refine window_inj (N := d.map.length * B) (o := d.off) (by omega) (by omega) ?_
    refine idx_iff.1 ⟨hr.core.inj _ _ _ h4 h4', by rw [← h5, ← h5']⟩
  · obtain ⟨d1, e1, he1, hp1⟩ := emplaceBack_spec hB hmax hr (some x) f
    simp only [exec] at he; rw [he1] at he; cases he
    have ha := hp1.addr i (by simpa using hi)
    rw [Nat.add_zero, ite_self] at ha
    cases e with
    | none => exact conv (l' := l ++ [x]) (by simpa [full] using hp1.done rfl) (by simp; omega) hi ha
    | some e => exact conv (hp1.thrown (by simp)) hi hi ha
  · obtain ⟨d1, e1, he1, hp1⟩ := emplaceFront_spec hB hmax hr (some x) f
    simp only [exec] at he; rw [he1] at he; cases he
    have ha := hp1.addr i (by simpa using hi)
    cases e with
    | none => exact conv (l' := x :: l) (by simpa [full] using hp1.done rfl) (by simp; omega) hi ha
    | some e => simp only [reduceCtorEq, if_false] at ha ⊢; exact conv (hp1.thrown (by simp)) hi hi ha
  · have hl' : 0 < l.length := List.length_pos_iff.2 hl
    obtain ⟨d1, e1, hr1, ha⟩ := popBackN_spec 1 hr (by simp; omega)
    simp only [exec] at he
    rw [popBackN] at e1
    cases hh : popBack B d with
    | error r => rw [hh] at e1; cases e1
    | ok v =>
      rw [hh, R.ok_bind, popBackN] at e1; cases e1
      rw [hh, R.ok_bind] at he; cases he
      exact conv (l' := l.take (l.length - 1)) (by simpa [full] using hr1) (by simp; omega) (by omega) (ha i (by simpa using hi))
  · have hl' : 0 < l.length := List.length_pos_iff.2 hl
    obtain ⟨d1, e1, hr1, ha⟩ := popFrontN_spec hB0 1 hr (by simp; omega)
    simp only [exec] at he
    rw [popFrontN] at e1
    cases hh : popFront B d with
    | error r => rw [hh] at e1; cases e1
    | ok v =>
      rw [hh, R.ok_bind, popFrontN] at e1; cases e1
      rw [hh, R.ok_bind] at he; cases he
      exact conv (l' := l.drop 1) (by simpa [full] using hr1) (by simp; omega) (by omega) (ha i (by simpa using hi))
  · obtain ⟨d1, e1, he1, hr1, ha, _⟩ := shrink_spec hB0 hr f
    simp only [exec] at he; rw [he1] at he; cases he
    exact conv hr1 hi hi (ha i (by simpa using hi))
  · obtain ⟨d1, e1, hr1, _, ha⟩ := assign_rep hr (i := j) (by simpa using hj) (some x)
    simp only [exec] at he; rw [e1, R.ok_bind] at he; cases he
    exact conv (l' := l.set j x) (by simpa [full] using hr1) (by simpa using hi) hi (ha i)

/-- **C08, arithmetic.** Positions stay below twice `max_size()`, so the sums of `size_type` do not wrap around. -/
theorem C08_no_overflow {B b maxsz : Nat} (hB : B = 2 ^ b) (hmax : 8 ≤ maxsz / B) {d : Dq (Option α)} {l : List α} (h : Hist B maxsz d l) :
    d.off + d.size ≤ 2 * maxsz ∧ d.map.length * B ≤ maxsz := by
  have hr := hist_rep hB hmax h
  have h1 : d.map.length * B ≤ maxsz := (Nat.mul_le_mul_right B hr.core.maxM).trans (Nat.div_mul_le_self _ _)
  have h2 := hr.sum
  have h3 : (2 * d.map.length - 1) * B ≤ 2 * d.map.length * B := Nat.mul_le_mul_right _ (by omega)
  rw [Nat.mul_assoc] at h3
  omega

/-- **C08, no leak.** After any history the destructor runs without undefined behaviour and leaves no block allocated. -/
theorem C08_destroy {B b maxsz : Nat} (hB : B = 2 ^ b) (hmax : 8 ≤ maxsz / B) {d : Dq (Option α)} {l : List α} (h : Hist B maxsz d l) :
    ∃ d', tidy B d = .ok d' ∧ ∀ b, d'.blk b = none := by
  have hB0 : 0 < B := by rw [hB]; exact Nat.two_pow_pos b
  obtain ⟨d', e, _, _, hn⟩ := tidy_spec hB0 (hist_rep hB hmax h)
  exact ⟨d', e, hn⟩

/-! ## Cases -/

/-- a history by running the model -/
def play (B maxsz : Nat) : List (Op α) → Dq (Option α) → R (Dq (Option α))
  | [], d => .ok d
  | op :: ops, d => do
    let r ← exec B maxsz d op
    play B maxsz ops r.1

def demo : List (Op Nat) :=
  (List.range 20).map (fun i => .pushBack i .no) ++ [.popFront, .pushFront 77 .no, .pushFront 78 .no, .set 3 99, .shrinkToFit .no, .pushBack 7 .ctor,
    .resize 6 0 (fun _ => .no)]

example : (play 4 1000 demo empty).bind (view 4) = .ok (full [78, 77, 1, 99, 3, 4]) := by rfl

/-- The hypotheses are met by a deque with a wrapped map. -/
example : ∃ d, Hist 2 1000 d [9, 8, 1, 2] := by
  have hB : (2 : Nat) = 2 ^ 1 := rfl
  have hmax : 8 ≤ 1000 / 2 := by decide
  have h0 : Hist (α := Nat) 2 1000 empty [] := .new
  have go : ∀ {d : Dq (Option Nat)} {l : List Nat} (op : Op Nat), Hist 2 1000 d l → pre l op → (∀ d' e, exec 2 1000 d op = .ok (d', e) → e = none) → ∃ d', Hist 2 1000 d' (after l op) := by
    intro d l op h hp he
    obtain ⟨_, _, h3⟩ := C08_history hB hmax h
    obtain ⟨d', e, l', h4, h5, h6, _⟩ := h3 op hp
    have := he d' e h4
    subst this
    rw [h5.1 rfl] at h6; exact ⟨d', h6⟩
  have push : ∀ {d : Dq (Option Nat)} {l : List Nat} (op : Op Nat), ((∃ x, op = .pushBack x .no) ∨ (∃ x, op = .pushFront x .no)) → l.length < 100 → Hist 2 1000 d l →
      ∃ d', Hist 2 1000 d' (after l op) := by
    intro d l op hop hl h
    refine go op h (by rcases hop with ⟨x, rfl⟩ | ⟨x, rfl⟩ <;> trivial) (fun d' e he => ?_)
    obtain ⟨_, _, h3⟩ := C08_history hB hmax h
    obtain ⟨d1, e1, l1, h4, _, _, h7⟩ := h3 op (by rcases hop with ⟨x, rfl⟩ | ⟨x, rfl⟩ <;> trivial)
    rw [he] at h4
    cases h4
    rcases h7 (by rcases hop with ⟨x, rfl⟩ | ⟨x, rfl⟩ <;> rfl) with r | r
    · exact r
    · subst r
      have := C08_length (d' := d') hB hmax h
      rcases hop with ⟨x, rfl⟩ | ⟨x, rfl⟩
      · have := this x .no (Or.inl he); omega
      · have := this x .no (Or.inr he); omega
  obtain ⟨_, h1⟩ := push (.pushBack 1 .no) (Or.inl ⟨_, rfl⟩) (by simp) h0
  obtain ⟨_, h2⟩ := push (.pushBack 2 .no) (Or.inl ⟨_, rfl⟩) (by simp [after]) h1
  obtain ⟨_, h3⟩ := push (.pushFront 8 .no) (Or.inr ⟨_, rfl⟩) (by simp [after]) h2
  obtain ⟨_, h4⟩ := push (.pushFront 9 .no) (Or.inr ⟨_, rfl⟩) (by simp [after]) h3
  exact ⟨_, h4⟩

end STL.Deque
