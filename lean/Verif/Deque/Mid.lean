import Verif.Deque.Shrink
import Verif.Reorder.Props

/-! # `deque`: insertion and erasure in the middle. Proofs only. -/

namespace STL.Deque
open STL
variable {T : Type _} {α : Type _}

/-! ## Several pushes -/

theorem pushBacks_spec {B b maxsz : Nat} (hB : B = 2 ^ b) (hmax : 8 ≤ maxsz / B) (xs : List T) : ∀ {d : Dq T} {l : List T} (fs : Nat → Fail),
    Rep B maxsz d l → ∃ d' e, pushBacks B maxsz fs xs d = .ok (d', e) ∧ (e = none → Rep B maxsz d' (l ++ xs)) ∧
      (e ≠ none → ∃ k < xs.length, Rep B maxsz d' (l ++ xs.take k)) ∧ ((∀ i, fs i = .no) → e = none ∨ e = some .lengthError) := by
  induction xs with
  | nil => intro d l fs h; exact ⟨d, none, rfl, fun _ => by simpa using h, by simp, by simp⟩
  | cons x xs ih =>
    intro d l fs h
    obtain ⟨d1, e1, he1, hp⟩ := emplaceBack_spec hB hmax h x (fs 0)
    rw [pushBacks, he1]
    simp only [R.ok_bind]
    cases e1 with
    | some e =>
      refine ⟨d1, some e, rfl, by simp, fun _ => ⟨0, by simp, by simpa using hp.thrown (by simp)⟩, fun hf => ?_⟩
      by_contra hc
      push Not at hc
      exact hp.why (by simp) hc.2 (hf 0)
    | none =>
      simp only
      obtain ⟨d2, e2, he2, h2, h3, h4⟩ := ih (fun i => fs (i + 1)) (hp.done rfl)
      refine ⟨d2, e2, he2, fun h => by simpa using h2 h, fun h => ?_, fun hf => h4 (fun i => hf _)⟩
      obtain ⟨k, hk, hr⟩ := h3 h
      exact ⟨k + 1, by simpa using hk, by simpa using hr⟩

theorem pushFronts_spec {B b maxsz : Nat} (hB : B = 2 ^ b) (hmax : 8 ≤ maxsz / B) (xs : List T) : ∀ {d : Dq T} {l : List T} (fs : Nat → Fail),
    Rep B maxsz d l → ∃ d' e, pushFronts B maxsz fs xs d = .ok (d', e) ∧ (e = none → Rep B maxsz d' (xs.reverse ++ l)) ∧
      (e ≠ none → ∃ V, Rep B maxsz d' (V ++ l)) ∧ ((∀ i, fs i = .no) → e = none ∨ e = some .lengthError) := by
  induction xs with
  | nil => intro d l fs h; exact ⟨d, none, rfl, fun _ => by simpa using h, by simp, by simp⟩
  | cons x xs ih =>
    intro d l fs h
    obtain ⟨d1, e1, he1, hp⟩ := emplaceFront_spec hB hmax h x (fs 0)
    rw [pushFronts, he1]
    simp only [R.ok_bind]
    cases e1 with
    | some e =>
      refine ⟨d1, some e, rfl, by simp, fun _ => ⟨[], by simpa using hp.thrown (by simp)⟩, fun hf => ?_⟩
      by_contra hc
      push Not at hc
      exact hp.why (by simp) hc.2 (hf 0)
    | none =>
      simp only
      obtain ⟨d2, e2, he2, h2, h3, h4⟩ := ih (fun i => fs (i + 1)) (hp.done rfl)
      refine ⟨d2, e2, he2, fun h => by simpa using h2 h, fun h => ?_, fun hf => h4 (fun i => hf _)⟩
      obtain ⟨V, hr⟩ := h3 h
      exact ⟨V ++ [x], by simpa using hr⟩

/-! ## Element access -/

theorem load_rep {B maxsz : Nat} {d : Dq T} {l : List T} (h : Rep B maxsz d l) {i : Nat} (hi : i < l.length) : load B d (d.off + i) = .ok l[i] := by
  have hN : i < d.map.length * B := by have := h.span; have := h.size; omega
  refine load_of_atp h.core ?_
  rw [h.cells i hN, List.getElem?_eq_getElem hi]

theorem assign_rep {B maxsz : Nat} {d : Dq T} {l : List T} (h : Rep B maxsz d l) {i : Nat} (hi : i < l.length) (y : T) :
    ∃ d', assign B d (d.off + i) y = .ok d' ∧ Rep B maxsz d' (l.set i y) ∧ d'.off = d.off ∧ (∀ j, addrs B d' j = addrs B d j) := by
  have hN : i < d.map.length * B := by have := h.span; have := h.size; omega
  have hc := h.cells i hN
  rw [List.getElem?_eq_getElem hi] at hc
  obtain ⟨d', he, hw⟩ := assign_spec h.core hc y
  refine ⟨d', he, ⟨hw.core, by rw [hw.size, h.size]; simp, fun e => ?_, by rw [hw.off, hw.size, hw.map]; exact h.span, by rw [hw.off, hw.size, hw.map]; exact h.sum, fun j hj => ?_⟩, hw.off, fun j => ?_⟩
  · have := congrArg List.length e; simp at this; subst this; simp at hi
  · rw [hw.map] at hj
    rw [hw.off, hw.cells, List.getElem?_set]
    by_cases c : i = j
    · subst c; rw [if_pos rfl, if_pos rfl, if_pos hi]
    · rw [if_neg (fun hh => c (window_inj hj hN hh).symm), if_neg c]; exact h.cells j hj
  · unfold addrs; rw [hw.map, hw.off]

theorem viewFrom_spec {B maxsz : Nat} {d : Dq (Option α)} {l : Mem α} (h : Rep B maxsz d l) (n : Nat) : ∀ i, i + n = l.length →
    viewFrom B d i n = .ok (l.drop i) := by
  induction n with
  | zero => intro i hi; rw [viewFrom, List.drop_eq_nil_of_le (by omega)]
  | succ n ih =>
    intro i hi
    rw [viewFrom, load_rep h (i := i) (by omega), R.ok_bind, ih (i + 1) (by omega), R.ok_bind]
    have := List.drop_eq_getElem_cons (show i < l.length by omega)
    rw [this]

theorem view_spec {B maxsz : Nat} {d : Dq (Option α)} {l : Mem α} (h : Rep B maxsz d l) : view B d = .ok l := by
  unfold view; rw [viewFrom_spec h d.size 0 (by rw [h.size]; omega)]; simp

theorem storeFrom_spec {B maxsz : Nat} (r : Mem α) : ∀ {d : Dq (Option α)} {P Q : Mem α} {i : Nat}, Rep B maxsz d (P ++ Q) → P.length = i → Q.length = r.length →
    ∃ d', storeFrom B d i r = .ok d' ∧ Rep B maxsz d' (P ++ r) := by
  induction r with
  | nil => intro d P Q i h _ hq; rw [List.length_eq_zero_iff.1 hq] at h; exact ⟨d, rfl, h⟩
  | cons x r ih =>
    intro d P Q i h hp hq
    cases Q with
    | nil => simp at hq
    | cons y Q =>
      subst hp
      obtain ⟨d1, e1, h1, _, _⟩ := assign_rep h (i := P.length) (by simp) x
      rw [List.set_append_right _ _ (le_refl _)] at h1
      simp only [Nat.sub_self, List.set_cons_zero] at h1
      obtain ⟨d2, e2, h2⟩ := ih (d := d1) (P := P ++ [x]) (Q := Q) (i := P.length + 1) (by simpa using h1) (by simp) (by simpa using hq)
      exact ⟨d2, by rw [storeFrom, e1, R.ok_bind, e2], by simpa using h2⟩

theorem onView_spec {B maxsz : Nat} {d : Dq (Option α)} {m m' : Mem α} {g : Mem α → R (Mem α)} (h : Rep B maxsz d m) (hg : g m = .ok m')
    (hl : m'.length = m.length) : ∃ d', onView B d g = .ok d' ∧ Rep B maxsz d' m' := by
  obtain ⟨d', e, hr⟩ := storeFrom_spec m' (d := d) (P := []) (Q := m) (i := 0) (by simpa using h) rfl hl.symm
  exact ⟨d', by rw [onView, view_spec h, R.ok_bind, hg, R.ok_bind, e], by simpa using hr⟩

/-! ## Flat memory -/

theorem upd_set (m : Mem α) (j : Nat) (v : Option α) : Upd m (m.set j v) (fun i => i = j) :=
  ⟨by simp, fun i hi => by rw [List.getElem?_set, if_neg (fun e => hi e.symm)]⟩

theorem at_drop {m : Mem α} {n : Nat} {X : List α} (h : At m n X) (hl : m.length = n + X.length) : m.drop n = full X := by
  refine eq_full_of_at (fun i hi => ?_) (by simp; omega)
  rw [List.getElem?_drop, Nat.zero_add]; exact h i hi

theorem at_take {m : Mem α} {X : List α} (h : At m 0 X) (hl : X.length ≤ m.length) : m.take X.length = full X := by
  refine eq_full_of_at (fun i hi => ?_) (by simp; omega)
  have := h i hi
  rw [List.getElem?_take, if_pos (by omega)]; exact this

theorem fill_spec (x : α) (n : Nat) : ∀ (m : Mem α) (f : Nat), f + n ≤ m.length →
    ∃ m', fill m x f n = .ok m' ∧ At m' f (List.replicate n x) ∧ Upd m m' (Seg f (f + n)) := by
  induction n with
  | zero => intro m f _; exact ⟨m, rfl, At.nil _ _, Upd.refl _ _⟩
  | succ n ih =>
    intro m f hf
    have hw : wr m f x = .ok (m.set f (some x)) := by simp [wr]; omega
    obtain ⟨m', e, a, u⟩ := ih (m.set f (some x)) (f + 1) (by simp; omega)
    refine ⟨m', by rw [fill, hw, R.ok_bind, e], ?_, ?_⟩
    · rw [List.replicate_succ, At.cons_iff]
      refine ⟨?_, a⟩
      rw [u.out f (by unfold Seg; omega), List.getElem?_set, if_pos rfl, if_pos (by omega)]
    · exact ((upd_set m f (some x)).trans u).mono (fun j hj => by unfold Seg at *; omega)

/-- `full X` as three pieces -/
theorem at_full3 (A H C : List α) : At (full (A ++ H ++ C)) 0 A ∧ At (full (A ++ H ++ C)) A.length H ∧ At (full (A ++ H ++ C)) (A.length + H.length) C := by
  have := at_full (A ++ H ++ C)
  rw [At.append_iff, At.append_iff] at this
  simpa [and_assoc] using this

/-! ## `emplace` -/

theorem emplace_spec {B b maxsz : Nat} (hB : B = 2 ^ b) (hmax : 8 ≤ maxsz / B) {d : Dq (Option α)} {L : List α} (h : Rep B maxsz d (full L))
    (p : Nat) (hp : p ≤ L.length) (x : α) (f : Fail) :
    ∃ d' e, emplace B maxsz d p x f = .ok (d', e) ∧ (e = none → Rep B maxsz d' (full (L.take p ++ x :: L.drop p))) ∧
      (e ≠ none → Rep B maxsz d' (full L)) ∧ (f = .no → e = none ∨ e = some .lengthError) := by
  have why : ∀ {l' : List (Option α)} {sh : Nat} {d' : Dq (Option α)} {e}, Pushed B maxsz d (full L) l' sh f d' e → f = .no → e = none ∨ e = some .lengthError := by
    intro l' sh d' e hp hf
    by_contra hc
    push Not at hc
    exact hp.why hc.1 hc.2 hf
  have hsz : d.size = L.length := by rw [h.size]; simp
  unfold emplace
  by_cases p0 : p = 0
  · rw [if_pos p0]
    obtain ⟨d1, e1, he1, hp1⟩ := emplaceFront_spec hB hmax h (some x) f
    refine ⟨d1, e1, he1, fun e => ?_, hp1.thrown, why hp1⟩
    have := hp1.done e
    subst p0; simpa [full] using this
  · rw [if_neg p0]
    by_cases pn : p = d.size
    · rw [if_pos pn]
      obtain ⟨d1, e1, he1, hp1⟩ := emplaceBack_spec hB hmax h (some x) f
      refine ⟨d1, e1, he1, fun e => ?_, hp1.thrown, why hp1⟩
      have := hp1.done e
      rw [pn, hsz]; simpa [full] using this
    · rw [if_neg pn]
      have hpl : p < L.length := by omega
      by_cases hh : p ≤ d.size / 2
      · rw [if_pos hh]
        obtain ⟨y, L', rfl⟩ : ∃ y L', L = y :: L' := by
          cases L with
          | nil => simp at hpl
          | cons y L' => exact ⟨y, L', rfl⟩
        have hld := load_rep h (i := 0) (by simp)
        rw [Nat.add_zero] at hld
        rw [hld, R.ok_bind]
        simp only [full, List.map_cons, List.getElem_cons_zero, taken, R.ok_bind]
        obtain ⟨d1, e1, he1, hp1⟩ := emplaceFront_spec hB hmax h (some y) f
        rw [he1]
        simp only [R.ok_bind]
        cases e1 with
        | some e => exact ⟨d1, some e, rfl, by simp, hp1.thrown, why hp1⟩
        | none =>
          simp only
          have hr1 := hp1.done rfl
          obtain ⟨A, hA⟩ : ∃ A, A = L'.take (p - 1) := ⟨_, rfl⟩
          obtain ⟨C, hC⟩ : ∃ C, C = L'.drop (p - 1) := ⟨_, rfl⟩
          have hAC : L' = A ++ C := by rw [hA, hC, List.take_append_drop]
          have hAl : A.length = p - 1 := by rw [hA]; simp at hpl; simp; omega
          have hm0 : At (some y :: full (y :: L')) 0 (y :: y :: (A ++ C)) := by
            have := at_full (y :: y :: (A ++ C)); rw [hAC]; simpa [full] using this
          rw [At.cons_iff, At.cons_iff, At.append_iff] at hm0
          obtain ⟨c0, c1, cA, cC⟩ := hm0
          have us := upd_set (some y :: full (y :: L')) 1 none
          have cA' := cA.upd us (fun i hi => by omega)
          have hml : ((some y :: full (y :: L')).set 1 none).length = L'.length + 2 := by simp
          have hACl : A.length + C.length = L'.length := by rw [hAC]; simp
          have hb1 : 1 + A.length ≤ ((some y :: full (y :: L')).set 1 none).length := by rw [hml]; omega
          obtain ⟨m', em, am, um⟩ := moveFwd_spec _ 2 (1 + p) 1 A cA' (by omega) (Or.inl (by omega)) hb1
          have hml' : m'.length = L'.length + 2 := by rw [um.len, hml]
          obtain ⟨m2, e2⟩ : ∃ m2, m2 = m'.set (1 + A.length) (some x) := ⟨_, rfl⟩
          have hwr : wr m' (1 + A.length) x = .ok m2 := by rw [e2]; simp [wr]; omega
          have uw := upd_set m' (1 + A.length) (some x)
          rw [← e2] at uw
          have hfinal : m2 = full (y :: (A ++ x :: C)) := by
            refine eq_full_of_at ?_ (by rw [e2]; simp; omega)
            rw [At.cons_iff, At.append_iff, At.cons_iff]
            refine ⟨?_, am.upd uw (fun i hi => by omega), ?_, ?_⟩
            · rw [uw.out 0 (by omega), um.out 0 (by unfold Seg; omega), us.out 0 (by omega)]; exact c0
            · rw [e2, List.getElem?_set, if_pos (by omega), if_pos (by omega)]
            · have h1 : At m2 (0 + 1 + 1 + A.length) C :=
                ((cC.upd us (fun i hi => by omega)).upd um (fun i hi => by unfold Seg; omega)).upd uw (fun i hi => by omega)
              rw [show 0 + 1 + A.length + 1 = 0 + 1 + 1 + A.length by omega]
              exact h1
          have HH := onView_spec (g := fun m => do
              let m := m.set 1 none
              let r ← moveFwd m 2 (1 + p) 1
              wr r.1 r.2 x) (m' := m2) hr1 (by simp only; rw [em]; simp only [R.ok_bind]; rw [hwr]) (by rw [hfinal, hAC]; simp; omega)
          obtain ⟨d2, ed2, hr2⟩ := HH
          refine ⟨d2, none, by rw [ed2]; rfl, fun _ => ?_, by simp, by simp⟩
          rw [hfinal] at hr2
          have hgoal : (y :: L').take p ++ x :: (y :: L').drop p = y :: (A ++ x :: C) := by
            rw [show p = A.length + 1 by omega, hAC]
            simp
          rw [hgoal]
          exact hr2
      · rw [if_neg hh]
        obtain ⟨L', y, rfl⟩ : ∃ L' y, L = L' ++ [y] := by
          rcases List.eq_nil_or_concat L with e | ⟨l', x, e⟩
          · subst e; simp at hpl
          · exact ⟨l', x, by simpa using e⟩
        simp only [List.length_append, List.length_cons, List.length_nil] at hpl hsz
        have hld := load_rep h (i := L'.length) (by simp)
        rw [show d.off + d.size - 1 = d.off + L'.length by omega, hld, R.ok_bind]
        have hgl : (full (L' ++ [y]))[L'.length]'(by simp) = some y := by simp [full]
        rw [hgl]
        simp only [taken, R.ok_bind]
        obtain ⟨d1, e1, he1, hp1⟩ := emplaceBack_spec hB hmax h (some y) f
        rw [he1]
        simp only [R.ok_bind]
        cases e1 with
        | some e => exact ⟨d1, some e, rfl, by simp, hp1.thrown, why hp1⟩
        | none =>
          simp only
          have hr1 := hp1.done rfl
          have hs1 : d1.size = L'.length + 2 := by rw [hr1.size]; simp
          obtain ⟨A, hA⟩ : ∃ A, A = L'.take p := ⟨_, rfl⟩
          obtain ⟨C, hC⟩ : ∃ C, C = L'.drop p := ⟨_, rfl⟩
          have hAC : L' = A ++ C := by rw [hA, hC, List.take_append_drop]
          have hAl : A.length = p := by rw [hA]; simp; omega
          have hm0 : At (full (L' ++ [y]) ++ [some y]) 0 (A ++ (C ++ [y, y])) := by
            have := at_full (A ++ (C ++ [y, y])); rw [hAC]; simpa [full] using this
          rw [At.append_iff, At.append_iff, At.cons_iff, At.cons_iff] at hm0
          obtain ⟨cA, cC, cy1, cy2, _⟩ := hm0
          have hACl : A.length + C.length = L'.length := by rw [hAC]; simp
          have us := upd_set (full (L' ++ [y]) ++ [some y]) (d1.size - 2) none
          have cC' := cC.upd us (fun i hi => by omega)
          have hml : ((full (L' ++ [y]) ++ [some y]).set (d1.size - 2) none).length = L'.length + 2 := by simp
          obtain ⟨m', em, am, um⟩ := moveBackward_spec' C.length _ p (d1.size - 2) (d1.size - 1) C rfl (by rw [← hAl]; simpa using cC') (by omega) (Or.inl (by omega)) (by omega) (by rw [hml]; omega)
          have hml' : m'.length = L'.length + 2 := by rw [um.len, hml]
          obtain ⟨m2, e2⟩ : ∃ m2, m2 = m'.set p (some x) := ⟨_, rfl⟩
          have hwr : wr m' p x = .ok m2 := by rw [e2]; simp [wr]; omega
          have uw := upd_set m' p (some x)
          rw [← e2] at uw
          have hfinal : m2 = full (A ++ x :: (C ++ [y])) := by
            refine eq_full_of_at ?_ (by rw [e2]; simp; omega)
            rw [At.append_iff, At.cons_iff, At.append_iff, At.cons_iff]
            refine ⟨?_, ?_, ?_, ?_, At.nil _ _⟩
            · exact ((cA.upd us (fun i hi => by omega)).upd um (fun i hi => by unfold Seg; omega)).upd uw (fun i hi => by omega)
            · rw [e2, List.getElem?_set, if_pos (by omega), if_pos (by omega)]
            · have := am.upd uw (fun i hi => by omega)
              rw [show d1.size - 1 - C.length = 0 + A.length + 1 by omega] at this
              exact this
            · rw [uw.out _ (by omega), um.out _ (by unfold Seg; omega), us.out _ (by omega)]
              rw [show 0 + A.length + 1 + C.length = 0 + A.length + C.length + 1 by omega]; exact cy2
          have HH := onView_spec (g := fun m => do
              let m := m.set (d1.size - 2) none
              let m ← moveBackward m p (d1.size - 2) (d1.size - 1)
              wr m p x) (m' := m2) hr1 (by simp only; rw [em]; simp only [R.ok_bind]; rw [hwr]) (by rw [hfinal, hAC]; simp; omega)
          obtain ⟨d2, ed2, hr2⟩ := HH
          refine ⟨d2, none, by rw [ed2]; rfl, fun _ => ?_, by simp, by simp⟩
          rw [hfinal] at hr2
          have hgoal : (L' ++ [y]).take p ++ x :: (L' ++ [y]).drop p = A ++ x :: (C ++ [y]) := by
            rw [← hAl, hAC]; simp
          rw [hgoal]
          exact hr2

/-! ## `erase` -/

theorem erase_spec {B maxsz : Nat} (hB0 : 0 < B) {d : Dq (Option α)} {A H C : List α} (h : Rep B maxsz d (full (A ++ H ++ C))) :
    ∃ d', erase B d A.length (A.length + H.length) = .ok d' ∧ Rep B maxsz d' (full (A ++ C)) := by
  have hsz : d.size = A.length + H.length + C.length := by rw [h.size]; simp; omega
  obtain ⟨cA, cH, cC⟩ := at_full3 A H C
  unfold erase
  rw [show A.length + H.length - A.length = H.length by omega]
  by_cases h0 : H.length = 0
  · rw [if_pos h0]
    have : H = [] := List.length_eq_zero_iff.1 h0
    subst this
    exact ⟨d, rfl, by simpa using h⟩
  · rw [if_neg h0]
    by_cases hf : A.length < d.size - (A.length + H.length)
    · rw [if_pos hf]
      obtain ⟨m', em, am, um⟩ := moveBackward_spec' A.length _ 0 A.length (A.length + H.length) A rfl cA (by omega) (Or.inl (by omega)) (by omega) (by simp)
      obtain ⟨d1, e1, hr1⟩ := onView_spec (g := fun m => moveBackward m 0 A.length (A.length + H.length)) h em um.len
      have hml : m'.length = A.length + H.length + C.length := by rw [um.len]; simp; omega
      obtain ⟨d2, e2, hr2, _⟩ := popFrontN_spec hB0 H.length hr1 (by omega)
      refine ⟨d2, by rw [e1, R.ok_bind, e2], ?_⟩
      have : m'.drop H.length = full (A ++ C) := by
        refine at_drop ?_ (by simp; omega)
        rw [At.append_iff]
        rw [show A.length + H.length - A.length = H.length by omega] at am
        refine ⟨am, ?_⟩
        have := cC.upd um (fun i hi => by unfold Seg; omega)
        rwa [Nat.add_comm H.length]
      rw [this] at hr2; exact hr2
    · rw [if_neg hf]
      obtain ⟨m', em, am, um⟩ := moveFwd_spec _ (A.length + H.length) d.size A.length C cC (by omega) (Or.inl (by omega)) (by simp)
      have HH := onView_spec (g := fun m => do
        let r ← moveFwd m (A.length + H.length) d.size A.length
        .ok r.1) (m' := m') h (by rw [em]; rfl) um.len
      obtain ⟨d1, e1, hr1⟩ := HH
      have hml : m'.length = A.length + H.length + C.length := by rw [um.len]; simp; omega
      obtain ⟨d2, e2, hr2, _⟩ := popBackN_spec H.length hr1 (by omega)
      refine ⟨d2, by simp only; rw [e1, R.ok_bind, e2], ?_⟩
      have hat : At m' 0 (A ++ C) := by
        rw [At.append_iff]
        refine ⟨cA.upd um (fun i hi => by unfold Seg; omega), by rw [Nat.zero_add]; exact am⟩
      have := at_take hat (by simp; omega)
      rw [show m'.length - H.length = (A ++ C).length by simp; omega, this] at hr2
      exact hr2

/-! ## Insertion of a range -/

theorem insertRange_spec {B b maxsz : Nat} (hB : B = 2 ^ b) (hmax : 8 ≤ maxsz / B) (bidi : Bool) (fs : Nat → Fail) {d : Dq (Option α)} {L : List α}
    (h : Rep B maxsz d (full L)) (p : Nat) (hp : p ≤ L.length) (xs : List α) :
    ∃ d' e, insertRange B maxsz bidi fs d p xs = .ok (d', e) ∧ (e = none → Rep B maxsz d' (full (L.take p ++ xs ++ L.drop p))) ∧
      (e ≠ none → Rep B maxsz d' (full L)) ∧ ((∀ i, fs i = .no) → e = none ∨ e = some .lengthError) := by
  have hB0 : 0 < B := by rw [hB]; exact Nat.two_pow_pos b
  have hsz : d.size = L.length := by rw [h.size]; simp
  have hL : L = L.take p ++ L.drop p := (List.take_append_drop p L).symm
  obtain ⟨P, hP⟩ : ∃ P, P = L.take p := ⟨_, rfl⟩
  obtain ⟨Q, hQ⟩ : ∃ Q, Q = L.drop p := ⟨_, rfl⟩
  rw [← hP, ← hQ] at hL
  have hPl : P.length = p := by rw [hP]; simp; omega
  rw [← hP, ← hQ]
  unfold insertRange
  by_cases hx : xs = []
  · rw [if_pos hx]
    exact ⟨d, none, rfl, fun _ => by rw [hx, List.append_nil, ← hL]; exact h, by simp, by simp⟩
  · rw [if_neg hx]
    by_cases hh : p ≤ d.size / 2
    · rw [if_pos hh]
      obtain ⟨Y, hY⟩ : ∃ Y : List α, Y = if bidi then xs else xs.reverse := ⟨_, rfl⟩
      have hpushed : ((if bidi = true then (full xs).reverse else full xs) : List (Option α)).reverse = full Y := by
        rw [hY]; cases bidi <;> simp [full]
      obtain ⟨d1, e1, he1, hd, ht, hw⟩ := pushFronts_spec hB hmax (if bidi = true then (full xs).reverse else full xs) fs h
      rw [hpushed] at hd
      simp only
      rw [he1]
      simp only [R.ok_bind]
      cases e1 with
      | some e =>
        simp only
        obtain ⟨V, hV⟩ := ht (by simp)
        have hs1 : d1.size - d.size = V.length := by rw [hV.size, h.size]; simp
        obtain ⟨d2, e2, hr2, _⟩ := popFrontN_spec hB0 V.length hV (by simp)
        rw [hs1, e2]
        simp only [R.ok_bind]
        refine ⟨d2, some e, rfl, by simp, fun _ => ?_, hw⟩
        rw [List.drop_left] at hr2; exact hr2
      | none =>
        simp only
        have hr1 := hd rfl
        have hYl : Y.length = xs.length := by rw [hY]; cases bidi <;> simp
        have hnum : d1.size - d.size = xs.length := by rw [hr1.size, h.size]; simp [hYl]
        rw [hnum]
        have hr1' : Rep B maxsz d1 (full Y ++ full L) := hr1
        have hrot := (C31_rotate ([] : Mem α) (full Q) xs P).1
        have hrev := C31_reverse ([] : Mem α) (full L) xs.reverse
        simp only [List.nil_append, List.length_nil, Nat.zero_add, List.length_reverse, List.reverse_reverse] at hrev hrot
        have hg : (do
            let m ← (if bidi then .ok (full Y ++ full L) else reverse (full Y ++ full L) 0 xs.length : R (Mem α))
            let r ← rotateRA m 0 xs.length (xs.length + p)
            .ok r.1 : R (Mem α)) = .ok (full (P ++ xs) ++ full Q) := by
          have e1 : (if bidi = true then (.ok (full Y ++ full L) : R (Mem α)) else reverse (full Y ++ full L) 0 xs.length) = .ok (full xs ++ full L) := by
            rw [hY]
            cases bidi
            · simp only [Bool.false_eq_true, if_false]; rw [hrev]
            · simp
          have e3 : full xs ++ full L = full (xs ++ P) ++ full Q := by rw [hL]; simp [full]
          rw [e1, R.ok_bind, ← hPl, e3, hrot]
          rfl
        obtain ⟨d2, e2, hr2⟩ := onView_spec (g := fun m => do
            let m ← (if bidi then .ok m else reverse m 0 xs.length : R (Mem α))
            let r ← rotateRA m 0 xs.length (xs.length + p)
            .ok r.1) hr1' hg (by rw [hL]; simp [hYl]; omega)
        refine ⟨d2, none, by rw [e2]; rfl, fun _ => ?_, by simp, by simp⟩
        have : full (P ++ xs) ++ full Q = full (P ++ xs ++ Q) := by simp [full]
        rw [this] at hr2; exact hr2
    · rw [if_neg hh]
      obtain ⟨d1, e1, he1, hd, ht, hw⟩ := pushBacks_spec hB hmax (full xs) fs h
      simp only
      rw [he1]
      simp only [R.ok_bind]
      cases e1 with
      | some e =>
        simp only
        obtain ⟨k, hk, hV⟩ := ht (by simp)
        have hs1 : d1.size - d.size = ((full xs).take k).length := by rw [hV.size, h.size]; simp
        obtain ⟨d2, e2, hr2, _⟩ := popBackN_spec ((full xs).take k).length hV (by simp)
        rw [hs1, e2]
        simp only [R.ok_bind]
        refine ⟨d2, some e, rfl, by simp, fun _ => ?_, hw⟩
        rw [show (full L ++ (full xs).take k).length - ((full xs).take k).length = (full L).length by simp, List.take_left] at hr2
        exact hr2
      | none =>
        simp only
        have hr1 := hd rfl
        have hs1 : d1.size = L.length + xs.length := by rw [hr1.size]; simp
        have hrot := (C31_rotate (full P) ([] : Mem α) Q xs).1
        simp only [List.append_nil, full_length] at hrot
        have hLl : L.length = P.length + Q.length := by rw [hL]; simp
        have hg : (do
            let r ← rotateRA (full L ++ full xs) p d.size d1.size
            .ok r.1 : R (Mem α)) = .ok (full P ++ full (xs ++ Q)) := by
          have e3 : full L ++ full xs = full P ++ full (Q ++ xs) := by rw [hL]; simp [full]
          rw [e3, hsz, hs1, hLl, ← hPl, hrot]
          rfl
        obtain ⟨d2, e2, hr2⟩ := onView_spec (g := fun m => do
            let r ← rotateRA m p d.size d1.size
            .ok r.1) hr1 hg (by rw [hL]; simp; omega)
        refine ⟨d2, none, by rw [e2]; rfl, fun _ => ?_, by simp, by simp⟩
        have : full P ++ full (xs ++ Q) = full (P ++ xs ++ Q) := by simp [full]
        rw [this] at hr2; exact hr2

/-! ## Insertion of `n` copies -/

theorem pushFrontCopies_spec {B b maxsz : Nat} (hB : B = 2 ^ b) (hmax : 8 ≤ maxsz / B) (idx : Nat) (n : Nat) : ∀ {d : Dq (Option α)} {W : List α} (fs : Nat → Fail),
    Rep B maxsz d (full W) → n ≤ idx + 1 → (0 < n → idx < W.length) → ∃ d' e, pushFrontCopies B maxsz fs idx n d = .ok (d', e) ∧
      (e = none → Rep B maxsz d' (full ((W.drop (idx + 1 - n)).take n ++ W))) ∧
      (e ≠ none → ∃ V, Rep B maxsz d' (full (V ++ W))) ∧ ((∀ i, fs i = .no) → e = none ∨ e = some .lengthError) := by
  induction n with
  | zero => intro d W fs h _ _; exact ⟨d, none, rfl, fun _ => by simpa using h, by simp, by simp⟩
  | succ n ih =>
    intro d W fs h hn hi
    have hi' := hi (by omega)
    have hld := load_rep h (i := idx) (by simpa using hi')
    rw [pushFrontCopies, hld, R.ok_bind]
    simp only [full, List.getElem_map, taken, R.ok_bind]
    obtain ⟨d1, e1, he1, hp⟩ := emplaceFront_spec hB hmax h (some W[idx]) (fs 0)
    rw [he1]
    simp only [R.ok_bind]
    cases e1 with
    | some e =>
      refine ⟨d1, some e, rfl, by simp, fun _ => ⟨[], by simpa [full] using hp.thrown (by simp)⟩, fun hf => ?_⟩
      by_contra hc
      push Not at hc
      exact hp.why (by simp) hc.2 (hf 0)
    | none =>
      simp only
      have hr1 : Rep B maxsz d1 (full (W[idx] :: W)) := by simpa [full] using hp.done rfl
      obtain ⟨d2, e2, he2, h2, h3, h4⟩ := ih (fun i => fs (i + 1)) hr1 (by omega) (fun _ => by simp; omega)
      refine ⟨d2, e2, he2, fun h => ?_, fun h => ?_, fun hf => h4 (fun i => hf _)⟩
      · have h5 := h2 h
        have e5 : ((W[idx] :: W).drop (idx + 1 - n)).take n ++ W[idx] :: W = (W.drop (idx + 1 - (n + 1))).take (n + 1) ++ W := by
          rw [show idx + 1 - n = (idx - n) + 1 by omega, List.drop_succ_cons, show idx + 1 - (n + 1) = idx - n by omega, List.take_add_one]
          simp only [List.getElem?_drop, show idx - n + n = idx by omega, List.getElem?_eq_getElem hi', Option.toList_some,
            List.append_assoc, List.cons_append, List.nil_append]
        rw [e5] at h5; exact h5
      · obtain ⟨V, hV⟩ := h3 h
        exact ⟨V ++ [W[idx]], by simpa [full] using hV⟩

theorem pushBackCopies_spec {B b maxsz : Nat} (hB : B = 2 ^ b) (hmax : 8 ≤ maxsz / B) (n : Nat) : ∀ {d : Dq (Option α)} {W : List α} (idx : Nat) (fs : Nat → Fail),
    Rep B maxsz d (full W) → idx + n ≤ W.length → ∃ d' e, pushBackCopies B maxsz fs idx n d = .ok (d', e) ∧
      (e = none → Rep B maxsz d' (full (W ++ (W.drop idx).take n))) ∧
      (e ≠ none → ∃ V, Rep B maxsz d' (full (W ++ V))) ∧ ((∀ i, fs i = .no) → e = none ∨ e = some .lengthError) := by
  induction n with
  | zero => intro d W idx fs h _; exact ⟨d, none, rfl, fun _ => by simpa using h, by simp, by simp⟩
  | succ n ih =>
    intro d W idx fs h hn
    have hi' : idx < W.length := by omega
    have hld := load_rep h (i := idx) (by simpa using hi')
    rw [pushBackCopies, hld, R.ok_bind]
    simp only [full, List.getElem_map, taken, R.ok_bind]
    obtain ⟨d1, e1, he1, hp⟩ := emplaceBack_spec hB hmax h (some W[idx]) (fs 0)
    rw [he1]
    simp only [R.ok_bind]
    cases e1 with
    | some e =>
      refine ⟨d1, some e, rfl, by simp, fun _ => ⟨[], by simpa [full] using hp.thrown (by simp)⟩, fun hf => ?_⟩
      by_contra hc
      push Not at hc
      exact hp.why (by simp) hc.2 (hf 0)
    | none =>
      simp only
      have hr1 : Rep B maxsz d1 (full (W ++ [W[idx]])) := by simpa [full] using hp.done rfl
      obtain ⟨d2, e2, he2, h2, h3, h4⟩ := ih (idx + 1) (fun i => fs (i + 1)) hr1 (by simp; omega)
      refine ⟨d2, e2, he2, fun h => ?_, fun h => ?_, fun hf => h4 (fun i => hf _)⟩
      · have h5 := h2 h
        have e5 : W ++ [W[idx]] ++ ((W ++ [W[idx]]).drop (idx + 1)).take n = W ++ (W.drop idx).take (n + 1) := by
          rw [List.drop_append_of_le_length (by omega), List.take_append_of_le_length (by simp; omega), List.drop_eq_getElem_cons hi', List.take_succ_cons]
          simp
        rw [e5] at h5; exact h5
      · obtain ⟨V, hV⟩ := h3 h
        exact ⟨[W[idx]] ++ V, by simpa [full] using hV⟩

theorem fill_full (A H C : List α) (x : α) (n : Nat) (hn : n = H.length) :
    fill (full (A ++ H ++ C)) x A.length n = .ok (full (A ++ List.replicate n x ++ C)) := by
  subst hn
  obtain ⟨cA, cH, cC⟩ := at_full3 A H C
  obtain ⟨m', e, a, u⟩ := fill_spec x H.length (full (A ++ H ++ C)) A.length (by simp)
  rw [e]
  congr 1
  refine eq_full_of_at ?_ (by rw [u.len]; simp)
  rw [At.append_iff, At.append_iff]
  refine ⟨⟨cA.upd u (fun i hi => by unfold Seg; omega), by simpa using a⟩, ?_⟩
  have := cC.upd u (fun i hi => by unfold Seg; omega)
  simpa using this

/-- the first half of `insert(p, n, x)`, when `n` is at most the prefix: move the rest of the prefix down, then fill -/
theorem frontFill (A X Q : List α) (x : α) (D : List α) (hD : D.length = A.length) :
    (do
      let r ← moveFwd (full (D ++ (A ++ X) ++ Q)) (D.length + D.length) (D.length + (A.length + X.length)) D.length
      fill r.1 x (A.length + X.length) D.length : R (Mem α)) = .ok (full (D ++ X ++ List.replicate D.length x ++ Q)) := by
  have hm0 : At (full (D ++ (A ++ X) ++ Q)) 0 (D ++ (A ++ X) ++ Q) := at_full _
  rw [At.append_iff, At.append_iff, At.append_iff] at hm0
  obtain ⟨⟨cD, cA, cX⟩, cQ⟩ := hm0
  rw [show 0 + D.length + A.length = D.length + D.length by omega] at cX
  obtain ⟨m', em, am, um⟩ := moveFwd_spec _ (D.length + D.length) (D.length + (A.length + X.length)) D.length X cX (by omega) (Or.inl (by omega)) (by simp; omega)
  have hml : m'.length = D.length + A.length + X.length + Q.length := by rw [um.len]; simp; omega
  rw [em]
  simp only [R.ok_bind]
  obtain ⟨m2, e2, a2, u2⟩ := fill_spec x D.length m' (A.length + X.length) (by omega)
  rw [e2]
  congr 1
  refine eq_full_of_at ?_ (by rw [u2.len, hml]; simp; omega)
  rw [At.append_iff, At.append_iff, At.append_iff]
  refine ⟨⟨⟨?_, ?_⟩, ?_⟩, ?_⟩
  · exact (cD.upd um (fun i hi => by unfold Seg; omega)).upd u2 (fun i hi => by unfold Seg; omega)
  · rw [Nat.zero_add]; exact am.upd u2 (fun i hi => by unfold Seg; omega)
  · rw [show 0 + (D ++ X).length = A.length + X.length by simp; omega]; exact a2
  · have := (cQ.upd um (fun i hi => by unfold Seg; simp at hi ⊢; omega)).upd u2 (fun i hi => by unfold Seg; simp at hi ⊢; omega)
    rw [show 0 + (D ++ X ++ List.replicate D.length x).length = 0 + (D ++ (A ++ X)).length by simp; omega]
    exact this

theorem backFill (P X A : List α) (x : α) (D : List α) (hD : D.length = A.length) :
    (do
      let m ← moveBackward (full (P ++ (X ++ A) ++ D)) P.length (P.length + X.length) (P.length + (X.length + A.length))
      fill m x P.length D.length : R (Mem α)) = .ok (full (P ++ List.replicate D.length x ++ X ++ D)) := by
  have hm0 : At (full (P ++ (X ++ A) ++ D)) 0 (P ++ (X ++ A) ++ D) := at_full _
  rw [At.append_iff, At.append_iff, At.append_iff] at hm0
  obtain ⟨⟨cP, cX, cA⟩, cD⟩ := hm0
  rw [Nat.zero_add] at cX
  obtain ⟨m', em, am, um⟩ := moveBackward_spec' X.length _ P.length (P.length + X.length) (P.length + (X.length + A.length)) X rfl cX (by omega) (Or.inl (by omega)) (by omega) (by simp)
  have hml : m'.length = P.length + X.length + A.length + D.length := by rw [um.len]; simp; omega
  rw [em]
  simp only [R.ok_bind]
  obtain ⟨m2, e2, a2, u2⟩ := fill_spec x D.length m' P.length (by omega)
  rw [e2]
  congr 1
  refine eq_full_of_at ?_ (by rw [u2.len, hml]; simp; omega)
  rw [At.append_iff, At.append_iff, At.append_iff]
  refine ⟨⟨⟨?_, ?_⟩, ?_⟩, ?_⟩
  · exact (cP.upd um (fun i hi => by unfold Seg; omega)).upd u2 (fun i hi => by unfold Seg; omega)
  · rw [Nat.zero_add]; exact a2
  · have := am.upd u2 (fun i hi => by unfold Seg; omega)
    rw [show P.length + (X.length + A.length) - X.length = 0 + (P ++ List.replicate D.length x).length by simp; omega] at this
    exact this
  · have := (cD.upd um (fun i hi => by unfold Seg; simp at hi ⊢; omega)).upd u2 (fun i hi => by unfold Seg; simp at hi ⊢; omega)
    rw [show 0 + (P ++ List.replicate D.length x ++ X).length = 0 + (P ++ (X ++ A)).length by simp; omega]
    exact this

theorem pushBacks_rep {B b maxsz : Nat} (hB : B = 2 ^ b) (hmax : 8 ≤ maxsz / B) (n : Nat) (x : α) (fs : Nat → Fail) {d : Dq (Option α)} {W : List α}
    (h : Rep B maxsz d (full W)) : ∃ d1 e1, pushBacks B maxsz fs (List.replicate n (some x)) d = .ok (d1, e1) ∧
      (e1 = none → Rep B maxsz d1 (full (W ++ List.replicate n x))) ∧ (e1 ≠ none → ∃ V, Rep B maxsz d1 (full (W ++ V))) ∧
      ((∀ i, fs i = .no) → e1 = none ∨ e1 = some .lengthError) := by
  obtain ⟨d1, e1, he1, hd, ht, hw⟩ := pushBacks_spec hB hmax (List.replicate n (some x)) fs h
  refine ⟨d1, e1, he1, fun e => by simpa [full] using hd e, fun e => ?_, hw⟩
  obtain ⟨k, hk, hV⟩ := ht e
  exact ⟨List.replicate (min k n) x, by simpa [full, List.take_replicate] using hV⟩

theorem insertN_spec {B b maxsz : Nat} (hB : B = 2 ^ b) (hmax : 8 ≤ maxsz / B) (fs : Nat → Fail) {d : Dq (Option α)} {P Q : List α}
    (h : Rep B maxsz d (full (P ++ Q))) (c : Nat) (x : α) :
    ∃ d' e, insertN B maxsz fs d P.length c x = .ok (d', e) ∧ (e = none → Rep B maxsz d' (full (P ++ List.replicate c x ++ Q))) ∧
      (e ≠ none → Rep B maxsz d' (full (P ++ Q))) ∧ ((∀ i, fs i = .no) → e = none ∨ e = some .lengthError) := by
  have hB0 : 0 < B := by rw [hB]; exact Nat.two_pow_pos b
  have hsz : d.size = P.length + Q.length := by rw [h.size]; simp
  have hrem : d.size - P.length = Q.length := by omega
  unfold insertN
  simp only [hrem]
  by_cases hpr : P.length < Q.length
  · rw [if_pos hpr]
    -- the pushes
    have hpush : ∃ d1 e1, insertNPushFront B maxsz fs d P.length c x = .ok (d1, e1) ∧
        (e1 = none → Rep B maxsz d1 (full ((if P.length < c then P ++ List.replicate (c - P.length) x else P.take c) ++ (P ++ Q)))) ∧
        (e1 ≠ none → ∃ V, Rep B maxsz d1 (full (V ++ (P ++ Q)))) ∧ ((∀ i, fs i = .no) → e1 = none ∨ e1 = some .lengthError) := by
      unfold insertNPushFront
      by_cases hc : P.length < c
      · rw [if_pos hc]
        obtain ⟨d1, e1, he1, hd, ht, hw⟩ := pushFronts_spec hB hmax (List.replicate (c - P.length) (some x)) fs h
        rw [he1]
        simp only [R.ok_bind]
        cases e1 with
        | some e =>
          -- the pushed values are copies of `x`
          refine ⟨d1, some e, rfl, by simp, fun _ => ?_, hw⟩
          -- prepend: every pushed prefix consists of `some x`
          obtain ⟨V, hV⟩ := ht (by simp)
          have hkey : ∀ (n : Nat) {dd : Dq (Option α)} {W : List α} (gs : Nat → Fail) {d2 e2}, Rep B maxsz dd (full W) →
              pushFronts B maxsz gs (List.replicate n (some x)) dd = .ok (d2, e2) → ∃ V, Rep B maxsz d2 (full (V ++ W)) := by
            intro n
            induction n with
            | zero =>
              intro dd W gs d2 e2 hr he
              simp only [List.replicate_zero, pushFronts, Except.ok.injEq, Prod.mk.injEq] at he
              rw [← he.1]; exact ⟨[], hr⟩
            | succ n ih =>
              intro dd W gs d2 e2 hr he
              obtain ⟨d3, e3, he3, hp3⟩ := emplaceFront_spec hB hmax hr (some x) (gs 0)
              rw [List.replicate_succ, pushFronts, he3] at he
              simp only [R.ok_bind] at he
              cases e3 with
              | some e =>
                simp only [Except.ok.injEq, Prod.mk.injEq] at he
                rw [← he.1]; exact ⟨[], hp3.thrown (by simp)⟩
              | none =>
                simp only at he
                have hr3 : Rep B maxsz d3 (full (x :: W)) := by simpa [full] using hp3.done rfl
                obtain ⟨V, hV⟩ := ih _ hr3 he
                exact ⟨V ++ [x], by simpa using hV⟩
          exact hkey _ fs h he1
        | none =>
          simp only
          have hr1 : Rep B maxsz d1 (full (List.replicate (c - P.length) x ++ (P ++ Q))) := by
            have := hd rfl
            simpa [full] using this
          obtain ⟨d2, e2, he2, h2, h3, h4⟩ := pushFrontCopies_spec hB hmax (c - 1) P.length (fun i => fs (c - P.length + i)) hr1 (by omega) (fun _ => by simp; omega)
          refine ⟨d2, e2, he2, fun e => ?_, fun e => ?_, fun hf => h4 (fun i => hf _)⟩
          · have h5 := h2 e
            rw [if_pos hc]
            have e6 : ((List.replicate (c - P.length) x ++ (P ++ Q)).drop (c - 1 + 1 - P.length)).take P.length = P := by
              rw [show c - 1 + 1 - P.length = (List.replicate (c - P.length) x).length by simp; omega, List.drop_left, List.take_left]
            rw [e6] at h5
            simpa using h5
          · obtain ⟨V, hV⟩ := h3 e
            exact ⟨V ++ List.replicate (c - P.length) x, by simpa using hV⟩
      · rw [if_neg hc]
        obtain ⟨d2, e2, he2, h2, h3, h4⟩ := pushFrontCopies_spec hB hmax (c - 1) c fs h (by omega) (fun _ => by simp; omega)
        refine ⟨d2, e2, he2, fun e => ?_, h3, h4⟩
        have h5 := h2 e
        rw [if_neg hc]
        have e6 : ((P ++ Q).drop (c - 1 + 1 - c)).take c = P.take c := by
          rw [Nat.not_lt] at hc
          rcases Nat.eq_zero_or_pos c with h0 | h0
          · subst h0; simp
          · rw [show c - 1 + 1 - c = 0 by omega, List.drop_zero, List.take_append_of_le_length hc]
        rw [e6] at h5; exact h5
    obtain ⟨d1, e1, he1, hd, ht, hw⟩ := hpush
    rw [he1]
    simp only [R.ok_bind]
    cases e1 with
    | some e =>
      simp only
      obtain ⟨V, hV⟩ := ht (by simp)
      have hs1 : d1.size - d.size = V.length := by rw [hV.size, h.size]; simp
      obtain ⟨d2, e2, hr2, _⟩ := popFrontN_spec hB0 V.length hV (by simp)
      rw [hs1, e2]
      simp only [R.ok_bind]
      refine ⟨d2, some e, rfl, by simp, fun _ => ?_, hw⟩
      rw [show (full (V ++ (P ++ Q)) : Mem α).drop V.length = full (P ++ Q) by simp [full]] at hr2
      exact hr2
    | none =>
      simp only
      have hr1 := hd rfl
      by_cases hc : P.length < c
      · simp only [if_pos hc] at hr1 ⊢
        have hf := fill_full (P ++ List.replicate (c - P.length) x) P Q x P.length rfl
        rw [show (P ++ List.replicate (c - P.length) x).length = c by simp; omega,
          show P ++ List.replicate (c - P.length) x ++ P ++ Q = P ++ List.replicate (c - P.length) x ++ (P ++ Q) by simp] at hf
        have HH := onView_spec (g := fun m => fill m x c P.length) hr1 hf (by simp; omega)
        obtain ⟨d2, e2, hr2⟩ := HH
        refine ⟨d2, none, by rw [e2]; rfl, fun _ => ?_, by simp, by simp⟩
        rw [List.append_assoc P, List.replicate_append_replicate, show c - P.length + P.length = c by omega] at hr2
        exact hr2
      · simp only [if_neg hc] at hr1 ⊢
        have hl : (P.take c).length = c := by simp; omega
        have hf := frontFill (P.take c) (P.drop c) Q x (P.take c) rfl
        rw [List.take_append_drop, hl, List.length_drop, show c + (P.length - c) = P.length by omega] at hf
        have HH := onView_spec (g := fun m => do
          let r ← moveFwd m (c + c) (c + P.length) c
          fill r.1 x P.length c) (m' := full (P ++ List.replicate c x ++ Q)) hr1 (by rw [← List.append_assoc]; exact hf) (by simp; omega)
        obtain ⟨d2, e2, hr2⟩ := HH
        exact ⟨d2, none, by rw [e2]; rfl, fun _ => hr2, by simp, by simp⟩
  · rw [if_neg hpr]
    have hpush : ∃ d1 e1, insertNPushBack B maxsz fs d P.length c Q.length x = .ok (d1, e1) ∧
        (e1 = none → Rep B maxsz d1 (full ((P ++ Q) ++ (if Q.length < c then List.replicate (c - Q.length) x ++ Q else Q.drop (Q.length - c))))) ∧
        (e1 ≠ none → ∃ V, Rep B maxsz d1 (full ((P ++ Q) ++ V))) ∧ ((∀ i, fs i = .no) → e1 = none ∨ e1 = some .lengthError) := by
      unfold insertNPushBack
      by_cases hc : Q.length < c
      · rw [if_pos hc]
        obtain ⟨d1, e1, he1, hd, ht, hw⟩ := pushBacks_rep hB hmax (c - Q.length) x fs h
        rw [he1]
        simp only [R.ok_bind]
        cases e1 with
        | some e => exact ⟨d1, some e, rfl, by simp, ht, hw⟩
        | none =>
          simp only
          obtain ⟨d2, e2, he2, h2, h3, h4⟩ := pushBackCopies_spec hB hmax Q.length P.length (fun i => fs (c - Q.length + i)) (hd rfl) (by simp)
          refine ⟨d2, e2, he2, fun e => ?_, fun e => ?_, fun hf => h4 (fun i => hf _)⟩
          · have h5 := h2 e
            rw [if_pos hc]
            have e6 : ((P ++ Q ++ List.replicate (c - Q.length) x).drop P.length).take Q.length = Q := by
              rw [List.append_assoc, List.drop_left, List.take_left]
            rw [e6] at h5
            simpa using h5
          · obtain ⟨V, hV⟩ := h3 e
            exact ⟨List.replicate (c - Q.length) x ++ V, by simpa using hV⟩
      · rw [if_neg hc]
        obtain ⟨d2, e2, he2, h2, h3, h4⟩ := pushBackCopies_spec hB hmax c (P.length + Q.length - c) fs h (by simp; omega)
        refine ⟨d2, e2, he2, fun e => ?_, h3, h4⟩
        have h5 := h2 e
        rw [if_neg hc]
        have e6 : ((P ++ Q).drop (P.length + Q.length - c)).take c = Q.drop (Q.length - c) := by
          rw [show P.length + Q.length - c = P.length + (Q.length - c) by omega, List.drop_append, List.take_of_length_le (by simp; omega), List.drop_eq_nil_of_le (by omega), Nat.add_sub_cancel_left, List.nil_append]
        rw [e6] at h5; exact h5
    obtain ⟨d1, e1, he1, hd, ht, hw⟩ := hpush
    rw [he1]
    simp only [R.ok_bind]
    cases e1 with
    | some e =>
      simp only
      obtain ⟨V, hV⟩ := ht (by simp)
      have hs1 : d1.size - d.size = V.length := by rw [hV.size, h.size]; simp; omega
      obtain ⟨d2, e2, hr2, _⟩ := popBackN_spec V.length hV (by simp; omega)
      rw [hs1, e2]
      simp only [R.ok_bind]
      refine ⟨d2, some e, rfl, by simp, fun _ => ?_, hw⟩
      have e7 : (full (P ++ Q ++ V) : Mem α).take ((full (P ++ Q ++ V) : Mem α).length - V.length) = full (P ++ Q) := by
        rw [show (full (P ++ Q ++ V) : Mem α).length - V.length = (full (P ++ Q) : Mem α).length by simp; omega,
          show (full (P ++ Q ++ V) : Mem α) = full (P ++ Q) ++ full V by simp [full], List.take_left]
      rw [e7] at hr2
      exact hr2
    | none =>
      simp only
      have hr1 := hd rfl
      by_cases hc : Q.length < c
      · simp only [if_pos hc] at hr1 ⊢
        have hf := fill_full P Q (List.replicate (c - Q.length) x ++ Q) x Q.length rfl
        have HH := onView_spec (g := fun m => fill m x P.length Q.length) hr1 hf (by simp)
        obtain ⟨d2, e2, hr2⟩ := HH
        refine ⟨d2, none, by rw [e2]; rfl, fun _ => ?_, by simp, by simp⟩
        have e8 : P ++ List.replicate Q.length x ++ (List.replicate (c - Q.length) x ++ Q) = P ++ List.replicate c x ++ Q := by
          rw [List.append_assoc P, ← List.append_assoc (List.replicate _ x), List.replicate_append_replicate, show Q.length + (c - Q.length) = c by omega, List.append_assoc]
        rw [e8] at hr2
        exact hr2
      · simp only [if_neg hc] at hr1 ⊢
        have hl : (Q.drop (Q.length - c)).length = c := by simp; omega
        have hl2 : (Q.take (Q.length - c)).length = Q.length - c := by simp
        have hf := backFill P (Q.take (Q.length - c)) (Q.drop (Q.length - c)) x (Q.drop (Q.length - c)) rfl
        rw [List.take_append_drop, hl, hl2, show Q.length - c + c = Q.length by omega] at hf
        have HH := onView_spec (g := fun m => do
          let m ← moveBackward m P.length (P.length + (Q.length - c)) (P.length + Q.length)
          fill m x P.length c) (m' := full (P ++ List.replicate c x ++ Q)) hr1 (by rw [hf, List.append_assoc (P ++ _), List.take_append_drop]) (by simp; omega)
        obtain ⟨d2, e2, hr2⟩ := HH
        exact ⟨d2, none, by rw [e2]; rfl, fun _ => hr2, by simp, by simp⟩

end STL.Deque
