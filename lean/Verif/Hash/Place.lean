import Verif.Hash.World

/-! # Insertion. Proofs only. -/

namespace STL.UH
open STL STL.DL
variable {α K : Type}

/-- What they find. -/
structure Found (P : Par α K) (hint : Option Nat) (mask hd : Nat) (key : K) (X : List (Nat × α)) (r : Nat × Option Nat) : Prop where
  place : ∃ L N, X = L ++ N ∧ r.1 = atFirst hd N ∧ Place P mask key L N ∧
    ∀ a : Nat × α, P.kfn a.2 = key → ∀ k, (L ++ a :: N).filter (eqk P k) = if P.eq k key = true then insAfter hint (X.filter (eqk P k)) a else X.filter (eqk P k)
  no : r.2 = none → X.filter (eqk P key) = []
  yes : ∀ d, r.2 = some d → ∃ a ∈ X.filter (eqk P key), a.1 = d

theorem grp_other {P : Par α K} {k : K} {a : Nat × α} {L N : List (Nat × α)} (h : eqk P k a = false) : (L ++ a :: N).filter (eqk P k) = (L ++ N).filter (eqk P k) := by
  rw [List.filter_append, List.filter_cons_of_neg (by simp [h]), List.filter_append]

theorem FL.found {P : Par α K} (g : Good P) {hint : Option Nat} {mask hd : Nat} {key : K} {X : List (Nat × α)} {r : Nat × Option Nat} (f : FL P mask hd key X r)
    (hh : ∀ p, hint = some p → ∀ a ∈ X, a.1 = p → eqk P key a = false) : Found P hint mask hd key X r := by
  have hno := f.dup
  refine ⟨?_, ?_, ?_⟩
  · obtain ⟨L, N, e, h1, h2, h3, _⟩ := f
    refine ⟨L, N, e, h1, h2, ?_⟩
    rintro a rfl k
    by_cases hk : P.eq k (P.kfn a.2) = true
    · rw [if_pos hk, grp_insert_last g k h3, if_pos (show eqk P k a = true from hk), ← e]
      unfold insAfter
      cases hint with
      | none => rfl
      | some p =>
        simp only
        have : fro (X.filter (eqk P k)) p = [] := by
          apply fro_none
          intro hp
          simp only [ids, List.mem_map, List.mem_filter] at hp
          obtain ⟨b, ⟨hb1, hb2⟩, rfl⟩ := hp
          have := hh b.1 rfl b hb1 rfl
          rw [show eqk P (P.kfn a.2) b = true from g.trans _ _ _ (g.symm _ _ hk) hb2] at this; simp at this
        rw [this]
    · rw [if_neg hk, grp_other (show eqk P k a = false by simpa [eqk] using hk), ← e]
  · intro h; rw [h] at hno; simp at hno; exact List.filter_eq_nil_iff.2 (by simpa using hno)
  · intro d h
    obtain ⟨L, N, e, h1, h2, h3, h4⟩ := f
    rw [h] at h4; obtain ⟨L', a, rfl, ha, rfl⟩ := h4
    exact ⟨a, by rw [e]; simp [ha], rfl⟩

theorem look_ok {P : Par α K} (g : Good P) {h : Hp α} {t : Tab} {X : List (Nat × α)} (T : TOK P h t X) {hint : Option Nat} (key : K) (hh : ∀ p, hint = some p → p = t.con.hd ∨ p ∈ ids X) :
    ∃ r, look P hint key h t = .ok r ∧ Found P hint t.mask t.con.hd key X r := by
  unfold look
  cases hint with
  | none =>
    obtain ⟨r, e, f⟩ := findLast_ok g T.wf T.ok key
    exact ⟨r, e, f.found g (by simp)⟩
  | some p =>
    obtain ⟨r, e, f⟩ := findHint_ok g T.wf T.ok key (hh p rfl)
    refine ⟨r, e, ?_⟩
    rcases f with ⟨f, hn⟩ | ⟨L, b, N, e1, e2, e3, rfl⟩
    · exact f.found g (by intro q hq; simp at hq; subst hq; exact hn)
    · refine ⟨⟨L ++ [b], N, e1, rfl, Or.inl ⟨L, b, rfl, e3⟩, ?_⟩, by simp, ?_⟩
      · rintro a rfl k
        by_cases hk : P.eq k (P.kfn a.2) = true
        · have hkb : eqk P k b = true := g.trans _ _ _ hk e3
          rw [if_pos hk, grp_insert, if_pos (show eqk P k a = true from hk), e1]
          unfold insAfter; simp only
          have hnd := T.wf.nd; rw [e1] at hnd
          have hp : p ∉ ids (L.filter (eqk P k)) := by
            intro h; have := filter_ids h; rw [← e2] at this
            simp only [ids, List.map_append, List.map_cons, List.map_nil, List.nodup_cons, List.nodup_append, List.mem_append, List.mem_singleton] at hnd this; grind
          simp only [List.filter_append, List.filter_cons_of_pos hkb, List.filter_nil, List.append_assoc, List.singleton_append]
          rw [fro_app hp, bef_app hp, ← e2, fro_cons, bef_cons]; simp
        · rw [if_neg hk, grp_other (show eqk P k a = false by simpa [eqk] using hk), ← e1]
      · intro d hd; simp at hd; subst hd
        exact ⟨b, by rw [e1]; simp [e3], e2⟩

theorem desired_ge (t : Tab) (n : Nat) (h : 8 ≤ t.maxidx) : 8 ≤ desiredBuckets t n ∧ t.maxidx ≤ desiredBuckets t n ∧ t.lf.minBk n ≤ desiredBuckets t n ∧ desiredBuckets t n ≤ max (8 * t.maxidx) (t.lf.minBk n) := by
  unfold desiredBuckets; simp only
  split
  · omega
  · split <;> omega

theorem TOK.eight {P : Par α K} {h : Hp α} {t : Tab} {X : List (Nat × α)} (T : TOK P h t X) : 8 ≤ t.maxidx := by
  obtain ⟨n, hn, e⟩ := T.pow
  rw [e]; calc 8 = 2 ^ 3 := rfl
    _ ≤ 2 ^ n := Nat.pow_le_pow_right (by omega) hn

theorem Same.ids {P : Par α K} (g : Good P) {X Y : List (Nat × α)} (s : Same P X Y) {q : Nat} (h : q ∈ DL.ids X) : q ∈ DL.ids Y := by
  simp only [DL.ids, List.mem_map] at h ⊢; obtain ⟨a, ha, e⟩ := h; exact ⟨a, (s.mem g a).2 ha, e⟩

/-- What `placeNode` leaves behind if there is no exception. -/
def placed (P : Par α K) (hint : Option Nat) (x : Nat) (v : α) (s s' : St α) : Prop :=
  inserted P hint (x, v) s s' ∧ s'.H = s.H.filter fun a => a.1 != x

theorem placeNode_ok {P : Par α K} (g : Good P) {h : Hp α} {t : Tab} {s : St α} (I : Rep P ⟨h, t⟩ s) {x : Nat} {v : α} (hx : (x, v) ∈ s.H) {hint : Option Nat}
    (hh : ∀ p, hint = some p → p = s.hd ∨ p ∈ ids s.X) (hu : P.multi = false → s.X.filter (eqk P (P.kfn v)) = []) {tgt : Nat}
    (ht : t.lf.need (t.con.size + 1) t.maxidx = false → ∃ o, Found P hint t.mask t.con.hd (P.kfn v) s.X (tgt, o)) (vok : Bool) (thr : Option Nat) :
    ∃ h' t' e s', placeNode P (look P hint (P.kfn v)) h t (P.hash (P.kfn v)) tgt x vok thr = .ok (h', t', e) ∧ Rep P ⟨h', t'⟩ s' ∧
      (match e with | none => placed P hint x v s s' | some e => failed P s s' false vok thr e) := by
  unfold placeNode
  have hlf : s.lf = t.lf := I.lf
  have hnb : s.nb = t.maxidx := I.nb
  have hsz : t.con.size = s.X.length := I.size
  have hhd : s.hd = t.con.hd := I.hd
  by_cases hn : t.lf.need (t.con.size + 1) t.maxidx = true
  · rw [if_pos hn]
    have hn' : s.lf.need (s.X.length + 1) s.nb = true := by rw [hlf, hnb, ← hsz]; exact hn
    have hd := desired_ge t (t.con.size + 1) I.tok.eight
    obtain ⟨h1, t1, e, X1, e1, T1, O, l1, R1⟩ := forcedRehash_ok g I.tok I.zero hd.1 vok thr
    unfold rehashFor1; simp only at e1; rw [e1, R.ok_bind]
    simp only
    have I1 := I.one O T1 l1
    cases e with
    | some e =>
      refine ⟨h1, t1, some e, _, rfl, I1, ?_⟩
      cases e <;> simp only [RehashRes] at R1 <;> simp only [failed]
      · obtain ⟨rfl, rfl, hv⟩ := R1
        refine ⟨?_, Or.inr ⟨hn', ?_⟩⟩
        · rw [← hnb]
        · unfold maxBuckets; rw [hnb, hlf, ← hsz]; omega
      · obtain ⟨rfl, rfl, hv⟩ := R1
        refine ⟨?_, Or.inr ⟨hn', hv⟩⟩
        rw [← hnb]
      · obtain ⟨rfl, hv⟩ := R1
        exact ⟨rfl, hn', hv⟩
    | none =>
      simp only [RehashRes] at R1
      obtain ⟨sm, hb⟩ := R1
      have hc : t1.con.hd = t.con.hd := O.hd
      obtain ⟨r, er, f⟩ := look_ok g T1 (hint := hint) (P.kfn v) (by
        intro p hp
        rcases hh p hp with h | h
        · left; rw [h, hc, hhd]
        · right; exact sm.ids g h)
      rw [er, R.ok_bind]
      obtain ⟨L, N, eX, eT, pl, hg⟩ := f.place
      obtain ⟨h2, t2, e2, m2, I2⟩ := I1.give g (x := x) (v := v) hx eX pl (by intro hm; rw [show (X1.filter (eqk P (P.kfn v))) = _ from sm _]; exact hu hm)
      rw [eT, e2, R.ok_bind]
      refine ⟨h2, t2, none, _, rfl, I2, ⟨?_, rfl, rfl, ?_⟩, rfl⟩
      · intro k
        have := hg (x, v) rfl k
        rw [sm k] at this
        exact this
      · rw [if_pos hn']
        simp only
        rw [hnb, hlf, ← hsz]; omega
  · have hn : t.lf.need (t.con.size + 1) t.maxidx = false := by simpa using hn
    rw [if_neg (by simp [hn])]
    have hn' : ¬ s.lf.need (s.X.length + 1) s.nb = true := by rw [hlf, hnb, ← hsz]; simp [hn]
    obtain ⟨o, f⟩ := ht hn
    obtain ⟨L, N, eX, eT, pl, hg⟩ := f.place
    obtain ⟨h2, t2, e2, m2, I2⟩ := I.give g (x := x) (v := v) hx eX pl hu
    simp only at eT
    rw [eT, e2, R.ok_bind]
    refine ⟨h2, t2, none, _, rfl, I2, ⟨?_, rfl, rfl, ?_⟩, rfl⟩
    · intro k
      exact hg (x, v) rfl k
    · rw [if_neg hn']
      exact ⟨rfl, L, N, eX, rfl⟩

/-- One element with a key. -/
theorem uniq_grp {P : Par α K} {g : Pg α} {s : St α} (I : Rep P g s) (hm : P.multi = false) {k : K} {d : Nat} (h : ∃ a ∈ s.X.filter (eqk P k), a.1 = d) : ∃ u, grp P k s.X = [(d, u)] := by
  have hu := I.tok.uniq hm k
  obtain ⟨a, ha, rfl⟩ := h
  show ∃ u, s.X.filter (eqk P k) = _
  generalize s.X.filter (eqk P k) = G at *
  cases G with
  | nil => simp at ha
  | cons b G =>
    have : G = [] := by simpa using hu
    subst this; simp at ha; subst ha; exact ⟨a.2, rfl⟩

theorem failed_handles {P : Par α K} {s s' : St α} {x : Nat × α} {noMem vok : Bool} {thr : Option Nat} {e : Exc} (f : failed P { s with H := x :: s.H } s' noMem vok thr e) :
    s'.H = x :: s.H ∧ failed P s { s' with H := s.H } noMem vok thr e := by
  cases e <;> simp only [failed] at f ⊢
  · obtain ⟨rfl, h⟩ := f; exact ⟨rfl, rfl, h⟩
  · obtain ⟨rfl, h⟩ := f; exact ⟨rfl, rfl, h⟩
  · obtain ⟨e, h⟩ := f; rw [e]; exact ⟨rfl, rfl, h⟩

/-- The node is freed after an exception. -/
theorem orFree_ok {P : Par α K} {h : Hp α} {t : Tab} {s s1 : St α} {x : Nat} {v : α} {e : Option Exc} {hint : Option Nat} {vok : Bool} {thr : Option Nat} (I : Rep P ⟨h, t⟩ s1) (hx : x ∉ ids s.H)
    (r : match e with | none => placed P hint x v { s with H := (x, v) :: s.H } s1 | some e => failed P { s with H := (x, v) :: s.H } s1 false vok thr e) :
    ∃ h' t' p b s', orFree x (h, t, e) = .ok (h', t', p, b, e) ∧ Rep P ⟨h', t'⟩ s' ∧
      match e with | none => p = x ∧ b = true ∧ inserted P hint (x, v) s s' ∧ s'.H = s.H | some e => failed P s s' false vok thr e := by
  unfold orFree
  cases e with
  | none =>
    refine ⟨h, t, x, true, s1, rfl, I, rfl, rfl, r.1, ?_⟩
    have := r.2; simp only at this; rw [this, drop_head hx]
  | some e =>
    simp only at r ⊢
    obtain ⟨h1, h2⟩ := failed_handles r
    obtain ⟨h', e', I'⟩ := I.free (x := x) (by rw [h1]; simp [ids])
    rw [e', R.ok_bind]
    refine ⟨h', t, 0, false, _, rfl, I', ?_⟩
    rw [h1, drop_head hx]; exact h2

end STL.UH
