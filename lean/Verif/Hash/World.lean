import Verif.Hash.Rehash

/-! # The container, its node handles and the heap. Proofs only. -/

namespace STL.UH
open STL STL.DL
variable {α K : Type}

structure Rep (P : Par α K) (g : Pg α) (s : St α) : Prop where
  tok : TOK P g.h g.t s.X
  hd : s.hd = g.t.con.hd
  nb : s.nb = g.t.maxidx
  lf : s.lf = g.t.lf
  han : ∀ a ∈ s.H, live g.h a.1 ∧ vl g.h a.1 = some a.2
  nd : (adr s).Nodup
  cover : ∀ q, g.h q ≠ none → q ∈ adr s
  zero : g.h 0 = none

theorem mem_ids {X : List (Nat × α)} {a : Nat × α} (h : a ∈ X) : a.1 ∈ ids X := List.mem_map_of_mem (f := Prod.fst) h

theorem mem_adr {s : St α} {q : Nat} : q ∈ adr s ↔ q = s.hd ∨ q ∈ ids s.X ∨ q ∈ ids s.H := by simp only [adr, List.mem_cons, List.mem_append]

theorem Rep.hX {P : Par α K} {g : Pg α} {s : St α} (I : Rep P g s) {q : Nat} (h : q ∈ ids s.H) : q ≠ s.hd ∧ q ∉ ids s.X := by
  have := I.nd; unfold adr at this; rw [List.nodup_cons, List.nodup_append] at this
  exact ⟨fun e => this.1 (by rw [← e]; simp only [List.mem_append]; exact Or.inr h), fun hx => this.2.2.2 q hx q h rfl⟩

theorem Rep.hLive {P : Par α K} {g : Pg α} {s : St α} (I : Rep P g s) {q : Nat} (h : q ∈ ids s.H) : g.h q ≠ none := by
  simp only [ids, List.mem_map] at h; obtain ⟨a, ha, rfl⟩ := h; exact (I.han a ha).1

theorem Rep.size {P : Par α K} {g : Pg α} {s : St α} (I : Rep P g s) : g.t.con.size = s.X.length := I.tok.wf.size

theorem TOK.frame {P : Par α K} {h h' : Hp α} {t : Tab} {X : List (Nat × α)} (T : TOK P h t X) (hf : ∀ q, q = t.con.hd ∨ q ∈ ids X → h' q = h q) : TOK P h' t X :=
  ⟨T.wf.frame hf, T.ok, T.uniq, T.pow, T.mask⟩

theorem vl_congr {h h' : Hp α} {q : Nat} (e : h' q = h q) : live h' q = live h q ∧ vl h' q = vl h q := by unfold live vl; rw [e]; exact ⟨rfl, rfl⟩

theorem Rep.one {P : Par α K} {h h' : Hp α} {t t' : Tab} {s : St α} {X' : List (Nat × α)} (I : Rep P ⟨h, t⟩ s) (O : One h t.con s.X h' t'.con X') (T : TOK P h' t' X')
    (hl : t'.lf = t.lf) : Rep P ⟨h', t'⟩ { s with X := X', nb := t'.maxidx } := by
  have dis : ∀ q ∈ ids s.H, q ≠ t.con.hd ∧ q ∉ ids s.X ∧ q ∉ ids X' := by
    intro q hq
    have := I.hX hq; rw [I.hd] at this
    refine ⟨this.1, this.2, fun h1 => ?_⟩
    rcases O.new q h1 with h2 | h2
    · exact this.2 h2
    · exact I.hLive hq h2.1
  have W := T.wf.nd
  have hW : (t'.con.hd :: ids X').Nodup := W
  refine ⟨T, I.hd.trans O.hd.symm, rfl, I.lf.trans hl.symm, ?_, ?_, ?_, ?_⟩
  · intro a ha
    have d := dis a.1 (mem_ids ha)
    have e := vl_congr (O.frame a.1 d.1 d.2.1 d.2.2)
    have := I.han a ha
    rw [e.1, e.2]; exact this
  · have hn := I.nd
    unfold adr at hn ⊢
    simp only
    rw [List.nodup_cons, List.nodup_append] at hn ⊢
    rw [O.hd, ← I.hd, List.nodup_cons] at hW
    refine ⟨?_, hW.2, hn.2.2.1, fun a ha b hb hab => (dis b hb).2.2 (hab ▸ ha)⟩
    simp only [List.mem_append]; rintro (h1 | h1)
    · exact hW.1 h1
    · exact hn.1 (List.mem_append_right _ h1)
  · intro q hq
    rw [mem_adr]
    by_cases h1 : q = s.hd
    · exact Or.inl h1
    by_cases h2 : q ∈ ids X'
    · exact Or.inr (Or.inl h2)
    by_cases h3 : q ∈ ids s.X
    · exact absurd (O.gone q h3 h2) hq
    have hq' : h' q ≠ none := hq
    rw [O.frame q (by rw [← show s.hd = t.con.hd from I.hd]; exact h1) h3 h2] at hq'
    rcases mem_adr.1 (I.cover q hq') with h | h | h
    · exact absurd h h1
    · exact absurd h h3
    · exact Or.inr (Or.inr h)
  · have h0 : h 0 = none := I.zero
    have n1 : (0 : Nat) ≠ t.con.hd := fun e => I.tok.wf.live (Or.inl e) h0
    have n2 : (0 : Nat) ∉ ids s.X := fun e => I.tok.wf.live (Or.inr e) h0
    have n3 : (0 : Nat) ∉ ids X' := fun e => by
      rcases O.new 0 e with h | h
      · exact n2 h
      · exact h.2 rfl
    show h' 0 = none
    rw [O.frame 0 n1 n2 n3, h0]

theorem Rep.alloc {P : Par α K} {h : Hp α} {t : Tab} {s : St α} (I : Rep P ⟨h, t⟩ s) {x : Nat} (h0 : x ≠ 0) (hx : x ∉ adr s) (v : α) :
    ∃ h', alloc h x (some v) = .ok h' ∧ Rep P ⟨h', t⟩ { s with H := (x, v) :: s.H } := by
  have hn : h x = none := by by_contra hh; exact hx (I.cover x hh)
  refine ⟨put h x ⟨0, 0, some v⟩, by unfold DL.alloc; rw [if_pos ⟨by simp [hn], h0⟩], ?_⟩
  have fr : ∀ q, q ≠ x → put h x ⟨0, 0, some v⟩ q = h q := fun q hq => by simp [put, hq]
  have hx' := hx; rw [mem_adr] at hx'; push Not at hx'
  refine ⟨I.tok.frame ?_, I.hd, I.nb, I.lf, ?_, ?_, ?_, ?_⟩
  · rintro q (rfl | h1) <;> apply fr
    · rintro rfl; exact hx'.1 I.hd.symm
    · rintro rfl; exact hx'.2.1 h1
  · intro a ha
    rcases List.mem_cons.1 ha with rfl | ha
    · exact ⟨live_put.2 (Or.inl rfl), by rw [vl_put, if_pos rfl]⟩
    · have e := vl_congr (fr a.1 (by rintro e; exact hx'.2.2 (e ▸ mem_ids ha)))
      rw [e.1, e.2]; exact I.han a ha
  · have hn := I.nd; unfold adr at hn hx ⊢
    simp only [List.nodup_cons, List.nodup_append, List.mem_cons, List.mem_append, ids, List.map_cons] at hn hx ⊢
    grind
  · intro q hq
    by_cases e : q = x
    · subst e; rw [mem_adr]; simp
    · have hq' : put h x ⟨0, 0, some v⟩ q ≠ none := hq
      rw [fr q e] at hq'
      have := I.cover q hq'
      rw [mem_adr] at this ⊢; simp only [ids, List.map_cons, List.mem_cons] at this ⊢; tauto
  · show put h x _ 0 = none
    rw [fr 0 (Ne.symm h0)]; exact I.zero

theorem Rep.free {P : Par α K} {h : Hp α} {t : Tab} {s : St α} (I : Rep P ⟨h, t⟩ s) {x : Nat} (hx : x ∈ ids s.H) :
    ∃ h', free h x = .ok h' ∧ Rep P ⟨h', t⟩ { s with H := s.H.filter fun a => a.1 != x } := by
  have lx : live h x := I.hLive hx
  have hd := I.hX hx
  have e1 : DL.free h x = .ok (fun q => if q = x then none else h q) := by unfold DL.free; rw [nd_live lx]; rfl
  obtain ⟨h', eh⟩ : ∃ h', h' = fun q => if q = x then none else h q := ⟨_, rfl⟩
  have fr : ∀ q, q ≠ x → h' q = h q := fun q hq => by simp [eh, hq]
  have fx : h' x = none := by simp [eh]
  refine ⟨h', by rw [eh]; exact e1, ?_⟩
  refine ⟨I.tok.frame ?_, I.hd, I.nb, I.lf, ?_, ?_, ?_, ?_⟩
  · rintro q (rfl | h1) <;> apply fr
    · rintro rfl; exact hd.1 I.hd.symm
    · rintro rfl; exact hd.2 h1
  · intro a ha
    simp only [List.mem_filter, bne_iff_ne] at ha
    have e := vl_congr (fr a.1 ha.2)
    rw [e.1, e.2]; exact I.han a ha.1
  · have hn := I.nd; unfold adr at hn ⊢
    refine hn.sublist (.cons_cons _ (.append_left ?_ _))
    exact (List.filter_sublist).map _
  · intro q hq
    have qx : q ≠ x := by rintro rfl; exact hq fx
    have hq' : h' q ≠ none := hq
    rw [fr q qx] at hq'
    have := I.cover q hq'
    rw [mem_adr] at this ⊢; rcases this with h | h | h
    · exact Or.inl h
    · exact Or.inr (Or.inl h)
    · right; right; simp only [ids, List.mem_map, List.mem_filter, bne_iff_ne] at h ⊢
      obtain ⟨a, ha, rfl⟩ := h; exact ⟨a, ⟨ha, qx⟩, rfl⟩
  · show h' 0 = none
    by_cases h : 0 = x
    · rw [h]; exact fx
    · rw [fr 0 h]; exact I.zero

theorem filter_id {H : List (Nat × α)} {x : Nat} (hx : x ∉ ids H) : H.filter (fun a => a.1 != x) = H :=
  List.filter_eq_self.2 fun a ha => by simp only [bne_iff_ne]; rintro rfl; exact hx (mem_ids ha)

theorem drop_head {H : List (Nat × α)} {x : Nat} {v : α} (hx : x ∉ ids H) : ((x, v) :: H).filter (fun a => a.1 != x) = H := by
  rw [List.filter_cons_of_neg (by simp), filter_id hx]

theorem Rep.val {P : Par α K} {h : Hp α} {t : Tab} {s : St α} (I : Rep P ⟨h, t⟩ s) {x : Nat} {v : α} (hx : (x, v) ∈ s.H) : valAt h x = .ok v := by
  obtain ⟨l, e⟩ := I.han _ hx
  unfold valAt; rw [nd_live l, R.ok_bind]; simp only at e ⊢; rw [e]

theorem Rep.give {P : Par α K} (g : Good P) {h : Hp α} {t : Tab} {s : St α} (I : Rep P ⟨h, t⟩ s) {x : Nat} {v : α} (hx : (x, v) ∈ s.H) {L N : List (Nat × α)} (e : s.X = L ++ N)
    (pl : Place P t.mask (P.kfn v) L N) (hu : P.multi = false → s.X.filter (eqk P (P.kfn v)) = []) :
    ∃ h' t', insertNew h t (P.hash (P.kfn v)) (atFirst t.con.hd N) x = .ok (h', t') ∧ t'.maxidx = t.maxidx ∧
      Rep P ⟨h', t'⟩ { s with X := L ++ (x, v) :: N, H := s.H.filter fun a => a.1 != x } := by
  have hd := I.hX (mem_ids hx)
  have hh : s.hd = t.con.hd := I.hd
  have T := I.tok
  have hnd := I.nd
  have W := T.wf; simp only at W; rw [e] at W
  have B := T.ok; simp only at B; rw [e] at B
  obtain ⟨h', vec', e1, W', B', l, fr⟩ := insertNew_ok g W B pl (I.han _ hx).1 (I.han _ hx).2
    (by rw [← e, ← hh]; simp only [List.mem_cons]; rintro (h1 | h1); exact hd.1 h1; exact hd.2 h1)
  refine ⟨h', _, e1, rfl, ⟨W', B', ?_, T.pow, T.mask⟩, hh, I.nb, I.lf, ?_, ?_, ?_, ?_⟩
  · intro hm k
    simp only
    rw [grp_insert]
    have u := T.uniq hm k; rw [e, List.filter_append] at u
    split
    · rename_i hk
      have h0 : (L ++ N).filter (eqk P k) = [] := by
        rw [← e, filter_none]
        intro a ha
        have := filter_none.1 (hu hm) a ha
        cases hp : eqk P k a
        · rfl
        · rw [show eqk P (P.kfn v) a = true from g.trans _ _ _ (g.symm _ _ hk) hp] at this; simp at this
      rw [List.filter_append] at h0
      obtain ⟨z1, z2⟩ := List.append_eq_nil_iff.1 h0
      rw [z1, z2]; simp
    · simpa using u
  · intro a ha
    simp only [List.mem_filter, bne_iff_ne] at ha
    have d := I.hX (mem_ids ha.1)
    rw [e, hh] at d
    have := fr a.1 (by
      simp only [ids, List.mem_cons, List.map_append, List.map_cons, List.mem_append, not_or] at d ⊢
      exact ⟨d.1, d.2.1, ha.2, d.2.2⟩)
    have e := vl_congr this
    rw [e.1, e.2]; exact I.han a ha.1
  · have hm := mem_ids hx
    unfold adr at hnd ⊢
    have hs : (ids (s.H.filter fun a => a.1 != x)).Sublist (ids s.H) := (List.filter_sublist).map _
    have hnx : x ∉ ids (s.H.filter fun a => a.1 != x) := by simp [ids]
    have sub : ∀ q ∈ ids (s.H.filter fun a => a.1 != x), q ∈ ids s.H := fun q hq => hs.subset hq
    have nds' : (ids (s.H.filter fun a => a.1 != x)).Nodup := by
      rw [List.nodup_cons, List.nodup_append] at hnd; exact hnd.2.2.1.sublist hs
    generalize ids (s.H.filter fun a => a.1 != x) = F at *
    simp only
    rw [e] at hnd
    generalize ids s.H = G at *
    simp only [ids, List.map_append, List.map_cons, List.nodup_cons, List.nodup_append, List.mem_cons, List.mem_append] at hnd hd ⊢
    rw [e] at hd; simp only [ids, List.map_append, List.mem_append] at hd
    grind
  · intro q hq
    rw [mem_adr]
    by_cases h1 : q = s.hd
    · exact Or.inl h1
    by_cases h2 : q ∈ ids (L ++ (x, v) :: N)
    · exact Or.inr (Or.inl h2)
    have h3 : q ∉ t.con.hd :: ids (L ++ (x, v) :: N) := by rw [← hh]; simp only [List.mem_cons]; rintro (h | h); exact h1 h; exact h2 h
    have hq' : h' q ≠ none := hq
    rw [fr q h3] at hq'
    rcases mem_adr.1 (I.cover q hq') with h | h | h
    · exact absurd h h1
    · rw [e] at h; exfalso; apply h2; simp only [ids, List.map_append, List.map_cons, List.mem_append, List.mem_cons] at h ⊢; tauto
    · right; right; simp only [ids, List.mem_map, List.mem_filter, bne_iff_ne] at h ⊢
      obtain ⟨a, ha, rfl⟩ := h
      refine ⟨a, ⟨ha, ?_⟩, rfl⟩
      rintro e; apply h2; rw [e]; simp [ids]
  · have h0 : h 0 = none := I.zero
    show h' 0 = none
    rw [fr 0, h0]
    intro hm
    simp only [ids, List.mem_cons, List.map_append, List.map_cons, List.mem_append] at hm
    have k1 : (0 : Nat) ≠ t.con.hd := fun e => W.live (Or.inl e) h0
    have k2 : (0 : Nat) ∉ ids (L ++ N) := fun e => W.live (Or.inr e) h0
    have k3 : (0 : Nat) ≠ x := by rintro rfl; exact (I.han _ hx).1 h0
    simp only [ids, List.map_append, List.mem_append] at k2; tauto

/-- `extract`. -/
theorem Rep.take {P : Par α K} {h : Hp α} {t : Tab} {s : St α} (I : Rep P ⟨h, t⟩ s) {A B : List (Nat × α)} {a : Nat × α} (e : s.X = A ++ [a] ++ B) :
    ∃ vec' h', eraseBucket h t a.1 (P.hash (P.kfn a.2) &&& t.mask) = .ok { t with vec := vec' } ∧ unlinkNode h t.con a.1 = .ok (h', ⟨t.con.hd, t.con.size - 1⟩) ∧
      Rep P ⟨h', { t with vec := vec', con := ⟨t.con.hd, t.con.size - 1⟩ }⟩ { s with X := A ++ B, H := a :: s.H } := by
  have hh : s.hd = t.con.hd := I.hd
  have T := I.tok
  have hnd := I.nd
  have W := T.wf; simp only at W; rw [e] at W
  have K := T.ok; simp only at K; rw [e] at K
  obtain ⟨vec', e1, K', l⟩ := eraseBucket_ok W K
  obtain ⟨h', e2, W', la, va, fr⟩ := unlink_ok W
  have hs : (A ++ B).Sublist s.X := by rw [e]; simp
  refine ⟨vec', h', e1, e2, ⟨W', K', ?_, T.pow, T.mask⟩, hh, I.nb, I.lf, ?_, ?_, ?_, ?_⟩
  · intro hm k
    exact Nat.le_trans (hs.filter _).length_le (T.uniq hm k)
  · intro b hb
    rcases List.mem_cons.1 hb with rfl | hb
    · exact ⟨la, va⟩
    · have d := I.hX (mem_ids hb)
      rw [e, hh] at d
      have e := vl_congr (fr b.1 (by simp only [List.mem_cons, not_or]; exact d))
      rw [e.1, e.2]; exact I.han b hb
  · unfold adr at hnd ⊢
    simp only at hnd ⊢
    rw [e] at hnd
    refine (List.Perm.nodup_iff (List.Perm.cons _ ?_)).1 hnd
    simp only [ids, List.map_append, List.map_cons, List.map_nil, List.append_assoc, List.cons_append, List.nil_append]
    refine List.Perm.append_left _ ?_
    exact List.perm_middle.symm
  · intro q hq
    rw [mem_adr]
    by_cases h1 : q ∈ t.con.hd :: ids (A ++ [a] ++ B)
    · rw [← hh] at h1; simp only [ids, List.map_append, List.map_cons, List.map_nil, List.mem_cons, List.mem_append] at h1 ⊢; grind
    · have hq' : h' q ≠ none := hq
      rw [fr q h1] at hq'
      rcases mem_adr.1 (I.cover q hq') with h | h | h
      · exact Or.inl h
      · exfalso; apply h1; rw [e] at h; exact List.mem_cons_of_mem _ h
      · right; right; simp only [ids, List.map_cons, List.mem_cons]; exact Or.inr h
  · have h0 : h 0 = none := I.zero
    show h' 0 = none
    rw [fr 0, h0]
    simp only [List.mem_cons]; rintro hm; exact W.live hm h0

theorem Rep.hXX {P : Par α K} {g : Pg α} {s : St α} (I : Rep P g s) : (s.hd :: ids s.X).Nodup := by
  have := I.tok.wf.nd; rw [I.hd]; exact this

end STL.UH
