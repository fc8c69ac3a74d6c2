import Verif.AWait.Step

/-!
# Every transition preserves the invariant
-/

namespace STL.AWait
open STL.Conc

variable {ι : Type} [DecidableEq ι]

theorem nxt_setPrev (m : Ptr ι → Ctx ι) (p : Ptr ι) (q : Option (Ptr ι)) : nxt (upd m p { m p with prev := q }) = nxt m := by
  funext x
  unfold nxt
  by_cases hx : x = p
  · subst hx; rw [upd_self]
  · rw [upd_ne _ _ hx]

theorem prv_setNext (m : Ptr ι → Ctx ι) (p : Ptr ι) (q : Option (Ptr ι)) : prv (upd m p { m p with next := q }) = prv m := by
  funext x
  unfold prv
  by_cases hx : x = p
  · subst hx; rw [upd_self]
  · rw [upd_ne _ _ hx]

theorem prv_setPrev (m : Ptr ι → Ctx ι) (p : Ptr ι) (q : Option (Ptr ι)) : prv (upd m p { m p with prev := q }) = upd (prv m) p q := by
  funext x
  unfold prv
  by_cases hx : x = p
  · subst hx; rw [upd_self, upd_self]
  · rw [upd_ne _ _ hx, upd_ne _ _ hx]

theorem nxt_setNext (m : Ptr ι → Ctx ι) (p : Ptr ι) (q : Option (Ptr ι)) : nxt (upd m p { m p with next := q }) = upd (nxt m) p q := by
  funext x
  unfold nxt
  by_cases hx : x = p
  · subst hx; rw [upd_self, upd_self]
  · rw [upd_ne _ _ hx, upd_ne _ _ hx]

omit [DecidableEq ι] in
theorem nodup_ring {L : List ι} (h : L.Nodup) (e : Nat) : (Ptr.head e :: L.map Ptr.ctx).Nodup := by
  rw [List.nodup_cons]
  refine ⟨by simp, ?_⟩
  exact (List.nodup_map_iff (fun a b hab => by injection hab)).2 h

omit [DecidableEq ι] in
theorem ptr_live {s : St ι} (h : Inv s) {e : Nat} (L : List ι) (hL : ∀ u ∈ L, u ∈ s.ord e) : (s.mem (lastOf (.head e) (L.map .ctx))).live = true := by
  rcases lastOf_mem (Ptr.head e) (L.map Ptr.ctx) with hh | hh
  · rw [hh]; exact h.headI e
  · obtain ⟨u, hu, hp⟩ := List.mem_map.1 hh
    rw [← hp]
    have := (h.memI e u).1 (hL u hu)
    refine (h.ctxI u ?_).1
    revert this; cases (s.l u).pc <;> simp [linked, hasCtx]

/-- A write to a node of the list changes nothing else. -/
theorem upd_frame {s : St ι} {e : Nat} {t : ι} {L : List ι} (hL : ∀ u ∈ L, u ∈ s.ord e) (c : Ctx ι) (p : Ptr ι) (h1 : p ≠ .head e) (h2 : p ≠ .ctx t) (h3 : ∀ u ∈ s.ord e, p ≠ .ctx u) :
    upd s.mem (lastOf (.head e) (L.map .ctx)) c p = s.mem p := by
  rw [upd_ne]
  intro hp
  rcases lastOf_mem (Ptr.head e) (L.map Ptr.ctx) with hh | hh
  · exact h1 (hp.trans hh)
  · obtain ⟨u, hu, hp'⟩ := List.mem_map.1 hh
    exact h3 u (hL u hu) (hp.trans hp'.symm)

omit [DecidableEq ι] in
theorem ru_ring {m : Ptr ι → Ctx ι} {e : Nat} {L : List ι} (h : RU m e L) {u : ι} (hu : u ∈ L) : Ring m e L := by
  rcases h with h | h
  · exact h
  · rw [h.2] at hu; cases hu

theorem upd_self_ord {s : St ι} (e : Nat) : upd s.ord e (s.ord e) = s.ord := by
  funext x
  by_cases hx : x = e
  · subst hx; rw [upd_self]
  · rw [upd_ne _ _ hx]

theorem upd_keep (m : Ptr ι → Ctx ι) (q : Ptr ι) {c : Ctx ι} (h1 : c.live = (m q).live) (h2 : c.storage = (m q).storage) (p : Ptr ι) :
    (upd m q c p).live = (m p).live ∧ (upd m q c p).storage = (m p).storage := by
  by_cases hp : p = q
  · subst hp; rw [upd_self]; exact ⟨h1, h2⟩
  · rw [upd_ne _ _ hp]; exact ⟨rfl, rfl⟩

theorem Inv.adv {s : St ι} (h : Inv s) (t : ι) : ∃ s', advStep s t = .ok s' ∧ Inv s' := by
  have hshape : crit (s.l t).pc = true → ShapeOf s.mem (entryOf (s.l t).a) (s.ord (entryOf (s.l t).a)) (some (t, (s.l t).pc)) := by
    intro hc
    have hlt : s.lock (entryOf (s.l t).a) = some t := (h.lockI _ t).2 ⟨hc, rfl⟩
    have := h.shape (entryOf (s.l t).a)
    unfold Shape at this
    rw [hlt] at this
    exact this
  have hmemT : linked (s.l t).pc = true → t ∈ s.ord (entryOf (s.l t).a) := fun hk => (h.memI _ t).2 ⟨hk, rfl⟩
  have hmemF : linked (s.l t).pc = false → t ∉ s.ord (entryOf (s.l t).a) := fun hk hm => by
    have := ((h.memI _ t).1 hm).1
    rw [hk] at this; cases this
  have hnd := h.nodup (entryOf (s.l t).a)
  have hctx := h.ctxI t
  have hnoti := h.noti t
  unfold Noti at hnoti
  unfold advStep
  simp only []
  cases hp : (s.l t).pc <;> simp only []
  case idle => exact ⟨s, rfl, h⟩
  case asleep => exact ⟨s, rfl, h⟩
  case load =>
    refine ⟨_, rfl, h.loc (val' := s.val) t (entryOf (s.l t).a) (fun _ => rfl) (fun _ => rfl) ?_ ?_ ?_ (fun _ => rfl) ?_ ?_ ?_⟩
    all_goals (split <;> simp [hp, crit, linked, hasCtx, Noti])
  case wLock =>
    refine ⟨_, rfl, h.acq t (by rw [hp]; rfl) rfl (by rw [hp]; rfl) (by rw [hp]; rfl) (fun m e L hr => hr) (by simp) (by simp) (by simp) (by simp)⟩
  case wInit =>
    have hsh := hshape (by rw [hp]; rfl)
    rw [hp] at hsh
    have := h.edit (pc' := .wLink0) (m' := if (s.mem (.head (entryOf (s.l t).a))).next = none then upd s.mem (.head (entryOf (s.l t).a))
      { s.mem (.head (entryOf (s.l t).a)) with next := some (.head (entryOf (s.l t).a)), prev := some (.head (entryOf (s.l t).a)) } else s.mem) (L' := s.ord (entryOf (s.l t).a)) t (by rw [hp]; rfl) rfl
      ?_ ?_ (fun _ _ => Iff.rfl) ?_ hnd (by simp [hasCtx]) ?_ (by simp) (by simp) (by simp) (by simp)
    · rw [upd_self_ord] at this
      exact ⟨_, rfl, this⟩
    · intro p h1 _ _
      split
      · rw [upd_ne _ _ h1]
      · rfl
    · intro p _
      split
      · by_cases hq : p = .head (entryOf (s.l t).a)
        · subst hq; rw [upd_self]; exact ⟨rfl, rfl⟩
        · rw [upd_ne _ _ hq]; exact ⟨rfl, rfl⟩
      · exact ⟨rfl, rfl⟩
    · exact ⟨fun hm => absurd hm (hmemF (by rw [hp]; rfl)), fun hm => by cases hm⟩
    · show Ring _ _ _
      rcases hsh with hr | ⟨hr1, hr2⟩
      · have : (s.mem (.head (entryOf (s.l t).a))).next ≠ none := by
          intro hc
          have := hr.1
          have hc' : nxt s.mem (.head (entryOf (s.l t).a)) = none := hc
          cases hL : s.ord (entryOf (s.l t).a) with
          | nil =>
            rw [hL] at this
            have : nxt s.mem _ = some _ := this
            rw [hc'] at this; cases this
          | cons u L =>
            rw [hL] at this
            have := this.1
            rw [hc'] at this; cases this
        rw [if_neg this]; exact hr
      · have hr1' : (s.mem (.head (entryOf (s.l t).a))).next = none := hr1
        rw [if_pos hr1', hr2]
        constructor <;> simp [path, nxt, prv]
  case wLink0 =>
    have hsh := hshape (by rw [hp]; rfl)
    rw [hp] at hsh
    have hnt := hmemF (by rw [hp]; rfl)
    have hup : ∀ u ∈ s.ord (entryOf (s.l t).a), u ≠ t := fun u hu hc => hnt (hc ▸ hu)
    have := h.edit (pc' := .wLink1) (m' := upd s.mem (.ctx t) ⟨some (s.l t).a, some (.head (entryOf (s.l t).a)), (s.mem (.head (entryOf (s.l t).a))).prev, true⟩) (L' := s.ord (entryOf (s.l t).a)) t
      (by rw [hp]; rfl) rfl ?_ ?_ (fun _ _ => Iff.rfl) ?_ hnd ?_ ?_ (by simp) (by simp) (by simp) (by simp)
    · rw [upd_self_ord] at this
      exact ⟨_, rfl, this⟩
    · intro p _ h1 _
      rw [upd_ne _ _ h1]
    · intro p h1
      rw [upd_ne _ _ h1]; exact ⟨rfl, rfl⟩
    · exact ⟨fun hm => absurd hm hnt, fun hm => by cases hm⟩
    · intro _; rw [upd_self]; exact ⟨rfl, rfl⟩
    · refine ⟨ring_congr hsh (by rw [upd_ne]; simp) fun u hu => ?_, by simp [nxt], by simp [prv, upd_ne]⟩
      rw [upd_ne]
      intro hc; injection hc with hc; exact hup u hu hc
  case wLink1 =>
    have hsh := hshape (by rw [hp]; rfl)
    rw [hp] at hsh
    obtain ⟨hr, h1, h2⟩ := hsh
    have hnt := hmemF (by rw [hp]; rfl)
    have hpv : (s.mem (.ctx t)).prev = some (lastOf (.head (entryOf (s.l t).a)) ((s.ord (entryOf (s.l t).a)).map .ctx)) := by
      have h3 := hr.2
      rw [List.map_reverse] at h3
      exact h2.trans (path_rev_first h3)
    rw [hpv]
    unfold setNext
    simp only []
    rw [if_pos (ptr_live h _ fun u hu => hu)]
    have hne : ∀ c, lastOf (.head (entryOf (s.l t).a)) ((s.ord (entryOf (s.l t).a)).map .ctx) = Ptr.ctx c → c ≠ t := by
      intro c hc hct
      subst hct
      rcases lastOf_mem (Ptr.head (entryOf (s.l c).a)) ((s.ord (entryOf (s.l c).a)).map Ptr.ctx) with hh | hh
      · rw [hh] at hc; cases hc
      · rw [hc] at hh
        obtain ⟨u, hu, he⟩ := List.mem_map.1 hh
        injection he with he
        exact hnt (he ▸ hu)
    have hne' : Ptr.ctx t ≠ lastOf (.head (entryOf (s.l t).a)) ((s.ord (entryOf (s.l t).a)).map .ctx) := fun hc => hne t hc.symm rfl
    have := h.edit (pc' := .wLink2) (m' := upd s.mem (lastOf (.head (entryOf (s.l t).a)) ((s.ord (entryOf (s.l t).a)).map .ctx)) { s.mem (lastOf (.head (entryOf (s.l t).a)) ((s.ord (entryOf (s.l t).a)).map .ctx)) with next := some (.ctx t) }) (L' := s.ord (entryOf (s.l t).a)) t
      (by rw [hp]; rfl) rfl ?_ ?_ (fun _ _ => Iff.rfl) ?_ hnd ?_ ?_ (by simp) (by simp) (by simp) (by simp)
    · rw [upd_self_ord] at this
      exact ⟨_, rfl, this⟩
    · intro p q1 q2 q3
      exact upd_frame (fun u hu => hu) _ p q1 q2 q3
    · intro p _; refine upd_keep _ _ ?_ ?_ p <;> rfl
    · exact ⟨fun hm => absurd hm hnt, fun hm => by cases hm⟩
    · intro _
      rw [upd_ne _ _ hne']
      exact hctx (by rw [hp]; rfl)
    · refine ⟨?_, ?_, ?_, ?_⟩
      · rw [nxt_setNext, List.map_append]
        refine path_append.2 ⟨path_setLast hr.1 (nodup_ring hnd _), ?_⟩
        show upd _ _ _ (Ptr.ctx t) = _
        rw [upd_ne _ _ hne']
        exact h1
      · rw [prv_setNext]; exact hr.2
      · rw [nxt_setNext, upd_ne _ _ hne']; exact h1
      · rw [prv_setNext]; exact h2
  case wLink2 =>
    have hsh := hshape (by rw [hp]; rfl)
    rw [hp] at hsh
    obtain ⟨hr1, hr2, h1, h2⟩ := hsh
    have hnt := hmemF (by rw [hp]; rfl)
    have hnx : (s.mem (.ctx t)).next = some (.head (entryOf (s.l t).a)) := h1
    rw [hnx]
    unfold setPrev
    simp only []
    rw [if_pos (h.headI _)]
    have := h.edit (pc' := .cmp) (m' := upd s.mem (.head (entryOf (s.l t).a)) { s.mem (.head (entryOf (s.l t).a)) with prev := some (.ctx t) }) (L' := s.ord (entryOf (s.l t).a) ++ [t]) t
      (by rw [hp]; rfl) rfl ?_ ?_ ?_ ?_ ?_ ?_ ?_ (by simp) (by simp) (by simp) (by simp)
    · exact ⟨_, rfl, this⟩
    · intro p q1 _ _
      rw [upd_ne _ _ q1]
    · intro p _; refine upd_keep _ _ ?_ ?_ p <;> rfl
    · intro u hu; simp [hu]
    · simp [linked]
    · rw [List.nodup_append]
      refine ⟨hnd, by simp, ?_⟩
      intro a ha b hb
      rw [List.mem_singleton] at hb; subst hb
      rintro rfl; exact hnt ha
    · intro _
      rw [upd_ne _ _ (by simp)]
      exact hctx (by rw [hp]; rfl)
    · refine .inl ⟨?_, ?_⟩
      · rw [nxt_setPrev]; exact hr1
      · rw [prv_setPrev, List.reverse_append]
        refine ⟨by rw [upd_self], ?_⟩
        refine path_congr (path_start hr2 h2) (by rw [upd_ne _ _ (by simp)]) fun x hx => ?_
        rw [upd_ne]
        rintro rfl
        simp at hx
  case cmp =>
    refine ⟨_, rfl, h.loc (val' := s.val) t (entryOf (s.l t).a) (fun _ => rfl) (fun _ => rfl) ?_ ?_ ?_ (fun _ => rfl) ?_ ?_ ?_⟩
    all_goals (split <;> simp [hp, crit, linked, hasCtx, Noti, ShapeOf])
  case wSleep =>
    refine ⟨_, rfl, h.rel t (by rw [hp]; rfl) rfl (by rw [hp]; rfl) (fun _ => by rw [hp]; rfl) (fun m e L hs => by rw [hp] at hs; exact hs)⟩
  case wRelock =>
    refine ⟨_, rfl, h.acq t (by rw [hp]; rfl) rfl (by rw [hp]; rfl) (by rw [hp]; rfl) (fun m e L hr => hr) (by simp) (by simp) (by simp) (by simp)⟩
  case wUnlink0 =>
    have hin := hmemT (by rw [hp]; rfl)
    have hsh := hshape (by rw [hp]; rfl)
    rw [hp] at hsh
    have hr := ru_ring hsh hin
    obtain ⟨A, B, hAB⟩ := List.append_of_mem hin
    rw [hAB] at hr hnd
    obtain ⟨hr1, hr2⟩ := hr
    have e1 : (A ++ t :: B).map Ptr.ctx = A.map Ptr.ctx ++ Ptr.ctx t :: B.map Ptr.ctx := by simp
    have e2 : (A ++ t :: B).reverse.map Ptr.ctx = B.reverse.map Ptr.ctx ++ Ptr.ctx t :: A.reverse.map Ptr.ctx := by simp
    rw [e1] at hr1
    rw [e2] at hr2
    have hndr : (Ptr.head (entryOf (s.l t).a) :: (B.reverse.map Ptr.ctx ++ Ptr.ctx t :: A.reverse.map Ptr.ctx)).Nodup := by
      rw [← e2]
      exact nodup_ring (List.nodup_reverse.2 hnd) _
    have hpv : prv s.mem (.ctx t) = some (lastOf (.head (entryOf (s.l t).a)) (A.map .ctx)) := by
      have := (path_append.1 hr2).2
      rw [List.map_reverse] at this
      exact path_rev_first this
    have hnx : (s.mem (.ctx t)).next = some (lastOf (.head (entryOf (s.l t).a)) (B.reverse.map .ctx)) := by
      have := (path_append.1 hr1).2
      rw [← List.reverse_reverse (B.map Ptr.ctx), ← List.map_reverse] at this
      exact path_rev_first this
    rw [hnx]
    unfold setPrev
    simp only []
    have hBin : ∀ u ∈ B.reverse, u ∈ s.ord (entryOf (s.l t).a) := by
      intro u hu
      rw [hAB]
      exact List.mem_append_right _ (List.mem_cons_of_mem _ (List.mem_reverse.1 hu))
    rw [if_pos (ptr_live h _ hBin)]
    have hne : Ptr.ctx t ≠ lastOf (.head (entryOf (s.l t).a)) (B.reverse.map .ctx) := by
      intro hc
      rcases lastOf_mem (Ptr.head (entryOf (s.l t).a)) (B.reverse.map Ptr.ctx) with hh | hh
      · rw [hh] at hc; cases hc
      · rw [← hc] at hh
        rw [List.nodup_cons, List.nodup_append] at hndr
        exact hndr.2.2.2 _ hh (Ptr.ctx t) (by simp) rfl
    have := h.edit (pc' := .wUnlink1) (m' := upd s.mem (lastOf (.head (entryOf (s.l t).a)) (B.reverse.map .ctx)) { s.mem (lastOf (.head (entryOf (s.l t).a)) (B.reverse.map .ctx)) with prev := (s.mem (.ctx t)).prev }) (L' := s.ord (entryOf (s.l t).a)) t
      (by rw [hp]; rfl) rfl ?_ ?_ (fun _ _ => Iff.rfl) ?_ (by rw [hAB]; exact hnd) ?_ ?_ (by simp) (by simp) (by simp) (by simp)
    · rw [upd_self_ord] at this
      exact ⟨_, rfl, this⟩
    · intro p q1 q2 q3
      exact upd_frame hBin _ p q1 q2 q3
    · intro p _; refine upd_keep _ _ ?_ ?_ p <;> rfl
    · exact ⟨fun _ => rfl, fun _ => hin⟩
    · intro _
      rw [upd_ne _ _ hne]
      exact hctx (by rw [hp]; rfl)
    · refine ⟨A, B, hAB, ?_, ?_, ?_⟩
      · rw [nxt_setPrev, hAB, e1]; exact hr1
      · rw [prv_setPrev, List.reverse_append, List.map_append]
        exact path_unlink hr2 hndr
      · rw [prv_setPrev, upd_ne _ _ hne]; exact hpv
  case wUnlink1 =>
    have hin := hmemT (by rw [hp]; rfl)
    have hsh := hshape (by rw [hp]; rfl)
    rw [hp] at hsh
    obtain ⟨A, B, hAB, hr1, hr2, hpv⟩ := hsh
    rw [hAB] at hr1 hnd
    have e1 : (A ++ t :: B).map Ptr.ctx = A.map Ptr.ctx ++ Ptr.ctx t :: B.map Ptr.ctx := by simp
    rw [e1] at hr1
    have hndr : (Ptr.head (entryOf (s.l t).a) :: (A.map Ptr.ctx ++ Ptr.ctx t :: B.map Ptr.ctx)).Nodup := by
      rw [← e1]
      exact nodup_ring hnd _
    have hpv' : (s.mem (.ctx t)).prev = some (lastOf (.head (entryOf (s.l t).a)) (A.map .ctx)) := hpv
    rw [hpv']
    unfold setNext
    simp only []
    have hAin : ∀ u ∈ A, u ∈ s.ord (entryOf (s.l t).a) := by
      intro u hu
      rw [hAB]
      exact List.mem_append_left _ hu
    rw [if_pos (ptr_live h _ hAin)]
    have hne : Ptr.ctx t ≠ lastOf (.head (entryOf (s.l t).a)) (A.map .ctx) := by
      intro hc
      rcases lastOf_mem (Ptr.head (entryOf (s.l t).a)) (A.map Ptr.ctx) with hh | hh
      · rw [hh] at hc; cases hc
      · rw [← hc] at hh
        rw [List.nodup_cons, List.nodup_append] at hndr
        exact hndr.2.2.2 _ hh (Ptr.ctx t) (by simp) rfl
    have hnd' := hnd
    rw [List.nodup_append, List.nodup_cons] at hnd'
    have htA : t ∉ A := fun hc => hnd'.2.2 t hc t (by simp) rfl
    have htB : t ∉ B := hnd'.2.1.1
    have her : (s.ord (entryOf (s.l t).a)).erase t = A ++ B := by
      rw [hAB, List.erase_append_right _ htA, List.erase_cons_head]
    rw [her]
    generalize hm1 : upd s.mem (lastOf (.head (entryOf (s.l t).a)) (A.map .ctx)) { s.mem (lastOf (.head (entryOf (s.l t).a)) (A.map .ctx)) with next := (s.mem (.ctx t)).next } = m1
    have hm1n : nxt m1 = upd (nxt s.mem) (lastOf (.head (entryOf (s.l t).a)) (A.map .ctx)) (nxt s.mem (.ctx t)) := by rw [← hm1, nxt_setNext]; rfl
    have hm1p : prv m1 = prv s.mem := by rw [← hm1, prv_setNext]
    have hring : Ring m1 (entryOf (s.l t).a) (A ++ B) := by
      refine ⟨?_, ?_⟩
      · rw [hm1n, List.map_append]
        exact path_unlink hr1 hndr
      · rw [hm1p]; exact hr2
    have := h.edit (pc' := .wUnlock) (m' := upd m1 (.ctx t) { m1 (.ctx t) with live := false }) (L' := A ++ B) t
      (by rw [hp]; rfl) rfl ?_ ?_ ?_ ?_ ?_ (by simp [hasCtx]) ?_ (by simp) (by simp) (by simp) (by simp)
    · exact ⟨_, rfl, this⟩
    · intro p q1 q2 q3
      rw [upd_ne _ _ q2, ← hm1]
      exact upd_frame hAin _ p q1 q2 q3
    · intro p q
      rw [upd_ne _ _ q, ← hm1]
      refine upd_keep _ _ ?_ ?_ p <;> rfl
    · intro u hu
      rw [hAB]
      simp [hu]
    · refine ⟨fun hc => ?_, fun hc => by cases hc⟩
      rcases List.mem_append.1 hc with hc | hc
      · exact absurd hc htA
      · exact absurd hc htB
    · rw [List.nodup_append]
      exact ⟨hnd'.1, hnd'.2.1.2, fun a ha b hb => hnd'.2.2 a ha b (List.mem_cons_of_mem _ hb)⟩
    · refine .inl (ring_congr hring (by rw [upd_ne _ _ (by simp)]) fun u hu => ?_)
      rw [upd_ne]
      intro hc
      injection hc with hc
      subst hc
      rcases List.mem_append.1 hu with hc | hc
      · exact absurd hc htA
      · exact absurd hc htB
  case wUnlock =>
    refine ⟨_, rfl, h.rel t (by rw [hp]; rfl) rfl (by rw [hp]; rfl) (by simp [hasCtx]) (fun m e L hs => by rw [hp] at hs; exact hs)⟩
  case nLock =>
    refine ⟨_, rfl, h.acq t (by rw [hp]; rfl) rfl (by rw [hp]; rfl) (by rw [hp]; rfl) (fun m e L hr => hr) (by simp) (by simp) (by simp) (by simp)⟩
  case nHead =>
    have hsh := hshape (by rw [hp]; rfl)
    rw [hp] at hsh
    have hLC : ∀ (x' : Th ι), x' = { s.l t with pc := if (s.mem (.head (entryOf (s.l t).a))).next = none then .nUnlock else .nTest, cur := (s.mem (.head (entryOf (s.l t).a))).next } →
        Noti { s with l := upd s.l t x' } t → Inv { s with l := upd s.l t x' } := by
      intro x' hx' hn
      refine h.loc (val' := s.val) t (entryOf (s.l t).a) (fun _ => rfl) (fun _ => by rw [hx']) ?_ ?_ ?_ (fun _ => by rw [hx']) ?_ hn ?_
      all_goals rw [hx']; split <;> simp [hp, crit, linked, hasCtx, ShapeOf]
    refine ⟨_, rfl, hLC _ rfl ?_⟩
    by_cases hn : (s.mem (.head (entryOf (s.l t).a))).next = none
    · rcases hsh with hr | ⟨hr1, hr2⟩
      · exfalso
        have := hr.1
        have hc' : nxt s.mem (.head (entryOf (s.l t).a)) = none := hn
        cases hL : s.ord (entryOf (s.l t).a) with
        | nil =>
          rw [hL] at this
          have : nxt s.mem _ = some _ := this
          rw [hc'] at this; cases this
        | cons u L =>
          rw [hL] at this
          have := this.1
          rw [hc'] at this; cases this
      · unfold Noti
        simp only [upd_self, hn, if_true]
        unfold Fin
        simp only [upd_self, hr2]
        split
        · intro u hu; cases hu
        · exact .inl fun u hu => by cases hu
    · unfold Noti
      simp only [upd_self, hn, if_false]
      refine ⟨[], s.ord (entryOf (s.l t).a), rfl, ?_, ?_⟩
      · rcases hsh with hr | ⟨hr1, hr2⟩
        · have := hr.1
          cases hL : s.ord (entryOf (s.l t).a) with
          | nil => rw [hL] at this; exact this
          | cons u L => rw [hL] at this; exact this.1
        · exact absurd hr1 hn
      · unfold Done
        simp
  case nTest =>
    rw [hp] at hnoti
    simp only [] at hnoti
    obtain ⟨A, B, h1, h2, h3⟩ := hnoti
    have hLC : ∀ (pc' : Pc), pc' = .nUnlock ∨ pc' = .nWake ∨ pc' = .nNext → Noti (goto s t pc') t → Inv (goto s t pc') := by
      intro pc' hx' hn
      refine h.loc (val' := s.val) t (entryOf (s.l t).a) (fun _ => rfl) (fun _ => rfl) ?_ ?_ ?_ (fun _ => rfl) ?_ hn ?_
      all_goals (rcases hx' with rfl | rfl | rfl <;> simp [hp, crit, linked, hasCtx, ShapeOf])
    have hat : t ∉ s.ord (entryOf (s.l t).a) := hmemF (by rw [hp]; rfl)
    have hDone : ∀ pc' K, (∀ u ∈ K, u ∈ s.ord (entryOf (s.l t).a)) → (Done (goto s t pc') t K ↔ Done s t K) := by
      intro pc' K hK
      unfold Done goto
      simp only [upd_self]
      have : ∀ u ∈ K, upd s.l t { s.l t with pc := pc' } u = s.l u := fun u hu => upd_ne _ _ (fun hc => hat (hc ▸ hK u hu))
      split
      · exact forall_congr' fun u => forall_congr' fun hu => by rw [this u hu]
      · exact forall_congr' fun u => forall_congr' fun hu => by rw [this u hu]
    cases B with
    | nil =>
      rw [h2]
      simp only [firstOf, if_true]
      refine ⟨_, rfl, hLC _ (.inl rfl) ?_⟩
      rw [List.append_nil] at h1
      have hd := (hDone .nUnlock A (fun u hu => by rw [h1]; exact hu)).2 h3
      unfold Noti
      simp only [goto, upd_self]
      unfold Fin
      unfold Done at hd
      simp only [goto, upd_self] at hd ⊢
      rw [h1]
      split
      · rename_i ha; rw [if_pos ha] at hd; exact hd
      · rename_i ha; rw [if_neg ha] at hd; exact .inl hd
    | cons u B =>
      have hu : u ∈ s.ord (entryOf (s.l t).a) := by rw [h1]; simp
      have hut : u ≠ t := fun hc => hat (hc ▸ hu)
      have h2' : (s.l t).cur = some (.ctx u) := h2
      rw [h2', if_neg (by simp)]
      have hcu : hasCtx (s.l u).pc = true := by
        have := ((h.memI _ u).1 hu).1
        revert this; cases (s.l u).pc <;> simp [linked, hasCtx]
      obtain ⟨c1, c2⟩ := h.ctxI u hcu
      unfold rdc
      simp only []
      rw [if_pos c1, R.ok_bind, c2]
      refine ⟨_, rfl, hLC _ (by split <;> simp) ?_⟩
      by_cases ha : (s.l u).a = (s.l t).a
      · rw [if_pos (by rw [ha])]
        unfold Noti
        simp only [goto, upd_self]
        refine ⟨A, u, B, h1, h2, (hDone .nWake A (fun v hv => by rw [h1]; exact List.mem_append_left _ hv)).2 h3, ?_⟩
        rw [upd_ne _ _ hut]; exact ha
      · rw [if_neg (by intro hc; exact ha (Option.some.inj hc))]
        unfold Noti
        simp only [goto, upd_self]
        refine ⟨A, u, B, h1, h2, (hDone .nNext (A ++ [u]) (fun v hv => ?_)).2 ?_⟩
        · rw [h1]
          rcases List.mem_append.1 hv with hv | hv
          · exact List.mem_append_left _ hv
          · rw [List.mem_singleton] at hv; subst hv; simp
        · unfold Done at h3 ⊢
          split
          · rename_i hall
            rw [if_pos hall] at h3
            intro v hv hav
            rcases List.mem_append.1 hv with hv | hv
            · exact h3 v hv hav
            · rw [List.mem_singleton] at hv; subst hv; exact absurd hav ha
          · rename_i hall
            rw [if_neg hall] at h3
            intro v hv
            rcases List.mem_append.1 hv with hv | hv
            · exact h3 v hv
            · rw [List.mem_singleton] at hv; subst hv; exact ha
  case nWake =>
    rw [hp] at hnoti
    simp only [] at hnoti
    obtain ⟨A, u, B, h1, h2, h3, h4⟩ := hnoti
    have hat : t ∉ s.ord (entryOf (s.l t).a) := hmemF (by rw [hp]; rfl)
    have hu : u ∈ s.ord (entryOf (s.l t).a) := by rw [h1]; simp
    have hut : u ≠ t := fun hc => hat (hc ▸ hu)
    have hcu : hasCtx (s.l u).pc = true := by
      have := ((h.memI _ u).1 hu).1
      revert this; cases (s.l u).pc <;> simp [linked, hasCtx]
    have hred : (match (s.l t).cur with
      | some (.ctx u) => if (s.mem (.ctx u)).live = true then
          (.ok { s with l := upd (upd s.l u (wake (s.l u))) t { s.l t with pc := if (s.l t).all = true then .nNext else .nUnlock } } : R (St ι)) else .error .ub
      | _ => .error .ub) = .ok { s with l := upd (upd s.l u (wake (s.l u))) t { s.l t with pc := if (s.l t).all = true then .nNext else .nUnlock } } := by
      split
      · rename_i u' hu'
        rw [h2] at hu'
        injection hu' with hu'; injection hu' with hu'; subst hu'
        rw [if_pos (h.ctxI u hcu).1]
      · rename_i hno
        exact absurd h2 (hno u)
    have hlt : s.lock (entryOf (s.l t).a) = some t := (h.lockI _ t).2 ⟨by rw [hp]; rfl, rfl⟩
    have hlv : ∀ (x : Th ι) v, v ≠ t → upd (upd s.l u (wake (s.l u))) t x v = if v = u then wake (s.l u) else s.l v := by
      intro x v hv
      rw [upd_ne _ _ hv]; rfl
    refine ⟨_, hred, h.frame t (entryOf (s.l t).a) (fun _ => rfl) (fun _ => by simp only [upd_self]) (fun v hv => ?_) (fun _ _ => rfl) (fun _ _ => rfl) (fun _ _ _ _ => rfl) (fun _ _ => ⟨rfl, rfl⟩) (fun v => ?_)
      (fun v => ?_) ?_ hnd ?_ ?_ fun n hn hcn hen => ?_⟩
    · simp only []
      rw [hlv _ v hv]
      split
      · rename_i hvu; subst hvu; exact .inr rfl
      · exact .inl rfl
    · simp only []
      rw [h.lockI]
      by_cases hv : v = t
      · subst hv; rw [upd_self]
        simp only [hp]
        split <;> simp [crit]
      · rw [hlv _ v hv]
        split
        · rename_i hvu; subst hvu; rw [wake_crit, wake_a]
        · rfl
    · simp only []
      rw [h.memI]
      by_cases hv : v = t
      · subst hv; rw [upd_self]
        simp only [hp]
        split <;> simp [linked]
      · rw [hlv _ v hv]
        split
        · rename_i hvu; subst hvu; rw [wake_linked, wake_a]
        · rfl
    · simp only [upd_self]
      split <;> simp [hasCtx]
    · have hsh := hshape (by rw [hp]; rfl)
      rw [hp] at hsh
      unfold Shape
      simp only [hlt, Option.map_some, upd_self]
      split <;> exact hsh
    · have hK : ∀ v ∈ s.ord (entryOf (s.l t).a), v ≠ t := fun v hv hc => hat (hc ▸ hv)
      have hDone : ∀ pc', Done s t A → (s.l t).all = true → Done { s with l := upd (upd s.l u (wake (s.l u))) t { s.l t with pc := pc' } } t (A ++ [u]) := by
        intro pc' hd hall
        unfold Done at hd ⊢
        simp only [upd_self]
        rw [if_pos hall] at hd ⊢
        intro v hv
        have hvt : v ≠ t := hK v (by
          rw [h1]
          rcases List.mem_append.1 hv with hv | hv
          · exact List.mem_append_left _ hv
          · rw [List.mem_singleton] at hv; subst hv; simp)
        rw [upd_ne _ _ hvt]
        by_cases hvu : v = u
        · subst hvu; rw [upd_self]; intro _; exact wake_ne _
        · rw [upd_ne _ _ hvu]
          rcases List.mem_append.1 hv with hv | hv
          · exact hd v hv
          · rw [List.mem_singleton] at hv; exact absurd hv hvu
      by_cases hall : (s.l t).all = true
      · rw [if_pos hall]
        unfold Noti
        simp only [upd_self]
        exact ⟨A, u, B, h1, h2, hDone .nNext h3 hall⟩
      · rw [if_neg hall]
        unfold Noti
        simp only [upd_self]
        unfold Fin
        simp only [upd_self]
        rw [if_neg hall]
        refine .inr ⟨u, hu, ?_, ?_⟩
        · rw [upd_ne _ _ hut, upd_self, wake_a]; exact h4
        · rw [upd_ne _ _ hut, upd_self]; exact wake_ne _
    · have := (h.lockI _ n).2 ⟨hcn, hen⟩
      rw [hlt] at this
      exact absurd (Option.some.inj this).symm hn
  case nNext =>
    rw [hp] at hnoti
    simp only [] at hnoti
    obtain ⟨A, u, B, h1, h2, h3⟩ := hnoti
    have hat : t ∉ s.ord (entryOf (s.l t).a) := hmemF (by rw [hp]; rfl)
    have hu : u ∈ s.ord (entryOf (s.l t).a) := by rw [h1]; simp
    have hcu : hasCtx (s.l u).pc = true := by
      have := ((h.memI _ u).1 hu).1
      revert this; cases (s.l u).pc <;> simp [linked, hasCtx]
    have hsh := hshape (by rw [hp]; rfl)
    rw [hp] at hsh
    have hr := (ru_ring hsh hu).1
    rw [h1] at hr
    rw [h2]
    unfold rdc
    simp only []
    rw [if_pos (h.ctxI u hcu).1, R.ok_bind]
    refine ⟨_, rfl, h.loc (val' := s.val) t (entryOf (s.l t).a) (fun _ => rfl) (fun _ => rfl) ?_ ?_ ?_ (fun _ => rfl) ?_ ?_ ?_⟩
    all_goals try simp [hp, crit, linked, hasCtx, ShapeOf]
    unfold Noti
    simp only [upd_self]
    refine ⟨A ++ [u], B, by rw [h1]; simp, ?_, ?_⟩
    · rw [List.map_append, List.map_cons] at hr
      have := (path_append.1 hr).2
      cases B with
      | nil => exact this
      | cons v B => exact this.1
    · unfold Done at h3 ⊢
      simp only [upd_self]
      have : ∀ v ∈ A ++ [u], ∀ x, upd s.l t x v = s.l v := fun v hv x => upd_ne _ _ (fun hc => hat (by
        rw [h1, ← hc]
        rcases List.mem_append.1 hv with hv | hv
        · exact List.mem_append_left _ hv
        · rw [List.mem_singleton] at hv; subst hv; simp))
      split
      · rename_i ha; rw [if_pos ha] at h3
        intro v hv; rw [this v hv]; exact h3 v hv
      · rename_i ha; rw [if_neg ha] at h3
        intro v hv; rw [this v hv]; exact h3 v hv
  case nUnlock =>
    refine ⟨_, rfl, h.rel t (by rw [hp]; rfl) rfl (by rw [hp]; rfl) (by simp [hasCtx]) (fun m e L hs => by rw [hp] at hs; exact hs)⟩

end STL.AWait
