import Verif.Utf.Utf816Props

/-! # Whole texts in one call: everything that can be represented is converted, and back -/

namespace STL.Utf

theorem decode_prefix : ∀ (segs : List (Nat × List Nat)) (cs rest : List Nat), (∀ p ∈ segs, Spec.Seq8 p.1 p.2) →
    Units 32 cs → (segs.map Prod.snd).flatten ++ rest = cs.flatMap Spec.enc8 →
    ∃ cs2 : List Nat, segs.map Prod.fst ++ cs2 = cs ∧ rest = cs2.flatMap Spec.enc8
  | [], cs, rest, _, _, h => ⟨cs, rfl, by simpa using h⟩
  | p :: segs, [], rest, hs, _, h => by
    rw [List.flatMap_nil, List.map_cons, List.flatten_cons, List.append_assoc] at h
    exact absurd (List.append_eq_nil_iff.1 h).1 (seq8_ne (hs p (by simp)))
  | p :: segs, c :: cs, rest, hs, hu, h => by
    rw [List.flatMap_cons, List.map_cons, List.flatten_cons, List.append_assoc] at h
    obtain ⟨_, h2, h3⟩ := seq8_unique (hs p (by simp)) (enc8_seq (hu c (by simp))) h
    obtain ⟨cs2, h4, h5⟩ := decode_prefix segs cs rest (fun p hp => hs p (by simp [hp])) (fun c hc => hu c (by simp [hc])) h3
    exact ⟨cs2, by rw [List.map_cons, List.cons_append, h2, h4], h5⟩

theorem flatMap_enc8_length (cs : List Nat) : (cs.flatMap Spec.enc8).length ≤ 6 * cs.length := by
  induction cs with
  | nil => simp
  | cons c cs ih =>
    have := enc8_length_le c
    rw [List.flatMap_cons, List.length_append, List.length_cons]; omega

/-- **C20** A whole text through `codecvt_utf8` in one call each way: with six bytes of room per code, `do_out` writes the
UTF-8 of all the codes, and `do_in` on it delivers all of them. -/
theorem C20_utf8_oneshot (C : Cfg) (hw : C.w ≤ 32) (hg : C.gen = false) (hc : C.consume = false) (cs : List Nat)
    (hcs : Units C.w cs) (hmax : ∀ c ∈ cs, c ≤ C.max) (hne : cs ≠ []) :
    ∃ r r', out8 C 0 cs (6 * cs.length) = .ok r ∧ r.res = .ok ∧ r.mid1 = [] ∧ r.out = cs.flatMap Spec.enc8 ∧
      in8 C 0 r.out cs.length = .ok r' ∧ r'.res = .ok ∧ r'.mid1 = [] ∧ r'.out = cs := by
  have hu := units_mono hw hcs
  obtain ⟨r, a, rest, h1, h2, h3, h4, h5, h6⟩ := C20_utf8_out C 0 cs (6 * cs.length) hu (Or.inr hg)
  have hrest : rest = [] ∧ r.res = (if a = [] then .part else .ok) ∧ r.mid1 = rest := by
    rcases h6 with ⟨h7, h8, h9⟩ | ⟨_, c, t, h7, h8⟩
    · refine ⟨?_, h7, h8⟩
      match rest, h2, h9 with
      | [], _, _ => rfl
      | c :: t, h2, h9 =>
        have := h9 c (by simp)
        have h10 := enc8_length_le c
        have h11 := flatMap_enc8_length a
        rw [h4] at this
        rw [h2, List.length_append, List.length_cons] at this
        omega
    · have := hmax c (by rw [h2, h7]; simp)
      omega
  obtain ⟨hr, h7, h8⟩ := hrest
  have ha : a = cs := by rw [h2, hr, List.append_nil]
  rw [ha] at h4 h7
  rw [if_neg hne] at h7
  obtain ⟨r', segs, rest', h9, h10, h11, h12, h13, h14⟩ := C20_utf8_in C 0 r.out cs.length
    (by rw [h4]; exact units_enc8 hu) (Or.inr hc)
  rw [h4] at h10
  obtain ⟨cs2, h15, h16⟩ := decode_prefix segs cs rest' (fun p hp => (h11 p hp).1) hu h10.symm
  have hlen : segs.length + cs2.length = cs.length := by rw [← h15, List.length_append, List.length_map]
  have hcs2 : cs2 = [] ∧ r'.res = (if segs = [] then .part else .ok) ∧ r'.mid1 = rest' := by
    match cs2, h15, h16, hlen with
    | [], _, h16, _ =>
      rcases h14 with ⟨h17, h18, _⟩ | ⟨_, _, _, h17, _⟩
      · exact ⟨rfl, h17, h18⟩
      · exact absurd h16 h17
    | c :: cs2, h15, h16, hlen =>
      exfalso
      have hc32 : c < 2 ^ 32 := hu c (by rw [← h15]; simp)
      rw [List.length_cons] at hlen
      rcases h14 with ⟨_, _, h17 | h17 | h17⟩ | ⟨_, _, _, _, _, h17⟩
      · rw [h17] at h16
        exact seq8_ne (enc8_seq hc32) (List.append_eq_nil_iff.1 h16.symm).1
      · omega
      · rw [h16] at h17
        exact seq8_not_trunc (enc8_seq hc32) h17
      · exact h17 ⟨c, _, _, enc8_seq hc32, hmax c (by rw [← h15]; simp), h16⟩
  obtain ⟨hc2, h17, h18⟩ := hcs2
  rw [hc2, List.append_nil] at h15
  have hsne : segs ≠ [] := by rintro rfl; exact hne h15.symm
  rw [if_neg hsne] at h17
  refine ⟨r, r', h1, h7, by rw [h8, hr], h4, h9, h17, by rw [h18, h16, hc2]; rfl, ?_⟩
  rw [h12]
  exact map_mod_eq h15 hcs

theorem decode16_prefix {l : Bool} : ∀ (as cs rest : List Nat), (∀ c ∈ as, Spec.Code16 c) → (∀ c ∈ cs, Spec.Code16 c) →
    as.flatMap (Spec.encBytes16 l) ++ rest = cs.flatMap (Spec.encBytes16 l) →
    ∃ cs2 : List Nat, as ++ cs2 = cs ∧ rest = cs2.flatMap (Spec.encBytes16 l)
  | [], cs, rest, _, _, h => ⟨cs, rfl, by simpa using h⟩
  | a :: as, [], rest, hs, _, h => by
    rw [List.flatMap_nil, List.flatMap_cons, List.append_assoc] at h
    exact absurd (List.append_eq_nil_iff.1 h).1 (encBytes16_ne l a)
  | a :: as, c :: cs, rest, hs, hu, h => by
    rw [List.flatMap_cons, List.flatMap_cons, List.append_assoc] at h
    obtain ⟨h2, h3⟩ := encBytes16_unique (hs a (by simp)) (hu c (by simp)) h
    obtain ⟨cs2, h4, h5⟩ := decode16_prefix as cs rest (fun p hp => hs p (by simp [hp])) (fun c hc => hu c (by simp [hc])) h3
    exact ⟨cs2, by rw [List.cons_append, h2, h4], h5⟩

theorem encBytes16_length_le (l : Bool) (c : Nat) : (Spec.encBytes16 l c).length ≤ 4 := by
  by_cases h7 : c < 0x10000
  · rw [enc16_lt h7, bytes16_length]; omega
  · rw [enc16_ge (by omega), List.length_append, bytes16_length, bytes16_length]

theorem flatMap_encBytes16_length (l : Bool) (cs : List Nat) : (cs.flatMap (Spec.encBytes16 l)).length ≤ 4 * cs.length := by
  induction cs with
  | nil => simp
  | cons c cs ih =>
    have := encBytes16_length_le l c
    rw [List.flatMap_cons, List.length_append, List.length_cons]; omega

/-- **C20** A whole text through `codecvt_utf16` in one call each way: with four bytes of room per code, `do_out` writes the
UTF-16 of all the codes in the byte order of the facet, and `do_in` on it delivers all of them. -/
theorem C20_utf16_oneshot (C : Cfg) (hw : C.w ≤ 32) (hg : C.gen = false) (hc : C.consume = false) (cs : List Nat)
    (hcs : Units C.w cs) (hsc : ∀ c ∈ cs, Spec.Scalar c ∧ c ≤ C.max) (hne : cs ≠ []) :
    ∃ r r', out16 C 0 cs (4 * cs.length) = .ok r ∧ r.res ≠ .error ∧ r.mid1 = [] ∧
      r.out = cs.flatMap (Spec.encBytes16 C.little) ∧
      in16 C 0 r.out cs.length = .ok r' ∧ r'.res = .ok ∧ r'.mid1 = [] ∧ r'.out = cs := by
  have hu := units_mono hw hcs
  have hcode : ∀ c ∈ cs, Spec.Code16 c := by
    intro c hc
    have := (hsc c hc).1
    unfold Spec.Scalar at this
    exact ⟨by omega, by omega⟩
  have hord : order C 0 = C.little := rfl
  obtain ⟨r, a, rest, h1, h2, h3, h4, h5, h6⟩ := C20_utf16_out C 0 cs (4 * cs.length) hu (by omega) (Or.inr hg)
  rw [hord] at h4 h6
  have hrest : rest = [] ∧ r.res ≠ .error ∧ r.mid1 = rest := by
    rcases h6 with ⟨h7, _, h8, h9⟩ | ⟨_, c, t, h7, h8⟩
    · refine ⟨?_, h7, h8⟩
      match rest, h2, h9 with
      | [], _, _ => rfl
      | c :: t, h2, h9 =>
        have := h9 c (by simp)
        have h10 := encBytes16_length_le C.little c
        have h11 := flatMap_encBytes16_length C.little a
        rw [h4] at this
        rw [h2, List.length_append, List.length_cons] at this
        omega
    · have hm : c ∈ cs := by rw [h2, h7]; simp
      exact absurd ⟨hcode c hm, (hsc c hm).2⟩ h8
  obtain ⟨hr, h7, h8⟩ := hrest
  have ha : a = cs := by rw [h2, hr, List.append_nil]
  rw [ha] at h4
  obtain ⟨r', as, rest', h9, h10, h11, h12, h13, h14⟩ := C20_utf16_in C 0 r.out cs.length
    (by rw [h4]; exact units_enc16 hcode) (by omega) (Or.inr hc)
  rw [hord] at h10 h14
  rw [h4] at h10
  obtain ⟨cs2, h15, h16⟩ := decode16_prefix as cs rest' (fun p hp => (h11 p hp).1) hcode h10.symm
  have hlen : as.length + cs2.length = cs.length := by rw [← h15, List.length_append]
  have hcs2 : cs2 = [] ∧ r'.res = (if as = [] then .part else .ok) ∧ r'.mid1 = rest' := by
    match cs2, h15, h16, hlen with
    | [], _, h16, _ =>
      rcases h14 with ⟨h17, h18, _⟩ | ⟨_, _, _, h17, _⟩
      · exact ⟨rfl, h17, h18⟩
      · exact absurd h16 h17
    | c :: cs2, h15, h16, hlen =>
      exfalso
      have hm : c ∈ cs := by rw [← h15]; simp
      rw [List.length_cons] at hlen
      rw [List.flatMap_cons] at h16
      rcases h14 with ⟨_, _, h17 | h17 | h17⟩ | ⟨_, _, _, _, _, h17⟩
      · rw [h17] at h16
        exact encBytes16_ne _ c (List.append_eq_nil_iff.1 h16.symm).1
      · omega
      · rw [h16] at h17
        exact encBytes16_not_trunc (hcode c hm) h17
      · exact h17 ⟨c, _, hcode c hm, (hsc c hm).2, h16⟩
  obtain ⟨hc2, h17, h18⟩ := hcs2
  rw [hc2, List.append_nil] at h15
  subst h15
  rw [if_neg hne] at h17
  refine ⟨r, r', h1, h7, by rw [h8, hr], h4, h9, h17, by rw [h18, h16, hc2]; rfl, ?_⟩
  rw [h12]
  conv => rhs; rw [← List.map_id as]
  exact List.map_congr_left fun c hc => Nat.mod_eq_of_lt (hcs c hc)

/-- Texts that meet the hypotheses. -/
example : ∃ r r', out8 ⟨32, 0x10ffff, false, false, false⟩ 0 [0x41, 0x20AC, 0x1F600] 18 = .ok r ∧ r.out.length = 8 ∧
    in8 ⟨32, 0x10ffff, false, false, false⟩ 0 r.out 3 = .ok r' ∧ r'.out = [0x41, 0x20AC, 0x1F600] := by
  obtain ⟨r, r', h1, _, _, h2, h3, _, _, h4⟩ := C20_utf8_oneshot ⟨32, 0x10ffff, false, false, false⟩ (by decide) rfl rfl
    [0x41, 0x20AC, 0x1F600] (by unfold Units; decide) (by decide) (by decide)
  exact ⟨r, r', h1, by rw [h2]; decide, h3, h4⟩

example : ∃ r, out16 (utf16hdr true) 1 [0x41, 0x1F600] 8 = .ok r ∧ r.out = [0x41, 0, 0x3D, 0xD8, 0x00, 0xDE] :=
  ⟨⟨.ok, [], [0x41, 0, 0x3D, 0xD8, 0x00, 0xDE], 1⟩, by decide, rfl⟩

end STL.Utf
