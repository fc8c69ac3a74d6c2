import Verif.VWrite.Remove
import Verif.VAlg.Props

/-! # unique and unique_copy -/

namespace STL.VWrite

open STL.VAlg (Cpu movemask full)

/-- The elements of a list that differ from the one before; `p` is before the first one. -/
def sel (p : Elem) : List Elem → List Elem
  | [] => []
  | y :: l => if y = p then sel p l else y :: sel y l

/-- `std::unique` -/
def uniq : List Elem → List Elem
  | [] => []
  | x :: l => x :: sel x l

theorem sel_append (y : Elem) (v : List Elem) : ∀ (l : List Elem) (x : Elem), sel x (l ++ y :: v) = sel x (l ++ [y]) ++ sel y v
  | [], x => by
    by_cases h : y = x
    · subst h; simp [sel]
    · simp [sel, h]
  | z :: l, x => by
    by_cases h : z = x
    · simp [sel, h, sel_append y v l x]
    · simp [sel, h, sel_append y v l z]

theorem uniq_append (y : Elem) (v l : List Elem) : uniq (l ++ y :: v) = uniq (l ++ [y]) ++ sel y v := by
  cases l with
  | nil => simp [uniq, sel]
  | cons x l => simp [uniq, sel_append y v l x]

theorem sel_last (y : Elem) : ∀ (l : List Elem) (x : Elem), ∃ t, x :: sel x (l ++ [y]) = t ++ [y]
  | [], x => by
    by_cases h : y = x
    · exact ⟨[], by simp [sel, h]⟩
    · exact ⟨[x], by simp [sel, h]⟩
  | z :: l, x => by
    by_cases h : z = x
    · obtain ⟨t, ht⟩ := sel_last y l x
      exact ⟨t, by simpa [sel, h] using ht⟩
    · obtain ⟨t, ht⟩ := sel_last y l z
      exact ⟨x :: t, by simpa [sel, h] using ht⟩

theorem uniq_last (y : Elem) (l : List Elem) : ∃ t, uniq (l ++ [y]) = t ++ [y] := by
  cases l with
  | nil => exact ⟨[], by simp [uniq, sel]⟩
  | cons x l => simpa [uniq] using sel_last y l x

theorem sel_length_le : ∀ (l : List Elem) (x : Elem), (sel x l).length ≤ l.length
  | [], _ => by simp [sel]
  | z :: l, x => by
    have h1 := sel_length_le l x
    have h2 := sel_length_le l z
    unfold sel
    split <;> simp <;> omega

theorem uniq_length_le (l : List Elem) : (uniq l).length ≤ l.length := by
  cases l with
  | nil => simp [uniq]
  | cons x l => have := sel_length_le l x; simp [uniq]; omega

theorem uniq_take_succ {a : List Elem} {k : Nat} (hk : k < a.length) (c : Nat) :
    uniq (a.take (k + 1 + c)) = uniq (a.take (k + 1)) ++ sel a[k] ((a.drop (k + 1)).take c) := by
  rw [List.take_add, List.take_succ_eq_append_getElem hk, List.append_assoc, List.singleton_append, uniq_append]

theorem uniq_take_last {a : List Elem} {k : Nat} (hk : k < a.length) : ∃ t, uniq (a.take (k + 1)) = t ++ [a[k]] := by
  rw [List.take_succ_eq_append_getElem hk]; exact uniq_last _ _

theorem sel_self : ∀ (l : List Elem) (p : Elem), (∀ j x, (p :: l)[j]? = some x → (p :: l)[j + 1]? ≠ some x) → sel p l = l
  | [], _, _ => rfl
  | y :: l, p, h => by
    have h0 := h 0 p (by simp)
    simp at h0
    rw [sel, if_neg h0, sel_self l y (fun j x hj => by have := h (j + 1) x (by simpa using hj); simpa using this)]

theorem uniq_self {l : List Elem} (h : ∀ j x, l[j]? = some x → l[j + 1]? ≠ some x) : uniq l = l := by
  cases l with
  | nil => rfl
  | cons p l => rw [uniq, sel_self l p h]

theorem keep_sel : ∀ (c : Nat) (w : List Elem) (p : Elem),
    keep (List.zipWith (· == ·) (w.take c) ((p :: w).take c)) (w.take c) = sel p (w.take c)
  | 0, _, _ => by simp [keep, sel]
  | c + 1, [], _ => by simp [keep, sel]
  | c + 1, y :: w, p => by
    have := keep_sel c w y
    simp only [List.take_succ_cons, List.zipWith_cons_cons, keep, sel, this]
    by_cases h : y = p
    · subst h; simp
    · simp [h]

theorem keep_sublist : ∀ (bs : List Bool) (v : List Elem), (keep bs v).Sublist v
  | [], v => by simp [keep]
  | _ :: _, [] => by simp [keep]
  | b :: bs, x :: xs => by
    have := keep_sublist bs xs
    unfold keep
    split
    · exact this.cons _
    · exact this.cons_cons _

theorem keep_drop_last (bs : List Bool) (v : List Elem) : (keep bs v ++ v.drop (keep bs v).length).drop (v.length - 1) = v.drop (v.length - 1) := by
  have hle := keep_length_le bs v
  by_cases h : (keep bs v).length = v.length
  · rw [(keep_sublist bs v).eq_of_length h]; simp
  · rw [List.drop_append, List.drop_eq_nil_of_le (by omega), List.nil_append, List.drop_drop]
    congr 1; omega

/-- In place: `k + 1` elements have been read; the last of them is still in its place. -/
structure InvU (a0 : List Elem) (k : Nat) (a : List Elem) : Prop where
  inv : Inv a0 (uniq (a0.take (k + 1))) (k + 1) a
  prev : a.drop k = a0.drop k

theorem uniqueLoop_spec {T : Tr} {c : Nat} (hT : T.Ok c) {a0 : List Elem} (he : ∀ x ∈ a0, x.length = T.s) :
    ∀ (m f k : Nat) (a : List Elem), m < f → k + 1 + c * (m + 1) ≤ a0.length → InvU a0 k a →
      ∃ a', uniqueLoop T (T.s * (k + 1 + c * (m + 1))) f (T.s * (k + 1)) (T.s * (uniq (a0.take (k + 1))).length) a =
          some (a', T.s * ((uniq (a0.take (k + c * (m + 1) + 1))).length - 1)) ∧
        InvU a0 (k + c * (m + 1)) a'
  | m, 0, k, a, hf, _, _ => by omega
  | m, f + 1, k, a, hf, hk, hI => by
    have hs := hT.s0
    have hc := hT.hc
    have hkc : k + 1 + c ≤ a0.length := by
      have : c ≤ c * (m + 1) := Nat.le_mul_of_pos_right c (Nat.succ_pos m)
      omega
    have hka : k < a0.length := by omega
    have hlen := hI.inv.len
    have hgk := hI.inv.gk
    have hl : ((a0.drop (k + 1)).take c).length = c := by simp; omega
    have hcons : a0.drop k = a0[k] :: a0.drop (k + 1) := List.drop_eq_getElem_cons hka
    obtain ⟨a', e1, hI', ea'⟩ := hI.inv.step hT hkc he (bs := List.zipWith (· == ·) ((a0.drop (k + 1)).take c) ((a0[k] :: a0.drop (k + 1)).take c)) (by simp; omega)
    have hkd := keep_drop_last (List.zipWith (· == ·) ((a0.drop (k + 1)).take c) ((a0[k] :: a0.drop (k + 1)).take c)) ((a0.drop (k + 1)).take c)
    rw [keep_sel] at e1 hI' ea' hkd
    rw [← uniq_take_succ hka] at e1 hI'
    have hd1 : (sel a0[k] ((a0.drop (k + 1)).take c) ++ ((a0.drop (k + 1)).take c).drop (sel a0[k] ((a0.drop (k + 1)).take c)).length).length = c := by
      have := sel_length_le ((a0.drop (k + 1)).take c) a0[k]
      rw [List.length_append, List.length_drop, hl]; omega
    have hprev : a'.drop (k + c) = a0.drop (k + c) := by
      by_cases ho : (uniq (a0.take (k + 1))).length ≤ k
      · rw [ea', wr_drop (by omega) (by rw [hd1]; omega), ← List.drop_drop, hI.prev, List.drop_drop]
      · have ho : (uniq (a0.take (k + 1))).length = k + 1 := by omega
        rw [ea', wr, hd1, ho, List.append_assoc, List.drop_append, List.drop_eq_nil_of_le (by simp; omega), List.nil_append, List.drop_append]
        have hz : k + c - (a.take (k + 1)).length = c - 1 := by simp; omega
        rw [hz]
        rw [hl] at hkd
        rw [hkd, hd1, show c - 1 - c = 0 by omega, List.drop_zero]
        have hd2 : a.drop (k + 1 + c) = a0.drop (k + 1 + c) := by
          rw [← List.drop_drop, hI.inv.dk, List.drop_drop]
        rw [hd2]
        have : (a0.drop (k + 1)).take c ++ a0.drop (k + 1 + c) = a0.drop (k + 1) := by
          rw [show a0.drop (k + 1 + c) = (a0.drop (k + 1)).drop c by rw [List.drop_drop], List.take_append_drop]
        have h3 := congrArg (List.drop (c - 1)) this
        rw [List.drop_append, hl, show c - 1 - c = 0 by omega, List.drop_zero, List.drop_drop] at h3
        rw [h3]; congr 1; omega
    have hU : InvU a0 (k + c) a' := ⟨by rw [show k + c + 1 = k + 1 + c by omega]; exact hI', hprev⟩
    unfold uniqueLoop
    rw [if_neg (by rw [Nat.mul_add]; omega), hT.step, show T.s * (k + 1) - T.s = T.s * k by rw [Nat.mul_add]; omega,
      ld_some hs (by rw [hlen]; exact hkc), ld_some hs (by rw [hlen]; omega), hI.inv.src, hI.prev, hcons]
    simp only [Option.bind_eq_bind, Option.bind_some, mask, e1]
    rw [← Nat.mul_add]
    match m with
    | 0 =>
      obtain ⟨t, ht⟩ := uniq_take_last (a := a0) (k := k + c) (by omega)
      rw [if_neg (by simp)]
      have hpos : 1 ≤ (uniq (a0.take (k + 1 + c))).length := by
        rw [show k + 1 + c = k + c + 1 by omega, ht]; simp
      have := Nat.mul_le_mul_left T.s hpos
      rw [if_neg (by omega)]
      refine ⟨a', ?_, by simpa using hU⟩
      rw [show k + 1 + c = k + c + 1 by omega]
      simp only [Nat.zero_add, Nat.mul_one, Nat.mul_sub]
    | m + 1 =>
      have e2 : k + 1 + c * (m + 1 + 1) = k + c + 1 + c * (m + 1) := by rw [Nat.mul_succ c (m + 1)]; omega
      have e3 : k + c * (m + 1 + 1) = k + c + c * (m + 1) := by rw [Nat.mul_succ c (m + 1)]; omega
      have hpos : 0 < c * (m + 1) := Nat.mul_pos hc (Nat.succ_pos m)
      rw [if_pos (by
        intro h
        have := Nat.eq_of_mul_eq_mul_left hs h
        omega)]
      rw [e2, e3, show k + 1 + c = k + c + 1 by omega]
      exact uniqueLoop_spec hT he m f (k + c) a' (by omega) (by omega) hU

theorem uniqueScalar_spec {s : Nat} (hs : 0 < s) {a0 : List Elem} :
    ∀ (n f k : Nat) (a : List Elem), n < f → k + 1 + n = a0.length → Inv a0 (uniq (a0.take (k + 1))) (k + 1) a →
      ∃ a', uniqueScalar s f (s * (k + 1)) (s * ((uniq (a0.take (k + 1))).length - 1)) a = some (a', s * (uniq a0).length) ∧
        Inv a0 (uniq a0) a0.length a'
  | n, 0, k, a, hf, _, _ => by omega
  | 0, f + 1, k, a, hf, hk, hI => by
    obtain ⟨t, ht⟩ := uniq_take_last (a := a0) (k := k) (by omega)
    have hk : k + 1 = a0.length := by omega
    rw [hk, List.take_length] at hI ht ⊢
    refine ⟨a, ?_, hI⟩
    unfold uniqueScalar
    rw [if_neg (by rw [hI.len]; simp), ht]
    simp [Nat.mul_add]
  | n + 1, f + 1, k, a, hf, hk, hI => by
    obtain ⟨t, ht⟩ := uniq_take_last (a := a0) (k := k) (by omega)
    unfold uniqueScalar
    rw [if_pos (by
      rw [hI.len]
      intro h
      have := Nat.eq_of_mul_eq_mul_left hs h
      omega)]
    have hlen := hI.len
    have hgk := hI.gk
    have htk := hI.tk
    have hgl : (uniq (a0.take (k + 1))).length = t.length + 1 := by rw [ht]; simp
    have h1 := ld_some hs (a := a) (k := k + 1) (c := 1) (by omega)
    rw [Nat.mul_one, hI.src, take_one (by omega)] at h1
    have h2 := ld_some hs (a := a) (k := t.length) (c := 1) (by omega)
    have hlast : a[t.length]'(by omega) = a0[k] := by
      have : a[t.length]? = some a0[k] := by
        have h3 : (a.take (t.length + 1))[t.length]? = a[t.length]? := by rw [List.getElem?_take]; simp
        rw [← h3, ← hgl, htk, ht]; simp
      exact (List.getElem?_eq_some_iff.1 this).2
    rw [Nat.mul_one, take_one (by omega), hlast] at h2
    have hg1 : (uniq (a0.take (k + 1))).length - 1 = t.length := by omega
    have ht2 := uniq_take_succ (a := a0) (k := k) (by omega) 1
    rw [take_one (by omega)] at ht2
    simp only [Option.bind_eq_bind, h1, hg1, h2, Option.bind_some]
    by_cases hx : a0[k + 1] = a0[k]
    · rw [if_neg (by simp [hx])]
      have ht' : uniq (a0.take (k + 1 + 1)) = uniq (a0.take (k + 1)) := by rw [ht2]; simp [sel, hx]
      have := uniqueScalar_spec hs n f (k + 1) a (by omega) (by omega) ⟨hI.len, by rw [ht']; omega, by omega, by rw [ht', hI.tk], by
        rw [← List.drop_drop, hI.dk, List.drop_drop]⟩
      rw [ht', hg1] at this
      rw [show s * (k + 1) + s = s * (k + 1 + 1) by rw [Nat.mul_succ s (k + 1)]]
      exact this
    · rw [if_pos (by simpa using hx)]
      have ht' : uniq (a0.take (k + 1 + 1)) = uniq (a0.take (k + 1)) ++ [a0[k + 1]] := by rw [ht2]; simp [sel, hx]
      rw [show s * t.length + s = s * (uniq (a0.take (k + 1))).length by rw [hgl, Nat.mul_succ], st_some hs (by simp; omega)]
      simp only [Option.bind_some]
      have hI' : Inv a0 (uniq (a0.take (k + 1 + 1))) (k + 1 + 1) (wr a (uniq (a0.take (k + 1))).length [a0[k + 1]]) := by
        refine ⟨?_, ?_, by omega, ?_, ?_⟩
        · rw [wr_length (by simp; omega), hI.len]
        · rw [ht', List.length_append]; simp; omega
        · rw [ht', List.length_append, wr_take' (by omega), hI.tk]
        · rw [wr_drop (by omega) (by simp; omega), ← List.drop_drop, hI.dk, List.drop_drop]
      have := uniqueScalar_spec hs n f (k + 1) _ (by omega) (by omega) hI'
      rw [ht', List.length_append] at this
      rw [show s * (k + 1) + s = s * (k + 1 + 1) by rw [Nat.mul_succ s (k + 1)]]
      simpa using this

theorem le_inj : ∀ (x y : Elem), x.length = y.length → (∀ b ∈ x, b < 256) → (∀ b ∈ y, b < 256) → le x = le y → x = y
  | [], [], _, _, _, _ => rfl
  | b :: x, b' :: y, hl, hx, hy, h => by
    have h1 := hx b (by simp)
    have h2 := hy b' (by simp)
    simp only [le] at h
    have e1 : b = b' := by omega
    have e2 : le x = le y := by omega
    rw [e1, le_inj x y (by simpa using hl) (fun z hz => hx z (by simp [hz])) (fun z hz => hy z (by simp [hz])) e2]

/-- The first pair of equal neighbours. -/
theorem adjacent_spec (c : Cpu) {s : Nat} (hs : s = 1 ∨ s = 2 ∨ s = 4 ∨ s = 8) {a : List Elem} (he : ∀ x ∈ a, x.length = s) (hb : ∀ x ∈ a, ∀ b ∈ x, b < 256) :
    ∃ i, STL.VAlg.adjacentFind c s (a.map le) = some (s * i) ∧ i ≤ a.length ∧ (∀ j < i, ∀ x, a[j]? = some x → a[j + 1]? ≠ some x) ∧
      (i ≠ a.length → i + 1 < a.length) := by
  have hP : ∀ j, STL.VAlg.Qa (a.map le) j = true ↔ ∃ x, a[j]? = some x ∧ a[j + 1]? = some x := by
    intro j
    rw [STL.VAlg.Qa_iff]
    constructor
    · rintro ⟨n, h1, h2⟩
      rw [List.getElem?_map, Option.map_eq_some_iff] at h1 h2
      obtain ⟨x, hx, ex⟩ := h1
      obtain ⟨y, hy, ey⟩ := h2
      have mx := List.mem_of_getElem? hx
      have my := List.mem_of_getElem? hy
      have := le_inj x y (by rw [he x mx, he y my]) (hb x mx) (hb y my) (by rw [ex, ey])
      subst this
      exact ⟨x, hx, hy⟩
    · rintro ⟨x, h1, h2⟩
      exact ⟨le x, by simp [h1], by simp [h2]⟩
  have hneg : ∀ i, STL.VAlg.Qa (a.map le) i = false → ∀ x, a[i]? = some x → a[i + 1]? ≠ some x := by
    intro i hi x h1 h2
    rw [(hP i).2 ⟨x, h1, h2⟩] at hi; cases hi
  obtain ⟨i, e, h⟩ := STL.VAlg.adjacentFind_spec c hs (a.map le)
  refine ⟨i, e, ?_⟩
  rcases h with ⟨h1, h2⟩ | ⟨h1, h2⟩
  · obtain ⟨x, hx, hx'⟩ := (hP i).1 h1
    have g1 := (List.getElem?_eq_some_iff.1 hx).1
    have g2 := (List.getElem?_eq_some_iff.1 hx').1
    exact ⟨by omega, fun j hj => hneg j (h2 j hj), fun _ => g2⟩
  · rw [List.length_map] at h1
    exact ⟨by omega, fun j _ => hneg j (h2 j), fun h => absurd h1 h⟩

theorem unique_spec (c : Cpu) {s : Nat} (hs : s = 1 ∨ s = 2 ∨ s = 4 ∨ s = 8) {a : List Elem} (he : ∀ x ∈ a, x.length = s) (hb : ∀ x ∈ a, ∀ b ∈ x, b < 256) :
    ∃ a', unique c s a = some (a', s * (uniq a).length) ∧ Inv a (uniq a) a.length a' := by
  have hs0 : 0 < s := by omega
  obtain ⟨i, e, hi, hbef, hlt⟩ := adjacent_spec c hs he hb
  unfold unique
  rw [e]
  simp only [Option.bind_eq_bind, Option.bind_some]
  by_cases hie : i = a.length
  · have hu : uniq a = a := uniq_self (fun j x hj => hbef j (by have := (List.getElem?_eq_some_iff.1 hj).1; omega) x hj)
    rw [if_pos (by rw [hie]), hu, hie]
    exact ⟨a, rfl, rfl, by omega, by omega, by simp, rfl⟩
  · have hil := hlt hie
    rw [if_neg (fun h => hie (Nat.eq_of_mul_eq_mul_left hs0 h))]
    have hu : uniq (a.take (i + 1)) = a.take (i + 1) := by
      apply uniq_self
      intro j x h1 h2
      have g := (List.getElem?_eq_some_iff.1 h2).1
      simp only [List.length_take] at g
      rw [List.getElem?_take] at h1 h2
      split at h1 <;> try cases h1
      split at h2 <;> try cases h2
      exact hbef j (by omega) x h1 h2
    have hul : (uniq (a.take (i + 1))).length = i + 1 := by rw [hu]; simp; omega
    have hI : InvU a i a := ⟨⟨rfl, by omega, by omega, by rw [hul, hu], rfl⟩, rfl⟩
    have hsz : s * a.length - (s * i + s) = s * (a.length - (i + 1)) := by rw [Nat.mul_sub, Nat.mul_succ]
    have hszle : a.length - (i + 1) ≤ s * (a.length - (i + 1)) := Nat.le_mul_of_pos_left _ hs0
    rw [hsz]
    cases hp : pick c s (s * (a.length - (i + 1))) with
    | none =>
      have := uniqueScalar_spec hs0 (a0 := a) (a.length - (i + 1)) (s * (a.length - (i + 1)) + 1) i a (by omega) (by omega) hI.inv
      rw [hul] at this
      simpa [Nat.mul_add] using this
    | some T =>
      obtain ⟨rfl, hst, n, hT⟩ := pick_some hs hp
      rw [hT.step] at hst
      have hn : n ≤ a.length - (i + 1) := Nat.le_of_mul_le_mul_left hst hs0
      obtain ⟨m, hm⟩ : ∃ m, (a.length - (i + 1)) / n = m + 1 := ⟨(a.length - (i + 1)) / n - 1, by have := Nat.div_pos hn hT.hc; omega⟩
      have hle : n * (m + 1) ≤ a.length - (i + 1) := by rw [← hm]; exact Nat.mul_div_le _ _
      have hmf : m < T.s * (a.length - (i + 1)) + 1 := by
        have := Nat.div_le_self (a.length - (i + 1)) n
        omega
      obtain ⟨a1, e1, hI1⟩ := uniqueLoop_spec hT he m (T.s * (a.length - (i + 1)) + 1) i a hmf (by omega) hI
      simp only [hT.step, full_eq hs0, hm]
      rw [hul] at e1
      rw [show T.s * i + T.s = T.s * (i + 1) by rw [Nat.mul_succ], ← Nat.mul_add, e1]
      simp only [Option.bind_some]
      rw [show i + 1 + n * (m + 1) = i + n * (m + 1) + 1 by omega]
      exact uniqueScalar_spec hs0 (a.length - (i + 1) - n * (m + 1)) _ _ a1 (by omega) (by omega) hI1.inv

/-! ## unique_copy -/

theorem uniq_take_length_le (a0 : List Elem) (j : Nat) : (uniq (a0.take j)).length ≤ (uniq a0).length := by
  by_cases hj : j < a0.length
  · cases j with
    | zero => simp [uniq]
    | succ j =>
      have := uniq_take_succ (a := a0) (k := j) (by omega) (a0.length - (j + 1))
      rw [show j + 1 + (a0.length - (j + 1)) = a0.length by omega, List.take_length] at this
      rw [this]; simp
  · rw [List.take_of_length_le (by omega)]

theorem uniqueCopyLoop_spec {T : Tr} {c : Nat} (hT : T.Ok c) {a0 : List Elem} (he : ∀ x ∈ a0, x.length = T.s) {d0 : List Elem}
    (hd0 : (uniq a0).length ≤ d0.length) :
    ∀ (m f k : Nat) (buf b d g : List Elem), m < f → k + 1 + c * (m + 1) ≤ a0.length → g ++ b = uniq (a0.take (k + 1)) → 1 ≤ g.length → InvD d0 g d →
      T.s * buf.length = 512 → buf.take b.length = b → T.s * b.length < 512 - T.step →
      ∃ d', uniqueCopyLoop T a0 (T.s * (k + 1 + c * (m + 1))) f (T.s * (k + 1)) buf (T.s * b.length) d (T.s * (g.length - 1)) =
          some (d', T.s * ((uniq (a0.take (k + c * (m + 1) + 1))).length - 1)) ∧
        InvD d0 (uniq (a0.take (k + c * (m + 1) + 1))) d'
  | m, 0, k, buf, b, d, g, hf, _, _, _, _, _, _, _ => by omega
  | m, f + 1, k, buf, b, d, g, hf, hk, hgb, hg1, hD, hbl, hbt, hblt => by
    have hs := hT.s0
    have hc := hT.hc
    have h32 := hT.step32
    have hstep := hT.step
    have hkc : k + 1 + c ≤ a0.length := by
      have : c ≤ c * (m + 1) := Nat.le_mul_of_pos_right c (Nat.succ_pos m)
      omega
    have hka : k < a0.length := by omega
    have hcons : a0.drop k = a0[k] :: a0.drop (k + 1) := List.drop_eq_getElem_cons hka
    have hl : ((a0.drop (k + 1)).take c).length = c := by simp; omega
    have hv : ∀ x ∈ (a0.drop (k + 1)).take c, x.length = T.s := fun x hx => he x (List.mem_of_mem_drop (List.mem_of_mem_take hx))
    have hroom : b.length + c ≤ buf.length := by
      have : T.s * (b.length + c) ≤ T.s * buf.length := by rw [Nat.mul_add, hbl]; omega
      exact Nat.le_of_mul_le_mul_left this hs
    obtain ⟨buf', e1, hbl', hbt'⟩ := buf_step hT hbt hroom hv hl (bs := List.zipWith (· == ·) ((a0.drop (k + 1)).take c) ((a0[k] :: a0.drop (k + 1)).take c)) (by simp; omega)
    rw [keep_sel] at e1 hbt'
    generalize hb' : b ++ sel a0[k] ((a0.drop (k + 1)).take c) = b' at e1 hbt'
    have hgb' : g ++ b' = uniq (a0.take (k + c + 1)) := by
      rw [show k + c + 1 = k + 1 + c by omega, uniq_take_succ hka, ← hgb, List.append_assoc, hb']
    have hpre : ∀ j, (uniq (a0.take j)).length ≤ d0.length := fun j => le_trans (uniq_take_length_le a0 j) hd0
    have hout : T.s * (g.length - 1) + T.s = T.s * g.length := by
      rw [← Nat.mul_succ]; congr 1; omega
    have hout2 : ∀ n, T.s * (g.length - 1) + T.s * n = T.s * (g.length + n - 1) := by
      intro n; rw [← Nat.mul_add]; congr 1; omega
    unfold uniqueCopyLoop
    rw [if_neg (by rw [Nat.mul_add]; omega), hT.step, show T.s * (k + 1) - T.s = T.s * k by rw [Nat.mul_add]; omega, ld_some hs hkc, ld_some hs (by omega), hcons]
    simp only [Option.bind_eq_bind, Option.bind_some, mask, e1, bufSize, hout]
    rw [← Nat.mul_add T.s (k + 1) c]
    by_cases hfl : 512 - T.s * c ≤ T.s * b'.length
    · rw [if_pos hfl]
      obtain ⟨d', ed, hD'⟩ := flush_some hs hD hbt' (by rw [hgb']; exact hpre _)
      rw [ed]
      simp only [Option.map_some, Option.bind_some]
      rw [hout2, ← List.length_append]
      have hg1' : 1 ≤ (g ++ b').length := by rw [List.length_append]; omega
      have hout' : T.s * ((g ++ b').length - 1) + T.s = T.s * (g ++ b').length := by
        rw [← Nat.mul_succ]; congr 1; omega
      match m with
      | 0 =>
        rw [if_neg (by simp)]
        obtain ⟨d'', ed', hD''⟩ := flush_some hs hD' (b := []) (buf := buf') (by simp) (by simpa using hD'.gl)
        simp only [List.length_nil, Nat.mul_zero, List.append_nil] at ed' hD''
        rw [hout', ed']
        refine ⟨d'', ?_, by rw [hgb'] at hD''; simpa using hD''⟩
        rw [hgb']; simp
      | m + 1 =>
        have e2 : k + 1 + c * (m + 1 + 1) = k + c + 1 + c * (m + 1) := by rw [Nat.mul_succ c (m + 1)]; omega
        have e3 : k + c * (m + 1 + 1) = k + c + c * (m + 1) := by rw [Nat.mul_succ c (m + 1)]; omega
        have hpos : 0 < c * (m + 1) := Nat.mul_pos hc (Nat.succ_pos m)
        rw [if_pos (by
          intro h
          have := Nat.eq_of_mul_eq_mul_left hs h
          omega), e2, e3, show k + 1 + c = k + c + 1 by omega]
        have := uniqueCopyLoop_spec hT he hd0 m f (k + c) buf' [] d' (g ++ b') (by omega) (by omega) (by simpa using hgb') hg1' hD' (by rw [hbl', hbl]) (by simp)
          (by simp; omega)
        simpa using this
    · rw [if_neg hfl]
      match m with
      | 0 =>
        rw [if_neg (by simp)]
        obtain ⟨d', ed, hD'⟩ := flush_some hs hD hbt' (by rw [hgb']; exact hpre _)
        rw [ed]
        refine ⟨d', ?_, by rw [hgb'] at hD'; simpa using hD'⟩
        simp only [Option.map_some, Nat.zero_add, Nat.mul_one]
        rw [hout2, ← List.length_append, hgb']
      | m + 1 =>
        have e2 : k + 1 + c * (m + 1 + 1) = k + c + 1 + c * (m + 1) := by rw [Nat.mul_succ c (m + 1)]; omega
        have e3 : k + c * (m + 1 + 1) = k + c + c * (m + 1) := by rw [Nat.mul_succ c (m + 1)]; omega
        have hpos : 0 < c * (m + 1) := Nat.mul_pos hc (Nat.succ_pos m)
        rw [if_pos (by
          intro h
          have := Nat.eq_of_mul_eq_mul_left hs h
          omega), e2, e3, show k + 1 + c = k + c + 1 by omega]
        exact uniqueCopyLoop_spec hT he hd0 m f (k + c) buf' b' d g (by omega) (by omega) hgb' hg1 hD (by rw [hbl', hbl]) hbt' (by omega)

theorem uniqueCopyScalar_spec {s : Nat} (hs : 0 < s) {a0 : List Elem} {d0 : List Elem} (hd0 : (uniq a0).length ≤ d0.length) :
    ∀ (n f k : Nat) (d : List Elem), n < f → k + 1 + n = a0.length → InvD d0 (uniq (a0.take (k + 1))) d →
      ∃ d', uniqueCopyScalar s a0 f (s * (k + 1)) d (s * ((uniq (a0.take (k + 1))).length - 1)) = some (d', s * (uniq a0).length) ∧
        InvD d0 (uniq a0) d'
  | n, 0, k, d, hf, _, _ => by omega
  | 0, f + 1, k, d, hf, hk, hI => by
    obtain ⟨t, ht⟩ := uniq_take_last (a := a0) (k := k) (by omega)
    have hk : k + 1 = a0.length := by omega
    rw [hk, List.take_length] at hI ht ⊢
    refine ⟨d, ?_, hI⟩
    unfold uniqueCopyScalar
    rw [if_neg (by simp), ht]
    simp [Nat.mul_add]
  | n + 1, f + 1, k, d, hf, hk, hI => by
    obtain ⟨t, ht⟩ := uniq_take_last (a := a0) (k := k) (by omega)
    unfold uniqueCopyScalar
    rw [if_pos (by
      intro h
      have := Nat.eq_of_mul_eq_mul_left hs h
      omega)]
    have hlen := hI.len
    have hgl' := hI.gl
    have hgl : (uniq (a0.take (k + 1))).length = t.length + 1 := by rw [ht]; simp
    have h1 := ld_some hs (a := a0) (k := k + 1) (c := 1) (by omega)
    rw [Nat.mul_one, take_one (by omega)] at h1
    have h2 := ld_some hs (a := d) (k := t.length) (c := 1) (by omega)
    have hlast : d[t.length]'(by omega) = a0[k] := by
      have : d[t.length]? = some a0[k] := by
        rw [hI.eq, ht]; simp
      exact (List.getElem?_eq_some_iff.1 this).2
    rw [Nat.mul_one, take_one (by omega), hlast] at h2
    have hg1 : (uniq (a0.take (k + 1))).length - 1 = t.length := by omega
    have ht2 := uniq_take_succ (a := a0) (k := k) (by omega) 1
    rw [take_one (by omega)] at ht2
    simp only [Option.bind_eq_bind, h1, hg1, h2, Option.bind_some]
    by_cases hx : a0[k + 1] = a0[k]
    · rw [if_neg (by simp [hx])]
      have ht' : uniq (a0.take (k + 1 + 1)) = uniq (a0.take (k + 1)) := by rw [ht2]; simp [sel, hx]
      have := uniqueCopyScalar_spec hs hd0 n f (k + 1) d (by omega) (by omega) (by rw [ht']; exact hI)
      rw [ht', hg1] at this
      rw [show s * (k + 1) + s = s * (k + 1 + 1) by rw [Nat.mul_succ s (k + 1)]]
      exact this
    · rw [if_pos (by simpa using hx)]
      have ht' : uniq (a0.take (k + 1 + 1)) = uniq (a0.take (k + 1)) ++ [a0[k + 1]] := by rw [ht2]; simp [sel, hx]
      have hroom : (uniq (a0.take (k + 1)) ++ [a0[k + 1]]).length ≤ d0.length := by
        rw [← ht']; exact le_trans (uniq_take_length_le a0 _) hd0
      rw [show s * t.length + s = s * (uniq (a0.take (k + 1))).length by rw [hgl, Nat.mul_succ], st_some hs (by rw [← List.length_append, hlen]; exact hroom)]
      simp only [Option.bind_some]
      have := uniqueCopyScalar_spec hs hd0 n f (k + 1) _ (by omega) (by omega) (by rw [ht']; exact hI.store hroom)
      rw [ht', List.length_append] at this
      rw [show s * (k + 1) + s = s * (k + 1 + 1) by rw [Nat.mul_succ s (k + 1)]]
      simpa using this

theorem uniqueCopy_spec (c : Cpu) {s : Nat} (hs : s = 1 ∨ s = 2 ∨ s = 4 ∨ s = 8) {a : List Elem} (he : ∀ x ∈ a, x.length = s)
    {buf d : List Elem} (hbuf : s * buf.length = 512) (hd : (uniq a).length ≤ d.length) :
    uniqueCopy c s buf a d = some (uniq a ++ d.drop (uniq a).length, s * (uniq a).length) := by
  have hs0 : 0 < s := by omega
  suffices h : ∃ d', uniqueCopy c s buf a d = some (d', s * (uniq a).length) ∧ InvD d (uniq a) d' by
    obtain ⟨d', e, hD⟩ := h
    rw [e, hD.eq]
  unfold uniqueCopy
  by_cases ha : a.length = 0
  · have : a = [] := List.eq_nil_of_length_eq_zero ha
    subst this
    exact ⟨d, by simp [uniq], by simpa [uniq] using InvD.init⟩
  · have ha1 : 1 ≤ a.length := by omega
    have hne : s * a.length ≠ 0 := by
      intro h; rcases Nat.mul_eq_zero.1 h with h | h <;> omega
    rw [if_neg hne]
    have h1 := ld_some hs0 (a := a) (k := 0) (c := 1) (by omega)
    rw [Nat.mul_zero, Nat.mul_one, take_one (by omega)] at h1
    have hu1 : uniq (a.take 1) = [a[0]] := by
      have := take_one (l := a) (k := 0) (by omega)
      rw [List.drop_zero] at this
      rw [this]; simp [uniq, sel]
    have hu := uniq_take_length_le a 1
    have hroom : ([] ++ [a[0]] : List Elem).length ≤ d.length := by rw [hu1] at hu; simp at hu ⊢; omega
    have h2 := st_some hs0 (a := d) (k := 0) (v := [a[0]]) (by simpa using hroom)
    rw [Nat.mul_zero] at h2
    have hD1 : InvD d (uniq (a.take (0 + 1))) (wr d 0 [a[0]]) := by
      have := InvD.init.store (x := [a[0]]) hroom
      rw [Nat.zero_add, hu1]; simpa using this
    simp only [h1, h2, Option.bind_eq_bind, Option.bind_some]
    have hsz : s * a.length - s = s * (a.length - 1) := by rw [Nat.mul_sub, Nat.mul_one]
    have hszle : a.length - 1 ≤ s * (a.length - 1) := Nat.le_mul_of_pos_left _ hs0
    rw [hsz]
    cases hp : pick c s (s * (a.length - 1)) with
    | none =>
      have := uniqueCopyScalar_spec hs0 (a0 := a) hd (a.length - 1) (s * (a.length - 1) + 1) 0 _ (by omega) (by omega) hD1
      simp only [Nat.zero_add, hu1] at this
      simpa using this
    | some T =>
      obtain ⟨rfl, hst, n, hT⟩ := pick_some hs hp
      rw [hT.step] at hst
      have hn : n ≤ a.length - 1 := Nat.le_of_mul_le_mul_left hst hs0
      obtain ⟨m, hm⟩ : ∃ m, (a.length - 1) / n = m + 1 := ⟨(a.length - 1) / n - 1, by have := Nat.div_pos hn hT.hc; omega⟩
      have hle : n * (m + 1) ≤ a.length - 1 := by rw [← hm]; exact Nat.mul_div_le _ _
      have hmf : m < T.s * (a.length - 1) + 1 := by
        have := Nat.div_le_self (a.length - 1) n
        omega
      have h32 := hT.step32
      obtain ⟨a1, e1, hI⟩ := uniqueCopyLoop_spec hT he hd m (T.s * (a.length - 1) + 1) 0 buf [] _ (uniq (a.take (0 + 1))) hmf (by omega) (by rw [List.append_nil])
        (by rw [Nat.zero_add, hu1]; simp) hD1 hbuf (by simp) (by simp; omega)
      simp only [hT.step, full_eq hs0, hm]
      simp only [Nat.zero_add, Nat.mul_zero, List.length_nil, hu1, Nat.mul_one, List.length_singleton, Nat.sub_self] at e1 hI
      rw [show T.s + T.s * (n * (m + 1)) = T.s * (1 + n * (m + 1)) by rw [Nat.mul_add T.s 1, Nat.mul_one], e1]
      simp only [Option.bind_some]
      rw [show 1 + n * (m + 1) = n * (m + 1) + 1 by omega]
      exact uniqueCopyScalar_spec hs0 hd (a.length - 1 - n * (m + 1)) _ _ a1 (by omega) (by omega) hI

end STL.VWrite
