import Verif.RBTree.Model
import Verif.Tac

/-! # How a heap represents a tree: zippers. Proofs only. -/

namespace STL.RBT
open STL
variable {α κ : Type}

inductive T (α : Type) where
  | nil
  | node (i : Nat) (v : α) (red : Bool) (l r : T α)

/-- One step of a path: the node, on which side the hole is, and the other subtree. -/
structure Fr (α : Type) where
  left : Bool
  i : Nat
  v : α
  red : Bool
  sib : T α

abbrev Cx (α : Type) := List (Fr α)

def ptr (hd : Nat) : T α → Nat
  | .nil => hd
  | .node i _ _ _ _ => i

def items : T α → List (Nat × α)
  | .nil => []
  | .node i v _ l r => items l ++ (i, v) :: items r

def ids (t : T α) : List Nat := (items t).map Prod.fst

def isRed : T α → Bool
  | .nil => false
  | .node _ _ c _ _ => c

def parP (hd : Nat) : Cx α → Nat
  | [] => hd
  | f :: _ => f.i

def itL : Cx α → List (Nat × α)
  | [] => []
  | ⟨true, _, _, _, _⟩ :: C => itL C
  | ⟨false, i, v, _, s⟩ :: C => itL C ++ (items s ++ [(i, v)])

def itR : Cx α → List (Nat × α)
  | [] => []
  | ⟨true, i, v, _, s⟩ :: C => (i, v) :: items s ++ itR C
  | ⟨false, _, _, _, _⟩ :: C => itR C

def inord (C : Cx α) (t : T α) : List (Nat × α) := itL C ++ (items t ++ itR C)

def plug : Cx α → T α → T α
  | [], t => t
  | ⟨true, i, v, c, s⟩ :: C, t => plug C (.node i v c t s)
  | ⟨false, i, v, c, s⟩ :: C, t => plug C (.node i v c s t)

def Lk (hd : Nat) (h : Hp α) : Nat → T α → Prop
  | _, .nil => True
  | par, .node i v c l r => h i = some ⟨ptr hd l, par, ptr hd r, c, false, some v⟩ ∧ Lk hd h i l ∧ Lk hd h i r

def LkC (hd : Nat) (h : Hp α) (Lm Rm : Nat) : Cx α → Nat → Prop
  | [], x => h hd = some ⟨Lm, x, Rm, false, true, none⟩
  | ⟨true, i, v, c, s⟩ :: C, x => h i = some ⟨x, parP hd C, ptr hd s, c, false, some v⟩ ∧ Lk hd h i s ∧ LkC hd h Lm Rm C i
  | ⟨false, i, v, c, s⟩ :: C, x => h i = some ⟨ptr hd s, parP hd C, x, c, false, some v⟩ ∧ Lk hd h i s ∧ LkC hd h Lm Rm C i

def idl (C : Cx α) : List Nat := (itL C).map Prod.fst
def idr (C : Cx α) : List Nat := (itR C).map Prod.fst

theorem ids_nil : ids (.nil : T α) = [] := rfl
theorem ids_node (i v c) (l r : T α) : ids (.node i v c l r) = ids l ++ i :: ids r := by simp [ids, items]
theorem idl_nil : idl ([] : Cx α) = [] := rfl
theorem idr_nil : idr ([] : Cx α) = [] := rfl
theorem idl_true (i v c) (s : T α) (C : Cx α) : idl (⟨true, i, v, c, s⟩ :: C) = idl C := rfl
theorem idr_false (i v c) (s : T α) (C : Cx α) : idr (⟨false, i, v, c, s⟩ :: C) = idr C := rfl
theorem idl_false (i v c) (s : T α) (C : Cx α) : idl (⟨false, i, v, c, s⟩ :: C) = idl C ++ (ids s ++ [i]) := by simp [idl, itL, ids]
theorem idr_true (i v c) (s : T α) (C : Cx α) : idr (⟨true, i, v, c, s⟩ :: C) = i :: (ids s ++ idr C) := by simp [idr, itR, ids]

theorem mem_app {x : Nat} {a b : List Nat} : x ∈ a ++ b ↔ x ∈ a ∨ x ∈ b := List.mem_append

macro "nds" loc:(Lean.Parser.Tactic.location)? : tactic => `(tactic| simp only [ids_nil, ids_node, idl_nil, idr_nil, idl_true, idr_false, idl_false, idr_true,
  List.nodup_cons, List.nodup_append, List.mem_append, List.mem_cons, List.not_mem_nil, or_false, false_or, not_or, List.nodup_nil, and_true, true_and,
  List.nil_append, List.append_nil, not_false_eq_true, forall_eq, forall_eq_or_imp, or_imp, forall_and] $(loc)?)

/-- The heap holds the tree `plug C t`, with `t` in focus; the head's left and right pointers are `Lm` and `Rm`. -/
structure At (hd : Nat) (h : Hp α) (Lm Rm : Nat) (C : Cx α) (t : T α) : Prop where
  ctx : LkC hd h Lm Rm C (ptr hd t)
  sub : Lk hd h (parP hd C) t
  nodup : (hd :: (idl C ++ (ids t ++ idr C))).Nodup

theorem nodup_upL {hd : Nat} {C : Cx α} {i v c} {l r : T α} :
    (hd :: (idl (⟨true, i, v, c, r⟩ :: C) ++ (ids l ++ idr (⟨true, i, v, c, r⟩ :: C)))) = (hd :: (idl C ++ (ids (.node i v c l r) ++ idr C))) := by
  simp [ids_node, idl_true, idr_true]

theorem nodup_upR {hd : Nat} {C : Cx α} {i v c} {l r : T α} :
    (hd :: (idl (⟨false, i, v, c, l⟩ :: C) ++ (ids r ++ idr (⟨false, i, v, c, l⟩ :: C)))) = (hd :: (idl C ++ (ids (.node i v c l r) ++ idr C))) := by
  simp [ids_node, idl_false, idr_false]

theorem inord_upL (C : Cx α) (i v c) (l r : T α) : inord (⟨true, i, v, c, r⟩ :: C) l = inord C (.node i v c l r) := by
  simp [inord, itL, itR, items]

theorem inord_upR (C : Cx α) (i v c) (l r : T α) : inord (⟨false, i, v, c, l⟩ :: C) r = inord C (.node i v c l r) := by
  simp [inord, itL, itR, items]

theorem At.upL {hd : Nat} {h : Hp α} {Lm Rm : Nat} {C : Cx α} {i v c} {l r : T α} :
    At hd h Lm Rm (⟨true, i, v, c, r⟩ :: C) l ↔ At hd h Lm Rm C (.node i v c l r) := by
  constructor
  · rintro ⟨⟨h1, h2, h3⟩, h4, h5⟩; rw [nodup_upL] at h5; exact ⟨h3, ⟨h1, h4, h2⟩, h5⟩
  · rintro ⟨h1, ⟨h2, h3, h4⟩, h5⟩; rw [← nodup_upL (r := r)] at h5; exact ⟨⟨h2, h4, h1⟩, h3, h5⟩

theorem At.upR {hd : Nat} {h : Hp α} {Lm Rm : Nat} {C : Cx α} {i v c} {l r : T α} :
    At hd h Lm Rm (⟨false, i, v, c, l⟩ :: C) r ↔ At hd h Lm Rm C (.node i v c l r) := by
  constructor
  · rintro ⟨⟨h1, h2, h3⟩, h4, h5⟩; rw [nodup_upR] at h5; exact ⟨h3, ⟨h1, h2, h4⟩, h5⟩
  · rintro ⟨h1, ⟨h2, h3, h4⟩, h5⟩; rw [← nodup_upR (l := l)] at h5; exact ⟨⟨h2, h3, h1⟩, h4, h5⟩

theorem At.plug {hd : Nat} {h : Hp α} {Lm Rm : Nat} : ∀ {C : Cx α} {t : T α}, At hd h Lm Rm C t ↔ At hd h Lm Rm [] (plug C t)
  | [], _ => Iff.rfl
  | ⟨true, _, _, _, _⟩ :: _, _ => At.upL.trans At.plug
  | ⟨false, _, _, _, _⟩ :: _, _ => At.upR.trans At.plug

theorem items_plug : ∀ (C : Cx α) (t : T α), items (RBT.plug C t) = inord C t
  | [], t => by simp [RBT.plug, inord, itL, itR]
  | ⟨true, _, _, _, _⟩ :: C, t => by rw [RBT.plug, items_plug C, inord_upL]
  | ⟨false, _, _, _, _⟩ :: C, t => by rw [RBT.plug, items_plug C, inord_upR]

theorem Lk.congr {hd : Nat} {h h' : Hp α} : ∀ {t : T α} {par : Nat}, Lk hd h par t → (∀ q ∈ ids t, h' q = h q) → Lk hd h' par t
  | .nil, _, _, _ => trivial
  | .node i v c l r, par, ⟨h1, h2, h3⟩, hq => by
    nds at hq
    exact ⟨by rw [hq.2.1]; exact h1, h2.congr hq.1, h3.congr hq.2.2⟩

theorem LkC.congr {hd : Nat} {h h' : Hp α} {Lm Rm : Nat} : ∀ {C : Cx α} {x : Nat}, LkC hd h Lm Rm C x → (∀ q ∈ idl C, h' q = h q) → (∀ q ∈ idr C, h' q = h q) →
    h' hd = h hd → LkC hd h' Lm Rm C x
  | [], _, hh, _, _, h0 => by unfold LkC at *; rw [h0]; exact hh
  | ⟨true, i, v, c, s⟩ :: C, x, ⟨h1, h2, h3⟩, hl, hr, h0 => by
    nds at hl hr
    exact ⟨by rw [hr.1]; exact h1, h2.congr hr.2.1, h3.congr hl hr.2.2 h0⟩
  | ⟨false, i, v, c, s⟩ :: C, x, ⟨h1, h2, h3⟩, hl, hr, h0 => by
    nds at hl hr
    exact ⟨by rw [hl.2.2]; exact h1, h2.congr hl.2.1, h3.congr hl.1 hr h0⟩

/-- replace the hole's pointer in the nearest frame -/
theorem LkC.hole {hd : Nat} {h h' : Hp α} {Lm Rm : Nat} {C : Cx α} {x y : Nat} (hh : LkC hd h Lm Rm C x)
    (h1 : ∀ q, (q ∈ idl C ∨ q ∈ idr C ∨ q = hd) → q ≠ parP hd C → h' q = h q) (hnd : (hd :: (idl C ++ idr C)).Nodup)
    (hp : ∀ n, h (parP hd C) = some n → h' (parP hd C) = some (match C with
      | [] => ⟨n.left, y, n.right, n.red, n.nil, n.val⟩
      | f :: _ => if f.left then ⟨y, n.parent, n.right, n.red, n.nil, n.val⟩ else ⟨n.left, n.parent, y, n.red, n.nil, n.val⟩)) :
    LkC hd h' Lm Rm C y := by
  cases C with
  | nil => exact hp _ hh
  | cons f C =>
    obtain ⟨l, i, v, c, s⟩ := f
    have hpe : ∀ b, parP hd (⟨b, i, v, c, s⟩ :: C) = i := fun _ => rfl
    cases l
    · obtain ⟨a, b, d⟩ := hh
      rw [hpe] at h1 hp
      nds at hnd h1
      exact ⟨hp _ a, b.congr (by grind), d.congr (by grind) (by grind) (by grind)⟩
    · obtain ⟨a, b, d⟩ := hh
      rw [hpe] at h1 hp
      nds at hnd h1
      exact ⟨hp _ a, b.congr (by grind), d.congr (by grind) (by grind) (by grind)⟩

/-- the root pointer of `plug C t`, `x` being the pointer of `t` -/
def rootP : Cx α → Nat → Nat
  | [], x => x
  | f :: C, _ => rootP C f.i

theorem LkC.head {hd : Nat} {h : Hp α} {Lm Rm : Nat} : ∀ {C : Cx α} {x : Nat}, LkC hd h Lm Rm C x → h hd = some ⟨Lm, rootP C x, Rm, false, true, none⟩
  | [], _, hh => hh
  | ⟨true, _, _, _, _⟩ :: _, _, hh => hh.2.2.head
  | ⟨false, _, _, _, _⟩ :: _, _, hh => hh.2.2.head

theorem rootP_mem : ∀ {C : Cx α} {x : Nat}, rootP C x = x ∨ rootP C x ∈ idl C ∨ rootP C x ∈ idr C
  | [], _ => Or.inl rfl
  | ⟨true, i, _, _, _⟩ :: C, _ => by
    have := rootP_mem (C := C) (x := i)
    right; simp only [rootP]; nds; tauto
  | ⟨false, i, _, _, _⟩ :: C, _ => by
    have := rootP_mem (C := C) (x := i)
    right; simp only [rootP]; nds; tauto

/-- nothing outside the tree changes -/
def Same (hd : Nat) (X : List (Nat × α)) (h h' : Hp α) : Prop := ∀ q, q ≠ hd → q ∉ X.map Prod.fst → h' q = h q

theorem Same.refl {hd : Nat} {X : List (Nat × α)} {h : Hp α} : Same hd X h h := fun _ _ _ => rfl
theorem Same.trans {hd : Nat} {X : List (Nat × α)} {h h' h'' : Hp α} (a : Same hd X h h') (b : Same hd X h' h'') : Same hd X h h'' :=
  fun q hq hx => (b q hq hx).trans (a q hq hx)

theorem same_iff {hd : Nat} {C : Cx α} {t : T α} {h h' : Hp α} :
    Same hd (inord C t) h h' ↔ ∀ q, q ≠ hd → q ∉ idl C → q ∉ ids t → q ∉ idr C → h' q = h q := by
  unfold Same inord
  simp only [List.map_append, List.mem_append, not_or, idl, idr, ids, and_imp]

theorem nd_some {h : Hp α} {p : Nat} {n : Node α} (e : h p = some n) : nd h p = .ok n := by unfold nd; rw [e]


theorem ptr_nil (hd : Nat) : ptr hd (.nil : T α) = hd := rfl
theorem ptr_node (hd i : Nat) (v c) (l r : T α) : ptr hd (.node i v c l r) = i := rfl

theorem setL_ok {h : Hp α} {p v : Nat} {n : Node α} (e : h p = some n) : setL h p v = .ok (put h p ⟨v, n.parent, n.right, n.red, n.nil, n.val⟩) := by
  unfold setL; rw [nd_some e]; rfl
theorem setR_ok {h : Hp α} {p v : Nat} {n : Node α} (e : h p = some n) : setR h p v = .ok (put h p ⟨n.left, n.parent, v, n.red, n.nil, n.val⟩) := by
  unfold setR; rw [nd_some e]; rfl
theorem setP_ok {h : Hp α} {p v : Nat} {n : Node α} (e : h p = some n) : setP h p v = .ok (put h p ⟨n.left, v, n.right, n.red, n.nil, n.val⟩) := by
  unfold setP; rw [nd_some e]; rfl
theorem setC_ok {h : Hp α} {p : Nat} {c : Bool} {n : Node α} (e : h p = some n) : setC h p c = .ok (put h p ⟨n.left, n.parent, n.right, c, n.nil, n.val⟩) := by
  unfold setC; rw [nd_some e]; rfl

theorem setL_ok' {h : Hp α} {p v : Nat} {n : Node α} (e : h p = some n) : ∃ h', setL h p v = .ok h' ∧ h' p = some ⟨v, n.parent, n.right, n.red, n.nil, n.val⟩ ∧ ∀ q, q ≠ p → h' q = h q :=
  ⟨_, setL_ok e, by simp [put], fun q hq => by simp [put, hq]⟩
theorem setR_ok' {h : Hp α} {p v : Nat} {n : Node α} (e : h p = some n) : ∃ h', setR h p v = .ok h' ∧ h' p = some ⟨n.left, n.parent, v, n.red, n.nil, n.val⟩ ∧ ∀ q, q ≠ p → h' q = h q :=
  ⟨_, setR_ok e, by simp [put], fun q hq => by simp [put, hq]⟩
theorem setP_ok' {h : Hp α} {p v : Nat} {n : Node α} (e : h p = some n) : ∃ h', setP h p v = .ok h' ∧ h' p = some ⟨n.left, v, n.right, n.red, n.nil, n.val⟩ ∧ ∀ q, q ≠ p → h' q = h q :=
  ⟨_, setP_ok e, by simp [put], fun q hq => by simp [put, hq]⟩
theorem setC_ok' {h : Hp α} {p : Nat} {c : Bool} {n : Node α} (e : h p = some n) : ∃ h', setC h p c = .ok h' ∧ h' p = some ⟨n.left, n.parent, n.right, c, n.nil, n.val⟩ ∧ ∀ q, q ≠ p → h' q = h q :=
  ⟨_, setC_ok e, by simp [put], fun q hq => by simp [put, hq]⟩

/-- keeps a fact out of sight of automation -/
def Hid (p : Prop) : Prop := p

/-- `if (!t->_Isnil) t->_Parent = w` -/
theorem reparent {hd : Nat} {h : Hp α} {t : T α} {par w : Nat} {n0 : Node α} (ht : Lk hd h par t) (h0 : h hd = some n0) (hn0 : n0.nil = true) (hnd : (hd :: ids t).Nodup) :
    ∃ b h', nd h (ptr hd t) = .ok b ∧ (if b.nil then .ok h else setP h (ptr hd t) w : R (Hp α)) = .ok h' ∧ Lk hd h' w t ∧ (∀ q, q ∉ ids t → h' q = h q) := by
  cases t with
  | nil => exact ⟨n0, h, nd_some h0, by rw [if_pos hn0], trivial, fun _ _ => rfl⟩
  | node i v c l r =>
    obtain ⟨h1, h2, h3⟩ := ht
    nds at hnd
    refine ⟨_, _, nd_some h1, by rw [if_neg (by simp), ptr_node, setP_ok h1], ⟨by simp [put], h2.congr (by grind [put]), h3.congr (by grind [put])⟩, ?_⟩
    nds; grind [put]

/-- linking `p` where `w` was, as in `_Lrotate` and `_Extract` -/
theorem relink {hd : Nat} {h : Hp α} {Lm Rm : Nat} {C : Cx α} {w : Nat} (p : Nat) (hc : LkC hd h Lm Rm C w) (hn : (hd :: (idl C ++ idr C)).Nodup)
    (hw : w ≠ hd ∧ w ∉ idl C ∧ w ∉ idr C) :
    ∃ hn h', nd h hd = .ok hn ∧ (if w = hn.parent then setP h hd p
      else do
        let q ← nd h (parP hd C)
        if w = q.left then setL h (parP hd C) p else setR h (parP hd C) p : R (Hp α)) = .ok h' ∧
      (if w = hn.parent then setP h hd p
      else do
        let q ← nd h (parP hd C)
        if w = q.right then setR h (parP hd C) p else setL h (parP hd C) p : R (Hp α)) = .ok h' ∧
      LkC hd h' Lm Rm C p ∧ (∀ q, q ≠ parP hd C → h' q = h q) := by
  have hh := hc.head
  have hr := rootP_mem (C := C) (x := w)
  cases C with
  | nil =>
    refine ⟨_, _, nd_some hh, by rw [if_pos (by rfl), setP_ok hh], by rw [if_pos (by rfl), setP_ok hh], by simp [LkC, put], ?_⟩
    intro q hq; simp only [parP] at hq; simp [put, hq]
  | cons f C =>
    obtain ⟨l, i, v, c, s⟩ := f
    have hpe : ∀ b, parP hd (⟨b, i, v, c, s⟩ :: C) = i := fun _ => rfl
    have hwr : w ≠ rootP (⟨l, i, v, c, s⟩ :: C) w := by
      have := rootP_mem (C := C) (x := i)
      simp only [rootP]
      cases l <;> (nds at hw; grind)
    have hs : ptr hd s ≠ w := by
      have hd0 := hw.1
      cases s with
      | nil => exact fun e => hd0 e.symm
      | node i' v' c' l' r' => rw [ptr_node]; cases l <;> (nds at hw; grind)
    rw [hpe]
    cases l
    · obtain ⟨e1, e2, e3⟩ := hc
      nds at hn hw
      refine ⟨_, _, nd_some hh, by rw [if_neg hwr, nd_some e1, R.ok_bind, if_neg hs.symm, setR_ok e1],
        by rw [if_neg hwr, nd_some e1, R.ok_bind, if_pos rfl, setR_ok e1], ⟨by simp [put], e2.congr (by grind [put]), e3.congr (by grind [put]) (by grind [put]) (by grind [put])⟩, ?_⟩
      intro q hq; simp [put, hq]
    · obtain ⟨e1, e2, e3⟩ := hc
      nds at hn hw
      refine ⟨_, _, nd_some hh, by rw [if_neg hwr, nd_some e1, R.ok_bind, if_pos rfl, setL_ok e1],
        by rw [if_neg hwr, nd_some e1, R.ok_bind, if_neg hs.symm, setL_ok e1], ⟨by simp [put], e2.congr (by grind [put]), e3.congr (by grind [put]) (by grind [put]) (by grind [put])⟩, ?_⟩
      intro q hq; simp [put, hq]

theorem parP_mem {hd : Nat} {C : Cx α} : parP hd C = hd ∨ parP hd C ∈ idl C ∨ parP hd C ∈ idr C := by
  cases C with
  | nil => exact Or.inl rfl
  | cons f C => obtain ⟨l, i, v, c, s⟩ := f; cases l <;> (simp only [parP]; nds; simp)


theorem lrotate_spec {hd : Nat} {h : Hp α} {Lm Rm : Nat} {C : Cx α} {w p : Nat} {vw vp : α} {cw cp : Bool} {a b d : T α}
    (hA : At hd h Lm Rm C (.node w vw cw a (.node p vp cp b d))) :
    ∃ h', lrotate hd h w = .ok h' ∧ At hd h' Lm Rm C (.node p vp cp (.node w vw cw a b) d) ∧ Same hd (inord C (.node w vw cw a (.node p vp cp b d))) h h' := by
  obtain ⟨hc, ⟨hw, ha, hp, hb, hdd⟩, hn⟩ := hA
  have hn0 : Hid (hd :: (idl C ++ (ids (.node p vp cp (.node w vw cw a b) d) ++ idr C))).Nodup := by unfold Hid; simpa [ids_node] using hn
  nds at hn
  rw [ptr_node] at hw hc
  have hpm := parP_mem (hd := hd) (C := C)
  obtain ⟨h1, s1, w1, f1⟩ := setR_ok' (v := ptr hd b) hw
  have p1 : h1 p = some ⟨ptr hd b, w, ptr hd d, cp, false, some vp⟩ := by rw [f1 p (by grind), hp]
  obtain ⟨bn, h2, r1, r2, b2, f2⟩ := reparent (h := h1) (t := b) (w := w) (hb.congr (by grind)) (by rw [f1 hd (by grind)]; exact hc.head) rfl (by nds; grind)
  have w2 : h2 w = some ⟨ptr hd a, parP hd C, ptr hd b, cw, false, some vw⟩ := by rw [f2 w (by grind), w1]
  have p2 : h2 p = some ⟨ptr hd b, w, ptr hd d, cp, false, some vp⟩ := by rw [f2 p (by grind), p1]
  obtain ⟨h3, s3, p3, f3⟩ := setP_ok' (v := parP hd C) p2
  have w3 : h3 w = some ⟨ptr hd a, parP hd C, ptr hd b, cw, false, some vw⟩ := by rw [f3 w (by grind), w2]
  obtain ⟨hn3, h4, r3, r4, _, c4, f4⟩ := relink (h := h3) p (hc.congr (by grind) (by grind) (by grind)) (by nds; grind) (w := w) (by grind)
  have p4 : h4 p = some ⟨ptr hd b, parP hd C, ptr hd d, cp, false, some vp⟩ := by rw [f4 p (by grind), p3]
  obtain ⟨h5, s5, p5, f5⟩ := setL_ok' (v := w) p4
  have w5 : h5 w = some ⟨ptr hd a, parP hd C, ptr hd b, cw, false, some vw⟩ := by rw [f5 w (by grind), f4 w (by grind), w3]
  obtain ⟨h6, s6, w6, f6⟩ := setP_ok' (v := p) w5
  refine ⟨h6, ?_, ⟨?_, ⟨?_, ⟨?_, ?_, ?_⟩, ?_⟩, hn0⟩, ?_⟩
  · unfold lrotate
    rw [nd_some hw, R.ok_bind]
    simp only [ptr_node]
    rw [nd_some hp, R.ok_bind, s1, R.ok_bind, nd_some p1, R.ok_bind, r1, R.ok_bind, r2, R.ok_bind, nd_some w2, R.ok_bind, s3, R.ok_bind, r3, R.ok_bind, nd_some w3]
    simp only [R.ok_bind]
    rw [r4, R.ok_bind, s5, R.ok_bind, s6]
  · rw [ptr_node]; exact c4.congr (by grind) (by grind) (by grind)
  · rw [ptr_node, f6 p (by grind), p5]
  · rw [w6]
  · exact ha.congr (by grind)
  · exact b2.congr (by grind)
  · exact hdd.congr (by grind)
  · rw [same_iff]; nds; grind

theorem rrotate_spec {hd : Nat} {h : Hp α} {Lm Rm : Nat} {C : Cx α} {w p : Nat} {vw vp : α} {cw cp : Bool} {a b d : T α}
    (hA : At hd h Lm Rm C (.node w vw cw (.node p vp cp a b) d)) :
    ∃ h', rrotate hd h w = .ok h' ∧ At hd h' Lm Rm C (.node p vp cp a (.node w vw cw b d)) ∧ Same hd (inord C (.node w vw cw (.node p vp cp a b) d)) h h' := by
  obtain ⟨hc, ⟨hw, ⟨hp, ha, hb⟩, hdd⟩, hn⟩ := hA
  have hn0 : Hid (hd :: (idl C ++ (ids (.node p vp cp a (.node w vw cw b d)) ++ idr C))).Nodup := by unfold Hid; simpa [ids_node] using hn
  nds at hn
  rw [ptr_node] at hw hc
  have hpm := parP_mem (hd := hd) (C := C)
  obtain ⟨h1, s1, w1, f1⟩ := setL_ok' (v := ptr hd b) hw
  have p1 : h1 p = some ⟨ptr hd a, w, ptr hd b, cp, false, some vp⟩ := by rw [f1 p (by grind), hp]
  obtain ⟨bn, h2, r1, r2, b2, f2⟩ := reparent (h := h1) (t := b) (w := w) (hb.congr (by grind)) (by rw [f1 hd (by grind)]; exact hc.head) rfl (by nds; grind)
  have w2 : h2 w = some ⟨ptr hd b, parP hd C, ptr hd d, cw, false, some vw⟩ := by rw [f2 w (by grind), w1]
  have p2 : h2 p = some ⟨ptr hd a, w, ptr hd b, cp, false, some vp⟩ := by rw [f2 p (by grind), p1]
  obtain ⟨h3, s3, p3, f3⟩ := setP_ok' (v := parP hd C) p2
  have w3 : h3 w = some ⟨ptr hd b, parP hd C, ptr hd d, cw, false, some vw⟩ := by rw [f3 w (by grind), w2]
  obtain ⟨hn3, h4, r3, _, r4, c4, f4⟩ := relink (h := h3) p (hc.congr (by grind) (by grind) (by grind)) (by nds; grind) (w := w) (by grind)
  have p4 : h4 p = some ⟨ptr hd a, parP hd C, ptr hd b, cp, false, some vp⟩ := by rw [f4 p (by grind), p3]
  obtain ⟨h5, s5, p5, f5⟩ := setR_ok' (v := w) p4
  have w5 : h5 w = some ⟨ptr hd b, parP hd C, ptr hd d, cw, false, some vw⟩ := by rw [f5 w (by grind), f4 w (by grind), w3]
  obtain ⟨h6, s6, w6, f6⟩ := setP_ok' (v := p) w5
  refine ⟨h6, ?_, ⟨?_, ⟨?_, ?_, ⟨?_, ?_, ?_⟩⟩, hn0⟩, ?_⟩
  · unfold rrotate
    rw [nd_some hw, R.ok_bind]
    simp only [ptr_node]
    rw [nd_some hp, R.ok_bind, s1, R.ok_bind, nd_some p1, R.ok_bind, r1, R.ok_bind, r2, R.ok_bind, nd_some w2, R.ok_bind, s3, R.ok_bind, r3, R.ok_bind, nd_some w3]
    simp only [R.ok_bind]
    rw [r4, R.ok_bind, s5, R.ok_bind, s6]
  · rw [ptr_node]; exact c4.congr (by grind) (by grind) (by grind)
  · rw [ptr_node, f6 p (by grind), p5]
  · exact ha.congr (by grind)
  · rw [w6]
  · exact b2.congr (by grind)
  · exact hdd.congr (by grind)
  · rw [same_iff]; nds; grind

/-- colouring the node in focus -/
theorem At.setC {hd : Nat} {h : Hp α} {Lm Rm : Nat} {C : Cx α} {i : Nat} {v : α} {c : Bool} {l r : T α} (c' : Bool) (hA : At hd h Lm Rm C (.node i v c l r)) :
    ∃ h', RBT.setC h i c' = .ok h' ∧ At hd h' Lm Rm C (.node i v c' l r) ∧ Same hd (inord C (.node i v c l r)) h h' := by
  obtain ⟨hc, ⟨hi, hl, hr⟩, hn⟩ := hA
  have hn0 : Hid (hd :: (idl C ++ (ids (.node i v c' l r) ++ idr C))).Nodup := by unfold Hid; simpa [ids_node] using hn
  nds at hn
  obtain ⟨h1, s1, w1, f1⟩ := setC_ok' (c := c') hi
  refine ⟨h1, s1, ⟨?_, ⟨w1, ?_, ?_⟩, hn0⟩, ?_⟩
  · exact hc.congr (by grind) (by grind) (by grind)
  · exact hl.congr (by grind)
  · exact hr.congr (by grind)
  · rw [same_iff]; nds; grind

theorem At.node {hd : Nat} {h : Hp α} {Lm Rm : Nat} {C : Cx α} {i : Nat} {v : α} {c : Bool} {l r : T α} (hA : At hd h Lm Rm C (.node i v c l r)) :
    h i = some ⟨ptr hd l, parP hd C, ptr hd r, c, false, some v⟩ := hA.sub.1

theorem At.head {hd : Nat} {h : Hp α} {Lm Rm : Nat} {C : Cx α} {t : T α} (hA : At hd h Lm Rm C t) :
    h hd = some ⟨Lm, rootP C (ptr hd t), Rm, false, true, none⟩ := hA.ctx.head

/-- the node a tree's pointer leads to -/
theorem At.at {hd : Nat} {h : Hp α} {Lm Rm : Nat} {C : Cx α} {t : T α} (hA : At hd h Lm Rm C t) :
    ∃ n, h (ptr hd t) = some n ∧ n.red = isRed t ∧ (n.nil = true ↔ t = .nil) := by
  cases t with
  | nil => exact ⟨_, hA.head, rfl, by simp⟩
  | node i v c l r => exact ⟨_, hA.node, rfl, by simp⟩

theorem At.ids {hd : Nat} {h : Hp α} {Lm Rm : Nat} {C : Cx α} {t : T α} (hA : At hd h Lm Rm C t) : (hd :: (inord C t).map Prod.fst).Nodup := by
  have := hA.nodup
  simpa [inord, idl, idr, RBT.ids] using this

end STL.RBT
