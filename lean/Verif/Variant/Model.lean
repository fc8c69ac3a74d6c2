import Verif.Base

/-!
# Model of `variant` (stl/inc/variant, stl/inc/xsmf_control.h)

A variable is a cell: the discriminator `_Which`, and which object, if any, is alive in the union `_Variant_storage`. Building an object where an object with a
non-trivial destructor is still alive, ending the storage of such an object, destroying, reading or assigning an object that is not there, and a failing
`_STL_INTERNAL_CHECK` are undefined behaviour.

The alternatives are arbitrary: for each there are values, and the traits that the code asks for. Every construction, assignment and swap of a contained object that
is not `noexcept` asks the tape whether it throws; if so the tape says what values are left in the objects taking part.

Simplifications: the union, nested `_Head`/`_Tail`, is flat (`rawGetTails` counts the tails); constant evaluation and the destructor tombstones are left out;
arguments of `emplace` and of `operator=(T&&)` are not part of the variant they are for; the values of alternatives are one type `V`, tagged
with the number of the alternative; deleted special members are not modelled.
-/

namespace STL.Var
open STL

/-- The comparison operators. -/
inductive Rel where
  | eq | ne | lt | gt | le | ge
  deriving DecidableEq

/-- What is known at compile time about the alternatives. -/
structure Par (V : Type) where
  /-- `sizeof...(_Types)` -/
  n : Nat
  /-- `is_trivially_destructible`, `is_trivially_copy_constructible`, `..move_constructible`, `..copy_assignable`, `..move_assignable` -/
  td : Nat → Bool
  tcc : Nat → Bool
  tmc : Nat → Bool
  tca : Nat → Bool
  tma : Nat → Bool
  /-- `_Has_ADL_swap` -/
  adl : Nat → Bool
  /-- `is_nothrow_copy_constructible`, `..move_constructible`, `..copy_assignable`, `..move_assignable`, `is_nothrow_swappable` -/
  ncc : Nat → Bool
  nmc : Nat → Bool
  nca : Nat → Bool
  nma : Nat → Bool
  nsw : Nat → Bool
  /-- what construction by move and assignment by move leave in the source, and what `x = move(x)` leaves -/
  moved : Nat → V → V
  movedA : Nat → V → V
  selfMoved : Nat → V → V
  /-- the comparison operators and the hash of the alternatives -/
  rel : Rel → Nat → V → V → Bool
  hash : Nat → V → Nat

/-- The variables: those of the client, a `variant` that `swap` makes, and a temporary object of some alternative. -/
inductive Nm where
  | u (k : Nat)
  | tv
  | t
  deriving DecidableEq

structure Cell (V : Type) where
  /-- is there a `variant`? -/
  live : Bool
  /-- `_Which` -/
  which : Int
  /-- the active member of the union: which alternative, with which value -/
  obj : Option (Nat × V)
  /-- ghost: how many objects with a non-trivial destructor have been built and destroyed in this storage -/
  made : Nat
  gone : Nat

structure W (V : Type) where
  cell : Nm → Cell V
  /-- for each operation of a contained object that may throw: `none`, it does not; `some (a, b)`, it does, and leaves the values `a` in the target, `b` in the source -/
  tape : List (Option (V × V))

inductive Exc where
  /-- `bad_variant_access` -/
  | badAccess
  /-- an exception of a contained object -/
  | user
  deriving DecidableEq

inductive Res (V β : Type) where
  | ok (b : β) (w : W V)
  | exc (e : Exc) (w : W V)
  | ub

def M (V β : Type) := W V → Res V β

namespace M
variable {V β γ : Type}
def pure (b : β) : M V β := fun w => .ok b w
def bind (m : M V β) (f : β → M V γ) : M V γ := fun w =>
  match m w with
  | .ok b w => f b w
  | .exc e w => .exc e w
  | .ub => .ub
instance : Monad (M V) where
  pure := pure
  bind := bind
end M

variable {V β : Type}

def ub : M V β := fun _ => .ub
def throw (e : Exc) : M V β := fun w => .exc e w
/-- Stack unwinding: if `m` throws, `d` is done, and the exception goes on. -/
def onExc (m : M V β) (d : M V Unit) : M V β := fun w =>
  match m w with
  | .exc e w1 => match d w1 with
    | .ok _ w2 => .exc e w2
    | _ => .ub
  | r => r

def upd {γ : Type} (f : Nm → γ) (k : Nm) (x : γ) : Nm → γ := fun m => if m = k then x else f m
def setC (k : Nm) (f : Cell V → Cell V) : M V Unit := fun w => .ok () { w with cell := upd w.cell k (f (w.cell k)) }

/-! ## The objects in the union -/

/-- The next answer of the tape, if it is asked. -/
def ask (nothrow : Bool) : M V (Option (V × V)) := fun w =>
  if nothrow then .ok none w
  else match w.tape with
    | [] => .ok none w
    | r :: l => .ok r { w with tape := l }

/-- `_Variant_raw_get<i>` (variant:484-523), used to read the value. -/
def rawGet (k : Nm) (i : Nat) : M V V := fun w =>
  match (w.cell k).obj with
  | some (j, x) => if j = i then .ok x w else .ub
  | none => .ub

/-- A value is given to an object that exists. -/
def setObj (k : Nm) (i : Nat) (x : V) : M V Unit := do
  let _ ← rawGet k i
  setC k fun c => { c with obj := some (i, x) }

/-- The storage is reused for a new object: nothing with a non-trivial destructor may be there. -/
def clearObj (P : Par V) (k : Nm) : M V Unit := fun w =>
  match (w.cell k).obj with
  | some (j, _) => if P.td j then setC k (fun c => { c with obj := none }) w else .ub
  | none => .ok () w

/-- The object is there. -/
def birth (P : Par V) (k : Nm) (i : Nat) (x : V) : M V Unit :=
  if i < P.n then setC k fun c => { c with obj := some (i, x), made := c.made + if P.td i then 0 else 1 } else ub

/-- `::new (addressof(obj)) T(args...)` (xutility:653-663, variant:354-365), where `x` is the value that is built. -/
def ctorArg (P : Par V) (k : Nm) (i : Nat) (x : V) (nothrow : Bool) : M V Unit := do
  clearObj P k
  match ← ask nothrow with
  | none => birth P k i x
  | some _ => throw .user

/-- The same with a `const T&`. -/
def ctorCopy (P : Par V) (k l : Nm) (i : Nat) : M V Unit := do
  clearObj P k
  let x ← rawGet l i
  match ← ask (P.ncc i) with
  | none => birth P k i x
  | some _ => throw .user

/-- The same with a `T&&`. -/
def ctorMove (P : Par V) (k l : Nm) (i : Nat) : M V Unit := do
  clearObj P k
  let x ← rawGet l i
  match ← ask (P.nmc i) with
  | none => do
    birth P k i x
    setObj l i (P.moved i x)
  | some (_, b) => do
    setObj l i b
    throw .user

/-- The destructor of a contained object. -/
def dtor (P : Par V) (k : Nm) (i : Nat) : M V Unit := do
  let _ ← rawGet k i
  setC k fun c => { c with obj := none, gone := c.gone + if P.td i then 0 else 1 }

/-- `target = source` for contained objects, `source` a `const T&`. -/
def asgCopy (P : Par V) (k l : Nm) (i : Nat) : M V Unit := do
  let x ← rawGet l i
  match ← ask (P.nca i) with
  | none => setObj k i x
  | some (a, _) => do
    setObj k i a
    throw .user

/-- The same with a `T&&`. -/
def asgMove (P : Par V) (k l : Nm) (i : Nat) : M V Unit := do
  let x ← rawGet l i
  match ← ask (P.nma i) with
  | none => if k = l then setObj k i (P.selfMoved i x) else do
    setObj k i x
    setObj l i (P.movedA i x)
  | some (a, b) => do
    setObj l i b
    setObj k i a
    throw .user

/-- The same with any argument, where `x` is the value that is assigned. -/
def asgArg (k : Nm) (i : Nat) (x : V) (nothrow : Bool) : M V Unit := do
  match ← ask nothrow with
  | none => setObj k i x
  | some (a, _) => do
    setObj k i a
    throw .user

/-- `swap(a, b)` for contained objects. -/
def objSwap (P : Par V) (k l : Nm) (i : Nat) : M V Unit := do
  let x ← rawGet k i
  let y ← rawGet l i
  match ← ask (P.nsw i) with
  | none => do
    setObj k i y
    setObj l i x
  | some (a, b) => do
    setObj l i b
    setObj k i a
    throw .user

/-! ## `_Variant_base` -/

/-- `variant_npos` (variant:332) -/
def npos : Nat := 2 ^ 64 - 1

/-- the bits of `_Variant_index_t<_Count>` (variant:665-670) -/
def idxBits (n : Nat) : Nat := if n < (2 ^ 8 - 1) / 2 then 8 else if n < (2 ^ 16 - 1) / 2 then 16 else 32

/-- `static_cast<_Index_t>(_Idx)` for a `size_t` -/
def toIdx (n idx : Nat) : Int :=
  let b := idxBits n
  let m := idx % 2 ^ b
  if m < 2 ^ (b - 1) then (m : Int) else (m : Int) - 2 ^ b

/-- `static_cast<size_t>(_Which)` -/
def toSize (which : Int) : Nat := (which % 2 ^ 64).toNat

/-- access to a variant -/
def read (k : Nm) : M V (Cell V) := fun w => if (w.cell k).live then .ok (w.cell k) w else .ub

/-- `valueless_by_exception` (variant:773-775) -/
def valueless (k : Nm) : M V Bool := do
  let c ← read k
  pure (decide (c.which < 0))

/-- `index` (variant:776-779) -/
def index (k : Nm) : M V Nat := do
  let c ← read k
  pure (toSize c.which)

/-- `_Set_index` (variant:780-784) -/
def setIndex (P : Par V) (k : Nm) (idx : Nat) : M V Unit := setC k fun c => { c with which := toIdx P.n idx }

/-- `_STL_INTERNAL_CHECK(valueless_by_exception())` -/
def checkValueless (k : Nm) : M V Unit := do
  let b ← valueless k
  if b then pure () else ub

/-- `_Variant_raw_visit` (variant:565-658). The strategies differ only in how they jump to the case. -/
def rawVisit (P : Par V) (idx : Nat) (f : Option Nat → M V β) : M V β :=
  let i := (idx + 1) % 2 ^ 64
  if i = 0 then f none else if i ≤ P.n then f (some (i - 1)) else ub

/-- `conjunction_v<trait<_Types>...>` -/
def all (P : Par V) (t : Nat → Bool) : Bool := (List.range P.n).all t

/-- `_Destroy<_Idx>` (variant:786-794) -/
def destroyAt (P : Par V) (k : Nm) (i : Nat) : M V Unit := if !P.td i then dtor P k i else pure ()

/-- `_Destroy` (variant:796-805) -/
def destroy (P : Par V) (k : Nm) : M V Unit :=
  if !all P P.td then do
    let idx ← index k
    rawVisit P idx fun r => match r with
      | some i => dtor P k i
      | none => pure ()
  else pure ()

/-- `_Reset` (variant:807-810) -/
def reset (P : Par V) (k : Nm) : M V Unit := do
  destroy P k
  setIndex P k npos

/-- `_Reset<_Idx>` (variant:812-820) -/
def resetAt (P : Par V) (k : Nm) (i : Nat) : M V Unit := do
  destroyAt P k i
  setIndex P k npos

/-- A default constructed `_Variant_base` (variant:752-753): valueless. The cell must be free. -/
def newBase (P : Par V) (k : Nm) : M V Unit := fun w =>
  if (w.cell k).live then .ub else setC k (fun c => { c with live := true, which := toIdx P.n npos }) w

/-- The end of the storage of a variant. -/
def endStorage (P : Par V) (k : Nm) : M V Unit := do
  let _ ← read k
  clearObj P k
  setC k fun c => { c with live := false }

/-- `~_Variant_destroy_layer_` (variant:848-872), or the trivial destructor (variant:874-876). -/
def destruct (P : Par V) (k : Nm) : M V Unit := do
  destroy P k
  endStorage P k

/-- The visitor of `_Construct_from` (variant:672-688), copying. -/
def constructCopy (P : Par V) (k l : Nm) (r : Option Nat) : M V Unit := do
  checkValueless k
  match r with
  | some i => do
    ctorCopy P k l i
    setIndex P k i
  | none => pure ()

/-- The same, moving. -/
def constructMove (P : Par V) (k l : Nm) (r : Option Nat) : M V Unit := do
  checkValueless k
  match r with
  | some i => do
    ctorMove P k l i
    setIndex P k i
  | none => pure ()

/-- `_Variant_should_directly_construct_v` (variant:690-692) -/
def direct (P : Par V) (i : Nat) (nothrow : Bool) : Bool := nothrow || !P.nmc i

/-- `auto _Temp(...)`, then `_Reset`, then construction from the temporary, which is destroyed at the end. -/
def viaTemp (P : Par V) (k : Nm) (i : Nat) : M V Unit := do
  onExc (do
    reset P k
    ctorMove P k .t i) (dtor P .t i)

/-- The visitor of `_Assign_from` (variant:694-731), copying. -/
def assignCopy (P : Par V) (k l : Nm) (r : Option Nat) : M V Unit :=
  match r with
  | none => reset P k
  | some i => do
    let c ← read k
    if toSize c.which = i then asgCopy P k l i
    else if direct P i (P.ncc i) then do
      reset P k
      ctorCopy P k l i
      setIndex P k i
    else do
      ctorCopy P .t l i
      viaTemp P k i
      dtor P .t i
      setIndex P k i

/-- The same, moving. -/
def assignMove (P : Par V) (k l : Nm) (r : Option Nat) : M V Unit :=
  match r with
  | none => reset P k
  | some i => do
    let c ← read k
    if toSize c.which = i then asgMove P k l i
    else do
      reset P k
      ctorMove P k l i
      setIndex P k i

/-- A trivial copy or move of the whole object: the bytes of the union and `_Which`. -/
def bytes (P : Par V) (k l : Nm) : M V Unit := do
  let c ← read l
  let _ ← read k
  if all P P.td then setC k fun d => { d with which := c.which, obj := c.obj } else ub

/-! ## The special member functions (xsmf_control.h) -/

/-- Copy constructor (xsmf_control.h:22-34, 49-51). -/
def copyCtor (P : Par V) (k l : Nm) : M V Unit :=
  if all P P.tcc then do
    newBase P k
    bytes P k l
  else do
    newBase P k
    onExc (do
      let idx ← index l
      rawVisit P idx (constructCopy P k l)) (destruct P k)

/-- Move constructor (xsmf_control.h:53-66, 80-84). -/
def moveCtor (P : Par V) (k l : Nm) : M V Unit :=
  if all P P.tmc then do
    newBase P k
    bytes P k l
  else do
    newBase P k
    onExc (do
      let idx ← index l
      rawVisit P idx (constructMove P k l)) (destruct P k)

/-- Copy assignment (xsmf_control.h:86-102, 116-122). -/
def copyAssign (P : Par V) (k l : Nm) : M V Unit :=
  if all P fun i => P.td i && P.tcc i && P.tca i then bytes P k l
  else do
    let idx ← index l
    rawVisit P idx (assignCopy P k l)

/-- Move assignment (xsmf_control.h:124-140, 154-160). -/
def moveAssign (P : Par V) (k l : Nm) : M V Unit :=
  if all P fun i => P.td i && P.tmc i && P.tma i then bytes P k l
  else do
    let idx ← index l
    rawVisit P idx (assignMove P k l)

/-! ## `variant` -/

/-- The constructors that name an alternative: by default, converting, `in_place_index`, `in_place_type` (variant:754-763, 948-993). -/
def ctorIn (P : Par V) (k : Nm) (i : Nat) (x : V) (nothrow : Bool) : M V Unit := do
  newBase P k
  onExc (ctorArg P k i x nothrow) (endStorage P k)
  setIndex P k i

/-- `_Emplace_valueless` (variant:1128-1137) with arguments that are not part of a variant -/
def emplaceArg (P : Par V) (k : Nm) (i : Nat) (x : V) (nothrow : Bool) : M V Unit := do
  checkValueless k
  ctorArg P k i x nothrow
  setIndex P k i

/-- The same with `move` of the object in `l`. -/
def emplaceMove (P : Par V) (k l : Nm) (i : Nat) : M V Unit := do
  checkValueless k
  ctorMove P k l i
  setIndex P k i

/-- `emplace` (variant:1026-1061) -/
def emplace (P : Par V) (k : Nm) (i : Nat) (x : V) (nothrow : Bool) : M V Unit := do
  reset P k
  emplaceArg P k i x nothrow

/-- `operator=(_Ty&&)` (variant:995-1023) for an argument that selects alternative `i`; `ntc`, `nta`: construction and assignment from it do not throw. -/
def assignArg (P : Par V) (k : Nm) (i : Nat) (x : V) (ntc nta : Bool) : M V Unit := do
  let idx ← index k
  if idx = i then asgArg k i x nta
  else if direct P i ntc then do
    reset P k
    emplaceArg P k i x ntc
  else do
    ctorArg P .t i x ntc
    onExc (do
      reset P k
      emplaceMove P k .t i) (dtor P .t i)
    dtor P .t i

/-- `_Emplace_from` (variant:1139-1149) -/
def emplaceFrom (P : Par V) (k l : Nm) : M V Unit := do
  reset P k
  let idx ← index l
  rawVisit P idx fun r => match r with
    | some i => emplaceMove P k l i
    | none => pure ()

/-- `_Is_trivially_swappable` (type_traits:2309-2311) -/
def trivSwap (P : Par V) (i : Nat) : Bool := P.td i && P.tmc i && P.tma i && !P.adl i

/-- `swap` for different alternatives, the branch of variant:1097-1103. -/
def swapDiff (P : Par V) (k l : Nm) (i j : Nat) : M V Unit := do
  ctorMove P .t k i
  onExc (do
    resetAt P k i
    emplaceMove P k l j
    resetAt P l j
    emplaceMove P l .t i) (dtor P .t i)
  dtor P .t i

/-- The inner visitor of `swap` (variant:1081-1103). -/
def swapSmall (P : Par V) (k l : Nm) (mine its : Option Nat) : M V Unit :=
  match mine, its with
  | none, none => pure ()
  | none, some j => do
    emplaceMove P k l j
    resetAt P l j
  | some i, none => do
    emplaceMove P l k i
    resetAt P k i
  | some i, some j => if i = j then objSwap P k l i else swapDiff P k l i j

/-- `swap` for 32 and more alternatives, not the same one (variant:1116-1118). -/
def swapBig (P : Par V) (k l : Nm) : M V Unit := do
  moveCtor P .tv k
  onExc (do
    emplaceFrom P k l
    emplaceFrom P l .tv) (destruct P .tv)
  destruct P .tv

/-- `swap` (variant:1068-1121) -/
def swap (P : Par V) (k l : Nm) : M V Unit :=
  if all P (trivSwap P) then do
    newBase P .tv
    bytes P .tv k
    bytes P k l
    bytes P l .tv
    endStorage P .tv
  else if P.n < 32 then do
    let i ← index k
    rawVisit P i fun mine => do
      let j ← index l
      rawVisit P j fun its => swapSmall P k l mine its
  else do
    let c ← read k
    let d ← read l
    if c.which = d.which then
      rawVisit P (toSize c.which) fun r => match r with
        | some i => objSwap P k l i
        | none => pure ()
    else swapBig P k l

/-- `holds_alternative` (variant:1154-1164) -/
def holds (k : Nm) (i : Nat) : M V Bool := do
  let idx ← index k
  pure (decide (idx = i))

/-- `get` (variant:1166-1209), the value -/
def get (k : Nm) (i : Nat) : M V V := do
  let idx ← index k
  if idx = i then rawGet k i else throw .badAccess

/-- An assignment to the object that `get` refers to. -/
def store (k : Nm) (i : Nat) (x : V) : M V Unit := do
  let idx ← index k
  if idx = i then setObj k i x else throw .badAccess

/-- `get_if` (variant:1256-1267): null, or the address of the value -/
def getIf (k : Nm) (i : Nat) : M V (Option V) := do
  let idx ← index k
  if idx = i then do
    let x ← rawGet k i
    pure (some x)
  else pure none

/-- `_Op{}(0, 0)` (variant:1302) -/
def Rel.refl : Rel → Bool
  | .eq => true | .ne => false | .lt => false | .gt => false | .le => true | .ge => true

/-- `_Variant_relop_visitor2` (variant:1287-1305) -/
def relVisit (P : Par V) (r : Rel) (k l : Nm) : Option Nat → M V Bool
  | some i => do
    let x ← rawGet k i
    let y ← rawGet l i
    pure (P.rel r i x y)
  | none => pure r.refl

/-- `==` and `!=` (variant:1307-1329) -/
def cmpEq (P : Par V) (r : Rel) (k l : Nm) : M V Bool := do
  let j ← index l
  let i ← index k
  if i = j then rawVisit P j (relVisit P r k l) else pure (r = .ne)

/-- `<`, `>`, `<=`, `>=` (variant:1331-1391); `less` is whether a lesser offset makes it true -/
def cmpLt (P : Par V) (r : Rel) (less : Bool) (k l : Nm) : M V Bool := do
  let i ← index k
  let j ← index l
  let a := (i + 1) % 2 ^ 64
  let b := (j + 1) % 2 ^ 64
  if (if less then a < b else b < a) then pure true
  else if a = b then rawVisit P ((b + (2 ^ 64 - 1)) % 2 ^ 64) (relVisit P r k l)
  else pure false

/-- The comparison operators. -/
def compare (P : Par V) (r : Rel) (k l : Nm) : M V Bool :=
  match r with
  | .eq => cmpEq P .eq k l
  | .ne => cmpEq P .ne k l
  | .lt => cmpLt P .lt true k l
  | .gt => cmpLt P .gt false k l
  | .le => cmpLt P .le true k l
  | .ge => cmpLt P .ge false k l

/-- `hash<variant>` (variant:1660-1683) -/
def hashOf (P : Par V) (k : Nm) : M V Nat := do
  let idx ← index k
  rawVisit P idx fun r => match r with
    | some i => do
      let x ← rawGet k i
      pure (P.hash i x)
    | none => pure 0

/-! ## `visit` -/

/-- `_Variant_total_states` (variant:1414-1416), for the numbers of alternatives -/
def totalStates (sizes : List Nat) : Nat := (sizes.foldl (fun a s => a * (s + 1)) 1) % 2 ^ 64

/-- `_Variant_visit_index1` (variant:1418-1427), for the numbers of alternatives and the indices -/
def visitIndex : Nat → List (Nat × Nat) → Nat
  | acc, [] => acc
  | acc, (_, idx) :: rest => visitIndex ((acc + (idx + 1) % 2 ^ 64 * totalStates (rest.map (·.1))) % 2 ^ 64) rest

/-- `_Meta_cartesian_product` (variant:246-266) -/
def product {γ : Type} : List (List γ) → List (List γ)
  | [] => []
  | [l] => l.map fun x => [x]
  | l :: ls => (l.map fun x => (product ls).map fun t => x :: t).flatten

/-- `_ListOfIndexVectors` (variant:1594-1597) -/
def indexVectors (sizes : List Nat) : List (List Nat) := product (sizes.map fun s => List.range (1 + s))

def indices : List Nm → M V (List Nat)
  | [] => pure []
  | k :: ks => do
    let i ← index k
    let is ← indices ks
    pure (i :: is)

/-- the arguments that the visitor is invoked with -/
def rawGets : List Nm → List Nat → M V (List (Nat × V))
  | k :: ks, i :: is => do
    let x ← rawGet k i
    let r ← rawGets ks is
    pure ((i, x) :: r)
  | _, _ => pure []

/-- `_Dispatch2` (variant:1436-1455) -/
def dispatch (ks : List Nm) (is : List Nat) : M V (List (Nat × V)) :=
  if is.any (· == 0) then throw .badAccess else rawGets ks (is.map (· - 1))

/-- `visit` (variant:1457-1605) of variants of one type; the result is what the visitor is invoked with. -/
def visit (P : Par V) (ks : List Nm) : M V (List (Nat × V)) :=
  if ks.isEmpty then pure []
  else do
    let is ← indices ks
    match (indexVectors (ks.map fun _ => P.n))[visitIndex 0 (is.map fun i => (P.n, i))]? with
    | some v => dispatch ks v
    | none => ub

/-- how many `._Tail` `_Variant_raw_get<_Idx>` goes down (variant:484-523) -/
def rawGetTails (i : Nat) : Nat :=
  if i < 8 then i
  else if i < 16 then 8 + rawGetTails (i - 8)
  else if i < 32 then 16 + rawGetTails (i - 16)
  else if i < 64 then 32 + rawGetTails (i - 32)
  else 64 + rawGetTails (i - 64)
termination_by i

end STL.Var
