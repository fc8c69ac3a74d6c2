import Verif.Str.Model

/-!
# What `std::basic_string` is supposed to do

The specification used by the theorems about `basic_string`. A string is a list of characters, a capacity, and the allocation it uses
(none for a small string). It is relational: how much more than needed is allocated is left open.
-/

namespace STL.Str
open STL
variable {α : Type}

/-- One string. -/
structure Ent (α : Type) where
  X : List α
  cap : Nat
  loc : Option Nat

/-- All strings, by name. A name that is not in use is an empty string. -/
abbrev St (α : Type) := Nat → Ent α

def Ent.empty (P : Par α) : Ent α := ⟨[], P.small, none⟩

/-- A range of characters passed by pointer: of an array outside, or `n` characters from the character `i` of the string `l` on (which may
be the string that is modified; the null character at the end belongs to it). -/
inductive Src (α : Type) where
  | arr (xs : List α)
  | str (l i n : Nat)

/-- Operations of a program on its strings. `lo` says whether an array that is not in the string lies below it in memory. -/
inductive Op (α : Type) where
  | newN (k n : Nat) (ch : α)
  | newPtr (k : Nat) (q : Src α)
  | newCopy (k l : Nat)
  | newIter (k : Nat) (xs : List α)
  | newMove (k l : Nat)
  | newSubstr (k l off n : Nat)
  | newConcat (k l m : Nat)
  | newConcatMove (k l m : Nat)
  | destroy (k : Nat)
  | append (k : Nat) (q : Src α)
  | appendStr (k l off n : Nat)
  | appendN (k n : Nat) (ch : α)
  | pushBack (k : Nat) (ch : α)
  | assign (k : Nat) (q : Src α)
  | assignStr (k l off n : Nat)
  | assignN (k n : Nat) (ch : α)
  | assignChar (k : Nat) (ch : α)
  | copyAssign (k l : Nat)
  | moveAssign (k l : Nat)
  | insert (lo : Bool) (k off : Nat) (q : Src α)
  | insertStr (lo : Bool) (k off l roff n : Nat)
  | insertN (k off n : Nat) (ch : α)
  | replace (lo : Bool) (k off nx : Nat) (q : Src α)
  | replaceStr (lo : Bool) (k off nx l roff n : Nat)
  | replaceN (k off nx n : Nat) (ch : α)
  | eraseFrom (k off : Nat)
  | erase (k off n : Nat)
  | clear (k : Nat)
  | popBack (k : Nat)
  | resize (k n : Nat) (ch : α)
  | resizeOverwrite (k n : Nat) (op : List (Option α) → List α)
  | reserve (k n : Nat)
  | reserve0 (k : Nat)
  | reserve17 (k n : Nat)
  | shrink (k : Nat)
  | swap (k l : Nat)
  | at (k i : Nat)
  | index (k i : Nat)
  | store (k i : Nat) (ch : α)
  | size (k : Nat)
  | capacity (k : Nat)

/-- Results. -/
inductive Out (α : Type) where
  | none
  | num (n : Nat)
  | val (x : α)
  | exc (e : Exc)

/-- The characters of a range, before the call. -/
def srcVal (P : Par α) (s : St α) : Src α → List α
  | .arr xs => xs
  | .str l i n => (((s l).X ++ [P.nul]).drop i).take n

/-- The range is one. -/
def srcOk (s : St α) : Src α → Prop
  | .arr _ => True
  | .str l i n => i + n ≤ (s l).X.length + 1

/-- The range is not part of the string `k`. -/
def srcNot (k : Nat) : Src α → Prop
  | .arr _ => True
  | .str l _ _ => l ≠ k

/-- `n` characters from `off` on, or as many as there are. -/
def sub (X : List α) (off n : Nat) : List α := (X.drop off).take n

/-- The characters `[off, off + nx)` become `Y`. -/
def replaced (X : List α) (off nx : Nat) (Y : List α) : List α := X.take off ++ Y ++ X.drop (off + nx)

/-- The case in which `replace` fails: there is room for the result, the range that is replaced grows, the new characters are from the string itself, begin before the
range that is replaced, and end inside of it. -/
def straddles (e : Ent α) (k off nx l i n : Nat) : Prop :=
  let nx' := min nx (e.X.length - off)
  l = k ∧ off ≤ e.X.length ∧ i < off ∧ off < i + n ∧ i + n < off + nx' ∧ nx' < n ∧ n - nx' ≤ e.cap - e.X.length

/-- What the caller has to guarantee. -/
def pre (P : Par α) (s : St α) : Op α → Prop
  | .newN k _ _ | .newIter k _ => s k = Ent.empty P
  | .newPtr k q => s k = Ent.empty P ∧ srcOk s q ∧ srcNot k q
  | .newCopy k l | .newMove k l | .newSubstr k l _ _ => s k = Ent.empty P ∧ k ≠ l
  | .newConcat k l m => s k = Ent.empty P ∧ k ≠ l ∧ k ≠ m
  | .newConcatMove k l m => s k = Ent.empty P ∧ k ≠ l ∧ k ≠ m ∧ l ≠ m
  | .append _ q | .assign _ q | .insert _ _ _ q => srcOk s q
  | .replace _ k off nx q => srcOk s q ∧ ∀ l i n, q = .str l i n → ¬straddles (s k) k off nx l i n
  | .replaceStr _ k off nx l roff n => ¬straddles (s k) k off nx l roff (min n ((s l).X.length - roff))
  | .assignChar k _ => 1 ≤ (s k).cap
  | .popBack k => (s k).X ≠ []
  | .resizeOverwrite _ n op => ∀ zs, zs.length = n → (op zs).length ≤ n
  | .index k i => i ≤ (s k).X.length
  | .store k i _ => i < (s k).X.length
  | _ => True

def updS (s : St α) (k : Nat) (e : Ent α) : St α := fun m => if m = k then e else s m

/-- Room for `n` characters: no reallocation if the capacity suffices, otherwise it grows by half at least, unless `max_size()` is in the
way. -/
def room (P : Par α) (s : St α) (n : Nat) (e e' : Ent α) : Prop :=
  if n ≤ e.cap then e'.cap = e.cap ∧ e'.loc = e.loc
  else (∃ b, e'.loc = some b ∧ ∀ m, (s m).loc ≠ some b) ∧ n ≤ e'.cap ∧ min P.max (e.cap + e.cap / 2) ≤ e'.cap

/-- The string `k` becomes one that meets `Y`, with room for `n` characters; nothing happens to other strings. `length_error` exactly if `n` is
more than `max_size()`; an exception changes nothing. -/
def edit' (P : Par α) (s s' : St α) (k n : Nat) (Y : List α → Prop) (out : Out α) : Prop :=
  if P.max < n then out = .exc .lengthError ∧ s' = s
  else (out = .none ∧ ∃ e', Y e'.X ∧ room P s n (s k) e' ∧ s' = updS s k e') ∨ (out = .exc .badAlloc ∧ (s k).cap < n ∧ s' = s)

/-- The string `k` becomes `Y`. -/
def edit (P : Par α) (s s' : St α) (k : Nat) (Y : List α) (out : Out α) : Prop := edit' P s s' k Y.length (· = Y) out

/-- `out_of_range` if there is no position `off` in `X`. -/
def inside (X : List α) (off : Nat) (s s' : St α) (out : Out α) (p : Prop) : Prop :=
  if X.length < off then out = .exc .outOfRange ∧ s' = s else p

/-- What operations do. -/
def sem (P : Par α) (s : St α) (op : Op α) (s' : St α) (out : Out α) : Prop :=
  match op with
  | .newN k n ch => edit P s s' k (List.replicate n ch) out
  | .newPtr k q => edit P s s' k (srcVal P s q) out
  | .newCopy k l => edit P s s' k (s l).X out
  | .newIter k xs => if P.max < xs.length then (out = .exc .lengthError ∨ out = .exc .badAlloc) ∧ s' = s else edit P s s' k xs out
  | .newMove k l => out = .none ∧ s' = updS (updS s l (Ent.empty P)) k (s l)
  | .newSubstr k l off n => inside (s l).X off s s' out (
      if (sub (s l).X off n).length ≤ P.small then edit P s s' k (sub (s l).X off n) out
      else out = .none ∧ s' = updS (updS s l (Ent.empty P)) k ⟨sub (s l).X off n, (s l).cap, (s l).loc⟩)
  | .newConcat k l m => edit P s s' k ((s l).X ++ (s m).X) out
  | .newConcatMove k l m =>
      if (s l).X.length + (s m).X.length ≤ (s l).cap ∧ (s m).cap ≤ (s l).cap then
        out = .none ∧ s' = updS (updS s l (Ent.empty P)) k ⟨(s l).X ++ (s m).X, (s l).cap, (s l).loc⟩
      else if (s l).X.length + (s m).X.length ≤ (s m).cap then
        out = .none ∧ s' = updS (updS s m (Ent.empty P)) k ⟨(s l).X ++ (s m).X, (s m).cap, (s m).loc⟩
      else edit P s s' k ((s l).X ++ (s m).X) out
  | .destroy k => out = .none ∧ s' = updS s k (Ent.empty P)
  | .append k q => edit P s s' k ((s k).X ++ srcVal P s q) out
  | .appendStr k l off n => inside (s l).X off s s' out (edit P s s' k ((s k).X ++ sub (s l).X off n) out)
  | .appendN k n ch => edit P s s' k ((s k).X ++ List.replicate n ch) out
  | .pushBack k ch => edit P s s' k ((s k).X ++ [ch]) out
  | .assign k q => edit P s s' k (srcVal P s q) out
  | .assignStr k l off n => inside (s l).X off s s' out (edit P s s' k (sub (s l).X off n) out)
  | .assignN k n ch => edit P s s' k (List.replicate n ch) out
  | .assignChar k ch => edit P s s' k [ch] out
  | .copyAssign k l => edit P s s' k (s l).X out
  | .moveAssign k l => if k = l then out = .none ∧ s' = s else out = .none ∧ s' = updS (updS s l (Ent.empty P)) k (s l)
  | .insert _ k off q => inside (s k).X off s s' out (edit P s s' k (replaced (s k).X off 0 (srcVal P s q)) out)
  | .insertStr _ k off l roff n => inside (s l).X roff s s' out (inside (s k).X off s s' out (
      edit P s s' k (replaced (s k).X off 0 (sub (s l).X roff n)) out))
  | .insertN k off n ch => inside (s k).X off s s' out (edit P s s' k (replaced (s k).X off 0 (List.replicate n ch)) out)
  | .replace _ k off nx q => inside (s k).X off s s' out (edit P s s' k (replaced (s k).X off nx (srcVal P s q)) out)
  | .replaceStr _ k off nx l roff n => inside (s l).X roff s s' out (inside (s k).X off s s' out (
      edit P s s' k (replaced (s k).X off nx (sub (s l).X roff n)) out))
  | .replaceN k off nx n ch => inside (s k).X off s s' out (edit P s s' k (replaced (s k).X off nx (List.replicate n ch)) out)
  | .eraseFrom k off => inside (s k).X off s s' out (edit P s s' k ((s k).X.take off) out)
  | .erase k off n => inside (s k).X off s s' out (edit P s s' k (replaced (s k).X off n []) out)
  | .clear k => edit P s s' k [] out
  | .popBack k => edit P s s' k (s k).X.dropLast out
  | .resize k n ch => edit P s s' k ((s k).X.take n ++ List.replicate (n - (s k).X.length) ch) out
  | .resizeOverwrite k n op => edit' P s s' k n (fun Y => ∃ zs : List (Option α), zs.length = n ∧
      zs.take (s k).X.length = (((s k).X.take n).map some) ∧ Y = op zs) out
  | .reserve k n => edit' P s s' k n (· = (s k).X) out
  | .reserve0 k => out = .none ∧ s' = if (s k).X = [] then updS s k (Ent.empty P) else s
  | .reserve17 k n =>
      if (s k).cap < n then edit' P s s' k n (· = (s k).X) out
      else out = .none ∧ s' = if (s k).X.length ≤ n ∧ n ≤ P.small then updS s k ⟨(s k).X, P.small, none⟩ else s
  | .shrink k =>
      if (s k).X.length ≤ P.small then out = .none ∧ s' = updS s k ⟨(s k).X, P.small, none⟩
      else if (s k).cap ≤ min ((s k).X.length ||| P.mask) P.max then out = .none ∧ s' = s
      else (out = .exc .badAlloc ∧ s' = s) ∨ (out = .none ∧ ∃ b, (∀ m, (s m).loc ≠ some b) ∧
        s' = updS s k ⟨(s k).X, min ((s k).X.length ||| P.mask) P.max, some b⟩)
  | .swap k l => out = .none ∧ s' = updS (updS s k (s l)) l (s k)
  | .at k i => s' = s ∧ match (s k).X[i]? with
      | some x => out = .val x
      | none => out = .exc .outOfRange
  | .index k i => s' = s ∧ ∀ x, ((s k).X ++ [P.nul])[i]? = some x → out = .val x
  | .store k i ch => out = .none ∧ s' = updS s k ⟨(s k).X.set i ch, (s k).cap, (s k).loc⟩
  | .size k => s' = s ∧ out = .num (s k).X.length
  | .capacity k => s' = s ∧ out = .num (s k).cap

/-- A client: it decides what to do next by what it has seen. -/
inductive Client (α : Type) where
  | done
  | call (op : Op α) (k : Out α → Client α)

/-- The client meets all preconditions, whatever the specification allows the operations to do. -/
def Legal (P : Par α) (s : St α) : Client α → Prop
  | .done => True
  | .call op k => pre P s op ∧ ∀ s' out, sem P s op s' out → Legal P s' (k out)

/-- `SpecRun s c tr s'`: the specification allows the client `c`, started in `s`, to see the calls and results `tr` and end in `s'`. -/
inductive SpecRun (P : Par α) : St α → Client α → List (Op α × Out α) → St α → Prop
  | done {s} : SpecRun P s .done [] s
  | call {s op k s1 out tr s'} : pre P s op → sem P s op s1 out → SpecRun P s1 (k out) tr s' → SpecRun P s (.call op k) ((op, out) :: tr) s'

/-! ## The program: the same operations, executed by the code -/

/-- The pointer and the number of characters that are passed. -/
def resolve (P : Par α) : Src α → M α (Ptr α × Nat)
  | .arr xs => pure (.arr xs, xs.length)
  | .str l i n => do
    let p ← myptr P l
    pure (.at p i, n)

/-- The overloads with a string, an offset and a number (for instance xstring:1533-1538): the part of the string that is meant. -/
def resolveStr (P : Par α) (l off n : Nat) : M α (Ptr α × Nat) := do
  let s ← get l
  if s.size < off then throw .outOfRange
  else do
    let p ← myptr P l
    pure (.at p off, clamp s off n)

def outcome {β : Type} (f : β → Out α) : Res α β → Option (W α × Out α)
  | .ok b w => some (w, f b)
  | .exc e w => some (w, .exc e)
  | .ub => none

/-- One operation. -/
def step (P : Par α) (w : W α) (op : Op α) : Option (W α × Out α) :=
  let unit := outcome (α := α) fun (_ : Unit) => .none
  match op with
  | .newN k n ch => unit (ctorN P k n ch w)
  | .newPtr k q => unit ((resolve P q >>= fun r => ctorPtr P k r.1 r.2) w)
  | .newCopy k l => unit (ctorCopy P k l w)
  | .newIter k xs => unit (ctorIter P k xs w)
  | .newMove k l => unit (takeContents P k l w)
  | .newSubstr k l off n => unit (ctorSubstr P k l off n w)
  | .newConcat k l m => unit (concat P k l m w)
  | .newConcatMove k l m => unit (concatMove P k l m w)
  | .destroy k => unit (tidy P k w)
  | .append k q => unit ((resolve P q >>= fun r => append P k r.1 r.2) w)
  | .appendStr k l off n => unit ((resolveStr P l off n >>= fun r => append P k r.1 r.2) w)
  | .appendN k n ch => unit (appendN P k n ch w)
  | .pushBack k ch => unit (pushBack P k ch w)
  | .assign k q => unit ((resolve P q >>= fun r => assign P k r.1 r.2) w)
  | .assignStr k l off n => unit ((resolveStr P l off n >>= fun r => assign P k r.1 r.2) w)
  | .assignN k n ch => unit (assignN P k n ch w)
  | .assignChar k ch => unit (assignChar P k ch w)
  | .copyAssign k l => unit (copyAssign P k l w)
  | .moveAssign k l => unit (moveAssign P k l w)
  | .insert lo k off q => unit ((resolve P q >>= fun r => insert P lo k off r.1 r.2) w)
  | .insertStr lo k off l roff n => unit ((resolveStr P l roff n >>= fun r => insert P lo k off r.1 r.2) w)
  | .insertN k off n ch => unit (insertN P k off n ch w)
  | .replace lo k off nx q => unit ((resolve P q >>= fun r => replace P lo k off nx r.1 r.2) w)
  | .replaceStr lo k off nx l roff n => unit ((resolveStr P l roff n >>= fun r => replace P lo k off nx r.1 r.2) w)
  | .replaceN k off nx n ch => unit (replaceN P k off nx n ch w)
  | .eraseFrom k off => unit (eraseFrom P k off w)
  | .erase k off n => unit (erase P k off n w)
  | .clear k => unit (clear P k w)
  | .popBack k => unit (popBack P k w)
  | .resize k n ch => unit (resize P k n ch w)
  | .resizeOverwrite k n op => unit (resizeOverwrite P k n op w)
  | .reserve k n => unit (reserve P k n w)
  | .reserve0 k => unit (reserve0 P k w)
  | .reserve17 k n => unit (reserve17 P k n w)
  | .shrink k => unit (shrink P k w)
  | .swap k l => unit (swap P k l w)
  | .at k i => outcome .val (at_ P k i w)
  | .index k i => outcome .val (index P k i w)
  | .store k i ch => unit (store P k i ch w)
  | .size k => some (w, .num (w.ss k).size)
  | .capacity k => some (w, .num (w.ss k).res)

/-- Run a client. -/
def run (P : Par α) (w : W α) : Client α → Option (W α × List (Op α × Out α))
  | .done => some (w, [])
  | .call op k => do
    let r ← step P w op
    let q ← run P r.1 (k r.2)
    some (q.1, (op, r.2) :: q.2)

/-- The program before it uses any string: all are as `_Construct_empty` (xstring:905-916) leaves them. -/
def start (P : Par α) (ans : List (Option Nat)) : W α where
  ext := fun | .small _ => some (P.small + 1) | .heap _ => none
  cel := fun p i => match p with | .small _ => if i = 0 then some P.nul else none | .heap _ => none
  nxt := 0
  ss := fun _ => ⟨none, 0, P.small⟩
  ans := ans

end STL.Str
