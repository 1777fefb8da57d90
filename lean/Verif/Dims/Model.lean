import Verif.IndexText.Model
/-!
How the parser of index notation (src/parser/parser.cpp) finds the tensors of an expression and the sizes of their modes,
from the options of the command line tool: formats (`-f`), types (`-t`), sizes of tensors and of index variables (`-d`)
and tensors that were read from files (`-i`).

Simplifications
* It starts from the assignment that `Verif.IndexText` parses. The code looks tensors up while it parses, from left to
  right; the model does so afterwards in the same order. The two differ only in which of several errors is reported.
* Sizes are natural numbers. Formats are the list of the codes of their modes, types are codes.
* Objects have a number each (`id`); two tensors are the same object if they have the same number.
-/
namespace Verif.Dims
open Verif.IndexText (X Op Assign)

abbrev Name := List Char

/-- `TensorBase`: the object, its name, type, format and dimensions, src/tensor.cpp 112-137. -/
structure Tensor where
  id : Nat
  name : Name
  dtype : Nat
  fmt : List Nat
  dims : List Nat
  deriving DecidableEq

/-- `Access` of a tensor, src/tensor.cpp 476-479. -/
structure Access where
  tensor : Tensor
  vars : List Name
  deriving DecidableEq

/-- The arguments of the constructor of `Parser`, parser.cpp 45-58. -/
structure Options where
  formats : Name → Option (List Nat)
  types : Name → Option Nat
  dims : Name → Option (List Nat)
  loaded : List (Name × Tensor)
  default : Nat

/-- How parsing ends without result: an assertion of the user interface fails, or a vector is read outside of its
bounds. -/
inductive Err | error | ub
  deriving DecidableEq

/-- Expressions with accesses of type `α`; the nodes are those of `IndexText.X`. -/
inductive T (α : Type)
  | lit (n : Int)
  | other (w : List Char)
  | acc (a : α)
  | neg (a : T α)
  | bin (op : Op) (a b : T α)
  deriving DecidableEq

/-- The expression that was parsed. -/
def T.ofX : X → T (Name × List Name)
  | .lit n => .lit n
  | .other w => .other w
  | .acc n vs => .acc (n, vs)
  | .neg a => .neg (ofX a)
  | .bin op a b => .bin op (ofX a) (ofX b)

/-- The accesses in the order in which the parser meets them and in which visitors visit them,
src/index_notation/index_notation_visitor.cpp 37-75. -/
def T.leaves {α : Type} : T α → List α
  | .lit _ | .other _ => []
  | .acc a => [a]
  | .neg a => a.leaves
  | .bin _ a b => a.leaves ++ b.leaves

/-- A function on accesses that is applied from left to right and that carries a state. -/
def T.traverse {α β σ : Type} (f : α → σ → Except Err (β × σ)) : T α → σ → Except Err (T β × σ)
  | .lit n, s => .ok (.lit n, s)
  | .other w, s => .ok (.other w, s)
  | .acc a, s => match f a s with
    | .error e => .error e
    | .ok (b, s) => .ok (.acc b, s)
  | .neg a, s => match a.traverse f s with
    | .error e => .error e
    | .ok (a, s) => .ok (.neg a, s)
  | .bin op a b, s => match a.traverse f s with
    | .error e => .error e
    | .ok (a, s) => match b.traverse f s with
      | .error e => .error e
      | .ok (b, s) => .ok (.bin op a b, s)

/-! ### Looking up tensors -/

/-- `Parser::Content`, parser.cpp 20-43. -/
structure St where
  /-- `indexVars`: one variable for each name -/
  known : List Name
  /-- `indexVarDimensions` -/
  varDims : List (Name × Nat)
  /-- `modesWithDefaults` -/
  defaults : List (Nat × Nat)
  tensors : List (Name × Tensor)
  /-- the number of the next object -/
  next : Nat

/-- `map::insert` of a key that may be there. -/
def insertNew {α : Type} (m : List (Name × α)) (k : Name) (a : α) : List (Name × α) :=
  match m.lookup k with
  | some _ => m
  | none => m ++ [(k, a)]

/-- `Parser::getIndexVar`, parser.cpp 373-386. -/
def getIndexVar (o : Options) (s : St) (v : Name) : Except Err St :=
  if v ∈ s.known then .ok s
  else match o.dims v with
    | none => .ok { s with known := v :: s.known }
    | some [] => .error .ub
    | some (d :: _) => .ok { s with known := v :: s.known, varDims := insertNew s.varDims v d }

/-- `parseVarList`, parser.cpp 350-358. -/
def getIndexVars (o : Options) : St → List Name → Except Err St
  | s, [] => .ok s
  | s, v :: vs => match getIndexVar o s v with
    | .error e => .error e
    | .ok s => getIndexVars o s vs

/-- The size of mode `i` of a new tensor and whether it is the default, parser.cpp 325-336. -/
def modeDim (o : Options) (s : St) (name v : Name) (i : Nat) : Except Err (Nat × Bool) :=
  match o.dims name with
  | some ds => match ds[i]? with
    | some d => .ok (d, false)
    | none => .error .ub
  | none => match s.varDims.lookup v with
    | some d => .ok (d, false)
    | none => .ok (o.default, true)

/-- The loop over the modes, parser.cpp 324-337. -/
def modeDims (o : Options) (s : St) (name : Name) : Nat → List Name → Except Err (List (Nat × Bool))
  | _, [] => .ok []
  | i, v :: vs => match modeDim o s name v i with
    | .error e => .error e
    | .ok d => match modeDims o s name (i + 1) vs with
      | .error e => .error e
      | .ok ds => .ok (d :: ds)

/-- The modes that have the default size, parser.cpp 344-348. -/
def defaultModes (id : Nat) : Nat → List (Nat × Bool) → List (Nat × Nat)
  | _, [] => []
  | i, (_, b) :: ds => (if b then [(id, i)] else []) ++ defaultModes id (i + 1) ds

/-- The format of a new tensor, parser.cpp 310-316; code 0 is dense. -/
def formatOf (o : Options) (name : Name) (order : Nat) : List Nat :=
  (o.formats name).getD (List.replicate order 0)

/-- The type of a new tensor, parser.cpp 338-341; code 0 is `double`. -/
def typeOf (o : Options) (name : Name) : Nat := (o.types name).getD 0

/-- `tensor(varlist)`, src/tensor.cpp 548-562. -/
def access (t : Tensor) (vars : List Name) : Except Err Access :=
  if vars.length = t.dims.length then .ok ⟨t, vars⟩ else .error .error

/-- The tensor of a name, parser.cpp 318-350: the one that is known or a new one. The constructor checks the number of
modes of the format, src/tensor.cpp 120-122. -/
def findTensor (o : Options) (s : St) (name : Name) (vars : List Name) : Except Err (Tensor × St) :=
  match s.tensors.lookup name with
  | some t => .ok (t, s)
  | none => match modeDims o s name 0 vars with
    | .error e => .error e
    | .ok ds =>
      if (formatOf o name vars.length).length = ds.length then
        let t : Tensor := ⟨s.next, name, typeOf o name, formatOf o name vars.length, ds.map (·.1)⟩
        .ok (t, { s with defaults := s.defaults ++ defaultModes s.next 0 ds, tensors := s.tensors ++ [(name, t)], next := s.next + 1 })
      else .error .error

/-- `Parser::parseAccess` after the names were read, parser.cpp 305-351. -/
def parseAccess (o : Options) (a : Name × List Name) (s : St) : Except Err (Access × St) :=
  match getIndexVars o s a.2 with
  | .error e => .error e
  | .ok s => match findTensor o s a.1 a.2 with
    | .error e => .error e
    | .ok (t, s) => match access t a.2 with
      | .error e => .error e
      | .ok b => .ok (b, s)

/-! ### Sizes of index variables -/

/-- The loop of the visitor over the modes of an access, parser.cpp 91-104. -/
def visitModes (defaults : List (Nat × Nat)) (id : Nat) : Nat → List Name → List Nat → List (Name × Nat) → Except Err (List (Name × Nat))
  | i, v :: vs, d :: ds, m =>
    if (id, i) ∈ defaults then visitModes defaults id (i + 1) vs ds m
    else match m.lookup v with
      | some e => if e = d then visitModes defaults id (i + 1) vs ds m else .error .error
      | none => visitModes defaults id (i + 1) vs ds (m ++ [(v, d)])
  | _, _, _, m => .ok m

/-- The visitor that collects the sizes of the index variables of the right-hand side, parser.cpp 85-110. -/
def collect (defaults : List (Nat × Nat)) : List Access → List (Name × Nat) → Except Err (List (Name × Nat))
  | [], m => .ok m
  | a :: as, m => match visitModes defaults a.tensor.id 0 a.vars a.tensor.dims m with
    | .error e => .error e
    | .ok m => collect defaults as m

/-! ### New sizes -/

/-- `tensors` of the rewriter and the number of the next object. -/
structure RSt where
  tensors : List (Name × Tensor)
  next : Nat

/-- The sizes that the index variables ask for, parser.cpp 132-141. -/
def newDims (m : List (Name × Nat)) (vars : List Name) (dims : List Nat) : List Nat :=
  List.zipWith (fun v d => (m.lookup v).getD d) vars dims

/-- The rewriter on an access, parser.cpp 118-158. -/
def rewriteAccess (m : List (Name × Nat)) (a : Access) (s : RSt) : Except Err (Access × RSt) :=
  if a.vars.length ≠ a.tensor.dims.length then .error .error
  else if newDims m a.vars a.tensor.dims = a.tensor.dims then .ok (a, s)
  else match s.tensors.lookup a.tensor.name with
    | some t => match access t a.vars with
      | .error e => .error e
      | .ok b => .ok (b, s)
    | none =>
      let t : Tensor := ⟨s.next, a.tensor.name, a.tensor.dtype, a.tensor.fmt, newDims m a.vars a.tensor.dims⟩
      .ok (⟨t, a.vars⟩, ⟨s.tensors ++ [(a.tensor.name, t)], s.next + 1⟩)

/-! ### The assignment -/

/-- `content->tensors` after the rewritten tensors were put into it, parser.cpp 166-168. -/
def replaceTensors (ts new : List (Name × Tensor)) : List (Name × Tensor) :=
  ts.map fun p => (p.1, (new.lookup p.1).getD p.2)

/-- `dimensionsTypecheck`, src/error/error_checks.cpp 36-81, for fixed sizes: `true` if the modes of every variable
agree. -/
def checkModes : List (Name × Nat) → List (Name × Nat) → Bool
  | _, [] => true
  | m, (v, d) :: us => match m.lookup v with
    | some e => if e = d then checkModes m us else false
    | none => checkModes (m ++ [(v, d)]) us

/-- The variables and sizes of the modes of an access. -/
def Access.modes (a : Access) : List (Name × Nat) := a.vars.zip a.tensor.dims

/-- The result of parsing: the assignment and all tensors. -/
structure Parsed where
  lhs : Access
  acc : Bool
  rhs : T Access
  tensors : List (Name × Tensor)
  deriving DecidableEq

/-- The last steps of `parseAssign`, parser.cpp 169-176: `=` checks the sizes, `+=` does not,
src/index_notation/index_notation.cpp 1168-1198. -/
def assign (acc : Bool) (t : Tensor) (vars : List Name) (rhs : T Access) (ts : List (Name × Tensor)) : Except Err Parsed :=
  match access t vars with
  | .error e => .error e
  | .ok l =>
    if acc = true ∨ checkModes [] (l.modes ++ rhs.leaves.flatMap Access.modes) = true then .ok ⟨l, acc, rhs, ts⟩
    else .error .error

/-- `parseAssign` from line 162 on: rewriting both sides. -/
def finish (s : Assign) (st : St) (l : Access) (rhs : T Access) (m : List (Name × Nat)) : Except Err Parsed :=
  match rhs.traverse (rewriteAccess m) ⟨[], st.next⟩ with
  | .error e => .error e
  | .ok (rhs, r) => match rewriteAccess m l r with
    | .error e => .error e
    | .ok (_, r) => match (replaceTensors st.tensors r.tensors).lookup s.name with
      | none => .error .error
      | some t => assign s.acc t s.vars rhs (replaceTensors st.tensors r.tensors)

/-- A number that no tensor has yet. -/
def fresh (ts : List (Name × Tensor)) : Nat := ts.foldr (fun p n => max (p.2.id + 1) n) 0

/-- `Parser::parseAssign`, parser.cpp 68-177, after the text was read. -/
def parseAssign (o : Options) (s : Assign) : Except Err Parsed :=
  match parseAccess o (s.name, s.vars) ⟨[], [], [], o.loaded, fresh o.loaded⟩ with
  | .error e => .error e
  | .ok (l, st) => match (T.ofX s.rhs).traverse (parseAccess o) st with
    | .error e => .error e
    | .ok (rhs, st) => match collect st.defaults rhs.leaves st.varDims with
      | .error e => .error e
      | .ok m => finish s st l rhs m

end Verif.Dims
