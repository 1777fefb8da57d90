import Verif.Kernel.Syntax
/-
Model of the comparison of statements up to renaming (src/index_notation/index_notation.cpp
178-623) and of the kernel cache (src/tensor.cpp 580-674).
-/
namespace Verif.Kernel

/-- `check(TensorVar, TensorVar)` and `check(IndexVar, IndexVar)` (index_notation.cpp
207-233).  The two maps are always filled together, so they are one list of pairs here.
`ok` is the test made before a new pair is added. -/
def checkPair (m : List (Nat × Nat)) (ok : Bool) (a b : Nat) : Option (List (Nat × Nat)) :=
  match m.lookup a, (m.map Prod.swap).lookup b with
  | none, none => if ok then some ((a, b) :: m) else none
  | some b', some a' => if b' = b ∧ a' = a then some m else none
  | _, _ => none

/-- The maps of the visitor. -/
structure St where
  ts : List (Nat × Nat)
  vs : List (Nat × Nat)

/-- Tensor variables must have the same type and format (index_notation.cpp 209; src/type.cpp
266-270, 307-319, 352-362). -/
def sameInfo (x y : Info) : Bool := x.ctype == y.ctype && x.dims == y.dims && x.format == y.format

/-- Two tensor variables. -/
def checkTensor (info : Nat → Info) (a b : Nat) (m : St) : Option St :=
  (checkPair m.ts (sameInfo (info a) (info b)) a b).map fun ts => ⟨ts, m.vs⟩

/-- Two index variables. -/
def checkVar (a b : Nat) (m : St) : Option St :=
  (checkPair m.vs true a b).map fun vs => ⟨m.ts, vs⟩

/-- The index variables of an access (index_notation.cpp 262-271). -/
def checkVars : List Nat → List Nat → St → Option St
  | [], [], m => some m
  | a :: as, b :: bs, m => (checkVar a b m).bind (checkVars as bs)
  | _, _, _ => none

/-- `visit(const AccessNode*)` (index_notation.cpp 252-289). -/
def checkAccess (info : Nat → Info) (a b : Nat) (sa sb : Bool) (is js : List Nat)
    (ma mb : List Mode) (m : St) : Option St :=
  (checkTensor info a b m).bind fun m =>
    (checkVars is js m).bind fun m => if sa = sb ∧ ma = mb then some m else none

/-- The visitor on expressions (index_notation.cpp 237-410).  The result is `none` if the
expressions are not isomorphic. -/
def checkExpr (info : Nat → Info) : Expr → Expr → St → Option St
  | .lit a, .lit b, m => if a = b then some m else none
  | .idx i, .idx j, m => if i = j then some m else none
  | .acc a sa is ma, .acc b sb js mb, m => checkAccess info a b sa sb is js ma mb m
  | .un o a, .un p b, m => if o = p then checkExpr info a b m else none
  | .bin o a a', .bin p b b', m =>
    if o = p then (checkExpr info a b m).bind (checkExpr info a' b') else none
  | .red o i a, .red p j b, m =>
    if o = p then (checkVar i j m).bind (checkExpr info a b) else none
  | _, _, _ => none

/-- Compared attributes of loops (index_notation.cpp 456-458): not the merge strategy. -/
def sameAttrs (x y : Attrs) : Bool := x.unit == y.unit && x.race == y.race && x.unroll == y.unroll

/-- The visitor on statements (index_notation.cpp 412-530). -/
def checkStmt (info : Nat → Info) : Stmt → Stmt → St → Option St
  | .assign a sa is ma o e, .assign b sb js mb p f, m =>
    (checkAccess info a b sa sb is js ma mb m).bind fun m =>
      (checkExpr info e f m).bind fun m => if o = p then some m else none
  | .loop i x s, .loop j y r, m =>
    (checkVar i j m).bind fun m =>
      (checkStmt info s r m).bind fun m => if sameAttrs x y then some m else none
  | .wher c p, .wher c' p', m => (checkStmt info c c' m).bind (checkStmt info p p')
  | .seq c p, .seq c' p', m => (checkStmt info c c' m).bind (checkStmt info p p')
  | .multi c p, .multi c' p', m => (checkStmt info c c' m).bind (checkStmt info p p')
  | _, _, _ => none

/-- `isomorphic` (index_notation.cpp 605-623). -/
def isomorphic (info : Nat → Info) (a b : Stmt) : Bool := (checkStmt info a b ⟨[], []⟩).isSome

/-- A compile request: the statement and `assembleWhileCompute`. -/
structure Request where
  stmt : Stmt
  assemble : Bool
  deriving DecidableEq

/-- A compiled kernel: the statement it was made from, and whether its compute function also
assembles (src/tensor.cpp 664-672). -/
structure Kernel where
  stmt : Stmt
  assemble : Bool
  deriving DecidableEq

/-- `TensorBase::compile` with the cache (src/tensor.cpp 644-674); the last kernel is first in
the list, as `getComputeKernel` searches from the back (583-596). -/
def compile (info : Nat → Info) (cache : List Kernel) (r : Request) : Kernel × List Kernel :=
  match cache.find? (fun k => isomorphic info r.stmt k.stmt) with
  | some k => (k, cache)
  | none => (⟨r.stmt, r.assemble⟩, ⟨r.stmt, r.assemble⟩ :: cache)

/-- The kernels that a sequence of requests is answered with. -/
def compileAll (info : Nat → Info) : List Kernel → List Request → List (Request × Kernel)
  | _, [] => []
  | cache, r :: rs => (r, (compile info cache r).1) :: compileAll info (compile info cache r).2 rs

end Verif.Kernel
