/-!
The automatic loop order (src/index_notation/transformations.cpp 1606-1834), the check for transpositions and the
check of dimensions (src/error/error_checks.cpp).

Simplifications
* Index variables are numbers; maps from variables are functions that give the empty list for an absent key.
* A `set` is a list, in which only membership and emptiness are looked at. Sets and maps that the code walks through
  in the order of their keys are walked through in the order of insertion.
* `std::sort` is any function that returns a sorted permutation: see `Verif.LoopOrder.IsSort`.
-/
namespace Verif.LoopOrder

/-- `IndexVar`, include/taco/index_notation/index_notation.h 770, up to its identity. -/
abbrev Var := Nat

/-! ### The automatic loop order -/

/-- An element of `tensorLevelVars`, transformations.cpp 1710-1711: variable, level and whether the level enforces
constraints. -/
structure Entry where
  /-- the loop variable -/
  var : Var
  /-- the level of the tensor that the loop iterates over -/
  level : Nat
  /-- whether the level enforces an order -/
  hard : Bool
  deriving DecidableEq

/-- A loop: its variable, its attributes and the tensor levels that its iterators, locators and results belong to,
with a flag for the levels that enforce an order: what `DAGBuilder::visit` reads off the merge lattice,
transformations.cpp 1720-1748. -/
structure Loop where
  /-- `getIndexVar` -/
  var : Var
  /-- tensor name, level, flag: `depIterators` -/
  levels : List (String × Nat × Bool)
  /-- `getParallelUnit` -/
  unit : Nat
  /-- `getOutputRaceStrategy` -/
  race : Nat
  /-- `getMergeStrategy` -/
  merge : Nat
  /-- `getUnrollFactor` -/
  unroll : Nat
  deriving DecidableEq

/-- `tensorLevelVars[t]`, transformations.cpp 1750-1759. -/
def tensorEntries (loops : List Loop) (t : String) : List Entry :=
  (loops.flatMap fun l => l.levels.filterMap fun d => if d.1 = t then some ⟨l.var, d.2.1, d.2.2⟩ else none).eraseDups

/-- The keys of `tensorLevelVars`, transformations.cpp 1775. -/
def tensors (loops : List Loop) : List String := (loops.flatMap fun l => l.levels.map (·.1)).eraseDups

/-- `varOrderFromTensorLevels`, transformations.cpp 1609-1628. -/
def varOrder (sort : List Entry → List Entry) (es : List Entry) : List (Var × Bool) := (sort es).map fun e => (e.var, e.hard)

/-- The loops of `depsFromVarOrders` over one tensor, transformations.cpp 1637-1648: `deps[v]`. -/
def pairDeps : List (Var × Bool) → Var → List Var
  | [], _ => []
  | a :: rest, v => (rest.filterMap fun b => if b.1 = v ∧ (a.2 || b.2) then some a.1 else none) ++ pairDeps rest v

/-- `depsFromVarOrders`, transformations.cpp 1632-1650. -/
def hardDeps (sort : List Entry → List Entry) (loops : List Loop) (v : Var) : List Var :=
  (tensors loops).flatMap fun t => pairDeps (varOrder sort (tensorEntries loops t)) v

/-- An access: its variables and the mode ordering of the tensor's format. -/
structure Access where
  /-- `indexVars` -/
  vars : List Var
  /-- `tensorVar.getFormat().getModeOrdering()` -/
  ordering : List Nat

/-- The variables of an access in the order of the levels: `indexVars[modeOrdering[i]]`, error_checks.cpp 90 and
transformations.cpp 1795. (A mode that does not exist is left out; theorems ask that there is none.) -/
def levelVars (a : Access) : List Var := a.ordering.filterMap fun m => a.vars[m]?

/-- `softDeps[v]` of `CollectSoftDependencies` for one access, transformations.cpp 1793-1799. -/
def chainDeps : List Var → Var → List Var
  | a :: b :: rest, v => (if b = v then [a] else []) ++ chainDeps (b :: rest) v
  | _, _ => []

/-- `CollectSoftDependencies`, transformations.cpp 1783-1801: a multiset for every variable. -/
def softDeps (accs : List Access) (v : Var) : List Var := accs.flatMap fun a => chainDeps (levelVars a) v

/-- The body of the scan for a variable with no dependencies, transformations.cpp 1665-1675: the state is `freeVarPos`,
`freeVar` and `minSoftDepsRemaining`, if a variable has been found. -/
def improve (hard soft : Var → List Var) (i : Nat) (v : Var) : Option (Nat × Var × Nat) → Option (Nat × Var × Nat)
  | none => if hard v = [] then some (i, v, (soft v).length) else none
  | some b => if hard v = [] ∧ (soft v).length < b.2.2 then some (i, v, (soft v).length) else some b

/-- The scan for a variable with no dependencies, transformations.cpp 1664-1676; `i` is the position in
`originalOrder`. -/
def scan (hard soft : Var → List Var) : Nat → Option (Nat × Var × Nat) → List Var → Option (Nat × Var × Nat)
  | _, best, [] => best
  | i, best, v :: vs => scan hard soft (i + 1) (improve hard soft i v best) vs

/-- Removal of dependencies on a variable, transformations.cpp 1687-1698. -/
def without (deps : Var → List Var) (v : Var) : Var → List Var := fun w => (deps w).filter (· ≠ v)

/-- `topologicallySort`, transformations.cpp 1653-1701, with the number of iterations as first argument. `none`: the
assertion about cycles. -/
def topoSort : Nat → (Var → List Var) → (Var → List Var) → List Var → Option (List Var)
  | 0, _, _, _ => some []
  | n + 1, hard, soft, vars =>
    match scan hard soft 0 none vars with
    | none => none
    | some (i, v, _) => (topoSort n (without hard v) (without soft v) (vars.eraseIdx i)).map (v :: ·)

/-- `sortedVars` of `reorderLoopsTopologically`, transformations.cpp 1770-1805. -/
def loopOrder (sort : List Entry → List Entry) (loops : List Loop) (accs : List Access) : Option (List Var) :=
  topoSort loops.length (hardDeps sort loops) (softDeps accs) (loops.map (·.var))

/-- `forallParallelUnit.at(v)` and `forallOutputRaceStrategy.at(v)`, transformations.cpp 1727-1728: the last loop of the variable. -/
def attrs (loops : List Loop) (v : Var) : Option (Nat × Nat) :=
  (loops.reverse.find? fun l => l.var = v).map fun l => (l.unit, l.race)

/-- A loop of the result of `TopoReorderRewriter`, transformations.cpp 1827-1830: variable, parallel unit, race
strategy, merge strategy, unroll factor. -/
structure NewLoop where
  /-- `getIndexVar` -/
  var : Var
  /-- `getParallelUnit` -/
  unit : Nat
  /-- `getOutputRaceStrategy` -/
  race : Nat
  /-- `getMergeStrategy` -/
  merge : Nat
  /-- `getUnrollFactor` -/
  unroll : Nat
  deriving DecidableEq

/-- `TopoReorderRewriter::visit`, transformations.cpp 1820-1832: the loops around the inner body, outermost first. -/
def reorderLoops (sort : List Entry → List Entry) (loops : List Loop) (accs : List Access) : Option (List NewLoop) :=
  match loops.head? with
  | none => some []
  | some outer =>
    (loopOrder sort loops accs).bind fun vars => vars.mapM fun v => (attrs loops v).map fun a => ⟨v, a.1, a.2, outer.merge, outer.unroll⟩

/-! ### The check for transpositions -/

/-- `successors->at(var)` after `addEdges` for one access, error_checks.cpp 83-103. -/
def chainSuccs : List Var → Var → List Var
  | a :: b :: rest, v => (if a = v then [b] else []) ++ chainSuccs (b :: rest) v
  | _, _ => []

/-- `successors.at(v)` in `containsTranspose`, error_checks.cpp 130-138. -/
def successors (accs : List Access) (v : Var) : List Var := accs.flatMap fun a => if a.vars = [] then [] else chainSuccs (levelVars a) v

/-- The keys of `successors`, error_checks.cpp 130-138. -/
def keys (accs : List Access) : List Var := (accs.flatMap fun a => if a.vars = [] then [] else levelVars a).eraseDups

/-- `visited` and `marked`, error_checks.cpp 140-141. -/
structure Marks where
  /-- `visited` -/
  visited : List Var
  /-- `marked` -/
  marked : List Var

/-- The loop over the successors in `hasCycle`, error_checks.cpp 112-120, with the recursive call as an argument. -/
def scanSuccs (rec : Var → Marks → Option (Bool × Marks)) : List Var → Marks → Option (Bool × Marks)
  | [], m => some (false, m)
  | s :: ss, m =>
    if s ∈ m.visited then (if s ∈ m.marked then some (true, m) else scanSuccs rec ss m)
    else match rec s m with
      | none => none
      | some (true, m') => some (true, m')
      | some (false, m') => if s ∈ m'.marked then some (true, m') else scanSuccs rec ss m'

/-- `hasCycle`, error_checks.cpp 105-124. The first argument bounds the depth of the recursion; `none` when it is
used up, which does not happen (`transposition_check`). -/
def hasCycle (succ : Var → List Var) : Nat → Var → Marks → Option (Bool × Marks)
  | 0, _, _ => none
  | f + 1, v, m =>
    if v ∈ m.visited then some (false, ⟨m.visited, m.marked.filter (· ≠ v)⟩)
    else
      match scanSuccs (hasCycle succ f) (succ v) ⟨v :: m.visited, v :: m.marked⟩ with
      | none => none
      | some (true, m') => some (true, m')
      | some (false, m') => some (false, ⟨m'.visited, m'.marked.filter (· ≠ v)⟩)

/-- The loop of `containsTranspose` over all variables, error_checks.cpp 142-147. -/
def anyCycle (succ : Var → List Var) (f : Nat) : List Var → Marks → Option Bool
  | [], _ => some false
  | v :: vs, m =>
    match hasCycle succ f v m with
    | none => none
    | some (true, _) => some true
    | some (false, m') => anyCycle succ f vs m'

/-- `containsTranspose`, error_checks.cpp 126-149: the first access is the result. -/
def containsTranspose (accs : List Access) : Option Bool :=
  anyCycle (successors accs) ((keys accs).length + 1) (keys accs) ⟨[], []⟩

/-! ### The check of dimensions -/

/-- `Dimension`, src/type.cpp 221-243. -/
inductive Dim
  | /-- `Dimension(size)` -/ fixed (size : Nat)
  | /-- `Dimension()` -/ dynamic
  | /-- `Dimension(indexVar)` -/ sized (v : Var)
  deriving DecidableEq

/-- `operator==(Dimension, Dimension)`, src/type.cpp 266-270. -/
def Dim.same : Dim → Dim → Bool
  | .fixed a, .fixed b => a == b
  | .fixed _, _ => false
  | _, .fixed _ => false
  | _, _ => true

/-- `dimension.isIndexVarSized() && dimension.getIndexVarSize() == var`, error_checks.cpp 46-47. -/
def Dim.sizedBy (d : Dim) (v : Var) : Bool :=
  match d with
  | .sized w => w == v
  | _ => false

/-- How an access restricts a mode: not at all, to a window or to an index set. -/
inductive Restrict
  | /-- no restriction -/ none
  | /-- `i(lo, hi, stride)` -/ window (lo hi stride : Nat)
  | /-- `i({...})`: the size of the set -/ indexSet (size : Nat)

/-- The dimension of a mode, error_checks.cpp 60-69 and index_notation.cpp 1151-1161, 1072-1076. (Windows that are empty
make the constructor of `Dimension` fail; theorems ask for positive sizes only where it matters.) -/
def modeDim (d : Dim) : Restrict → Dim
  | .none => d
  | .window lo hi stride => .fixed ((hi - lo) / stride)
  | .indexSet n => .fixed n

/-- An access with shape and restrictions of its modes. -/
structure ShapedAccess where
  /-- `indexVars` -/
  vars : List Var
  /-- `getShape` -/
  shape : List Dim
  /-- `windowedModes` and `indexSetModes` -/
  restricts : List Restrict

/-- The modes of an access in order: variable and dimension, error_checks.cpp 42-44, 57-69. -/
def uses (a : ShapedAccess) : List (Var × Dim) :=
  (a.vars.zip (a.shape.zip a.restricts)).map fun u => (u.1, modeDim u.2.1 u.2.2)

/-- `indexVarDims`: `insert` keeps the entry that is there. -/
def lookupDim : List (Var × Dim) → Var → Option Dim
  | [], _ => none
  | (w, d) :: rest, v => if w = v then some d else lookupDim rest v

/-- The loop over the modes, error_checks.cpp 42-52 and 57-78: the errors (variable and the two dimensions). The map is
a list in the order of insertion. -/
def checkUses : List (Var × Dim) → List (Var × Dim) → List (Var × Dim × Dim)
  | _, [] => []
  | m, (v, d) :: rest =>
    match lookupDim m v with
    | some d' =>
      if d'.same d = false ∧ d'.sizedBy v = false ∧ d.sizedBy v = false then (v, d', d) :: checkUses m rest
      else checkUses m rest
    | none => checkUses (m ++ [(v, d)]) rest

/-- `dimensionsTypecheck`, error_checks.cpp 36-81 and `check`, index_notation.cpp 1142-1166: the first access is the
result. `true`: no error. -/
def dimensionsTypecheck (accs : List ShapedAccess) : Bool := (checkUses [] (accs.flatMap uses)).isEmpty

end Verif.LoopOrder
