import Verif.Concrete.Promote.Model
import Verif.Parallel.Spec
/-
Model of parallel loops: `Parallelize` (src/index_notation/transformations.cpp 873-1093),
`getReductionVars` (src/index_notation/index_notation.cpp 3668-3719) and the choice of atomic
updates (src/lower/lowerer_impl_imperative.cpp 450-607, 1190-1232 and 2516-2606).
-/
namespace Verif.Parallel

open Concrete

variable {R : Type}

/-- `OutputRaceStrategy` (include/taco/ir_tags.h); `ParallelReduction` is only used inside. -/
inductive Strategy where
  | ignoreRaces
  | noRaces
  | atomics
  | temporary
  deriving DecidableEq

/-- `IndexStmt::getIndexVars` (index_notation.cpp 1743-1768): the variables of accesses. -/
def accessVars : Stmt R → List Nat
  | .assign _ is _ e => is ++ e.varsAll
  | .loop _ s => accessVars s
  | .wher c p => accessVars p ++ accessVars c

/-- `getReductionVars` of a statement (index_notation.cpp 3668-3719): `loops`, `pro` and
`con` are `scopedVars`, `producerScopedVars` and `consumerScopedVars`.  There are no derived
variables, and variables can be repeated in the result. -/
def reductionVars : List Nat → List Nat → List Nat → Stmt R → List Nat
  | _, pro, con, .assign _ is _ e =>
    (e.varsAll ++ con).filter fun v => !is.contains v && !pro.contains v
  | loops, pro, con, .loop i s => reductionVars (loops ++ [i]) pro con s
  | loops, pro, con, .wher c p =>
    reductionVars loops loops con p ++ reductionVars loops pro loops c

/-- `reductionIndexVars` (transformations.cpp 923-935). -/
def isReduction (s : Stmt R) (i : Nat) : Bool :=
  (accessVars s).contains i && (reductionVars [] [] [] s).contains i

/-- `precomputeAssignments` (transformations.cpp 1013-1030): the assignments that reduce over
the variable. -/
def reducedBy (i : Nat) : Stmt R → List (Nat × List Nat × Bool)
  | .assign t is plus e =>
    if e.varsAll.contains i && !is.contains i then [(t, is, plus)] else []
  | .loop _ s => reducedBy i s
  | .wher c p => reducedBy i p ++ reducedBy i c

/-- The rewrite for the strategy `Temporary` (transformations.cpp 1032-1066): the loop writes
to a component of a workspace `n` in each iteration, and those are reduced afterwards.  The
loop that reduces them is over `i` too, but not parallel; it gets its own variable `i'` here to
tell them apart.  No assignment trips an assertion, and so do two, as the statement is no loop
any more after the first. -/
def reduceLater (i i' n : Nat) (s : Stmt R) : Option (Stmt R × Nat) :=
  match reducedBy i s with
  | [(t, is, plus)] =>
    some (.wher (.loop i' (.assign t is plus (.acc n [i']))) (.loop i (replaceLhs t is n [i] s)), n + 1)
  | _ => none

/-- What becomes of a loop over `i` (transformations.cpp 948-1085).  `red` says whether `i` is
a reduction variable.  The preconditions on iterators and formats (956-1007) are left out: they
only reject more statements. -/
def parallelLoop (strat : Strategy) (red : Bool) (i i' n : Nat) (s : Stmt R) : Option (Stmt R × Nat) :=
  match strat with
  | .ignoreRaces => some (.loop i s, n)
  | .noRaces => if red then none else some (.loop i s, n)
  | .temporary => if red then reduceLater i i' n s else some (.loop i s, n)
  | .atomics =>
    let s' := promote false true [] false n s
    some (.loop i s'.1, s'.2)

/-- `ParallelizeRewriter` (transformations.cpp 910-1085): the loops over `i` become parallel;
`n` is the next unused tensor. -/
def rewriteParallel (strat : Strategy) (red : Bool) (i i' : Nat) : Nat → Stmt R → Option (Stmt R × Nat)
  | n, .assign t is plus e => some (.assign t is plus e, n)
  | n, .loop j s =>
    if j = i then parallelLoop strat red i i' n s
    else (rewriteParallel strat red i i' n s).map fun r => (.loop j r.1, r.2)
  | n, .wher c p =>
    (rewriteParallel strat red i i' n p).bind fun p' =>
      (rewriteParallel strat red i i' p'.2 c).map fun c' => (.wher c'.1 p'.1, c'.2)

/-- `Parallelize::apply` (transformations.cpp 907-1093). -/
def parallelize (strat : Strategy) (i i' n : Nat) (s : Stmt R) : Option (Stmt R × Nat) :=
  rewriteParallel strat (isReduction s i) i i' n s

/-- Is an assignment atomic (lowerer_impl_imperative.cpp 472-476 for scalars, 528 for other
tensors)?  `depth` is `markAssignsAtomicDepth`, `temps` is `whereTemps`. -/
def isAtomic (depth : Nat) (temps : List Nat) (t : Nat) (is : List Nat) (plus : Bool) : Bool :=
  plus && decide (0 < depth) && (!is.isEmpty || !temps.contains t)

/-- Lowering, as far as parallel loops and atomic updates are concerned: loops over `i` are
parallel (lowerer_impl_imperative.cpp 1201-1215), and the producer of a where statement has one
atomic loop less around it (2580-2600). -/
def lower (strat : Strategy) (i : Nat) : Nat → List Nat → Stmt R → Code R
  | depth, temps, .assign t is plus e => .assign t is plus (isAtomic depth temps t is plus) e
  | depth, temps, .loop j s =>
    if j = i then .loop j true (lower strat i (if strat = .atomics then depth + 1 else depth) temps s)
    else .loop j false (lower strat i depth temps s)
  | depth, temps, .wher c p =>
    .wher (lower strat i depth temps c) (lower strat i (depth - 1) (p.target :: temps) p)

/-- Parallelizing the loops over a variable and compiling: `parallelize`, `scalarPromote` and
`lower` (src/tensor.cpp 640-662). -/
def compileParallel (strat : Strategy) (i i' n : Nat) (s : Stmt R) : Option (Code R) :=
  (parallelize strat i i' n s).map fun r => lower strat i 0 [] (scalarPromote r.2 r.1)

end Verif.Parallel
