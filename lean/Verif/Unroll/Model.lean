import Verif.Unroll.Syntax

/-!
# Model of loops with guards and of the copies made for unrolled and vectorized loops

`LowererImplImperative::lowerForall` (recovery of variables and their guards) and `lowerForallCloned` of
`src/lower/lowerer_impl_imperative.cpp`, with the bounds and values of split and divided variables from
`src/index_notation/provenance_graph.cpp`.  Simplifications: loops are dense loops over dimensions that start at
0; numbers do not overflow; only `split` and `divide`; what a loop does is represented by the list of the
coordinates at which the innermost statement is executed.
-/

namespace Verif.Unroll

/-- `(n + (f - 1)) / f`. -/
def pieces (n f : Nat) : Nat := (n + (f - 1)) / f

/-- Upper bound of the outer variable: `SplitRelNode::deriveIterBounds` and `DivideRelNode::deriveIterBounds`,
src/index_notation/provenance_graph.cpp:213-237, 349-376. -/
def outerBound : Command → Nat → Nat → Nat
  | .split, f, n => pieces n f
  | .divide, f, _ => f

/-- Upper bound of the inner variable: as above. -/
def innerBound : Command → Nat → Nat → Nat
  | .split, f, _ => f
  | .divide, f, n => pieces n f

/-- What the outer variable is multiplied with: `SplitRelNode::recoverVariable` and
`DivideRelNode::recoverVariable`, src/index_notation/provenance_graph.cpp:239-247, 378-395. -/
def stride : Command → Nat → Nat → Nat
  | .split, f, _ => f
  | .divide, f, n => pieces n f

/-- Upper bounds of loop variables: `ProvenanceGraph::deriveIterBounds`,
src/index_notation/provenance_graph.cpp:1222-1255. -/
def leafBounds : Nat → Tree → List (Var × Nat)
  | n, .leaf v => [(v, n)]
  | n, .node k f o i => leafBounds (outerBound k f n) o ++ leafBounds (innerBound k f n) i

/-- The upper bound of a loop. -/
def bound (vars : List Variable) (v : Var) : Nat :=
  ((vars.flatMap fun r => leafBounds r.dim r.tree).lookup v).getD 0

/-- The value of a variable: `ProvenanceGraph::recoverVariable` over all levels,
src/index_notation/provenance_graph.cpp:1371-1391. -/
def value (env : Env) : Nat → Tree → Nat
  | _, .leaf v => env v
  | n, .node k f o i => value env (outerBound k f n) o * stride k f n + value env (innerBound k f n) i

/-- `isRecoverable` for a variable that was replaced: all its loop variables are defined.
src/index_notation/provenance_graph.cpp:1118-1160 (see module Recover). -/
def recoverable (defined : List Var) (t : Tree) : Bool := t.leaves.all defined.contains

/-- `newlyRecoverableParents`: the replaced variables, with their upper bounds, that become recoverable with loop
variable `v`, inner ones first.  src/index_notation/provenance_graph.cpp:1324-1352. -/
def newly (defined : List Var) (v : Var) : Nat → Tree → List (Nat × Tree)
  | _, .leaf _ => []
  | n, .node k f o i =>
    if o.leaves.contains v then
      newly defined v (outerBound k f n) o ++
        (if recoverable (v :: defined) (.node k f o i) then [(n, .node k f o i)] else [])
    else if i.leaves.contains v then
      newly defined v (innerBound k f n) i ++
        (if recoverable (v :: defined) (.node k f o i) then [(n, .node k f o i)] else [])
    else []

/-- The guard of divided variables: whether the iteration belongs to the next piece.
src/lower/lowerer_impl_imperative.cpp:742-760. -/
def divideSkips (env : Env) : Nat → Tree → Bool
  | _, .leaf _ => false
  | n, .node k f o i => decide (k = .divide) &&
      decide ((value env (outerBound k f n) o + 1) * innerBound k f n ≤ value env n (.node k f o i))

/-- The guard for dimensions, if guards are emitted, and the guard of divided variables: whether `continue` is
executed for a variable that was just recovered.
src/lower/lowerer_impl_imperative.cpp:701-760. -/
def guardSkips (emit : Bool) (r : Variable) (env : Env) (y : Nat × Tree) : Bool :=
  (emit && decide (y.2 = r.tree) && decide (r.dim ≤ value env y.1 y.2)) || divideSkips env y.1 y.2

/-- The recovery steps of a loop. -/
def skips (emit : Bool) (vars : List Variable) (defined : List Var) (v : Var) (env : Env) : Bool :=
  vars.any fun r => (newly defined v r.dim r.tree).any (guardSkips emit r env)

/-- Loops without copies: `lowerForall` with `emitUnderivedGuards = emit`.
src/lower/lowerer_impl_imperative.cpp:647-764, 1234-1309. -/
def run (emit : Bool) (vars : List Variable) : List Var → Env → List Var → List (List Nat)
  | _, env, [] => [vars.map fun r => value env r.dim r.tree]
  | defined, env, v :: loops =>
    (List.range (bound vars v)).flatMap fun x =>
      if skips emit vars defined v (env.set v x) then [] else run emit vars (v :: defined) (env.set v x) loops

/-- A variable that is not recovered yet; one that was not replaced counts as recoverable. -/
def needsGuard (defined : List Var) : Tree → Bool
  | .leaf _ => false
  | t => !recoverable defined t

/-- `varsWithGuard`: src/lower/lowerer_impl_imperative.cpp:904-918. -/
def guarded (defined : List Var) (vars : List Variable) : List Variable :=
  vars.filter fun r => needsGuard defined r.tree

/-- Values of defined loop variables, 0 for the others: `minChildValues`.  Replaced variables are declared with
these values in `guardRecoverySteps`.  src/lower/lowerer_impl_imperative.cpp:931-958. -/
def lowEnv (defined : List Var) (env : Env) : Env := fun v => if defined.contains v then env v else 0

/-- `maxChildValues` of a variable: for a loop variable that is not defined its (exclusive) upper bound; for all
others the variable itself, which was declared with the low value.
src/lower/lowerer_impl_imperative.cpp:931-958. -/
def highChild (defined : List Var) (env : Env) : Nat → Tree → Nat
  | n, .leaf v => if defined.contains v then env v else n
  | n, t => value (lowEnv defined env) n t

/-- `recoverVariable` with `maxChildValues`. -/
def high (defined : List Var) (env : Env) : Nat → Tree → Nat
  | n, .leaf v => highChild defined env n (.leaf v)
  | n, .node k f o i =>
    highChild defined env (outerBound k f n) o * stride k f n + highChild defined env (innerBound k f n) i

/-- The first variable that is recovered when loop variables are defined one by one.
src/lower/lowerer_impl_imperative.cpp:935-957. -/
def firstNew (n : Nat) (t : Tree) : List Var → List Var → Option (Nat × Tree)
  | _, [] => none
  | defined, v :: vs =>
    match newly defined v n t with
    | [] => firstNew n t (v :: defined) vs
    | x :: _ => some x

/-- The loop variables that are not defined. -/
def pending (defined : List Var) (t : Tree) : List Var := t.leaves.filter fun v => !defined.contains v

/-- `maxOffset`: set for the first variable that is recovered.
src/lower/lowerer_impl_imperative.cpp:926-927, 948-951. -/
def maxOffset (defined : List Var) (env : Env) (vars : List Variable) : Nat :=
  match (guarded defined vars).findSome? fun r => firstNew r.dim r.tree defined (pending defined r.tree) with
  | none => 0
  | some x => high defined env x.1 x.2 - value (lowEnv defined env) x.1 x.2

/-- `guardCondition`: src/lower/lowerer_impl_imperative.cpp:965-986. -/
def guardCondition (defined : List Var) (env : Env) (vars : List Variable) : Bool :=
  (guarded defined vars).any fun r =>
    decide (r.dim ≤ high defined env r.dim r.tree + maxOffset defined env vars)

/-- Loops, some of which are marked to be unrolled or vectorized: the first marked loop gets two copies
(`lowerForallCloned`), in which marks are ignored: `ignoreVectorize` is set for the one with guards,
`emitUnderivedGuards` is cleared for the one without.
src/lower/lowerer_impl_imperative.cpp:647-655, 993-1005. -/
def lower (vars : List Variable) : List Var → Env → List (Var × Bool) → List (List Nat)
  | defined, env, [] => run true vars defined env []
  | defined, env, (v, true) :: loops =>
    if guardCondition defined env vars then run true vars defined env (v :: loops.map (·.1))
    else run false vars defined env (v :: loops.map (·.1))
  | defined, env, (v, false) :: loops =>
    (List.range (bound vars v)).flatMap fun x =>
      if skips true vars defined v (env.set v x) then []
      else lower vars (v :: defined) (env.set v x) loops

/-- "Unable to vectorize or unroll loop over unbound variable": there is no guard to decide between the copies.
src/lower/lowerer_impl_imperative.cpp:990-991. -/
def accepted (vars : List Variable) : List Var → List (Var × Bool) → Bool
  | _, [] => true
  | defined, (_, true) :: _ => !(guarded defined vars).isEmpty
  | defined, (v, false) :: loops => accepted vars (v :: defined) loops

/-- The kernel: the coordinates at which the statement inside of all loops is executed, in order. -/
def kernel (vars : List Variable) (loops : List (Var × Bool)) : Option (List (List Nat)) :=
  if accepted vars [] loops then some (lower vars [] (fun _ => 0) loops) else none

end Verif.Unroll
