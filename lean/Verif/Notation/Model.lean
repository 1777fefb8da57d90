import Verif.Notation.Syntax
import Verif.Recover.Model

/-!
# Model of the notation checks

`isEinsumNotation`, `isReductionNotation`, `isReductionNotationScheduled` and `isConcreteNotation` of
`src/index_notation/index_notation.cpp`.  The texts they give as reasons are left out.  A rule of a
`Matcher` that takes no context runs and then goes on to the parts of the node; a rule with a context decides
itself (include/taco/index_notation/index_notation_visitor.h:135-144).
-/

namespace Verif.Notation

open Verif.Recover

/-- The rules of `isEinsumNotation` on an expression; `mul` is `mulnodeVisited`.
src/index_notation/index_notation.cpp:2746-2795. -/
def einsumExpr : Bool → Expr → Bool
  | _, .lit => true
  | _, .access _ => true
  | _, .ivar _ => true
  | mul, .unary a => einsumExpr mul a
  | mul, .add a b => if mul then false else einsumExpr mul a && einsumExpr mul b
  | mul, .sub a b => if mul then false else einsumExpr mul a && einsumExpr mul b
  | _, .mul a b => einsumExpr true a && einsumExpr true b
  | _, .div _ _ => false
  | mul, .call a => einsumExpr mul a
  | _, .args => true
  | mul, .arg a b => einsumExpr mul a && einsumExpr mul b
  | _, .reduction _ _ => false

/-- `isEinsumNotation`: src/index_notation/index_notation.cpp:2732-2796. -/
def isEinsumNotation : Stmt → Bool
  | .assign _ _ rhs valid => valid && einsumExpr false rhs
  | _ => false

/-- The rules of `isReductionNotation` on an expression; `bound` is `boundVars` (a set with scopes, property
C37).  src/index_notation/index_notation.cpp:2820-2837. -/
def reductionExpr : List Var → Expr → Bool
  | _, .lit => true
  | bound, .access vars => vars.all bound.contains
  | _, .ivar _ => true
  | bound, .unary a => reductionExpr bound a
  | bound, .add a b => reductionExpr bound a && reductionExpr bound b
  | bound, .sub a b => reductionExpr bound a && reductionExpr bound b
  | bound, .mul a b => reductionExpr bound a && reductionExpr bound b
  | bound, .div a b => reductionExpr bound a && reductionExpr bound b
  | bound, .call a => reductionExpr bound a
  | _, .args => true
  | bound, .arg a b => reductionExpr bound a && reductionExpr bound b
  | bound, .reduction v a => reductionExpr (v :: bound) a

/-- `isReductionNotation`: src/index_notation/index_notation.cpp:2798-2839. -/
def isReductionNotation : Stmt → Bool
  | .assign lhs _ rhs valid => valid && reductionExpr lhs rhs
  | _ => false

/-- `getFullyDerivedDescendants`: src/index_notation/provenance_graph.cpp:956-969. -/
def fullyDerivedDescendants (rels : List Rel) : Nat → Var → List Var
  | 0, _ => []
  | n + 1, v =>
    if (getChildren rels v).isEmpty then [v]
    else (getChildren rels v).flatMap (fullyDerivedDescendants rels n)

/-- `getUnderivedAncestors`: src/index_notation/provenance_graph.cpp:971-984. -/
def underivedAncestors (rels : List Rel) : Nat → Var → List Var
  | 0, _ => []
  | n + 1, v =>
    if (getParents rels v).isEmpty then [v]
    else (getParents rels v).flatMap (underivedAncestors rels n)

/-- One variable of an access in `isReductionNotationScheduled`: the new value of `isReduction`.
src/index_notation/index_notation.cpp:2872-2895. -/
def scheduledVar (rels : List Rel) (bound : List Var) (isReduction : Bool) (v : Var) : Bool :=
  if !bound.contains v then
    let related := if isFullyDerived rels v then underivedAncestors rels (rels.length + 1) v
      else fullyDerivedDescendants rels (rels.length + 1) v
    let found := related.foldl (fun r w => if bound.contains w then true else r) isReduction
    -- the statement behind the branches runs in any case
    (fun _ => false) found
  else isReduction

/-- The rules of `isReductionNotationScheduled`; the flag is passed along because accesses assign to it.
src/index_notation/index_notation.cpp:2863-2897. -/
def scheduledExpr (rels : List Rel) : List Var → Bool → Expr → Bool
  | _, flag, .lit => flag
  | bound, flag, .access vars => vars.foldl (scheduledVar rels bound) flag
  | _, flag, .ivar _ => flag
  | bound, flag, .unary a => scheduledExpr rels bound flag a
  | bound, flag, .add a b => scheduledExpr rels bound (scheduledExpr rels bound flag a) b
  | bound, flag, .sub a b => scheduledExpr rels bound (scheduledExpr rels bound flag a) b
  | bound, flag, .mul a b => scheduledExpr rels bound (scheduledExpr rels bound flag a) b
  | bound, flag, .div a b => scheduledExpr rels bound (scheduledExpr rels bound flag a) b
  | bound, flag, .call a => scheduledExpr rels bound flag a
  | _, flag, .args => flag
  | bound, flag, .arg a b => scheduledExpr rels bound (scheduledExpr rels bound flag a) b
  | bound, flag, .reduction v a => scheduledExpr rels (v :: bound) flag a

/-- `isReductionNotationScheduled`: src/index_notation/index_notation.cpp:2841-2900. -/
def isReductionNotationScheduled (rels : List Rel) : Stmt → Bool
  | .assign lhs _ rhs valid => valid && scheduledExpr rels lhs true rhs
  | _ => false

/-- A variable that the rules for accesses and index variables accept.
src/index_notation/index_notation.cpp:2928-2929, 2938-2939. -/
def usable (rels : List Rel) (bound defined : List Var) (v : Var) : Bool :=
  !(!bound.contains v && isUnderived rels v && (isFullyDerived rels v || !isRecoverable rels v defined))

/-- The rules of `isConcreteNotation` on an expression.
src/index_notation/index_notation.cpp:2925-2942, 2990-2993. -/
def concreteExpr (rels : List Rel) (bound defined : List Var) : Expr → Bool
  | .lit => true
  | .access vars => vars.all (usable rels bound defined)
  | .ivar v => usable rels bound defined v
  | .unary a => concreteExpr rels bound defined a
  | .add a b => concreteExpr rels bound defined a && concreteExpr rels bound defined b
  | .sub a b => concreteExpr rels bound defined a && concreteExpr rels bound defined b
  | .mul a b => concreteExpr rels bound defined a && concreteExpr rels bound defined b
  | .div a b => concreteExpr rels bound defined a && concreteExpr rels bound defined b
  | .call a => concreteExpr rels bound defined a
  | .args => true
  | .arg a b => concreteExpr rels bound defined a && concreteExpr rels bound defined b
  | .reduction _ _ => false

/-- The variables of the accesses of an expression, in order. -/
def accessVars : Expr → List Var
  | .lit => []
  | .access vars => vars
  | .ivar _ => []
  | .unary a => accessVars a
  | .add a b => accessVars a ++ accessVars b
  | .sub a b => accessVars a ++ accessVars b
  | .mul a b => accessVars a ++ accessVars b
  | .div a b => accessVars a ++ accessVars b
  | .call a => accessVars a
  | .args => []
  | .arg a b => accessVars a ++ accessVars b
  | .reduction _ a => accessVars a

/-- `getReductionVars`: the variables of the accesses that are not on the left-hand side (repetitions do not
matter and are kept).  src/index_notation/index_notation.cpp:2114-2129. -/
def reductionVars (lhs : List Var) (rhs : Expr) : List Var :=
  (accessVars rhs).filter (fun v => !lhs.contains v)

/-- `numReductionVars > 0`: src/index_notation/index_notation.cpp:2962-2975. -/
def sums (rels : List Rel) (lhs : List Var) (rhs : Expr) : Bool :=
  (reductionVars lhs rhs).any fun v =>
    (underivedAncestors rels (rels.length + 1) v).any fun p => !lhs.contains p

/-- The rule for assignments: src/index_notation/index_notation.cpp:2953-2989. -/
def concreteAssign (rels : List Rel) (producer consumer : Bool) (bound defined : List Var) (lhs : List Var)
    (compound : Bool) (rhs : Expr) (valid : Bool) : Bool :=
  if !consumer && !producer && !valid then false
  else if sums rels lhs rhs && !compound && !producer then false
  else lhs.all (usable rels bound defined) && concreteExpr rels bound defined rhs

/-- The rules of `isConcreteNotation` on a statement below the root.  `producer` and `consumer` are
`inWhereProducer` and `inWhereConsumer`; `bound` has scopes, `defined` does not: the second component is its
value after the statement.  src/index_notation/index_notation.cpp:2914-3006. -/
def concreteStmt (rels : List Rel) : Bool → Bool → List Var → List Var → Stmt → Bool × List Var
  | producer, consumer, bound, defined, .assign lhs compound rhs valid =>
    (concreteAssign rels producer consumer bound defined lhs compound rhs valid, defined)
  | _, _, bound, defined, .yield _ e => (concreteExpr rels bound defined e, defined)
  | producer, consumer, bound, defined, .forall_ v s =>
    concreteStmt rels producer consumer (v :: bound) (v :: defined) s
  | producer, consumer, bound, defined, .where_ c p =>
    let r := concreteStmt rels true consumer bound defined p
    let q := concreteStmt rels producer true bound r.2 c
    (r.1 && q.1, q.2)
  | producer, consumer, bound, defined, .sequence d m =>
    let r := concreteStmt rels producer consumer bound defined d
    let q := concreteStmt rels producer consumer bound r.2 m
    (r.1 && q.1, q.2)
  | producer, consumer, bound, defined, .multi s t =>
    let r := concreteStmt rels producer consumer bound defined s
    let q := concreteStmt rels producer consumer bound r.2 t
    (r.1 && q.1, q.2)
  | producer, consumer, bound, defined, .assemble qs c =>
    let r := concreteStmt rels producer consumer bound defined qs
    let q := concreteStmt rels producer consumer bound r.2 c
    (r.1 && q.1, q.2)
  | producer, consumer, bound, defined, .assembleOnly c =>
    concreteStmt rels producer consumer bound defined c
  | producer, consumer, bound, defined, .suchThat s _ =>
    (false, (concreteStmt rels producer consumer bound defined s).2)

/-- `isConcreteNotation`: the provenance graph has the relations of a `suchThat` at the root, and only there is
one accepted.  src/index_notation/index_notation.cpp:2902-3008, src/index_notation/provenance_graph.cpp:912-940. -/
def isConcreteNotation : Stmt → Bool
  | .suchThat s rels => (concreteStmt rels false false [] [] s).1
  | s => (concreteStmt [] false false [] [] s).1

end Verif.Notation
