/-!
# Relations between index variables

What `split`, `divide`, `fuse`, `bound`, `pos` and `precompute` record about index variables: the variables
they replace (the parents) and the variables that take their place (the children).
-/

namespace Verif.Recover

/-- An index variable: include/taco/index_notation/index_notation.h (`IndexVar`), compared by identity. -/
abbrev Var := Nat

/-- `IndexVarRelType` (`UNDEFINED` left out): include/taco/index_notation/provenance_graph.h:8. -/
inductive Kind where
  | split | divide | pos | fuse | bound | precompute
  deriving Repr, DecidableEq

/-- `IndexVarRel`: split and divide have one parent and two children (outer, inner), fuse has two parents and
one child, the others one of each.  Factors, bounds and accesses are left out: they do not matter for which
variables can be computed from which.  include/taco/index_notation/provenance_graph.h:28-330. -/
inductive Rel where
  | split (parent outer inner : Var)
  | divide (parent outer inner : Var)
  | pos (parent child : Var)
  | fuse (outer inner child : Var)
  | bound (parent child : Var)
  | precompute (parent child : Var)
  deriving Repr, DecidableEq

/-- `getRelType`: the type a node was made with, include/taco/index_notation/provenance_graph.h:28-60. -/
def Rel.kind : Rel → Kind
  | .split .. => .split
  | .divide .. => .divide
  | .pos .. => .pos
  | .fuse .. => .fuse
  | .bound .. => .bound
  | .precompute .. => .precompute

/-- `getParents`: src/index_notation/provenance_graph.cpp:155, 306, 440, 646, 764, 854. -/
def Rel.parents : Rel → List Var
  | .split p _ _ => [p]
  | .divide p _ _ => [p]
  | .pos p _ => [p]
  | .fuse a b _ => [a, b]
  | .bound p _ => [p]
  | .precompute p _ => [p]

/-- `getChildren`: src/index_notation/provenance_graph.cpp:159, 310, 444, 650, 768, 858. -/
def Rel.children : Rel → List Var
  | .split _ a b => [a, b]
  | .divide _ a b => [a, b]
  | .pos _ c => [c]
  | .fuse _ _ f => [f]
  | .bound _ c => [c]
  | .precompute _ c => [c]

/-- `getIrregulars`: src/index_notation/provenance_graph.cpp:163, 314, 448, 654, 772, 862. -/
def Rel.irregulars : Rel → List Var
  | .split _ a _ => [a]
  | .divide _ a _ => [a]
  | .pos _ c => [c]
  | .fuse _ _ f => [f]
  | .bound _ c => [c]
  | .precompute _ c => [c]

end Verif.Recover
