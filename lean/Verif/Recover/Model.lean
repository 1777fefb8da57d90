import Verif.Recover.Syntax

/-!
# Model of how the lowerer recovers index variables

`ProvenanceGraph` of `src/index_notation/provenance_graph.cpp` and the recovery steps of `lowerForall`
(`src/lower/lowerer_impl_imperative.cpp`).  The functions of the graph recurse along the relations; here they
take a number of steps (`fuel`), which callers set to one more than the number of relations.  The
theorems are about schedules, for which this is always enough (part of the proofs).
-/

namespace Verif.Recover

/-- `childRelMap.at(v)`: the last relation that has `v` as a parent (later relations overwrite entries).
src/index_notation/provenance_graph.cpp:926-931. -/
def childRel (rels : List Rel) (v : Var) : Option Rel :=
  rels.reverse.find? (fun r => r.parents.contains v)

/-- `parentRelMap.at(v)`: the last relation that has `v` as a child.
src/index_notation/provenance_graph.cpp:933-937. -/
def parentRel (rels : List Rel) (v : Var) : Option Rel :=
  rels.reverse.find? (fun r => r.children.contains v)

/-- `getChildren`: src/index_notation/provenance_graph.cpp:942-947. -/
def getChildren (rels : List Rel) (v : Var) : List Var :=
  match childRel rels v with
  | some r => r.children
  | none => []

/-- `getParents`: src/index_notation/provenance_graph.cpp:949-954. -/
def getParents (rels : List Rel) (v : Var) : List Var :=
  match parentRel rels v with
  | some r => r.parents
  | none => []

/-- `isUnderived`: src/index_notation/provenance_graph.cpp:1092-1094. -/
def isUnderived (rels : List Rel) (v : Var) : Bool := (getParents rels v).isEmpty

/-- `isFullyDerived`: src/index_notation/provenance_graph.cpp:1108-1110. -/
def isFullyDerived (rels : List Rel) (v : Var) : Bool := (getChildren rels v).isEmpty

/-- The type of an optional relation is `k`. -/
def hasKind (k : Kind) : Option Rel → Bool
  | some r => r.kind == k
  | none => false

/-- `isRecoverablePrecompute`; `defined` is a set.  When a precompute relation has no child the code reads
past the end of a vector; relations always have children.
src/index_notation/provenance_graph.cpp:1139-1160. -/
def recoverableFuel (rels : List Rel) : Nat → Var → List Var → List Var → List Var → Bool
  | 0, _, _, _, _ => false
  | n + 1, v, defined, producers, consumers =>
    if consumers.contains v then true
    else if !producers.isEmpty && hasKind .precompute (childRel rels v) then
      match getChildren rels v with
      | c :: _ => if producers.contains c then true else recoverableFuel rels n c defined producers consumers
      | [] => false
    else
      (getChildren rels v).all fun c =>
        defined.contains c || (!isFullyDerived rels c && recoverableFuel rels n c defined producers consumers)

/-- `consumers` of `isRecoverable`: src/index_notation/provenance_graph.cpp:1125-1130. -/
def consumersOf (rels : List Rel) (defined : List Var) : List Var :=
  defined.filter (fun d => hasKind .precompute (childRel rels d))

/-- `producers` of `isRecoverable`: src/index_notation/provenance_graph.cpp:1125-1134. -/
def producersOf (rels : List Rel) (defined : List Var) : List Var :=
  defined.filter (fun d => hasKind .precompute (parentRel rels d))

/-- `isRecoverable`: src/index_notation/provenance_graph.cpp:1121-1137. -/
def isRecoverable (rels : List Rel) (v : Var) (defined : List Var) : Bool :=
  recoverableFuel rels (rels.length + 1) v defined (producersOf rels defined) (consumersOf rels defined)

/-- `isPosVariable`: src/index_notation/provenance_graph.cpp:1261-1271. -/
def isPosVariable (rels : List Rel) : Nat → Var → Bool
  | 0, _ => false
  | n + 1, v =>
    if isUnderived rels v then false
    else if hasKind .pos (parentRel rels v) then true
    else (getParents rels v).any (isPosVariable rels n)

/-- The variable keeps irregularity through the relation that made it:
src/index_notation/provenance_graph.cpp:1076-1082. -/
def keepsIrregular (v : Var) : Option Rel → Bool
  | some r => r.irregulars.contains v
  | none => false

/-- `isIrregular`: src/index_notation/provenance_graph.cpp:1071-1090. -/
def isIrregular (rels : List Rel) : Nat → Var → Bool
  | 0, _ => false
  | n + 1, v =>
    if isUnderived rels v then true
    else keepsIrregular v (parentRel rels v) && (getParents rels v).any (isIrregular rels n)

/-- `getIrregularDescendant`: the first fully derived irregular variable below.
src/index_notation/provenance_graph.cpp:986-997. -/
def irregularDescendant (rels : List Rel) : Nat → Var → Option Var
  | 0, _ => none
  | n + 1, v =>
    if isFullyDerived rels v && isIrregular rels (rels.length + 1) v then some v
    else (getChildren rels v).findSome? (irregularDescendant rels n)

/-- The case that is left to the while loop over fused positions: the outer variable of a fuse whose loop runs
over positions.  src/index_notation/provenance_graph.cpp:1337-1344. -/
def leftToWhile (rels : List Rel) (v parent : Var) : Bool :=
  hasKind .fuse (parentRel rels v) &&
    match irregularDescendant rels (rels.length + 1) v with
    | some d => isPosVariable rels (rels.length + 1) d && !isPosVariable rels (rels.length + 1) parent &&
        (getParents rels v).head? == some parent
    | none => false

/-- `newlyRecoverableParents`: note that the recursive call passes on `previouslyDefined` without the
variable itself.  src/index_notation/provenance_graph.cpp:1324-1352. -/
def newlyRecoverable (rels : List Rel) : Nat → Var → List Var → List Var
  | 0, _, _ => []
  | n + 1, v, previous =>
    if isUnderived rels v then []
    else
      (getParents rels v).flatMap fun p =>
        if leftToWhile rels v p then []
        else if !isRecoverable rels p previous && isRecoverable rels p (v :: previous) then
          p :: newlyRecoverable rels n p previous
        else []

/-- The variables that nested loops declare, from the outside in: every loop declares its variable in its
header and then, at the start of its body, the variables that became recoverable.  `previous` is
`definedIndexVars`, which only loops extend (recovered variables are not added).
src/lower/lowerer_impl_imperative.cpp:661-682, 761-763. -/
def declareFrom (rels : List Rel) : List Var → List Var → List Var
  | _, [] => []
  | previous, l :: rest =>
    l :: newlyRecoverable rels (rels.length + 1) l previous ++ declareFrom rels (l :: previous) rest

/-- The declarations of a nest of loops around a statement. -/
def declarations (rels : List Rel) (loops : List Var) : List Var := declareFrom rels [] loops

end Verif.Recover
