import Verif.Concrete.Syntax
/-
Model of the reordering of loops (src/index_notation/transformations.cpp 60-127, 698-796).
-/
namespace Verif.Concrete

variable {R : Type}

/-- Does the expression contain a reduction? -/
def hasRed : Expr R → Bool
  | .lit _ => false
  | .acc _ _ => false
  | .neg a => hasRed a
  | .add a b => hasRed a || hasRed b
  | .sub a b => hasRed a || hasRed b
  | .mul a b => hasRed a || hasRed b
  | .red _ _ => true

/-- `isConcreteNotation` (src/index_notation/index_notation.cpp 2902-3008): index variables
are bound by loops, there are no reductions, and outside producers a plain assignment has
all index variables of its right-hand side on the left.  `inP` is `inWhereProducer`.  The
check of dimensions and transpositions (`isValid`) is modelled elsewhere (Verif/LoopOrder);
there are no derived variables here. -/
def isConcrete : List Nat → Bool → Stmt R → Bool
  | bound, inP, .assign _ is plus e =>
    (plus || inP || e.varsAll.all is.contains) && is.all bound.contains &&
      e.varsAll.all bound.contains && !hasRed e
  | bound, inP, .loop i s => isConcrete (i :: bound) inP s
  | bound, inP, .wher c p => isConcrete bound true p && isConcrete bound inP c

/-- Index variables of the loops in the order in which a visitor meets them: the producer of
a where statement before the consumer (src/index_notation/index_notation_visitor.cpp
105-112). -/
def loopVars : Stmt R → List Nat
  | .assign _ _ _ _ => []
  | .loop i s => i :: loopVars s
  | .wher c p => loopVars p ++ loopVars c

/-- `matchFailed` (transformations.cpp 100-115): a loop that is not in the pattern comes after
one that is, before all have been found.  `found` is the size of `currentOrdering`. -/
def matchFails (pat : List Nat) : Nat → List Nat → Bool
  | _, [] => false
  | found, i :: is =>
    if pat.contains i then matchFails pat (found + 1) is
    else (decide (found > 0) && decide (found ≠ pat.length)) || matchFails pat found is

/-- Is it a loop? -/
def isLoop : Stmt R → Bool
  | .loop _ _ => true
  | _ => false

/-- `ForAllReplaceRewriter` (transformations.cpp 731-794).  The state is `elementsMatched`,
with `none` for −1.  The returned statement is `none` if it is undefined or contains an
undefined statement. -/
def replaceLoops (pat rep : List Nat) : Stmt R → Option Nat → Option (Stmt R) × Option Nat
  | .assign t is plus e, st => (some (.assign t is plus e), st)
  | .wher c p, st =>
    let p' := replaceLoops pat rep p st
    let c' := replaceLoops pat rep c p'.2
    (c'.1.bind fun c'' => p'.1.map fun p'' => .wher c'' p'', c'.2)
  | .loop i s, st =>
    match st with
    | none => (none, none)
    | some m =>
      match pat[m]? with
      | none =>
        let s' := replaceLoops pat rep s (some m)
        (s'.1.map (.loop i), s'.2)
      | some x =>
        if i = x then
          if m + 1 < pat.length && !isLoop s then (none, none)
          else
            let s' := replaceLoops pat rep s (some (m + 1))
            if m = 0 then (s'.1.map (loops rep), some 0) else s'
        else if m > 0 then (none, none)
        else
          let s' := replaceLoops pat rep s (some m)
          (s'.1.map (.loop i), s'.2)

/-- What a transformation returns: an error, a statement that contains an undefined
statement, or a statement. -/
inductive Outcome (R : Type) where
  | error
  | broken
  | ok (s : Stmt R)
  deriving DecidableEq

/-- The result of the rewriter: an error if it failed at the end or nothing was replaced
(transformations.cpp 741-752). -/
def replaceResult (found : Bool) : Option (Stmt R) × Option Nat → Outcome R
  | (_, none) => .error
  | (r, some _) => if found then (match r with | none => .broken | some s => .ok s) else .error

/-- `ForAllReplace::apply` (transformations.cpp 721-796).  A statement is replaced as soon as
there is a loop over the first variable of the pattern. -/
def forAllReplace (pat rep : List Nat) (s : Stmt R) : Outcome R :=
  if isConcrete [] false s then
    replaceResult (pat.head?.any (loopVars s).contains) (replaceLoops pat rep s (some 0))
  else .error

/-- `currentOrdering` (transformations.cpp 98-115). -/
def currentOrdering (pat : List Nat) (s : Stmt R) : List Nat :=
  (loopVars s).filter pat.contains

/-- `Reorder::apply` for a list of variables (transformations.cpp 90-127).  An empty list
trips an assertion, which counts as an error. -/
def reorder (pat : List Nat) (s : Stmt R) : Outcome R :=
  if isConcrete [] false s then
    if matchFails pat 0 (loopVars s) || decide ((currentOrdering pat s).length ≠ pat.length) then
      .error
    else forAllReplace (currentOrdering pat s) pat s
  else .error

/-- `Reorder::apply` for two variables: they are swapped if they are in the given order
already (transformations.cpp 117-120). -/
def reorder2 (i j : Nat) (s : Stmt R) : Outcome R :=
  reorder (if currentOrdering [i, j] s = [i, j] then [j, i] else [i, j]) s

end Verif.Concrete
