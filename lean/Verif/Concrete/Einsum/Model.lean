import Verif.Concrete.Syntax
/-
Model of the steps from einsum notation to reduction notation to concrete notation
(src/index_notation/index_notation.cpp 2732-2796, 3010-3174).
-/
namespace Verif.Concrete

variable {R : Type}

/-- `isEinsumNotation` on the right-hand side (index_notation.cpp 2732-2796): no additions
below multiplications and no reductions.  `mul` is `mulnodeVisited`. -/
def isEinsum : Bool → Expr R → Bool
  | _, .lit _ => true
  | _, .acc _ _ => true
  | mul, .neg a => isEinsum mul a
  | mul, .add a b => !mul && isEinsum mul a && isEinsum mul b
  | mul, .sub a b => !mul && isEinsum mul a && isEinsum mul b
  | _, .mul a b => isEinsum true a && isEinsum true b
  | _, .red _ _ => false

/-- `addReductions` (index_notation.cpp 3024-3032). -/
def addReductions (free : List Nat) (e : Expr R) : Expr R :=
  (e.vars.filter (fun i => !free.contains i)).foldr .red e

/-- The rewriter with its flag `onlyOneTerm` (index_notation.cpp 3034-3073): the operands of
an addition are summed as they are, without looking into them. -/
def einsumRewrite (free : List Nat) : Expr R → Expr R × Bool
  | .lit r => (.lit r, true)
  | .acc t is => (.acc t is, true)
  | .neg a => (.neg (einsumRewrite free a).1, (einsumRewrite free a).2)
  | .add a b => (.add (addReductions free a) (addReductions free b), false)
  | .sub a b => (.sub (addReductions free a) (addReductions free b), false)
  | .mul a b => (.mul (einsumRewrite free a).1 (einsumRewrite free b).1,
      (einsumRewrite free a).2 && (einsumRewrite free b).2)
  | .red i a => (.red i (einsumRewrite free a).1, (einsumRewrite free a).2)

/-- `makeReductionNotation` on the right-hand side (index_notation.cpp 3010-3078). -/
def makeReduction (free : List Nat) (e : Expr R) : Expr R :=
  if isEinsum false e then
    if (einsumRewrite free e).2 then addReductions free (einsumRewrite free e).1
    else (einsumRewrite free e).1
  else e

/-- `isReductionNotation` on the right-hand side (index_notation.cpp 2798-2839): every index
variable is on the left-hand side or bound by a reduction. -/
def isReduction : List Nat → Expr R → Bool
  | _, .lit _ => true
  | bound, .acc _ is => is.all bound.contains
  | bound, .neg a => isReduction bound a
  | bound, .add a b => isReduction bound a && isReduction bound b
  | bound, .sub a b => isReduction bound a && isReduction bound b
  | bound, .mul a b => isReduction bound a && isReduction bound b
  | bound, .red i a => isReduction (i :: bound) a

/-- The sums around the whole right-hand side (index_notation.cpp 3143-3155). -/
def topVars : Expr R → List Nat
  | .red i a => i :: topVars a
  | _ => []

/-- What is below them. -/
def topBody : Expr R → Expr R
  | .red _ a => topBody a
  | e => e

/-- The first reduction of an expression, replaced by the scalar `t`, with its variable and
body: `ReplaceReductionsWithWheres::visit(const ReductionNode*)` (index_notation.cpp
3113-3123). -/
def pull (t : Nat) : Expr R → Option (Expr R × Nat × Expr R)
  | .lit _ => none
  | .acc _ _ => none
  | .neg a => (pull t a).map fun r => (.neg r.1, r.2)
  | .add a b =>
    match pull t a with
    | some r => some (.add r.1 b, r.2)
    | none => (pull t b).map fun r => (.add a r.1, r.2)
  | .sub a b =>
    match pull t a with
    | some r => some (.sub r.1 b, r.2)
    | none => (pull t b).map fun r => (.sub a r.1, r.2)
  | .mul a b =>
    match pull t a with
    | some r => some (.mul r.1 b, r.2)
    | none => (pull t b).map fun r => (.mul a r.1, r.2)
  | .red i a => some (.acc t [], i, a)

/-- How many reductions there are. -/
def reds : Expr R → Nat
  | .lit _ => 0
  | .acc _ _ => 0
  | .neg a => reds a
  | .add a b => reds a + reds b
  | .sub a b => reds a + reds b
  | .mul a b => reds a + reds b
  | .red _ a => reds a + 1

/-- `ReplaceReductionsWithWheres` on an assignment (index_notation.cpp 3091-3111).  `fuel` is
at least the number of reductions; `n` is the next unused tensor variable, and the one
after the last one used is returned. -/
def wheres : Nat → Nat → Nat → List Nat → Bool → Expr R → Stmt R × Nat
  | 0, n, t, is, plus, e => (.assign t is plus e, n)
  | fuel + 1, n, t, is, plus, e =>
    match pull n e with
    | none => (.assign t is plus e, n)
    | some (e', i, b) =>
      let c := wheres fuel (n + 1) t is plus e'
      let p := wheres fuel c.2 n [] true b
      (.wher c.1 (.loop i p.1), p.2)

/-- `makeConcreteNotation` (index_notation.cpp 3126-3174) on the assignment of `e` to the
tensor `t` at `is`; `n` is a tensor variable that is not used. -/
def makeConcrete (n t : Nat) (is : List Nat) (plus : Bool) (e : Expr R) : Stmt R :=
  loops is (loops (topVars e)
    (wheres (reds e) n t is (plus || !(topVars e).isEmpty) (topBody e)).1)

end Verif.Concrete
