/-
Model of the iteration algebra and of operator properties:
* the De Morgan rewriting of iteration-space descriptions,
* `Annihilator::annihilates` and `Identity::simplify`,
* the iteration space inferred from an operator's properties,
* what the zero rewriter does to a call of a user-defined operator,
* the early exit of reduction loops.
-/
namespace Verif.Algebra

/-! ### Iteration algebra -/

/-- Iteration-space descriptions (include/taco/index_notation/iteration_algebra.h
43-150: `Region`, `Complement`, `Intersect`, `Union`).  A region is named by the
number of the operand it belongs to. -/
inductive Alg where
  | region (n : Nat)
  | compl (a : Alg)
  | inter (a b : Alg)
  | union (a b : Alg)
  deriving DecidableEq, Repr

mutual

/-- `DeMorganApplier` (src/index_notation/iteration_algebra.cpp 254-280): the
description of the complement.  `applyDemorgan(Complement(x))` in `binaryVisit` is
`DeMorganDispatcher` on a complement, which calls `DeMorganApplier` on `x`. -/
def applier : Alg → Alg
  | .region n => .compl (.region n)
  | .compl a => dispatch a
  | .inter a b => .union (applier a) (applier b)
  | .union a b => .inter (applier a) (applier b)

/-- `DeMorganDispatcher` = `applyDemorgan` (iteration_algebra.cpp 282-300): a
complement is handed to `DeMorganApplier`, everything else is rewritten in its parts
(`IterationAlgebraRewriter`, 137-180). -/
def dispatch : Alg → Alg
  | .region n => .region n
  | .compl a => applier a
  | .inter a b => .inter (dispatch a) (dispatch b)
  | .union a b => .union (dispatch a) (dispatch b)

end

/-! ### Operator properties -/

/-- The arguments of an operator call as far as the property code looks at them:
literals are compared by value, other expressions only by identity
(src/index_notation/index_notation.cpp 625-1008 `equals`; an expression that is not
a literal never equals one). -/
inductive Arg (V : Type) where
  | lit (v : V)
  | expr (n : Nat)
  deriving DecidableEq, Repr

/-- A declared annihilator or identity: its value and the argument positions it
applies to, empty for all of them
(src/index_notation/property_pointers.cpp 7-15). -/
structure Decl (V : Type) where
  val : V
  positions : List Nat

/-- The positions that are looked at: all of them when none are declared
(src/index_notation/properties.cpp 68-73 and 122-127). -/
def Decl.pos {V} (p : Decl V) (n : Nat) : List Nat :=
  if p.positions.isEmpty then List.range n else p.positions

/-- The scan of `Annihilator::annihilates` (properties.cpp 75-80).  The outer
`Option` is `none` for the failed `taco_uassert` on a position past the end. -/
def annScan {V} [DecidableEq V] (a : V) (args : List (Arg V)) :
    List Nat → Option (Option (Arg V))
  | [] => some none
  | i :: rest =>
    match args[i]? with
    | none => none
    | some e => if e = .lit a then some (some (.lit a)) else annScan a args rest

/-- `Annihilator::annihilates` (properties.cpp 66-84): the annihilator if one of the
arguments looked at is it, otherwise an undefined expression (inner `none`). -/
def annihilates {V} [DecidableEq V] (p : Decl V) (args : List (Arg V)) :
    Option (Option (Arg V)) :=
  annScan p.val args (p.pos args.length)

/-- The scan of `Identity::simplify` (properties.cpp 130-138): the number of
arguments looked at that are not the identity and the last of them.  The outer
`none` stands for the unchecked access past the end; more than one such argument
makes the whole call return an undefined expression, here a count of 2. -/
def idScan {V} [DecidableEq V] (e : V) (args : List (Arg V)) :
    List Nat → Nat → Option (Arg V) → Option (Nat × Option (Arg V))
  | [], k, t => some (k, t)
  | i :: rest, k, t =>
    match args[i]? with
    | none => none
    | some x =>
      if x = .lit e then idScan e args rest k t
      else if k = 0 then idScan e args rest 1 (some x)
      else some (2, some x)

/-- What `Identity::simplify` returns after the scan (properties.cpp 140-151).
`exprs.size() - 1` is computed in `size_t`; with no arguments it wraps around, which
no count reaches, hence the explicit `n ≠ 0`. -/
def idResult {V} (e : V) (n looked : Nat) : Nat × Option (Arg V) → Option (Arg V)
  | (k, t) =>
    if k > 1 then none
    else if k = 1 ∧ n ≠ 0 ∧ looked - k = n - 1 then t
    else if looked - k = n then some (.lit e)
    else none

/-- `Identity::simplify` (properties.cpp 113-154). -/
def simplify {V} [DecidableEq V] (p : Decl V) (args : List (Arg V)) :
    Option (Option (Arg V)) :=
  (idScan p.val args (p.pos args.length) 0 none).map
    (idResult p.val args.length (p.pos args.length).length)

/-! ### A call of a user-defined operator in the zero rewriter -/

/-- An argument after rewriting: an argument that vanished becomes the literal zero
(src/index_notation/index_notation.cpp 3914-3931).  Arguments are literals or
accesses here; an access vanishes when it is among the exhausted ones. -/
def zeroArg {V} (zero : V) (exhausted : Nat → Bool) : Arg V → Arg V
  | .lit v => .lit v
  | .expr n => if exhausted n then .lit zero else .expr n

/-- What a rewritten call is: one of its arguments, a literal, or a call. -/
inductive Call (V : Type) where
  | arg (a : Arg V)
  | call (args : List (Arg V))
  deriving DecidableEq

/-- The end of the rewriting: the call with its rewritten arguments
(index_notation.cpp 3949-3957). -/
def keepCall {V} (args : List (Arg V)) : Option (Arg V) → Call V
  | some e => .arg e
  | none => .call args

/-- The identity part (index_notation.cpp 3941-3948). -/
def zeroIdentity {V} [DecidableEq V] (ident : Option (Decl V)) (args : List (Arg V)) :
    Option (Call V) :=
  match ident with
  | none => some (.call args)
  | some p => (simplify p args).map (keepCall args)

/-- The result of looking for the annihilator: it, or what the identity part says. -/
def orElseCall {V} (other : Option (Call V)) : Option (Arg V) → Option (Call V)
  | some e => some (.arg e)
  | none => other

/-- `Zero::visit(CallNode)` (index_notation.cpp 3906-3959): rewrite the arguments,
replace the call by the annihilator if an argument is it, then by what
`Identity::simplify` returns, otherwise keep it. -/
def zeroCall {V} [DecidableEq V] (zero : V) (ann ident : Option (Decl V))
    (exhausted : Nat → Bool) (args : List (Arg V)) : Option (Call V) :=
  let args' := args.map (zeroArg zero exhausted)
  match ann with
  | none => zeroIdentity ident args'
  | some p => (annihilates p args').bind (orElseCall (zeroIdentity ident args'))

/-! ### The iteration space inferred from the properties -/

/-- The fold over the arguments' regions
(src/index_notation/tensor_operator.cpp 80-83, 113-116, 137-140). -/
def foldAlg (c : Alg → Alg → Alg) : List Nat → Option Alg
  | [] => none
  | n :: rest => some (rest.foldl (fun a m => c a (.region m)) (.region n))

/-- `constructDefaultAlgebra` (tensor_operator.cpp 77-87): everything.  For no
arguments it is an empty region, which is not modelled (`none`). -/
def defaultAlg (n : Nat) : Option Alg :=
  (foldAlg .union (List.range n)).map (fun t => .union t (.compl t))

/-- The arguments whose inferred fill value is the annihilator
(tensor_operator.cpp 97-109).  `fills` are the inferred fill values, `none` where
`inferFill` returns an undefined expression.  The outer `none` is the unchecked
access past the end. -/
def toIntersect {V} [DecidableEq V] (a : V) (fills : List (Option V)) :
    List Nat → Option (List Nat)
  | [] => some []
  | i :: rest =>
    match fills[i]? with
    | none => none
    | some f => (toIntersect a fills rest).map
        (fun l => if f = some a then i :: l else l)

/-- `constructAnnihilatorAlg` (tensor_operator.cpp 89-121); the inner `none` is an
undefined algebra. -/
def annihilatorAlg {V} [DecidableEq V] (p : Decl V) (fills : List (Option V)) :
    Option (Option Alg) :=
  if fills.length < 2 then some none
  else (toIntersect p.val fills (p.pos fills.length)).map (foldAlg .inter)

/-- `constructIdentityAlg` (tensor_operator.cpp 123-142): the fill values are only
looked at when no positions are declared. -/
def identityAlg {V} [DecidableEq V] (p : Decl V) (fills : List (Option V)) : Option Alg :=
  if fills.length < 2 then none
  else if p.positions.isEmpty ∧ ¬ fills.all (fun f => f = some p.val) then none
  else foldAlg .union (List.range fills.length)

/-- The identity part of `inferAlgFromProperties` (tensor_operator.cpp 66-74). -/
def identityOrDefault {V} [DecidableEq V] (ident : Option (Decl V))
    (fills : List (Option V)) : Option Alg :=
  match ident with
  | none => defaultAlg fills.length
  | some p =>
    match identityAlg p fills with
    | some alg => some alg
    | none => defaultAlg fills.length

/-- `Func::inferAlgFromProperties` (tensor_operator.cpp 51-75). -/
def inferAlg {V} [DecidableEq V] (ann ident : Option (Decl V)) (fills : List (Option V)) :
    Option Alg :=
  match ann with
  | none => identityOrDefault ident fills
  | some p =>
    match annihilatorAlg p fills with
    | none => none
    | some (some alg) => some alg
    | some none => identityOrDefault ident fills

/-! ### Early exit from reduction loops -/

/-- A loop nest around one statement `result(lhs) op= rhs`: loop variables with
their extents from the outermost loop to the innermost, the variables that index the
result, and the value of the right-hand side for given values of the loop variables
(`none` where the sparse loops do not reach the statement). -/
structure Nest (V : Type) where
  loops : List (Nat × Nat)
  lhs : List Nat
  rhs : (Nat → Nat) → Option V

/-- The scan in `allForFreeLoopsBeforeAllReductionLoops`
(src/index_notation/index_notation.cpp 3441-3452). -/
def freeFirst (free : List Nat) : Bool → List Nat → Bool
  | _, [] => true
  | seen, v :: rest =>
    if free.contains v then (if seen then false else freeFirst free seen rest)
    else freeFirst free true rest

/-- `allForFreeLoopsBeforeAllReductionLoops` (index_notation.cpp 3415-3453) for one
statement in a loop nest. -/
def shortCircuitAllowed {V} (n : Nest V) : Bool :=
  freeFirst n.lhs false (n.loops.map Prod.fst)

/-- Setting one location of the result. -/
def put {V} (s : List Nat → V) (k : List Nat) (v : V) : List Nat → V :=
  fun k' => if k' = k then v else s k'

/-- Setting a loop variable. -/
def setVar (env : Nat → Nat) (v x : Nat) : Nat → Nat :=
  fun w => if w = v then x else env w

/-- The statement and what `emitEarlyExit` puts after it
(src/lower/lowerer_impl_imperative.cpp 470-488, 526-545, 2957-2965): the operator is
applied to the old value and the right-hand side; with `exit = some a` a `break`
follows when the new value is `a`.  Returns the new result and whether to break. -/
def stmt {V} [DecidableEq V] (op : List V → V) (exit : Option V) (lhs : List Nat)
    (rhs : (Nat → Nat) → Option V) (env : Nat → Nat) (s : List Nat → V) :
    (List Nat → V) × Bool :=
  match rhs env with
  | none => (s, false)
  | some r =>
    let v := op [s (lhs.map env), r]
    (put s (lhs.map env) v, exit = some v)

/-- The iterations of one loop: they end at the first body that breaks. -/
def iterate {S : Type} (body : Nat → S → S × Bool) : Nat → Nat → S → S
  | 0, _, s => s
  | n + 1, x, s =>
    match body x s with
    | (s', true) => s'
    | (s', false) => iterate body n (x + 1) s'

/-- A loop nest; a `break` leaves the innermost loop only. -/
def run {V} [DecidableEq V] (op : List V → V) (exit : Option V) (lhs : List Nat)
    (rhs : (Nat → Nat) → Option V) :
    List (Nat × Nat) → (Nat → Nat) → (List Nat → V) → (List Nat → V) × Bool
  | [], env, s => stmt op exit lhs rhs env s
  | (v, n) :: rest, env, s =>
    (iterate (fun x s => run op exit lhs rhs rest (setVar env v x) s) n 0 s, false)

/-- The generated code: early exits are emitted when the loop order allows them and
the operator declares an annihilator, whatever its positions
(lowerer_impl_imperative.cpp 241 and 2957-2965). -/
def generated {V} [DecidableEq V] (op : List V → V) (ann : Option (Decl V)) (n : Nest V)
    (s : List Nat → V) : List Nat → V :=
  (run op (if shortCircuitAllowed n then ann.map Decl.val else none) n.lhs n.rhs n.loops
    (fun _ => 0) s).1

end Verif.Algebra
