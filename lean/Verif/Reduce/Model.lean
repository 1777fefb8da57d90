import Verif.Reduce.Spec
/-!
Reductions that cover the right-hand side of an assignment: `makeConcreteNotation`, src/index_notation/
index_notation.cpp 3126-3174 (`RemoveTopLevelReductions`), and the loops it makes. The right-hand side is
`Reduction(op1, i1, ... Reduction(opn, in, e))` where `e` is not a reduction.

Simplifications: `e` is a function of the values of the variables; one component of the result is looked at, so
the loops over free variables are left out; the environment variable TACO_CONCRETIZE_HACK is not set. What
the result is initialised with is a parameter (`Verif/Init`).
-/
namespace Verif.Reduce

variable {V : Type}

/-- The loop of `RemoveTopLevelReductions` over the reductions, 3140-3153: `topLevelReductions` and
`reductionOp`. -/
def removeTop : List (Op V × Nat) → List Nat → Option (Op V) → List Nat × Option (Op V)
  | [], vars, op => (vars, op)
  | (op, i) :: rs, vars, _ => removeTop rs (vars ++ [i]) (some op)

/-- The loops `forall(i1, ... forall(in, a op= e))` (3155-3160) on one component `a` of the result. Without
an operator the value is assigned. -/
def runLoops (size : Nat → Nat) (op : Option (Op V)) (e : Env → V) : List Nat → Env → V → V
  | [], ρ, a => match op with
    | none => e ρ
    | some op => op.f a (e ρ)
  | i :: is, ρ, a => (List.range (size i)).foldl (fun a x => runLoops size op e is (ρ.set i x) a) a

/-- The component that the concrete statement computes; `start` is what it is initialised with. -/
def concrete (size : Nat → Nat) (e : Env → V) (rs : List (Op V × Nat)) (ρ : Env) (start : V) : V :=
  let r := removeTop rs [] none
  runLoops size r.2 e r.1 ρ start

end Verif.Reduce
