import Verif.Kernel.Spec
/-!
Statements that temporaries are inserted into: what concrete index notation without windows, index sets and operators other
than addition is (`isConcreteNotation`, src/index_notation/index_notation.cpp 2863-2986). What statements compute is in
`Verif/Kernel/Spec.lean`, what a program computes in `Verif/EndToEnd/Spec.lean`.
-/
namespace Verif.Spmm
open Verif.Kernel

/-- Whole tensors are accessed, with one index variable per dimension. -/
def WholeAccess (shape : Nat → List Nat) (t : Nat) (structure_ : Bool) (is : List Nat) (ms : List Mode) : Prop :=
  structure_ = false ∧ is.length = (shape t).length ∧ ms = is.map (fun _ => Mode.plain)

/-- All accesses of an expression are to whole tensors. -/
def WholeExpr (shape : Nat → List Nat) : Expr → Prop
  | .lit _ => True
  | .idx _ => True
  | .acc t s is ms => WholeAccess shape t s is ms
  | .un _ a => WholeExpr shape a
  | .bin _ a b => WholeExpr shape a ∧ WholeExpr shape b
  | .red _ _ a => WholeExpr shape a

/-- Loops have different variables, results are not read by the assignments to them, an assignment inside of a loop over a
variable it does not store to is `+=`, and all accesses are to whole tensors. `bound` are the variables of the loops outside. -/
def Plain (shape : Nat → List Nat) (add : Nat) : List Nat → Stmt → Prop
  | bound, .assign t s is ms op e => WholeAccess shape t s is ms ∧ WholeExpr shape e ∧ t ∉ e.accs.map Prod.fst ∧
    ((∀ v ∈ bound, v ∈ is) ∨ op = some add)
  | bound, .loop i _ s => i ∉ bound ∧ Plain shape add (i :: bound) s
  | bound, .wher c p => Plain shape add bound c ∧ Plain shape add bound p
  | bound, .seq d m => Plain shape add bound d ∧ Plain shape add bound m
  | bound, .multi s r => Plain shape add bound s ∧ Plain shape add bound r

end Verif.Spmm
