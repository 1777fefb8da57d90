import Verif.Concrete.Reorder.Spec
/-
Specification for scalar promotion: conditions on statements.
-/
namespace Verif.Concrete

variable {R : Type}

/-- All tensors of a statement have numbers below `n`. -/
def Stmt.tensorsBelow (n : Nat) : Stmt R → Prop
  | .assign t _ _ e => t < n ∧ ∀ u ∈ e.tensors, u < n
  | .loop _ s => s.tensorsBelow n
  | .wher c p => c.tensorsBelow n ∧ p.tensorsBelow n

/-- The tensors that a statement computes, temporaries included. -/
def Stmt.computed : Stmt R → List Nat
  | .assign t _ _ _ => [t]
  | .loop _ s => s.computed
  | .wher c p => c.computed ++ p.computed

/-- No tensor is computed by a consumer and by its producer. -/
def Stmt.distinct : Stmt R → Prop
  | .assign _ _ _ _ => True
  | .loop _ s => s.distinct
  | .wher c p => c.distinct ∧ p.distinct ∧ c.target ∉ p.computed

/-- In every loop the result is accumulated, or stored at coordinates that are different in
all iterations. -/
def Stmt.singleWrite : Stmt R → Prop
  | .assign _ _ _ _ => True
  | .loop i s => (s.accumulates = true ∨ i ∈ s.targetVars) ∧ s.singleWrite
  | .wher c p => c.singleWrite ∧ p.singleWrite

/-- Below the loops `above`, no loop writes again and again to one component of a tensor that
is not a scalar: where all coordinates are fixed outside a loop, the loop writes a scalar. -/
def Stmt.promoted : List Nat → Stmt R → Prop
  | _, .assign _ _ _ _ => True
  | above, .loop i s =>
    ((∀ j ∈ s.targetVars, j ∈ above) → s.targetVars = []) ∧ s.promoted (i :: above)
  | above, .wher c p => c.promoted above ∧ p.promoted above

end Verif.Concrete
