import Verif.Concrete.Semantics
/-
Specification of einsum notation: a right-hand side is a sum of terms, and each term is
summed over the index variables that occur in it and not on the left-hand side.
-/
namespace Verif.Concrete

variable {R : Type} [CommRing R]

/-- The value of a right-hand side in einsum notation; `free` are the index variables of the
left-hand side. -/
def einsum (dim : Nat → Nat) (σ : Store R) (free : List Nat) : Expr R → Env → R
  | .add a b, ρ => einsum dim σ free a ρ + einsum dim σ free b ρ
  | .sub a b, ρ => einsum dim σ free a ρ - einsum dim σ free b ρ
  | .neg a, ρ => - einsum dim σ free a ρ
  | e, ρ => sumOver dim (e.vars.filter (fun i => !free.contains i)) (fun ρ => eval dim σ ρ e) ρ

/-- The terms of a right-hand side. -/
def terms : Expr R → List (Expr R)
  | .add a b => terms a ++ terms b
  | .sub a b => terms a ++ terms b
  | .neg a => terms a
  | e => [e]

/-- All terms have the same variables apart from free ones. -/
def Uniform (free : List Nat) (e : Expr R) : Prop :=
  ∀ x ∈ terms e, ∀ i ∈ e.varsAll, i ∈ free ∨ i ∈ x.varsAll

/-- The operands of the outermost addition or subtraction. -/
def topOperands : Expr R → List (Expr R)
  | .add a b => [a, b]
  | .sub a b => [a, b]
  | .neg a => topOperands a
  | _ => []

end Verif.Concrete
