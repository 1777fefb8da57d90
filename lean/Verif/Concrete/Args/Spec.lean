import Verif.Concrete.Semantics
/-
Specification: calling a kernel with arguments for its parameters.
-/
namespace Verif.Concrete

variable {R : Type} [CommRing R]

/-- The tensors as the kernel sees them: under the name of a parameter is the argument in its
place. -/
def passed (params args : List Nat) (σ : Store R) : Store R := fun t =>
  match (params.zip args).lookup t with
  | some u => σ u
  | none => fun _ => 0

/-- What the kernel for the statement `s` leaves in the first argument. -/
def call (dim : Nat → Nat) (s : Stmt R) (params args : List Nat) (σ : Store R) (ρ : Env) (t : Nat) :
    List Nat → R :=
  exec dim s ρ (passed params args σ) t

end Verif.Concrete
