import Verif.Concrete.Syntax
/-
Specification for precomputing: which expressions depend linearly on a marker.
-/
namespace Verif.Concrete

variable {R : Type}

/-- The expression is linear in the marker `h`: it is a sum of terms each of which has `h` as a
factor, once. -/
def Expr.linearIn (h : Nat) : Expr R → Prop
  | .lit _ => False
  | .acc t _ => t = h
  | .neg a => a.linearIn h
  | .add a b => a.linearIn h ∧ b.linearIn h
  | .sub a b => a.linearIn h ∧ b.linearIn h
  | .mul a b => (a.linearIn h ∧ h ∉ b.tensors) ∨ (h ∉ a.tensors ∧ b.linearIn h)
  | .red _ _ => False

end Verif.Concrete
