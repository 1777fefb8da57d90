/-!
# What a loop over compressed operands has to visit

Independent of the model: an operand is a coordinate array and a position range.
-/
namespace Verif.Strip.Spec

/-- The operand with coordinate array `crd` stores a component with coordinate `c` at position `p` of the
segment `[lo,hi)`. -/
def StoredAt (crd : List Int) (lo hi : Nat) (c : Int) (p : Nat) : Prop :=
  lo ≤ p ∧ p < hi ∧ crd[p]? = some c

/-- `o` says where the operand stores a component with coordinate `c`: `some p` at position `p`, `none`
nowhere. -/
def Component (crd : List Int) (lo hi : Nat) (c : Int) : Option Nat → Prop
  | some p => StoredAt crd lo hi c p
  | none => ∀ p, ¬ StoredAt crd lo hi c p

/-- A loop over one operand: every stored component is visited exactly once, by increasing coordinate,
and nothing else is visited. -/
def VisitsStored (crd : List Int) (lo hi : Nat) (vs : List (Int × Nat)) : Prop :=
  vs.Pairwise (fun v w => v.1 < w.1) ∧ ∀ c p, (c, p) ∈ vs ↔ StoredAt crd lo hi c p

/-- A loop over a sum: every coordinate at which an operand stores a component is visited exactly once,
by increasing coordinate, with the components that are stored there. -/
def VisitsUnion (crdA : List Int) (loA hiA : Nat) (crdB : List Int) (loB hiB : Nat)
    (vs : List (Int × Option Nat × Option Nat)) : Prop :=
  vs.Pairwise (fun v w => v.1 < w.1) ∧
  ∀ c x y, (c, x, y) ∈ vs ↔
    Component crdA loA hiA c x ∧ Component crdB loB hiB c y ∧ (x ≠ none ∨ y ≠ none)

/-- A loop over a product: every coordinate at which both operands store a component is visited exactly
once, by increasing coordinate, with these components. -/
def VisitsIntersection (crdA : List Int) (loA hiA : Nat) (crdB : List Int) (loB hiB : Nat)
    (vs : List (Int × Option Nat × Option Nat)) : Prop :=
  vs.Pairwise (fun v w => v.1 < w.1) ∧
  ∀ c x y, (c, x, y) ∈ vs ↔
    Component crdA loA hiA c x ∧ Component crdB loB hiB c y ∧ x ≠ none ∧ y ≠ none

end Verif.Strip.Spec
