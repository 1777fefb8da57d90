import Verif.Provenance.Model

/-!
# Sizes that 32 bits can hold

Independent of the arithmetic of the kernels: volumes, row-major positions, and for a schedule the largest
values its loop variables reach, padding included.
-/

namespace Verif.Width

open Verif.Provenance (Step)

/-- The number of components of a dense box. -/
def volume : List Nat → Nat
  | [] => 1
  | d :: ds => d * volume ds

/-- The row-major position of a coordinate. -/
def rowMajor : List Nat → List Nat → Nat
  | _ :: ds, i :: is => i * volume ds + rowMajor ds is
  | _, _ => 0

/-- A coordinate of a box. -/
def Inside : List Nat → List Nat → Prop
  | [], [] => True
  | d :: ds, i :: is => i < d ∧ Inside ds is
  | _, _ => False

/-- The number of pieces of `s` that cover `e`. -/
def pieces (e s : Nat) : Nat := (e + (s - 1)) / s

/-- How far the loop variables before a step reach when those after it stay below `r` (exclusive bounds).  An
iteration of a split that lies in the padding of a later split is computed before it is skipped, so a bound
can be larger than the extent. -/
def stepReach : Step → List Nat → List Nat → List Nat
  | .split 0 s, _ :: _, ro :: ri :: rs => ((ro - 1) * s + ri) :: rs
  | .divide 0 d, e :: _, ro :: ri :: rs => ((ro - 1) * pieces e d + ri) :: rs
  | .fuse 0, _ :: e' :: _, rf :: rs => ((rf - 1) / e' + 1) :: e' :: rs
  | .swap 0, _ :: _ :: _, ra :: rb :: rs => rb :: ra :: rs
  | .split (k+1) s, _ :: es, r :: rs => r :: stepReach (.split k s) es rs
  | .divide (k+1) d, _ :: es, r :: rs => r :: stepReach (.divide k d) es rs
  | .fuse (k+1), _ :: es, r :: rs => r :: stepReach (.fuse k) es rs
  | .swap (k+1), _ :: es, r :: rs => r :: stepReach (.swap k) es rs
  | _, _, rs => rs

/-- A step whose extents and recovered variables stay below 2^31. -/
def StepFits : Step → List Nat → List Nat → Prop
  | .split 0 s, e :: _, ro :: ri :: _ => e + (s - 1) < 2147483648 ∧ (ro - 1) * s + ri ≤ 2147483648
  | .divide 0 d, e :: _, ro :: ri :: _ =>
    e + (d - 1) < 2147483648 ∧ (ro - 1) * pieces e d + ri ≤ 2147483648 ∧ ro * pieces e d < 2147483648 ∧
      ro < 2147483648
  | .fuse 0, e :: e' :: _, _ => e * e' < 2147483648
  | .split (k+1) s, _ :: es, _ :: rs => StepFits (.split k s) es rs
  | .divide (k+1) d, _ :: es, _ :: rs => StepFits (.divide k d) es rs
  | .fuse (k+1), _ :: es, _ :: rs => StepFits (.fuse k) es rs
  | _, _, _ => True

/-- How far the underived variables of a schedule reach. -/
def reach : List Step → List Nat → List Nat
  | [], e => e
  | s :: ss, e =>
    match Provenance.stepExtents s e with
    | none => e
    | some e' => stepReach s e (reach ss e')

/-- A schedule all of whose extents and recovered variables stay below 2^31. -/
def Fits : List Step → List Nat → Prop
  | [], _ => True
  | s :: ss, e =>
    match Provenance.stepExtents s e with
    | none => True
    | some e' => StepFits s e (reach ss e') ∧ Fits ss e'

end Verif.Width
