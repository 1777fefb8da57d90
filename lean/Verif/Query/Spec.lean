import Verif.Merge.Expr
/-!
The programs for which the sizes of the result are counted correctly. What the program means is
`Verif.EndToEnd.meaning`, and what a user expects of the components is `Verif.Init.Holds`.
-/
namespace Verif.Query
open Verif.Merge

variable {V : Type}

/-- The expression consists of accesses, additions, multiplications, divisions and square roots: no
subtraction, negation, cast or literal. -/
def Plain : Expr V → Prop
  | .acc _ => True
  | .lit _ => False
  | .un .sqrt a => Plain a
  | .un .neg _ => False
  | .un .cast _ => False
  | .bin .add l r => Plain l ∧ Plain r
  | .bin .mul l r => Plain l ∧ Plain r
  | .bin .div l r => Plain l ∧ Plain r
  | .bin .sub _ _ => False

end Verif.Query
