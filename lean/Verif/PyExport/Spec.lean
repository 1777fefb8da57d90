import Verif.PyArray.Spec
import Verif.Pack.Spec
/-!
What Python reads back from a tensor: the components that are not zero, one after the other, and SciPy matrices.
`Verif.PyArray.SpMatrix`, its rows and its values are SciPy's.
-/
namespace Verif.PyExport
open Verif.PyArray (SpMatrix)

variable {V : Type}

/-- The coordinates of entry `j` of row `i`, or of column `i`. -/
def place (csr : Bool) (i j : Nat) : List Nat := if csr then [i, j] else [j, i]

/-- The number of rows, or of columns. -/
def major (csr : Bool) (n m : Nat) : Nat := if csr then n else m

/-- SciPy's canonical form: the pointers begin at 0, end at the number of entries and there is one more than rows; each row is in strictly
increasing order, below the bound. -/
structure Canonical (rows bound : Nat) (s : SpMatrix V) : Prop where
  pointers : s.indptr.length = rows + 1
  first : s.indptr[0]? = some 0
  last : s.indptr[rows]? = some s.indices.length
  data : s.data.length = s.indices.length
  sorted : ∀ i, i < rows → ((s.row i).map (·.1)).Pairwise (· < ·)
  bounded : ∀ i, i < rows → ∀ e ∈ s.row i, e.1 < bound

end Verif.PyExport
