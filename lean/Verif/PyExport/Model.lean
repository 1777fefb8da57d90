import Verif.PyExport.Spec
/-!
Reading tensors back in Python: python_bindings/src/pyTensor.cpp, `toSpMatrix` and `PyTensorIter`. A tensor is the list of the components
that its iterator gives (`Verif.Pack.iterate`); `z` is the comparison of a component with 0. The new tensor is packed by
`Verif.Pack.tensorPack`, whose simplifications hold here as well; the copies of the arrays are not modelled.
-/
namespace Verif.PyExport
open Verif.PyArray (SpMatrix)
open Verif.Pack (Row tensorPack)
open Verif.Merge (Lvl)

variable {V : Type}

/-- `PyTensorIter::advance`, pyTensor.cpp 290-304: the component and what remains; `none`: `StopIteration`, with the iterator at the end. -/
def advance (z : V → Bool) : List (Row V) → Option (Row V × List (Row V))
  | [] => none
  | r :: l => if z r.2 then advance z l else some (r, l)

/-- What remains after a call. -/
def rest : Option (Row V × List (Row V)) → List (Row V)
  | some p => p.2
  | none => []

/-- The results of `n` calls of `__next__`. -/
def calls (z : V → Bool) : Nat → List (Row V) → List (Option (Row V))
  | 0, _ => []
  | n + 1, l => (advance z l).map (·.1) :: calls z n (rest (advance z l))

/-- The mode orderings of `CSR` and `CSC`, format.cpp 403-404. -/
def ordering (csr : Bool) : List Nat := if csr then [0, 1] else [1, 0]

/-- The arrays of the second level and the values, pyTensor.cpp 175-186. -/
def arrays : List Lvl × List V → Option (SpMatrix V)
  | ([.dense _, .comp pos crd], vals) => some ⟨pos, crd, vals⟩
  | _ => none

/-- `toSpMatrix` for a tensor with these sizes, pyTensor.cpp 148-217; `none`: `ValueError` for tensors that are not matrices. -/
def toSp (qs : List (Row V) → List (Row V)) (zero : V) (z : V → Bool) (csr : Bool) (dims : List Nat) (l : List (Row V)) : Option (SpMatrix V) :=
  if dims.length ≠ 2 then none
  else arrays (tensorPack qs zero dims [.dense, .sparse] (ordering csr) (l.filter fun r => !z r.2))

end Verif.PyExport
