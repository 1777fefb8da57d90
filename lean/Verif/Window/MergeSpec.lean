import Verif.Window.MergeModel
import Verif.Search.Theorems
import Verif.Merge.Lattice
/-! Vocabulary of the theorem on loops over windows: what an operand stores as seen through its
window, and where. -/
namespace Verif.Window
open Verif.Search Verif.Merge

variable {V : Type}

/-- A level that is well formed for a loop over a dimension of size `n`. -/
structure AccOK (A : Acc) (n : Nat) : Prop where
  se : A.s ≤ A.e
  len : A.e ≤ A.arr.length
  strict : StrictOn A.arr A.s A.e
  bounds : A.win = none → ∀ p x, A.s ≤ p → p < A.e → A.arr[p]? = some x → 0 ≤ x ∧ x < n
  win : ∀ w, A.win = some w → A.s < A.arr.length ∧ A.e ≤ 1073741824 ∧ 1 ≤ w.stride ∧ w.size = n

/-- The coordinate of the operand that the loop sees as `c`. -/
def Acc.coord (A : Acc) (c : Nat) : Int :=
  match A.win with
  | none => (c : Int)
  | some w => w.lo + (c : Int) * w.stride

/-- The stored coordinates below the parent position. -/
def Acc.segment (A : Acc) : List Int := (A.arr.drop A.s).take (A.e - A.s)

/-- Is the coordinate that the loop sees as `c` stored? -/
def Acc.stores (A : Acc) (c : Nat) : Bool := decide (A.coord c ∈ A.segment)

/-- The position that stores it. -/
def Acc.posOf (A : Acc) (c : Nat) : Nat := A.s + A.segment.idxOf (A.coord c)

/-- The compressed operands of a statement. -/
def compLeaves (K : Ctx) (e : Expr V) : List Nat := e.leaves.filter (fun k => decide (K k = some compressedAttr))

end Verif.Window
