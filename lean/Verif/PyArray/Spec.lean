/-!
# What is asked of the conversions between NumPy, SciPy and tensors
-/

namespace Verif.PyArray

/-- `c` are coordinates of an element of an array of the given shape. -/
def InBox (shape c : List Nat) : Prop :=
  c.length = shape.length ∧ ∀ (i x n : Nat), c[i]? = some x → shape[i]? = some n → x < n

/-- The distance from the first element: the sum of coordinate times stride. -/
def offset : List Nat → List Int → Int
  | x :: c, s :: strides => x * s + offset c strides
  | _, _ => 0

/-- A NumPy array: shape, memory, where its first element is and the strides (in elements, possibly negative). -/
structure NdArray (V : Type) where
  shape : List Nat
  memory : List V
  first : Int
  strides : List Int

/-- The element of an array at a coordinate; `none`: outside of its memory. -/
def NdArray.at {V : Type} (a : NdArray V) (c : List Nat) : Option V :=
  if a.first + offset c a.strides < 0 then none else a.memory[(a.first + offset c a.strides).toNat]?

/-- All elements of an array are in its memory. -/
def NdArray.Valid {V : Type} (a : NdArray V) : Prop := ∀ c, InBox a.shape c → (a.at c).isSome

/-- The ordering is a permutation of the modes. -/
def IsOrdering (ordering : List Nat) (n : Nat) : Prop := ordering.Perm (List.range n)

/-- A SciPy matrix in compressed rows (columns). -/
structure SpMatrix (V : Type) where
  indptr : List Nat
  indices : List Nat
  data : List V

/-- The entries `(index, value)` of row `i`. -/
def SpMatrix.row {V : Type} (m : SpMatrix V) (i : Nat) : List (Nat × V) :=
  ((m.indices.zip m.data).take (m.indptr[i + 1]?.getD 0)).drop (m.indptr[i]?.getD 0)

/-- SciPy's meaning: entries at the same place are added. -/
def SpMatrix.value {V : Type} (zero : V) (add : V → V → V) (m : SpMatrix V) (i j : Nat) : V :=
  ((m.row i).filter fun e => e.1 == j).foldl (fun s e => add s e.2) zero

end Verif.PyArray
