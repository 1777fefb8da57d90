import Verif.FileIO.Model
/-! What files promise. -/
namespace Verif.FileIO
variable {V : Type}

/-- A value is printed as one word and read back as itself. -/
def Exact (N : Num V) (v : V) : Prop := N.print v ≠ [] ∧ (∀ c ∈ N.print v, isSpace c = false) ∧ N.read (N.print v) = v

/-- The largest coordinate of a mode plus one. -/
def extent (comps : List (List Nat × V)) (mode : Nat) : Nat := comps.foldl (fun m c => max m (c.1.getD mode 0 + 1)) 0

/-- Components with integer coordinates. -/
def toInt (comps : List (List Nat × V)) : List (List Int × V) := comps.map fun c => (c.1.map (fun (k : Nat) => (k : Int)), c.2)

/-- A coordinate-format file with the given symmetry. -/
def mtxText (N : Num V) (sym : List Char) (dims : List Nat) (comps : List (List Nat × V)) : List Char :=
  header dims.length "coordinate".toList sym ++ '\n' :: '%' :: '\n' ::
    joinDims dims ++ ' ' :: dec comps.length ++ '\n' :: comps.flatMap fun c => compLine N c ++ ['\n']

/-- The values that a component list has at a coordinate. -/
def valuesAt (comps : List (List Int × V)) (c : List Int) : List V := (comps.filter fun x => x.1 = c).map (·.2)

/-- The number of elements. -/
def volume : List Nat → Nat
  | [] => 1
  | d :: ds => d * volume ds

/-- A coordinate inside the dimensions. -/
def InRange : List Nat → List Nat → Prop
  | [], [] => True
  | d :: ds, c :: cs => c < d ∧ InRange ds cs
  | _, _ => False

/-- The rank of a coordinate in column-major order: the first mode varies fastest. -/
def colRank : List Nat → List Nat → Nat
  | d :: ds, c :: cs => c + d * colRank ds cs
  | _, _ => 0

/-- The rank of a coordinate in row-major order, in which a dense tensor with the default mode ordering is iterated. -/
def rowRank : List Nat → List Nat → Nat
  | _ :: ds, c :: cs => c * volume ds + rowRank ds cs
  | _, _ => 0

end Verif.FileIO
