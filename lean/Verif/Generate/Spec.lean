import Verif.Options.Spec
/-!
What a generated tensor is, in terms of coordinates.
-/
namespace Verif.Generate

/-- The coordinates of a tensor with these sizes. -/
inductive Inside : List Nat → List Int → Prop
  | nil : Inside [] []
  | cons {d : Nat} {ds : List Nat} {i : Nat} {c : List Int} : i < d → Inside ds c → Inside (d :: ds) ((i : Int) :: c)

/-- Entries of a tensor: inside, and each coordinate once. -/
def Entries (dims : List Nat) (cs : List (List Int)) : Prop := (∀ c ∈ cs, Inside dims c) ∧ cs.Nodup

/-- All of a tensor: every coordinate, once. -/
def Complete (dims : List Nat) (cs : List (List Int)) : Prop := (∀ c, c ∈ cs ↔ Inside dims c) ∧ cs.Nodup

/-- A finite element matrix with `m` rows: the diagonal, and the diagonals at distance one and three. -/
def Fem (m : Nat) (c : List Int) : Prop :=
  ∃ i j : Nat, c = [(i : Int), (j : Int)] ∧ i < m ∧ j < m ∧ (i = j ∨ i = j + 1 ∨ j = i + 1 ∨ i = j + 3 ∨ j = i + 3)

end Verif.Generate
