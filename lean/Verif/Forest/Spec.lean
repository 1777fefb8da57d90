/-!
Tensor paths and forests of index variables. A path is the list of the variables with which a tensor is accessed, in the order of its levels.
-/
namespace Verif.Forest

abbrev Path := List Nat

/-- Variable `v` comes right after `u` in a path. -/
def Edge (ps : List Path) (u v : Nat) : Prop := ∃ p ∈ ps, ∃ a b, p = a ++ u :: v :: b

/-- A variable that occurs. -/
def Occurs (ps : List Path) (v : Nat) : Prop := ∃ p ∈ ps, v ∈ p

/-- There is an order of loops that fits all paths. -/
def Ordered (ps : List Path) : Prop := ∃ rank : Nat → Nat, ∀ u v, Edge ps u v → rank u < rank v

/-- In a forest that is given by parents, `u` is an ancestor of `v`. -/
inductive Above (parent : Nat → Option Nat) (u : Nat) : Nat → Prop
  | parent {v : Nat} : parent v = some u → Above parent u v
  | step {v w : Nat} : parent v = some w → Above parent u w → Above parent u v

/-- An algorithm that sorts by descending levels. -/
def Sorts (sort : (Nat → Nat) → List Nat → List Nat) : Prop := ∀ lv l, (sort lv l).Perm l ∧ (sort lv l).Pairwise fun a b => lv b ≤ lv a

/-- One that keeps the order of elements of the same level, for lists in ascending order. -/
def Stable (sort : (Nat → Nat) → List Nat → List Nat) : Prop :=
  ∀ (lv : Nat → Nat) (l : List Nat), l.Pairwise (· < ·) → (sort lv l).Perm l ∧ (sort lv l).Pairwise fun a b => lv b < lv a ∨ (lv a = lv b ∧ a < b)

end Verif.Forest
