import Verif.Fused.Spec
/-!
What the searches of a GPU kernel should find. Nothing here knows how they search.
-/
namespace Verif.GpuSearch

/-- `r` is a row of the `pos` array of `n` rows in which position `t` can be looked for: it starts at or
before `t`, and a later row starts at or before `t` only if all rows between are empty. -/
def RowOf (pos : List Nat) (n t r : Nat) : Prop :=
  r ≤ n ∧ (∃ v, pos[r]? = some v ∧ v ≤ t) ∧
  (pos[r]? = some t ∨ ∀ i v, r < i → i ≤ n → pos[i]? = some v → t < v)

/-- A `pos` array of `n` rows with `m` positions. -/
structure PosArray (pos : List Nat) (n m : Nat) : Prop where
  len : pos.length = n + 1
  zero : pos[0]? = some 0
  last : pos[n]? = some m
  mono : ∀ (i j a b : Nat), i ≤ j → pos[i]? = some a → pos[j]? = some b → a ≤ b

end Verif.GpuSearch
