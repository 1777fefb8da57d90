/-!
What a windowed access means: `A(i(lo,hi,stride))` is the tensor whose coordinate `k` is coordinate
`lo + k*stride` of `A`, for the multiples of the stride below `hi`.
-/
namespace Verif.Window

/-- Coordinate `x` of the tensor is coordinate `k` of its window `lo, lo+stride, ... < hi`. -/
def Selected (lo hi stride x k : Int) : Prop := 0 ≤ k ∧ x = lo + k * stride ∧ x < hi

/-- A traversal of positions with their window coordinates goes upwards in both. -/
def Ascending (l : List (Nat × Int)) : Prop :=
  l.Pairwise (fun a b => a.1 < b.1 ∧ a.2 < b.2)

/-- The traversal visits exactly the positions of `[s,e)` that store a selected coordinate. -/
def VisitsWindow (a : List Int) (s e : Nat) (lo hi stride : Int) (l : List (Nat × Int)) : Prop :=
  Ascending l ∧ ∀ p k, (p, k) ∈ l ↔ s ≤ p ∧ p < e ∧ ∃ x, a[p]? = some x ∧ Selected lo hi stride x k

end Verif.Window
