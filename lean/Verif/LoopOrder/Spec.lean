import Verif.LoopOrder.Model
/-!
Specification for `Verif.LoopOrder`.
-/
namespace Verif.LoopOrder

/-- `u` comes before `v` in an order. -/
def Before (order : List Var) (u v : Var) : Prop := [u, v].Sublist order

/-- A function that sorts by level: the contract of `std::sort` with the comparator of transformations.cpp 1613-1616. -/
structure IsSort (sort : List Entry → List Entry) : Prop where
  /-- a permutation -/
  perm : ∀ es, (sort es).Perm es
  /-- in the order of the levels -/
  sorted : ∀ es, (sort es).Pairwise fun a b => a.level ≤ b.level

/-- A loop over `v` iterates over level `l` of tensor `t`; `h`: that level enforces an order. -/
def Iterates (loops : List Loop) (t : String) (v : Var) (l : Nat) (h : Bool) : Prop := ∃ loop ∈ loops, loop.var = v ∧ (t, l, h) ∈ loop.levels

/-- A loop order in which every level of a tensor comes after the levels above it, if one of them enforces that. -/
def RespectsLevels (loops : List Loop) (order : List Var) : Prop :=
  ∀ t v₁ l₁ h₁ v₂ l₂ h₂, Iterates loops t v₁ l₁ h₁ → Iterates loops t v₂ l₂ h₂ → l₁ < l₂ → (h₁ || h₂) = true → Before order v₁ v₂

/-- No tensor has a level that two loops (or one loop in two ways) iterate over. -/
def SingleAccess (loops : List Loop) : Prop :=
  ∀ t v₁ v₂ l h₁ h₂, Iterates loops t v₁ l h₁ → Iterates loops t v₂ l h₂ → v₁ = v₂ ∧ h₁ = h₂

/-- A format whose mode ordering lists as many modes as there are variables, all of which exist. -/
def Access.WF (a : Access) : Prop := a.ordering.length = a.vars.length ∧ ∀ m ∈ a.ordering, m < a.vars.length

/-- Dimensions that are equal, all dimensions that are not known when the code is compiled counting as equal. -/
def SameSize : Dim → Dim → Prop
  | .fixed a, .fixed b => a = b
  | .fixed _, _ => False
  | _, .fixed _ => False
  | _, _ => True

/-- Variable `v` is used for a mode whose dimension, after windows and index sets, is `d`. -/
def Uses (accs : List ShapedAccess) (v : Var) (d : Dim) : Prop :=
  ∃ a ∈ accs, ∃ (i : Nat) (d₀ : Dim) (r : Restrict), a.vars[i]? = some v ∧ a.shape[i]? = some d₀ ∧ a.restricts[i]? = some r ∧ d = modeDim d₀ r

end Verif.LoopOrder
