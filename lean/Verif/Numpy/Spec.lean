import Verif.Numpy.Syntax

/-!
# What is asked of the Python functions

Nothing here mentions index variables.  The component `r` of a result is described by the list of its terms: a term
is the list of the coordinates of the operands' components that are combined (multiplied, added, ...), and the
component is the sum of its terms.
-/

namespace Verif.Numpy

/-- `c` are coordinates of a component of a tensor of the given shape. -/
def InBox (shape c : List Nat) : Prop :=
  c.length = shape.length ∧ ∀ (i x n : Nat), c[i]? = some x → shape[i]? = some n → x < n

/-- The list has exactly these elements, each once. -/
def Lists {α : Type} (l : List α) (P : α → Prop) : Prop := l.Nodup ∧ ∀ x, x ∈ l ↔ P x

/-- The elements at positions that are not among `axes`; the first element has position `k`. -/
def without {α : Type} (axes : List Nat) : Nat → List α → List α
  | _, [] => []
  | k, x :: xs => if k ∈ axes then without axes (k + 1) xs else x :: without axes (k + 1) xs

/-- The last `n` elements. -/
def last {α : Type} (n : Nat) (l : List α) : List α := l.drop (l.length - n)

/-- The longer one of two lists. -/
def longer {α : Type} (a b : List α) : List α := if b.length ≤ a.length then a else b

/-- One shape is the end of the other one. -/
def Fits (s1 s2 : List Nat) : Prop := s1 <:+ s2 ∨ s2 <:+ s1

/-- Python's meaning of a position: negative ones count from the end. -/
def Position (n : Nat) (i : Int) (p : Nat) : Prop := p < n ∧ (i = p ∨ i = (p : Int) - n)

/-- Positions given Python's way. -/
def Positions (n : Nat) (is : List Int) (ps : List Nat) : Prop :=
  is.length = ps.length ∧ ∀ (k : Nat) (i : Int) (p : Nat), is[k]? = some i → ps[k]? = some p → Position n i p

/-- The elements of `a` at the positions `ps` are those of `b` at the positions `qs`. -/
def Agree (ps qs a b : List Nat) : Prop :=
  ps.length = qs.length ∧ ∀ (k p q : Nat), ps[k]? = some p → qs[k]? = some q → a[p]? = b[q]?

/-- An integer that single precision floating-point numbers represent. -/
def IsFloat32 (n : Int) : Prop := ∃ (m : Int) (e : Nat), -(2 ^ 24) < m ∧ m < 2 ^ 24 ∧ n = m * 2 ^ e

end Verif.Numpy
