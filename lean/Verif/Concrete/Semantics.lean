import Mathlib.Algebra.BigOperators.Group.Finset.Basic
import Mathlib.Algebra.BigOperators.Ring.Finset
import Mathlib.Algebra.Ring.Basic
import Verif.Concrete.Syntax
/-
Specification: what index expressions and statements mean.  Numbers are from any
commutative ring, so rounding and overflow are ignored.  A loop runs through its whole
dimension in order.  A where statement clears the tensors its producer computes, runs the
producer and then the consumer; those tensors exist only inside it.
-/
namespace Verif.Concrete

variable {R : Type} [CommRing R]

/-- Values of the index variables. -/
abbrev Env := Nat → Nat

/-- Setting an index variable. -/
def Env.set (ρ : Env) (i v : Nat) : Env := fun j => if j = i then v else ρ j

/-- Contents of the tensors. -/
abbrev Store (R : Type) := Nat → List Nat → R

/-- The value of an expression. -/
def eval (dim : Nat → Nat) (σ : Store R) : Env → Expr R → R
  | _, .lit r => r
  | ρ, .acc t is => σ t (is.map ρ)
  | ρ, .neg a => - eval dim σ ρ a
  | ρ, .add a b => eval dim σ ρ a + eval dim σ ρ b
  | ρ, .sub a b => eval dim σ ρ a - eval dim σ ρ b
  | ρ, .mul a b => eval dim σ ρ a * eval dim σ ρ b
  | ρ, .red i a => ∑ v ∈ Finset.range (dim i), eval dim σ (ρ.set i v) a

/-- Setting one component. -/
def put (σ : Store R) (t : Nat) (c : List Nat) (r : R) : Store R :=
  fun t' c' => if t' = t ∧ c' = c then r else σ t' c'

/-- Setting tensors to zero. -/
def clear (ts : List Nat) (σ : Store R) : Store R := fun t => if t ∈ ts then fun _ => 0 else σ t

/-- Giving tensors back the contents they had before. -/
def restore (ts : List Nat) (old new : Store R) : Store R := fun t => if t ∈ ts then old t else new t

/-- The effect of a statement. -/
def exec (dim : Nat → Nat) : Stmt R → Env → Store R → Store R
  | .assign t is plus e, ρ, σ =>
    put σ t (is.map ρ) (if plus then σ t (is.map ρ) + eval dim σ ρ e else eval dim σ ρ e)
  | .loop i s, ρ, σ => (List.range (dim i)).foldl (fun σ v => exec dim s (ρ.set i v) σ) σ
  | .wher c p, ρ, σ =>
    restore p.results σ (exec dim c ρ (exec dim p ρ (clear p.results σ)))

/-- Sum over all values of some index variables. -/
def sumOver (dim : Nat → Nat) : List Nat → (Env → R) → Env → R
  | [], f, ρ => f ρ
  | i :: is, f, ρ => ∑ v ∈ Finset.range (dim i), sumOver dim is f (ρ.set i v)

/-- The environment in which the index variables `is` have the values `c`. -/
def bind (is : List Nat) (c : List Nat) (ρ : Env) : Env :=
  match is, c with
  | i :: is, v :: c => bind is c (ρ.set i v)
  | _, _ => ρ

/-- Coordinates that the index variables `is` can have. -/
def InBox (dim : Nat → Nat) (is c : List Nat) : Prop := List.Forall₂ (fun i v => v < dim i) is c

end Verif.Concrete
