import Verif.Unroll.Syntax

/-!
# What is asked of unrolled and vectorized loops

Nothing here mentions guards.
-/

namespace Verif.Unroll

/-- All factors are positive. -/
def Tree.Positive : Tree → Prop
  | .leaf _ => True
  | .node _ f o i => 0 < f ∧ o.Positive ∧ i.Positive

/-- Different pieces are different loops, there is one loop for each of them, and factors are positive. -/
structure WellFormed (vars : List Variable) (loops : List Var) : Prop where
  apart : (vars.flatMap fun r => r.tree.leaves).Nodup
  once : loops.Nodup
  all : ∀ r ∈ vars, ∀ v ∈ r.tree.leaves, v ∈ loops
  only : ∀ v ∈ loops, ∃ r ∈ vars, v ∈ r.tree.leaves
  positive : ∀ r ∈ vars, r.tree.Positive

/-- Coordinates that are inside of the dimensions. -/
def InRange (vars : List Variable) (coords : List Nat) : Prop :=
  coords.length = vars.length ∧
    ∀ (k : Nat) (r : Variable) (x : Nat), vars[k]? = some r → coords[k]? = some x → x < r.dim

/-- The loops around determine the variable. -/
def Known (around : List Var) (t : Tree) : Prop := ∀ v ∈ t.leaves, v ∈ around

/-- A loop variable, or known. -/
def Direct (around : List Var) (t : Tree) : Prop := (∃ v, t = .leaf v) ∨ Known around t

/-- Not more than one command away from loop variables, except for known pieces. -/
inductive Shallow (around : List Var) : Tree → Prop where
  | node {k f o i} : Direct around o → Direct around i → Shallow around (.node k f o i)

/-- Inner pieces of inner pieces with known outer pieces, down to a piece that is not known and one command
away from loop variables. -/
inductive Chain (around : List Var) : Tree → Prop where
  | bottom {k f o i} : Direct around o → Direct around i → ¬Known around (.node k f o i) →
      Chain around (.node k f o i)
  | down {k f o i} : Known around o → Chain around i → Chain around (.node k f o i)

/-- Shallow, or with such a chain as its inner piece. -/
inductive Deep (around : List Var) : Tree → Prop where
  | node {k f o i} : Direct around o → Chain around i → Deep around (.node k f o i)

/-- What the loops around a marked loop leave open: for the first variable that is not known there is at most one
chain of inner pieces, the other ones are shallow. -/
def Simple (around : List Var) (vars : List Variable) : Prop :=
  ∀ before r after, vars = before ++ r :: after → ¬Known around r.tree →
    Shallow around r.tree ∨ (∃ v, r.tree = .leaf v) ∨
      (Deep around r.tree ∧ ∀ r' ∈ before, Known around r'.tree ∨ ∃ v, r'.tree = .leaf v)

end Verif.Unroll
