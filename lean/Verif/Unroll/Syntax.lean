/-!
# Loops that are split or divided, and loops that are unrolled or vectorized
-/

namespace Verif.Unroll

/-- A loop variable. -/
abbrev Var := Nat

/-- The two commands that replace a variable by an outer and an inner one. -/
inductive Command where
  /-- `split`: pieces of a given size -/
  | split
  /-- `divide`: a given number of pieces -/
  | divide
  deriving DecidableEq

/-- What became of a variable: it is a loop variable, or it was replaced with a factor. -/
inductive Tree where
  | leaf (v : Var)
  | node (command : Command) (factor : Nat) (outer inner : Tree)
  deriving DecidableEq

/-- The loop variables a variable ended up in, outer ones first. -/
def Tree.leaves : Tree → List Var
  | .leaf v => [v]
  | .node _ _ o i => o.leaves ++ i.leaves

/-- A variable of the program: the size of its dimension and what became of it. -/
structure Variable where
  dim : Nat
  tree : Tree

/-- Values of loop variables. -/
abbrev Env := Var → Nat

/-- One more value. -/
def Env.set (env : Env) (v : Var) (x : Nat) : Env := fun w => if w = v then x else env w

end Verif.Unroll
