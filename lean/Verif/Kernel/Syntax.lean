/-
Index expressions and statements as far as kernels are compared and reused
(include/taco/index_notation/index_notation_nodes.h).
-/
namespace Verif.Kernel

/-- How a mode is accessed: as a whole, in a window or through an index set
(`AccessWindow`, `IndexSet`, index_notation_nodes.h 28-70). -/
inductive Mode where
  | plain
  | window (lo hi stride : Nat)
  | indexSet (set : List Nat)
  deriving DecidableEq

/-- Index expressions.  Operators, literals (data type and bits) and names of intrinsics are
coded as numbers.  `un` is for negation, square roots and casts, `bin` for arithmetic and for
applying an intrinsic to one more argument, `idx` for an index variable used as a value.
`CallNode` (user-defined operators), which is equal to itself only, is left out. -/
inductive Expr where
  | lit (c : Nat)
  | idx (i : Nat)
  | acc (t : Nat) (structure_ : Bool) (is : List Nat) (modes : List Mode)
  | un (op : Nat) (a : Expr)
  | bin (op : Nat) (a b : Expr)
  | red (op i : Nat) (a : Expr)
  deriving DecidableEq

/-- Attributes of a loop (`ForallNode`): parallel unit, race strategy, unroll factor, merge
strategy. -/
structure Attrs where
  unit : Nat
  race : Nat
  unroll : Nat
  merge : Nat
  deriving DecidableEq

/-- Index statements.  The operator of an assignment is `none` for a plain one.  Left out are
yield, assemble and suchthat statements. -/
inductive Stmt where
  | assign (t : Nat) (structure_ : Bool) (is : List Nat) (modes : List Mode) (op : Option Nat) (e : Expr)
  | loop (i : Nat) (attrs : Attrs) (s : Stmt)
  | wher (c p : Stmt)
  | seq (d m : Stmt)
  | multi (s r : Stmt)
  deriving DecidableEq

/-- What a tensor variable says about its tensor besides its name: component type, dimensions
(`none` if variable), format and fill value. -/
structure Info where
  ctype : Nat
  dims : List (Option Nat)
  format : Nat
  fill : Nat
  deriving DecidableEq

end Verif.Kernel
