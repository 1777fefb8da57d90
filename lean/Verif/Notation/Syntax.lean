import Verif.Recover.Syntax

/-!
# Index notation statements

Only what the notation checks look at: tensors are left out of accesses, literals have no value, unary
operators (negation, square root, casts) are one constructor, operators of calls are left out.
-/

namespace Verif.Notation

open Verif.Recover (Var Rel)

/-- `IndexExpr`: include/taco/index_notation/index_notation_nodes.h:25-350.  The arguments of a call are a
chain `arg a (arg b … args)` below `call`. -/
inductive Expr where
  | lit
  | access (vars : List Var)
  | ivar (v : Var)
  | unary (a : Expr)
  | add (a b : Expr)
  | sub (a b : Expr)
  | mul (a b : Expr)
  | div (a b : Expr)
  | call (arguments : Expr)
  | args
  | arg (a rest : Expr)
  | reduction (v : Var) (a : Expr)
  deriving Repr, DecidableEq

/-- `IndexStmt`: include/taco/index_notation/index_notation_nodes.h:360-520.  `valid` is what the dimension check
`isValid` says about an assignment (property C30); `compound` says whether it has an operator such as
`+=`.  An `assemble` without attribute queries has `none` of them (`queries` undefined). -/
inductive Stmt where
  | assign (lhs : List Var) (compound : Bool) (rhs : Expr) (valid : Bool)
  | yield (vars : List Var) (e : Expr)
  | forall_ (v : Var) (s : Stmt)
  | where_ (consumer producer : Stmt)
  | sequence (definition mutation : Stmt)
  | multi (s t : Stmt)
  | assemble (queries compute : Stmt)
  | assembleOnly (compute : Stmt)
  | suchThat (s : Stmt) (rels : List Rel)
  deriving Repr, DecidableEq

/-- Nested loops around a statement, outermost first. -/
def nest : List Var → Stmt → Stmt
  | [], s => s
  | v :: vs, s => .forall_ v (nest vs s)

end Verif.Notation
