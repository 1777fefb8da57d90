/-
Index expressions and statements (include/taco/index_notation/index_notation_nodes.h).
Tensor variables and index variables are numbers.

What is left out: division, square roots, casts, intrinsics and user functions; the
attributes of loops; multi, sequence, assemble, yield and such-that statements; operators
of compound assignments and reductions other than addition.
-/
namespace Verif.Concrete

/-- Index expressions over numbers in `R` (index_notation_nodes.h 22-260): literals,
accesses, arithmetic and sums over an index variable. -/
inductive Expr (R : Type) where
  | lit (r : R)
  | acc (t : Nat) (is : List Nat)
  | neg (a : Expr R)
  | add (a b : Expr R)
  | sub (a b : Expr R)
  | mul (a b : Expr R)
  | red (i : Nat) (a : Expr R)
  deriving DecidableEq

/-- Index statements (index_notation_nodes.h 264-420).  In `assign t is plus e` the flag
`plus` says whether the assignment is compound (`+=`).  `wher c p` is `where(c, p)`: the
consumer `c` uses what the producer `p` computes. -/
inductive Stmt (R : Type) where
  | assign (t : Nat) (is : List Nat) (plus : Bool) (e : Expr R)
  | loop (i : Nat) (s : Stmt R)
  | wher (c p : Stmt R)
  deriving DecidableEq

variable {R : Type}

/-- The tensor an assignment or a where statement computes, `getResults`
(src/index_notation/index_notation.cpp 3456-3480). -/
def Stmt.results : Stmt R → List Nat
  | .assign t _ _ _ => [t]
  | .loop _ s => s.results
  | .wher c _ => c.results

/-- The tensors an expression reads. -/
def Expr.tensors : Expr R → List Nat
  | .lit _ => []
  | .acc t _ => [t]
  | .neg a => a.tensors
  | .add a b => a.tensors ++ b.tensors
  | .sub a b => a.tensors ++ b.tensors
  | .mul a b => a.tensors ++ b.tensors
  | .red _ a => a.tensors

/-- The index variables an expression uses, in order and with repetitions. -/
def Expr.varsAll : Expr R → List Nat
  | .lit _ => []
  | .acc _ is => is
  | .neg a => a.varsAll
  | .add a b => a.varsAll ++ b.varsAll
  | .sub a b => a.varsAll ++ b.varsAll
  | .mul a b => a.varsAll ++ b.varsAll
  | .red _ a => a.varsAll

/-- `getIndexVars` of an expression (index_notation.cpp 3619-3666): the index variables in
the order of their first use.  No variable is derived. -/
def Expr.vars (e : Expr R) : List Nat := e.varsAll.eraseDups

/-- A nest of loops, the first one outermost. -/
def loops (is : List Nat) (s : Stmt R) : Stmt R := is.foldr .loop s

/-- An expression without sums. -/
def Expr.sumFree : Expr R → Prop
  | .lit _ => True
  | .acc _ _ => True
  | .neg a => a.sumFree
  | .add a b => a.sumFree ∧ b.sumFree
  | .sub a b => a.sumFree ∧ b.sumFree
  | .mul a b => a.sumFree ∧ b.sumFree
  | .red _ _ => False

/-- A statement without sums. -/
def Stmt.sumFree : Stmt R → Prop
  | .assign _ _ _ e => e.sumFree
  | .loop _ s => s.sumFree
  | .wher c p => c.sumFree ∧ p.sumFree

end Verif.Concrete
