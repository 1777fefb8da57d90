import Verif.Concrete.Syntax
/-
Model of the parameters of a kernel and of the arguments it is called with
(src/index_notation/index_notation.cpp 3372-3413, 3472-3522, 3598-3616; src/lower/
lowerer_impl_imperative.cpp 244-283; src/tensor.cpp 778-806).  Index sets are left out.
-/
namespace Verif.Concrete

variable {R : Type}

/-- The tensors that are assigned, consumers before producers (index_notation.cpp
3475-3512). -/
def assigned : Stmt R → List Nat
  | .assign t _ _ _ => [t]
  | .loop _ s => assigned s
  | .wher c p => assigned c ++ assigned p

/-- `getTemporaries` (index_notation.cpp 3472-3522): all but the first. -/
def temporaries (s : Stmt R) : List Nat := (assigned s).tail

/-- The tensors that are read, in the order in which a visitor meets them: producers before
consumers (index_notation.cpp 3603-3613; index_notation_visitor.cpp 96-112). -/
def visited : Stmt R → List Nat
  | .assign _ _ _ e => e.tensors
  | .loop _ s => visited s
  | .wher c p => visited p ++ visited c

/-- The loop over accesses in `getArguments` (index_notation.cpp 3388-3396). -/
def collect (acc : List Nat) (ts : List Nat) : List Nat :=
  ts.foldl (fun acc t => if acc.contains t then acc else acc ++ [t]) acc

/-- `getArguments` (index_notation.cpp 3387-3413). -/
def arguments (s : Stmt R) : List Nat :=
  collect [] ((visited s).filter fun t => !(temporaries s).contains t)

/-- The parameters of the kernel for a statement (lowerer_impl_imperative.cpp 244-283): its
results, then its arguments. -/
def params (s : Stmt R) : List Nat := s.results ++ arguments s

/-- `packArguments` (tensor.cpp 778-806): what the kernel is called with, from the statement
that the assignment of the tensor `t` is turned into before it is scheduled. -/
def packed (t : Nat) (s : Stmt R) : List Nat := t :: arguments s

end Verif.Concrete
