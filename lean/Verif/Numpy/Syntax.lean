/-!
# Assignments built by the Python functions
-/

namespace Verif.Numpy

/-- An index variable. -/
abbrev Var := Nat

/-- An operand: its shape and the index variables it is accessed with. -/
structure Operand where
  shape : List Nat
  vars : List Var

/-- `result[lhs] = f(operands)`, with a result of the given shape. -/
structure Assignment where
  shape : List Nat
  lhs : List Var
  operands : List Operand

/-- Values of index variables. -/
abbrev Env := Var → Nat

end Verif.Numpy
