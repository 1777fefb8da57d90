import Verif.Decimal
/-!
Name generation: `util::NameGenerator` (src/util/name_generator.cpp 31-49) and the same logic in the
code generator, `CodeGen::resetUniqueNameCounters` / `genUniqueName` (src/codegen/codegen.cpp 432-486),
with the pass that names the variables of a function (`FindVars`, src/codegen/codegen_c.cpp 165-262).

Strings are lists of characters. The counter map is a function with `none` for absent keys.
-/
namespace Verif.Names

abbrev Name := List Char

/-- `nameCounters`. -/
abbrev Counters := Name → Option Nat

def setCounter (c : Counters) (n : Name) (k : Nat) : Counters := fun m => if m = n then some k else c m

/-- `NameGenerator(reserved)`, name_generator.cpp 34-38; `resetUniqueNameCounters`, codegen.cpp 434-474. -/
def init (reserved : List Name) : Counters := fun m => if m ∈ reserved then some 0 else none

/-- `getUniqueName`, name_generator.cpp 40-49; `genUniqueName`, codegen.cpp 476-485. -/
def getUniqueName (c : Counters) (name : Name) : Name × Counters :=
  match c name with
  | some k => (name ++ dec k, setCounter c name (k + 1))
  | none => (name, setCounter c name 0)

/-- A sequence of requests. -/
def generate (c : Counters) : List Name → List Name
  | [] => []
  | n :: ns => (getUniqueName c n).1 :: generate (getUniqueName c n).2 ns

/-- The names of the variables of a generated C function (codegen_c.cpp 187-217): the parameters keep
the names of their tensors, without being entered in the counters; each variable found in the body
gets a generated name. -/
def functionNames (keywords params vars : List Name) : List Name :=
  params ++ generate (init keywords) vars

end Verif.Names
