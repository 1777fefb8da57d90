import Verif.Concrete.Reorder.Spec
/-
Model of `scalarPromote` (src/index_notation/transformations.cpp 1836-1990), which replaces
accumulations into a component of a tensor by accumulations into a scalar.
-/
namespace Verif.Concrete

variable {R : Type}

/-- `ReplaceReductionExpr` (transformations.cpp 854-867): assignments to the tensor `t` at
`is` become assignments to `w` at `js`. -/
def replaceLhs (t : Nat) (is : List Nat) (w : Nat) (js : List Nat) : Stmt R → Stmt R
  | .assign t' is' plus e =>
    if t' = t ∧ is' = is then .assign w js plus e else .assign t' is' plus e
  | .loop i s => .loop i (replaceLhs t is w js s)
  | .wher c p => .wher (replaceLhs t is w js c) (replaceLhs t is w js p)

/-- Is the write of the tensor stored at `tv` to be hoisted out of a loop below the loops
`above` (transformations.cpp 1879-1889)?  `hoisted` says that it is hoisted out of a loop
further out already; `scalars` is `promoteScalar`. -/
def hoistHere (scalars hoisted : Bool) (above tv : List Nat) : Bool :=
  !hoisted && (scalars || !tv.isEmpty) && tv.all above.contains

/-- The operator of the hoisted assignment (transformations.cpp 1891-1900, 1931-1933 and
1970-1972): that of the original assignment, except if the whole statement is promoted and
all loops above are over variables of the result; then it is a plain assignment. -/
def hoistPlus (whole plus : Bool) (above tv : List Nat) : Bool :=
  if whole && (tv.all above.contains && above.all tv.contains) then false else plus

/-- `FindHoistLevel` and `HoistWrites` (transformations.cpp 1840-1982) for a statement below
the loops `above`; `n` is the next unused tensor.  The code finds the hoist levels first, in
maps from accesses to loops; here that is done along the way, which is the same as each access
is the left-hand side of one assignment.  There are no derived variables and no loops for GPU
reductions. -/
def promote (whole scalars : Bool) : List Nat → Bool → Nat → Stmt R → Stmt R × Nat
  | _, _, n, .assign t is plus e => (.assign t is plus e, n)
  | above, hoisted, n, .wher c p =>
    let p' := promote whole scalars above false n p
    let c' := promote whole scalars above hoisted p'.2 c
    (.wher c'.1 p'.1, c'.2)
  | above, hoisted, n, .loop i s =>
    let here := hoistHere scalars hoisted above s.targetVars
    let s' := promote whole scalars (i :: above) (hoisted || here) n s
    if here then
      (.wher
        (.assign s.target s.targetVars (hoistPlus whole s.accumulates above s.targetVars)
          (.acc s'.2 []))
        (.loop i (replaceLhs s.target s.targetVars s'.2 [] s'.1)), s'.2 + 1)
    else (.loop i s'.1, s'.2)

/-- `scalarPromote(stmt)` (transformations.cpp 1985-1987). -/
def scalarPromote (n : Nat) (s : Stmt R) : Stmt R := (promote true false [] false n s).1

end Verif.Concrete
