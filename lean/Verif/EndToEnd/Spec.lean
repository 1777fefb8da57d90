import Verif.EndToEnd.Model
import Verif.Pack.Spec
/-!
What the assignment means: at every coordinate of the result, the sum over the summation variables of
the expression on the inserted components. Independent of storage, loops and lattices.
-/
namespace Verif.EndToEnd
open Verif.Merge
open Verif.Pack (Row inRange)

variable {V : Type}

/-- The coordinate of an index variable when the variables `vs` have the coordinates `path`. -/
def coordOf (vs path : List Nat) (v : Nat) : Nat := path.getD (vs.idxOf v) 0

/-- The value of a tensor at a coordinate: the sum of what was inserted there. -/
def inserted (o : Ops V) (a : Operand V) (c : List Nat) : V :=
  (a.comps.filter (fun r => r.1 == c)).foldl (fun acc r => o.bin .add acc r.2) o.zero

/-- The value of the expression when the variables `vs` have the coordinates `path`. -/
def exprVal (o : Ops V) (ops : List (Operand V)) (e : Expr V) (vs path : List Nat) : V :=
  e.eval o (fun k => match ops[k]? with
    | some a => inserted o a (a.vars.map (coordOf vs path))
    | none => o.zero)

/-- The sum over all coordinates of the given sizes, in lexicographic order. -/
def sumBox (o : Ops V) (dims : List Nat) (f : List Nat → V) : V :=
  (box dims).foldl (fun acc c => o.bin .add acc (f c)) o.zero

/-- The assignment `result(r.vars) = sum(red, e)` at a coordinate of the result. -/
def meaning (o : Ops V) (size : Nat → Nat) (ops : List (Operand V)) (e : Expr V) (r : Result) (red : List Nat)
    (c : List Nat) : V :=
  sumBox o (red.map size) (fun x => exprVal o ops e (r.vars ++ red) (c ++ x))

/-- An access that can be iterated over in the loop order `vs`. -/
structure OperandOK (size : Nat → Nat) (vs : List Nat) (a : Operand V) : Prop where
  kinds : a.kinds.length = a.vars.length
  perm : a.perm.Perm (List.range a.vars.length)
  order : a.storageVars.Sublist vs
  range : ∀ r ∈ a.comps, inRange (a.vars.map size) r.1

/-- Repeated accesses are factors: a tensor that is accessed with the same indices on both sides of an
operator (such accesses have one number) is a factor of both sides, as in `A(i)*B(i) + A(i)*C(i)`. -/
def RepeatsAreFactors (ops : List (Operand V)) : Expr V → Prop
  | .acc _ => True
  | .lit _ => True
  | .un _ a => RepeatsAreFactors ops a
  | .bin _ l r => RepeatsAreFactors ops l ∧ RepeatsAreFactors ops r ∧
    ∀ k ∈ l.leaves, k ∈ r.leaves → (∃ a, ops[k]? = some a ∧ a.vars ≠ []) → factor k l = true ∧ factor k r = true

/-- Addition is associative and commutative with zero as unit (integers; floating point up to
rounding). Needed only because a component that is inserted several times is added up in the order of
sorting. -/
structure AddLaws (o : Ops V) : Prop where
  comm : ∀ a b, o.bin .add a b = o.bin .add b a
  assoc : ∀ a b c, o.bin .add (o.bin .add a b) c = o.bin .add a (o.bin .add b c)

end Verif.EndToEnd
