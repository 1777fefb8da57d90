import Verif.Algebra.Model
/-!
Specification of what the call of a user-defined operator means, independent of lattices and loops.

The statement is `out(i) = op(a0(i), a1(i), ...)` with sparse vectors as operands.  An operator is
declared with `Func` (include/taco/index_notation/tensor_operator.h): a function of the values of its
operands, a description of the iteration space, and special definitions for the coordinates at which
exactly the given operands are stored.
-/
namespace Verif.Omit
open Verif.Algebra (Alg)

/-- The declaration of an operator: the number of operands, the iteration space over the regions
`0 .. arity - 1`, the function, and the special definitions keyed by the operands that are stored. -/
structure Op (V : Type) where
  arity : Nat
  alg : Alg
  func : List V → V
  special : List (List Nat × (List V → V))

/-- The operands: sparse vectors of dimension `n`, stored as coordinates and values. -/
structure Operands (V : Type) where
  n : Nat
  zero : V
  crd : Nat → List Nat
  vals : Nat → List V

/-- Is a coordinate in the described iteration space, given the operands stored there? -/
def holds (S : Nat → Bool) : Alg → Bool
  | .region k => S k
  | .compl a => !holds S a
  | .inter a b => holds S a && holds S b
  | .union a b => holds S a || holds S b

/-- The regions a description mentions. -/
def regions : Alg → List Nat
  | .region k => [k]
  | .compl a => regions a
  | .inter a b => regions a ++ regions b
  | .union a b => regions a ++ regions b

/-- Does operand `k` store coordinate `c`? -/
def stored {V : Type} (X : Operands V) (c k : Nat) : Bool := decide (c ∈ X.crd k)

/-- The value of operand `k` at coordinate `c`. -/
def valueAt {V : Type} (X : Operands V) (c k : Nat) : V :=
  if c ∈ X.crd k then (X.vals k).getD ((X.crd k).idxOf c) X.zero else X.zero

/-- The special definition for a set of operands, if there is one. -/
def specialFor {V : Type} (special : List (List Nat × (List V → V))) (S : List Nat) :
    Option (List V → V) :=
  (special.find? (fun d => d.1 == S)).map (·.2)

/-- The value of the call at a coordinate. -/
def callAt {V : Type} (op : Op V) (X : Operands V) (c : Nat) : V :=
  let S := (List.range op.arity).filter (stored X c)
  match specialFor op.special S with
  | some f => f (S.map (valueAt X c))
  | none => op.func ((List.range op.arity).map (valueAt X c))

/-- What the loop must assign: the coordinates of the iteration space in increasing order, each with
the value of the call there. -/
def expected {V : Type} (op : Op V) (X : Operands V) : List (Nat × V) :=
  ((List.range X.n).filter (fun c => holds (stored X c) op.alg)).map (fun c => (c, callAt op X c))

/-- Well formed operands: coordinates strictly increasing and below the dimension, one value each. -/
def WF {V : Type} (X : Operands V) : Prop :=
  ∀ k, (X.crd k).Pairwise (· < ·) ∧ (∀ x ∈ X.crd k, x < X.n) ∧ (X.vals k).length = (X.crd k).length

/-- No operand stores an explicit zero. -/
def NoZeros {V : Type} (X : Operands V) : Prop := ∀ k, X.zero ∉ X.vals k

/-- The iteration space when every complemented region is taken to be everything (`neg`: the
description stands under an odd number of complements). -/
def reach (neg : Bool) (S : Nat → Bool) : Alg → Bool
  | .region k => neg || S k
  | .compl a => reach (!neg) S a
  | .inter a b => if neg then reach neg S a || reach neg S b else reach neg S a && reach neg S b
  | .union a b => if neg then reach neg S a && reach neg S b else reach neg S a || reach neg S b

/-- Each region of the description alone reaches it. -/
def alone (neg : Bool) (a : Alg) : Bool := (regions a).all (fun k => reach neg (fun j => j == k) a)

/-- Both sides of every union are reached by each of their regions alone. Under a complement an
intersection is a union. -/
def covered (neg : Bool) : Alg → Bool
  | .region _ => true
  | .compl a => covered (!neg) a
  | .inter a b => covered neg a && covered neg b && (!neg || (alone neg a && alone neg b))
  | .union a b => covered neg a && covered neg b && (neg || (alone neg a && alone neg b))

/-- The iteration spaces of the theorem: unions are covered, and unless a coordinate stored by no
operand is in the space, a region that alone reaches the space is in it. -/
def supported (a : Alg) : Bool :=
  covered false a &&
  (holds (fun _ => false) a ||
    (regions a).all (fun k => !reach false (fun j => j == k) a || holds (fun j => j == k) a))

/-- The description complements something. -/
def hasCompl : Alg → Bool
  | .region _ => false
  | .compl _ => true
  | .inter a b => hasCompl a || hasCompl b
  | .union a b => hasCompl a || hasCompl b

end Verif.Omit
