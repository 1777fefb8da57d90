import Verif.Algebra.FillModel
import Verif.Algebra.Spec
/-!
C47: what the fill value of an argument of a user-defined operator should be.
-/
namespace Verif.Algebra

/-- The operations on numbers. -/
structure Num (V : Type) where
  zero : V
  neg : V → V
  add : V → V → V
  sub : V → V → V
  mul : V → V → V
  div : V → V → V
  sqrt : V → V
  cast : V → V
  sum : V → V
  ivar : Nat → V

/-- Laws of zero. They hold for integers, and for floating-point numbers that are finite and not divided by zero. -/
structure Num.Laws {V} (o : Num V) : Prop where
  neg_zero : o.neg o.zero = o.zero
  sqrt_zero : o.sqrt o.zero = o.zero
  zero_add : ∀ x, o.add o.zero x = x
  add_zero : ∀ x, o.add x o.zero = x
  sub_zero : ∀ x, o.sub x o.zero = x
  zero_mul : ∀ x, o.mul o.zero x = o.zero
  mul_zero : ∀ x, o.mul x o.zero = o.zero
  zero_div : ∀ x, o.div o.zero x = o.zero

/-- The value of an expression at a point at which the tensors have these values. -/
def value {V} (o : Num V) (env : Nat → V) : FExpr V → V
  | .access n => env n
  | .lit v => v
  | .neg a => o.neg (value o env a)
  | .add a b => o.add (value o env a) (value o env b)
  | .sub a b => o.sub (value o env a) (value o env b)
  | .mul a b => o.mul (value o env a) (value o env b)
  | .div a b => o.div (value o env a) (value o env b)
  | .sqrt a => o.sqrt (value o env a)
  | .cast a => o.cast (value o env a)
  | .call f _ _ args => f (args.map (argVal env))
  | .reduction a => o.sum (value o env a)
  | .indexVar n => o.ivar n

/-- The calls inside of the expression have the properties that were declared for them. -/
def Honest {V} : FExpr V → Prop
  | .neg a | .sqrt a | .cast a | .reduction a => Honest a
  | .add a b | .sub a b | .mul a b | .div a b => Honest a ∧ Honest b
  | .call f ann ident args => (∀ p, ann = some p → HasAnnihilator f p) ∧
      (∀ p, ident = some p → HasIdentity f p ∧ p.positions.Nodup) ∧ args ≠ []
  | _ => True

/-- Every factor of a product has the inferred fill value zero, and there are no quotients. -/
def ZeroFactors {V} [DecidableEq V] (zero : V) (fill : Nat → V) : FExpr V → Prop
  | .neg a | .sqrt a | .cast a | .reduction a => ZeroFactors zero fill a
  | .add a b | .sub a b => ZeroFactors zero fill a ∧ ZeroFactors zero fill b
  | .mul a b => ZeroFactors zero fill a ∧ ZeroFactors zero fill b ∧ infer zero fill a = some (.lit zero) ∧
      infer zero fill b = some (.lit zero)
  | .div _ _ => False
  | _ => True

end Verif.Algebra
