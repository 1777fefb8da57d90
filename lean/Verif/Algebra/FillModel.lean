import Verif.Algebra.Model
/-!
C47: the fill value that is inferred for an argument of a user-defined operator (`inferFill`,
src/index_notation/index_notation.cpp 4096-4227), and the region in which the argument is computed (the merge
lattices of src/lower/merge_lattice.cpp 186-326). Data types of literals are left out: literals are compared with
the zero of their own type.
-/
namespace Verif.Algebra

/-- Expressions that are arguments of a user-defined operator. Arguments of a call inside of one are literals and
accesses. -/
inductive FExpr (V : Type) where
  | access (n : Nat)
  | lit (v : V)
  | neg (a : FExpr V)
  | add (a b : FExpr V)
  | sub (a b : FExpr V)
  | mul (a b : FExpr V)
  | div (a b : FExpr V)
  | sqrt (a : FExpr V)
  | cast (a : FExpr V)
  | call (f : List V → V) (ann ident : Option (Decl V)) (args : List (Arg V))
  | reduction (a : FExpr V)
  | indexVar (n : Nat)

/-- What the inference returns: an undefined expression, a literal, or another expression. -/
inductive FRes (V : Type) where
  | undef
  | lit (v : V)
  | other
  deriving DecidableEq

/-- `equals(a, Literal::zero(a.getDataType()))`: an undefined `a` is a null pointer (`none`). -/
def isZeroLit {V} [DecidableEq V] (zero : V) : FRes V → Option Bool
  | .undef => none
  | .lit v => some (decide (v = zero))
  | .other => some false

/-- `isa<Literal>`. -/
def isLit {V} : FRes V → Bool
  | .lit _ => true
  | _ => false

/-- An argument as a result. -/
def argRes {V} : Option (Arg V) → FRes V
  | some (.lit v) => .lit v
  | some (.expr _) => .other
  | none => .undef

/-- Neg and Sqrt, 4108-4115 and 4177-4184. -/
def inferSame {V} [DecidableEq V] (zero : V) (a : FRes V) : Option (FRes V) :=
  (isZeroLit zero a).bind fun z => some (if z = true then a else .undef)

/-- `visit(AddNode)`, 4117-4132. -/
def inferAdd {V} [DecidableEq V] (zero : V) (a b : FRes V) : Option (FRes V) :=
  (isZeroLit zero a).bind fun za =>
    if za = true ∧ isLit b = true then some b
    else (isZeroLit zero b).bind fun zb => some (if zb = true ∧ isLit a = true then a else .undef)

/-- `visit(SubNode)`, 4134-4144. -/
def inferSub {V} [DecidableEq V] (zero : V) (a b : FRes V) : Option (FRes V) :=
  (isZeroLit zero b).bind fun zb => some (if zb = true ∧ isLit a = true then a else .undef)

/-- `visit(MulNode)`, 4146-4161. -/
def inferMul {V} [DecidableEq V] (zero : V) (a b : FRes V) : Option (FRes V) :=
  (isZeroLit zero a).bind fun za =>
    if za = true then some a
    else (isZeroLit zero b).bind fun zb => some (if zb = true then b else .undef)

/-- `visit(CallNode)`, the part about the identity, 4199-4206. -/
def inferIdent {V} [DecidableEq V] (ident : Option (Decl V)) (args : List (Arg V)) : Option (FRes V) :=
  match ident with
  | none => some .undef
  | some p => (simplify p args).map argRes

/-- `visit(CallNode)`, 4190-4208: the arguments themselves are looked at, not their fill values. -/
def inferCall {V} [DecidableEq V] (ann ident : Option (Decl V)) (args : List (Arg V)) : Option (FRes V) :=
  match ann with
  | none => inferIdent ident args
  | some p => (annihilates p args).bind fun r => if r.isSome = true then some (argRes r) else inferIdent ident args

/-- `inferFill`; `fill` are the fill values of the tensors. `none`: a null pointer is dereferenced, or a user
assertion fails. -/
def infer {V} [DecidableEq V] (zero : V) (fill : Nat → V) : FExpr V → Option (FRes V)
  | .access n => some (.lit (fill n))
  | .lit v => some (.lit v)
  | .neg a => (infer zero fill a).bind (inferSame zero)
  | .add a b => (infer zero fill a).bind fun x => (infer zero fill b).bind fun y => inferAdd zero x y
  | .sub a b => (infer zero fill a).bind fun x => (infer zero fill b).bind fun y => inferSub zero x y
  | .mul a b => (infer zero fill a).bind fun x => (infer zero fill b).bind fun y => inferMul zero x y
  | .div a b => (infer zero fill a).bind fun x => (infer zero fill b).bind fun _ => inferSame zero x
  | .sqrt a => (infer zero fill a).bind (inferSame zero)
  | .cast _ => some .undef
  | .call _ ann ident args => inferCall ann ident args
  | .reduction _ => some .undef
  | .indexVar _ => some .undef

/-- Where an argument is computed, given which tensors are stored at the point (merge_lattice.cpp 186-326). The
region of an inner call is a parameter. -/
def region {V} (callRegion : List (Arg V) → Prop) (stored : Nat → Prop) : FExpr V → Prop
  | .access n => stored n
  | .lit _ => True
  | .neg a => region callRegion stored a
  | .add a b => region callRegion stored a ∨ region callRegion stored b
  | .sub a b => region callRegion stored a ∨ region callRegion stored b
  | .mul a b => region callRegion stored a ∧ region callRegion stored b
  | .div a b => region callRegion stored a ∧ region callRegion stored b
  | .sqrt a => region callRegion stored a
  | .cast a => region callRegion stored a
  | .call _ _ _ args => callRegion args
  | .reduction a => region callRegion stored a
  | .indexVar _ => True

end Verif.Algebra
