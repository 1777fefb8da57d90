/-!
Index expressions and the zero rewriter.

Models the scalar part of index notation (`include/taco/index_notation/index_notation_nodes.h`)
and `struct Zero` of `src/index_notation/index_notation.cpp`, 3772-4094.

Simplifications
* An access is identified by a number: two occurrences of the same access (`operator==(Access)`,
  `index_notation.cpp` 1083-1101) carry the same number.
* All values have one type `V`; a cast is some function of `V`.
* Calls, intrinsics and index variables used as values are not in this expression type
  (intrinsics are treated separately).
-/
namespace Verif.Merge

/-- Unary nodes `NegNode`, `SqrtNode`, `CastNode` (index_notation_nodes.h). -/
inductive UnOp | neg | sqrt | cast
  deriving DecidableEq, Repr

/-- Binary nodes `AddNode`, `SubNode`, `MulNode`, `DivNode` (index_notation_nodes.h). -/
inductive BinOp | add | sub | mul | div
  deriving DecidableEq, Repr

/-- Index expressions (index_notation_nodes.h: AccessNode, LiteralNode, unary and binary nodes). -/
inductive Expr (V : Type)
  | acc (k : Nat)
  | lit (v : V)
  | un (u : UnOp) (a : Expr V)
  | bin (b : BinOp) (l r : Expr V)
  deriving DecidableEq, Repr

/-- The scalar operations of the element type. -/
structure Ops (V : Type) where
  zero : V
  un : UnOp → V → V
  bin : BinOp → V → V → V

/-- What the zero rewriter and the merge lattices assume about zero.  These hold in every ring for
negation, addition, subtraction and multiplication; they are assumptions for division by zero and
for IEEE infinities. -/
structure ZeroLaws {V : Type} (o : Ops V) : Prop where
  un_zero : ∀ u, o.un u o.zero = o.zero
  zero_add : ∀ x, o.bin .add o.zero x = x
  add_zero : ∀ x, o.bin .add x o.zero = x
  zero_sub : ∀ x, o.bin .sub o.zero x = o.un .neg x
  sub_zero : ∀ x, o.bin .sub x o.zero = x
  zero_mul : ∀ x, o.bin .mul o.zero x = o.zero
  mul_zero : ∀ x, o.bin .mul x o.zero = o.zero
  zero_div : ∀ x, o.bin .div o.zero x = o.zero
  div_zero : ∀ x, o.bin .div x o.zero = o.zero

namespace Expr
variable {V : Type}

/-- Reference meaning of an expression given the value of every access. -/
def eval (o : Ops V) (val : Nat → V) : Expr V → V
  | acc k => val k
  | lit v => v
  | un u a => o.un u (a.eval o val)
  | bin b l r => o.bin b (l.eval o val) (r.eval o val)

/-- Meaning of a possibly undefined expression: taco uses the undefined `IndexExpr()` for zero. -/
def evalOpt (o : Ops V) (val : Nat → V) : Option (Expr V) → V
  | none => o.zero
  | some e => e.eval o val

/-- The accesses occurring in an expression, in order, with repetitions. -/
def leaves : Expr V → List Nat
  | acc k => [k]
  | lit _ => []
  | un _ a => a.leaves
  | bin _ l r => l.leaves ++ r.leaves

/-- `struct Zero`, index_notation.cpp 3772-4086: rewrite `e` knowing that the accesses in `z` are
zero; `none` is the undefined expression.  AccessNode 3784-3792, unary 3802-3822,
`visitDisjunctionOp` 3824-3844 (Add), SubNode 3866-3884, `visitConjunctionOp` 3846-3860 (Mul, Div),
CastNode 3894-3905. The pointer test `a == op->a` only avoids an allocation. -/
def zeroOut (z : Nat → Bool) : Expr V → Option (Expr V)
  | acc k => if z k then none else some (acc k)
  | lit v => some (lit v)
  | un u a =>
    match a.zeroOut z with
    | none => none
    | some a' => some (un u a')
  | bin .add l r =>
    match l.zeroOut z, r.zeroOut z with
    | none, none => none
    | none, some r' => some r'
    | some l', none => some l'
    | some l', some r' => some (bin .add l' r')
  | bin .sub l r =>
    match l.zeroOut z, r.zeroOut z with
    | none, none => none
    | none, some r' => some (un .neg r')
    | some l', none => some l'
    | some l', some r' => some (bin .sub l' r')
  | bin .mul l r =>
    match l.zeroOut z, r.zeroOut z with
    | some l', some r' => some (bin .mul l' r')
    | _, _ => none
  | bin .div l r =>
    match l.zeroOut z, r.zeroOut z with
    | some l', some r' => some (bin .div l' r')
    | _, _ => none

/-- The rewriter applied to a statement that may already be undefined. -/
def zeroOutOpt (z : Nat → Bool) : Option (Expr V) → Option (Expr V)
  | none => none
  | some e => e.zeroOut z

end Expr
end Verif.Merge
