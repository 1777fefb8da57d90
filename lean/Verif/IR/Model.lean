import Verif.Types.Model
/-!
IR expressions (include/taco/ir/ir.h, src/ir/ir.cpp 246-540) and `ExpressionSimplifier`
(src/ir/simplify.cpp 16-353).

Simplifications
* Not modelled: `Sqrt`, `BitAnd`, `BitOr`, `BinOp`, `Call`, `GetProperty`, `Malloc`, `Sizeof` (the
  simplifier only rebuilds them) and pointer arithmetic. `Min` and `Max` have two operands.
* A variable or array is a number together with its component type.
* Integers wrap around in their type (for signed types: two's complement, as in the folding code, which
  computes in the type of the literal). Floating-point and complex arithmetic is a parameter (`Flt`).
* `none` in the simplifier is a crash of the compiler: a literal divided by the literal zero, or an internal
  assertion.
-/
namespace Verif.IR
open Verif.Types

variable {F : Type}

/-- Run-time values. -/
inductive Val (F : Type)
  | b (x : Bool)
  | i (x : Int)
  | f (x : F)
  deriving DecidableEq, Repr

/-- Floating-point and complex arithmetic of each type. `eq0` and `eq1` are comparison with the numbers zero
and one (`equalsScalar`, ir.cpp 192-244). -/
structure Flt (F : Type) where
  add : Kind → F → F → F
  sub : Kind → F → F → F
  mul : Kind → F → F → F
  div : Kind → F → F → F
  neg : Kind → F → F
  ofInt : Kind → Int → F
  toInt : F → Option Int
  conv : Kind → F → F
  lt : F → F → Bool
  eq : F → F → Bool
  eq0 : F → Bool
  eq1 : F → Bool

inductive AOp | add | sub | mul | div | rem | min | max
  deriving DecidableEq, Repr

inductive COp | eq | neq | gt | lt | gte | lte
  deriving DecidableEq, Repr

/-- IR expressions. -/
inductive Expr (F : Type)
  | lit (k : Kind) (v : Val F)
  | var (k : Kind) (x : Nat)
  | arith (op : AOp) (a b : Expr F)
  | cmp (op : COp) (a b : Expr F)
  | neg (a : Expr F)
  | not (a : Expr F)
  | and (a b : Expr F)
  | or (a b : Expr F)
  | cast (a : Expr F) (k : Kind)
  | load (k : Kind) (arr : Nat) (loc : Expr F)
  deriving DecidableEq

/-- The type of a node: `make` functions of src/ir/ir.cpp 246-528. -/
def Expr.type : Expr F → Option Kind
  | .lit k _ => some k
  | .var k _ => some k
  | .arith _ a b => (a.type).bind fun ka => (b.type).bind fun kb => maxType ka kb
  | .cmp .. | .and .. | .or .. | .not _ => some .bool
  | .neg a => a.type
  | .cast _ k => some k
  | .load k _ _ => some k

/-! ### Meaning of expressions -/

/-- The value of an integer in an integer type. -/
def wrap (k : Kind) (x : Int) : Int :=
  match numBits k with
  | none => x
  | some w => if isInt k then (x + 2 ^ (w - 1)) % 2 ^ w - 2 ^ (w - 1) else x % 2 ^ w

/-- Conversion of a value to a type. -/
def convert (A : Flt F) (k : Kind) : Val F → Option (Val F)
  | .b x => if k = .bool then some (.b x)
      else if isInt k || isUInt k then some (.i (wrap k (if x then 1 else 0)))
      else some (.f (A.ofInt k (if x then 1 else 0)))
  | .i x => if k = .bool then some (.b (decide (x ≠ 0)))
      else if isInt k || isUInt k then some (.i (wrap k x))
      else some (.f (A.ofInt k x))
  | .f x => if k = .bool then none
      else if isInt k || isUInt k then (A.toInt x).map fun n => .i (wrap k n)
      else some (.f (A.conv k x))

/-- Conversion that does nothing when the types are the same. -/
def promote (A : Flt F) (src k : Kind) (v : Val F) : Option (Val F) := if src = k then some v else convert A k v

/-- An arithmetic operation in a type. Division by zero and overflowing division have no value. -/
def arithVal (A : Flt F) (k : Kind) : AOp → Val F → Val F → Option (Val F)
  | .add, .i x, .i y => some (.i (wrap k (x + y)))
  | .sub, .i x, .i y => some (.i (wrap k (x - y)))
  | .mul, .i x, .i y => some (.i (wrap k (x * y)))
  | .div, .i x, .i y => if y = 0 ∨ wrap k (x.tdiv y) ≠ x.tdiv y then none else some (.i (wrap k (x.tdiv y)))
  | .rem, .i x, .i y => if y = 0 ∨ wrap k (x.tdiv y) ≠ x.tdiv y then none else some (.i (wrap k (x.tmod y)))
  | .min, .i x, .i y => some (.i (if x < y then x else y))
  | .max, .i x, .i y => some (.i (if x > y then x else y))
  | .add, .f x, .f y => some (.f (A.add k x y))
  | .sub, .f x, .f y => some (.f (A.sub k x y))
  | .mul, .f x, .f y => some (.f (A.mul k x y))
  | .div, .f x, .f y => some (.f (A.div k x y))
  | .min, .f x, .f y => some (.f (if A.lt x y then x else y))
  | .max, .f x, .f y => some (.f (if A.lt y x then x else y))
  | _, _, _ => none

def cmpVal (A : Flt F) : COp → Val F → Val F → Option Bool
  | .eq, .i x, .i y => some (decide (x = y))
  | .neq, .i x, .i y => some (decide (x ≠ y))
  | .gt, .i x, .i y => some (decide (x > y))
  | .lt, .i x, .i y => some (decide (x < y))
  | .gte, .i x, .i y => some (decide (x ≥ y))
  | .lte, .i x, .i y => some (decide (x ≤ y))
  | .eq, .f x, .f y => some (A.eq x y)
  | .neq, .f x, .f y => some (!A.eq x y)
  | .gt, .f x, .f y => some (A.lt y x)
  | .lt, .f x, .f y => some (A.lt x y)
  | .gte, .f x, .f y => some (A.lt y x || A.eq x y)
  | .lte, .f x, .f y => some (A.lt x y || A.eq x y)
  | .eq, .b x, .b y => some (x == y)
  | .neq, .b x, .b y => some (x != y)
  | _, _, _ => none

def negVal (A : Flt F) (k : Kind) : Val F → Option (Val F)
  | .i x => some (.i (wrap k (-x)))
  | .f x => some (.f (A.neg k x))
  | .b _ => none

/-- Variables and memory. -/
structure Env (F : Type) where
  var : Nat → Option (Val F)
  mem : Nat → Int → Option (Val F)

/-- Both operands converted to the type of the result. -/
def promoted (A : Flt F) (ta tb : Option Kind) (x y : Option (Val F)) (f : Kind → Val F → Val F → Option (Val F)) :
    Option (Val F) :=
  ta.bind fun ka => tb.bind fun kb => (maxType ka kb).bind fun k => x.bind fun u => y.bind fun v =>
    (promote A ka k u).bind fun u' => (promote A kb k v).bind fun v' => f k u' v'

/-- The value of an expression; `none`: undefined behaviour. -/
def eval (A : Flt F) (env : Env F) : Expr F → Option (Val F)
  | .lit _ v => some v
  | .var _ x => env.var x
  | .arith op a b => promoted A a.type b.type (eval A env a) (eval A env b) fun k u v => arithVal A k op u v
  | .cmp op a b => promoted A a.type b.type (eval A env a) (eval A env b) fun _ u v => (cmpVal A op u v).map .b
  | .neg a => (a.type).bind fun k => (eval A env a).bind (negVal A k)
  | .not a => match eval A env a with
    | some (.b x) => some (.b (!x))
    | _ => none
  | .and a b => match eval A env a with
    | some (.b true) => eval A env b
    | some (.b false) => some (.b false)
    | _ => none
  | .or a b => match eval A env a with
    | some (.b true) => some (.b true)
    | some (.b false) => eval A env b
    | _ => none
  | .cast a k => (a.type).bind fun ka => (eval A env a).bind (promote A ka k)
  | .load _ arr loc => match eval A env loc with
    | some (.i n) => env.mem arr n
    | _ => none

/-! ### The simplifier -/

/-- `Literal::equalsScalar(0)`, ir.cpp 192-244. -/
def isZero (A : Flt F) : Val F → Bool
  | .b x => !x
  | .i x => x == 0
  | .f x => A.eq0 x

/-- `Literal::equalsScalar(1)`. -/
def isOne (A : Flt F) : Val F → Bool
  | .b x => x
  | .i x => x == 1
  | .f x => A.eq1 x

/-- The conversion of a literal to the result type, simplify.cpp 104-111:
`TypedComponentVal(resulttype, (int) litaval.getAsIndex())`. -/
def foldConv (src k : Kind) (x : Int) : Int := if src = k then x else wrap k (wrap .int32 (x % 2 ^ 64))

/-- Folding of two integer literals for `Add`, `Sub` and `Mul`, simplify.cpp 97-115, 182-200, 232-250. -/
def foldArith (op : AOp) (ka : Kind) (va : Val F) (kb : Kind) (vb : Val F) : Option (Expr F) :=
  match maxType ka kb, va, vb with
  | some k, .i x, .i y =>
    if isInt k || isUInt k then
      match op with
      | .add => some (.lit k (.i (wrap k (foldConv ka k x + foldConv kb k y))))
      | .sub => some (.lit k (.i (wrap k (foldConv ka k x - foldConv kb k y))))
      | .mul => some (.lit k (.i (wrap k (foldConv ka k x * foldConv kb k y))))
      | _ => none
    else none
  | _, _, _ => none

/-- Two literals. -/
def lits (a b : Expr F) : Option (Kind × Val F × Kind × Val F) :=
  match a, b with
  | .lit ka va, .lit kb vb => some (ka, va, kb, vb)
  | _, _ => none

/-- `a` is `op c d` with a literal `d`, `b` is a literal, and `c`, `d`, `b` have the same integer type
(simplify.cpp 117-150 and 252-265). -/
def reassoc (op : AOp) (a b : Expr F) : Option (Expr F × Kind × Int × Int) :=
  match a, b with
  | .arith o c (.lit kd (.i d)), .lit kb (.i x) =>
    if o = op ∧ c.type = some kd ∧ kd = kb ∧ (isInt kb || isUInt kb) = true then some (c, kb, d, x) else none
  | _, _ => none

/-- Rules of `Add` for operands `a` and `b` that are already simplified; `again` is the recursive call of
`simplify`. -/
def addRules (A : Flt F) (again : Expr F → Option (Expr F)) (a b : Expr F) : Option (Expr F) :=
  match (lits a b).bind fun l => foldArith .add l.1 l.2.1 l.2.2.1 l.2.2.2 with
  | some e => some e
  | none =>
  match reassoc .add a b with
  | some (c, k, d, x) => again (.arith .add c (.lit k (.i (wrap k (d + x)))))
  | none =>
  match reassoc .sub a b with
  | some (c, k, d, x) => again (.arith .add c (.lit k (.i (wrap k (x - d)))))
  | none =>
  match a, b with
  | .lit ka va, b => if isZero A va then some b else match b with
    | .lit kb vb => if isZero A vb then some (.lit ka va) else some (.arith .add (.lit ka va) (.lit kb vb))
    | b => some (.arith .add (.lit ka va) b)
  | a, .lit kb vb => if isZero A vb then some a else some (.arith .add a (.lit kb vb))
  | a, b => some (.arith .add a b)

/-- Rules of `Sub`, simplify.cpp 176-226. -/
def subRules (A : Flt F) (a b : Expr F) : Option (Expr F) :=
  match (lits a b).bind fun l => foldArith .sub l.1 l.2.1 l.2.2.1 l.2.2.2 with
  | some e => some e
  | none =>
  match a, b with
  | .lit ka va, b => if isZero A va then some (.neg b) else match b with
    | .lit kb vb => if isZero A vb then some (.lit ka va) else some (.arith .sub (.lit ka va) (.lit kb vb))
    | b => some (.arith .sub (.lit ka va) b)
  | a, .lit kb vb => if isZero A vb then some a else some (.arith .sub a (.lit kb vb))
  | a, b => some (.arith .sub a b)

/-- Rules of `Mul`, simplify.cpp 228-299. -/
def mulRules (A : Flt F) (again : Expr F → Option (Expr F)) (a b : Expr F) : Option (Expr F) :=
  match (lits a b).bind fun l => foldArith .mul l.1 l.2.1 l.2.2.1 l.2.2.2 with
  | some e => some e
  | none =>
  match reassoc .mul a b with
  | some (c, k, d, x) => again (.arith .mul c (.lit k (.i (wrap k (d * x)))))
  | none =>
  match a, b with
  | .lit ka va, b => if isZero A va then some (.lit ka va) else if isOne A va then some b else match b with
    | .lit kb vb => if isZero A vb then some (.lit kb vb) else if isOne A vb then some (.lit ka va)
        else some (.arith .mul (.lit ka va) (.lit kb vb))
    | b => some (.arith .mul (.lit ka va) b)
  | a, .lit kb vb => if isZero A vb then some (.lit kb vb) else if isOne A vb then some a
      else some (.arith .mul a (.lit kb vb))
  | a, b => some (.arith .mul a b)

/-- Rules of `Div`, simplify.cpp 301-348. Dividing by a literal zero kills the compiler. -/
def divRules (A : Flt F) (a b : Expr F) : Option (Expr F) :=
  match a, b with
  | .lit ka (.i x), .lit kb (.i y) =>
    if ka = kb ∧ (isInt ka || isUInt ka) = true then
      if y = 0 then none else some (.lit ka (.i (wrap ka (x.tdiv y))))
    else if y = 1 then some (.lit ka (.i x)) else some (.arith .div (.lit ka (.i x)) (.lit kb (.i y)))
  | a, .lit kb vb => if isOne A vb then some a else some (.arith .div a (.lit kb vb))
  | a, b => some (.arith .div a b)

/-- Rules of `Or`, simplify.cpp 39-65. `getValue<bool>` of another literal is an internal error. -/
def orRules : Expr F → Expr F → Option (Expr F)
  | .lit ka va, b => match va with
    | .b x => some (if x then .lit ka (.b x) else b)
    | _ => none
  | a, .lit kb vb => match vb with
    | .b x => some (if x then .lit kb (.b x) else a)
    | _ => none
  | a, b => some (.or a b)

/-- Rules of `And`, simplify.cpp 67-93. -/
def andRules : Expr F → Expr F → Option (Expr F)
  | .lit ka va, b => match va with
    | .b x => some (if x then b else .lit ka (.b x))
    | _ => none
  | a, .lit kb vb => match vb with
    | .b x => some (if x then a else .lit kb (.b x))
    | _ => none
  | a, b => some (.and a b)

/-- Rules of `Cast`, simplify.cpp 19-37. -/
def castRules (A : Flt F) (k : Kind) : Expr F → Option (Expr F)
  | .lit .bool (.b x) => (convert A k (.b x)).map (.lit k)
  | a => some (.cast a k)

/-- `ExpressionSimplifier::rewrite` with a bound on the recursion depth. -/
def simp (A : Flt F) : Nat → Expr F → Option (Expr F)
  | 0, _ => none
  | n + 1, e => match e with
    | .lit k v => some (.lit k v)
    | .var k x => some (.var k x)
    | .arith op a b => (simp A n a).bind fun a => (simp A n b).bind fun b => match op with
      | .add => addRules A (simp A n) a b
      | .sub => subRules A a b
      | .mul => mulRules A (simp A n) a b
      | .div => divRules A a b
      | op => some (.arith op a b)
    | .cmp op a b => (simp A n a).bind fun a => (simp A n b).bind fun b => some (.cmp op a b)
    | .neg a => (simp A n a).map .neg
    | .not a => (simp A n a).map .not
    | .and a b => (simp A n a).bind fun a => (simp A n b).bind fun b => andRules a b
    | .or a b => (simp A n a).bind fun a => (simp A n b).bind fun b => orRules a b
    | .cast a k => (simp A n a).bind (castRules A k)
    | .load k arr loc => (simp A n loc).map (.load k arr)

/-- Number of nodes. -/
def Expr.size : Expr F → Nat
  | .lit .. | .var .. => 1
  | .arith _ a b | .cmp _ a b | .and a b | .or a b => a.size + b.size + 1
  | .neg a | .not a | .cast a _ | .load _ _ a => a.size + 1

/-- `simplify(Expr)`, simplify.cpp 351-353. -/
def simplify (A : Flt F) (e : Expr F) : Option (Expr F) := simp A e.size e

end Verif.IR
