import Verif.Types.Model
/-!
# Trees of the low-level code

The nodes of include/taco/ir/ir.h 143-800 with their fields.

Simplifications
* A handle that is not defined (`Expr()`, `Stmt()`) is `undef`.
* A literal is an integer with a type; a variable is identified by a number (its address).
* The clauses of `Case` and `Switch` are two lists (`std::vector` of pairs): conditions and bodies.
-/
namespace Verif.Rewrite
open Verif.Types

/-- Nodes with one operand, ir.h 283-300, 462-470, 499-507. -/
inductive UnOp | neg | sqrt | cast | malloc
  deriving DecidableEq

/-- Nodes with two operands, ir.h 302-460, 483-497. `text` is `BinOp`: operands between three texts. -/
inductive BiOp
  | add | sub | mul | div | rem | bitAnd | bitOr | eq | neq | gt | lt | gte | lte | and | or | load
  | text (first middle last : String)
  deriving DecidableEq

/-- Nodes with any number of operands, ir.h 352-376, 472-481. -/
inductive ManyOp | min | max | call (function : String)
  deriving DecidableEq

/-- `TensorProperty`, ir.h 74-84. -/
inductive Property
  | order | dimension | componentSize | modeOrdering | modeTypes | indices | values | fillValue | valuesSize
  deriving DecidableEq

/-- `ParallelUnit`, include/taco/ir_tags.h 11-13. -/
inductive PUnit
  | notParallel | default | gpuBlock | gpuWarp | gpuThread | cpuThread | cpuVector | cpuGroup | gpuBlockRed | gpuWarpRed
  deriving DecidableEq

/-- `LoopKind`, ir.h 618. -/
inductive LoopKind | serial | static | dynamic | runtime | vectorized | chunked
  deriving DecidableEq

/-- Expressions; `ty` is the field `type` of the node (ir.h 110-113). -/
inductive Expr
  | undef
  | lit (ty : Kind) (v : Int)
  | var (id : Nat) (ty : Kind) (name : String)
  | sizeof (of : Kind)
  | un (o : UnOp) (ty : Kind) (a : Expr)
  | bin (o : BiOp) (ty : Kind) (a b : Expr)
  | many (o : ManyOp) (ty : Kind) (as : List Expr)
  | prop (ty : Kind) (t : Expr) (p : Property) (mode index : Nat) (name : String)

/-- `Expr::type`, ir.h 182-184. -/
def typeOf : Expr → Kind
  | .undef => .undefined
  | .lit ty _ => ty
  | .var _ ty _ => ty
  | .sizeof _ => .uint64
  | .un _ ty _ => ty
  | .bin _ ty _ _ => ty
  | .many _ ty _ => ty
  | .prop ty .. => ty

/-- Statements, ir.h 519-780. -/
inductive Stmt
  | undef
  | block (l : List Stmt)
  | scope (s : Stmt)
  | store (arr loc data : Expr) (atomics : Bool) (unit : PUnit)
  | ite (c : Expr) (yes no : Stmt)
  | case (conds : List Expr) (bodies : List Stmt) (always : Bool)
  | switch (conds : List Expr) (bodies : List Stmt) (control : Expr)
  | loop (x start stop step : Expr) (body : Stmt) (kind : LoopKind) (unit : PUnit) (unroll width : Nat)
  | while (c : Expr) (body : Stmt) (kind : LoopKind) (width : Nat)
  | func (name : String) (outs ins : List Expr) (body : Stmt)
  | decl (x rhs : Expr)
  | assign (lhs rhs : Expr) (atomics : Bool) (unit : PUnit)
  | yield (coords : List Expr) (val : Expr)
  | alloc (x num old : Expr) (again clear : Bool)
  | free (x : Expr)
  | comment (t : String)
  | blank
  | continue
  | break
  | print (fmt : String) (ps : List Expr)
  | sort (as : List Expr)

end Verif.Rewrite
