import Verif.Rewrite.Syntax
/-!
`IRRewriter` (src/ir/ir_rewriter.cpp 16-515), the constructors it calls (src/ir/ir.cpp 246-860) and the pass that
replaces the dimensions of workspaces (src/ir/workspace_rewriter.cpp 17-62).

Simplifications
* A pass is a class that overrides `visit` methods: `f` and `g` say which node the overridden method delivers
  (`none`: the method of `IRRewriter`).
* Handles are compared by address (`a == op->a`): a rewriting delivers the new node and whether it is the old one.
* Assertions are not modelled (they are not compiled into releases); the type of a handle that is not defined and
  the type that `max_type` refuses are `undefined`.
-/
namespace Verif.Rewrite.Model
open Verif.Types Verif.Rewrite

/-- `Neg::make`, `Sqrt::make`, `Cast::make`, `Malloc::make`: ir.cpp 260-272, 499-504, 531-536. -/
def makeUn (o : UnOp) (ty : Kind) (a : Expr) : Expr :=
  match o with
  | .neg | .sqrt => .un o (typeOf a) a
  | .cast => .un .cast ty a
  | .malloc => .un .malloc .float64 a

/-- `max_expr_type`, ir.cpp 277-279. -/
def maxExprType (a b : Expr) : Kind := (maxType (typeOf a) (typeOf b)).getD .undefined

/-- `Add::make` … `Load::make`: ir.cpp 281-355, 400-497, 516-528. -/
def makeBin (o : BiOp) (a b : Expr) : Expr :=
  match o with
  | .add | .sub | .mul | .div | .rem => .bin o (maxExprType a b) a b
  | .bitAnd | .bitOr => .bin o .uint32 a b
  | .eq | .neq | .gt | .lt | .gte | .lte | .and | .or => .bin o .bool a b
  | .load => .bin .load (typeOf a) a b
  | .text .. => .bin o .float64 a b

/-- `Min::make`, `Max::make` of a vector (ir.cpp 365-398), `Call::make` (506-513). -/
def makeMany (o : ManyOp) (ty : Kind) (as : List Expr) : Expr :=
  match o with
  | .min | .max => .many o ((as.head?.map typeOf).getD .undefined) as
  | .call _ => .many o ty as

/-- `GetProperty::make`, ir.cpp 829-845. -/
def makeProp (t : Expr) (p : Property) (mode index : Nat) (name : String) : Expr :=
  .prop (if p = .values then typeOf t else .int32) t p mode index name

/-- A `visit` method that a pass overrides delivers another node. -/
def over {α : Type} (r : Option α) (base : α × Bool) : α × Bool :=
  match r with
  | some e => (e, false)
  | none => base

/-- `if (a == op->a) expr = op; else expr = T::make(a)`. -/
def keepOr {α : Type} (same : Bool) (old new : α) : α × Bool := if same then (old, true) else (new, false)

/-- The second half of `visit` for two operands: `visitBinaryOp` (ir_rewriter.cpp 53-63), `visit(const BinOp*)`
(177-185) and `visit(const Load*)` (267-276: without location it loads from 0). -/
def rebuildBin (o : BiOp) (a b a' b' : Expr) : Expr :=
  match o with
  | .text .. => makeBin o a b
  | .load => match b' with
    | .undef => makeBin .load a' (.lit .int64 0)
    | _ => makeBin .load a' b'
  | o => makeBin o a' b'

mutual
/-- `IRRewriter::rewrite(Expr)` (16-27) and the `visit` methods for expressions (65-213, 267-290, 486-494). -/
def rwE (f : Expr → Option Expr) : Expr → Expr × Bool
  | .undef => (.undef, true)
  | .lit ty v => over (f (.lit ty v)) (.lit ty v, true)
  | .var x ty n => over (f (.var x ty n)) (.var x ty n, true)
  | .sizeof k => over (f (.sizeof k)) (.sizeof k, true)
  | .un o ty a => over (f (.un o ty a)) (keepOr (rwE f a).2 (.un o ty a) (makeUn o ty (rwE f a).1))
  | .bin o ty a b => over (f (.bin o ty a b))
      (keepOr ((rwE f a).2 && (rwE f b).2) (.bin o ty a b) (rebuildBin o a b (rwE f a).1 (rwE f b).1))
  | .many o ty l => over (f (.many o ty l)) (keepOr (rwL f l).2 (.many o ty l) (makeMany o ty (rwL f l).1))
  | .prop ty t p m i n => over (f (.prop ty t p m i n))
      (keepOr (rwE f t).2 (.prop ty t p m i n) (makeProp (rwE f t).1 p m i n))
/-- The loops over operands, e.g. 102-110: the new operands, and whether all are the old ones. -/
def rwL (f : Expr → Option Expr) : List Expr → List Expr × Bool
  | [] => ([], true)
  | e :: l => ((rwE f e).1 :: (rwL f l).1, (rwE f e).2 && (rwL f l).2)
end

/-- `nop`, ir.cpp 551-555. -/
def nop : Stmt → Bool
  | .undef => true
  | .block [] => true
  | _ => false

/-- `Stmt::defined`. -/
def defined : Stmt → Bool
  | .undef => false
  | _ => true

/-- `Block::make`, ir.cpp 557-564. -/
def makeBlock (l : List Stmt) : Stmt := .block (l.filter (fun s => !nop s))

/-- `Scope::make`, ir.cpp 591-601. -/
def makeScope : Stmt → Stmt
  | .scope s => .scope s
  | s => .scope s

/-- `Store::make`, ir.cpp 604-612, `atomic_parallel_unit` by default `NotParallel` (ir.h 581). -/
def makeStore (arr loc d : Expr) (atomics : Bool) (unit : PUnit := .notParallel) : Stmt := .store arr loc d atomics unit

/-- `IfThenElse::make`, ir.cpp 619-631. -/
def makeIte (c : Expr) (a b : Stmt) : Stmt := .ite c (makeScope a) (if defined b then makeScope b else b)

/-- `Case::make`, `Switch::make`: ir.cpp 633-663. -/
def makeCase (cs : List Expr) (bs : List Stmt) (always : Bool) : Stmt := .case cs (bs.map makeScope) always
def makeSwitch (cs : List Expr) (bs : List Stmt) (control : Expr) : Stmt := .switch cs (bs.map makeScope) control

/-- `For::make`, `While::make`, `Function::make`: ir.cpp 666-702. -/
def makeFor (x a b c : Expr) (s : Stmt) (k : LoopKind) (u : PUnit) (n w : Nat) : Stmt :=
  .loop x a b c (makeScope s) k u n w
def makeWhile (c : Expr) (s : Stmt) (k : LoopKind) (w : Nat) : Stmt := .while c (makeScope s) k w
def makeFunc (name : String) (os is : List Expr) (s : Stmt) : Stmt := .func name os is (makeScope s)

/-- `Assign::make`, ir.cpp 750-759, `atomic_parallel_unit` by default `NotParallel` (ir.h 694). -/
def makeAssign (l r : Expr) (atomics : Bool) (unit : PUnit := .notParallel) : Stmt := .assign l r atomics unit

mutual
/-- `IRRewriter::rewrite(Stmt)` (29-40) and the `visit` methods for statements (215-265, 292-484, 496-512). -/
def rwS (f : Expr → Option Expr) (g : Stmt → Option Stmt) : Stmt → Stmt × Bool
  | .undef => (.undef, true)
  -- 331-351
  | .block l => over (g (.block l))
      (keepOr (rwSs f g l).2 (.block l) (makeBlock ((rwSs f g l).1.filter defined)))
  -- 353-361
  | .scope s => over (g (.scope s)) (keepOr (rwS f g s).2 (.scope s) (makeScope (rwS f g s).1))
  -- 292-302
  | .store a b c at_ u => over (g (.store a b c at_ u))
      (keepOr ((rwE f a).2 && (rwE f b).2 && (rwE f c).2) (.store a b c at_ u)
        (makeStore (rwE f a).1 (rwE f b).1 (rwE f c).1 at_))
  -- 215-226
  | .ite c a b => over (g (.ite c a b))
      (keepOr ((rwE f c).2 && (rwS f g a).2 && (rwS f g b).2) (.ite c a b)
        (makeIte (rwE f c).1 (rwS f g a).1 (rwS f g b).1))
  -- 228-245
  | .case cs bs al => over (g (.case cs bs al))
      (keepOr ((rwL f cs).2 && (rwSs f g bs).2) (.case cs bs al) (makeCase (rwL f cs).1 (rwSs f g bs).1 al))
  -- 247-265
  | .switch cs bs e => over (g (.switch cs bs e))
      (keepOr ((rwE f e).2 && ((rwL f cs).2 && (rwSs f g bs).2)) (.switch cs bs e)
        (makeSwitch (rwL f cs).1 (rwSs f g bs).1 (rwE f e).1))
  -- 304-318
  | .loop x a b c s k u n w => over (g (.loop x a b c s k u n w))
      (keepOr ((rwE f x).2 && (rwE f a).2 && (rwE f b).2 && (rwE f c).2 && (rwS f g s).2) (.loop x a b c s k u n w)
        (makeFor (rwE f x).1 (rwE f a).1 (rwE f b).1 (rwE f c).1 (rwS f g s).1 k u n w))
  -- 320-329
  | .while c s k w => over (g (.while c s k w))
      (keepOr ((rwE f c).2 && (rwS f g s).2) (.while c s k w) (makeWhile (rwE f c).1 (rwS f g s).1 k w))
  -- 363-388
  | .func n os is s => over (g (.func n os is s))
      (keepOr ((rwS f g s).2 && ((rwL f is).2 && (rwL f os).2)) (.func n os is s)
        (makeFunc n (rwL f os).1 (rwL f is).1 (rwS f g s).1))
  -- 390-399
  | .decl x r => over (g (.decl x r))
      (keepOr ((rwE f x).2 && (rwE f r).2) (.decl x r) (.decl (rwE f x).1 (rwE f r).1))
  -- 401-410
  | .assign x r at_ u => over (g (.assign x r at_ u))
      (keepOr ((rwE f x).2 && (rwE f r).2) (.assign x r at_ u) (makeAssign (rwE f x).1 (rwE f r).1 at_))
  -- 412-429: the vector gets `coord`, not `rewrittenCoord`
  | .yield cs v => over (g (.yield cs v))
      (keepOr ((rwE f v).2 && (rwL f cs).2) (.yield cs v) (.yield cs (rwE f v).1))
  -- 431-440: `op->old_elements` is not rewritten
  | .alloc x n o ag cl => over (g (.alloc x n o ag cl))
      (keepOr ((rwE f x).2 && (rwE f n).2) (.alloc x n o ag cl) (.alloc (rwE f x).1 (rwE f n).1 o ag cl))
  -- 442-450
  | .free x => over (g (.free x)) (keepOr (rwE f x).2 (.free x) (.free (rwE f x).1))
  -- 452-466
  | .comment t => over (g (.comment t)) (.comment t, true)
  | .blank => over (g .blank) (.blank, true)
  | .continue => over (g .continue) (.continue, true)
  | .break => over (g .break) (.break, true)
  -- 468-484
  | .print t ps => over (g (.print t ps)) (keepOr (rwL f ps).2 (.print t ps) (.print t (rwL f ps).1))
  -- 496-512
  | .sort as => over (g (.sort as)) (keepOr (rwL f as).2 (.sort as) (.sort (rwL f as).1))
def rwSs (f : Expr → Option Expr) (g : Stmt → Option Stmt) : List Stmt → List Stmt × Bool
  | [] => ([], true)
  | s :: l => ((rwS f g s).1 :: (rwSs f g l).1, (rwS f g s).2 && (rwSs f g l).2)
end

/-- The base class overrides nothing. -/
def nothing {α : Type} : α → Option α := fun _ => none

/-! ### Sizes of workspaces -/

/-- A workspace: its name, and its sizes if they are in `temporarySizeMap`. -/
structure Temp where
  name : String
  sizes : Option (List Expr)

/-- The name of a dimension: `GetProperty::make(tensor, Dimension, mode)`, ir.cpp 873-875. -/
def dimName (tensor : String) (mode : Nat) : String := tensor ++ toString (mode + 1) ++ "_dimension"

/-- `GetProperty::make(tensor, Dimension, mode)`, ir.cpp 856-866. -/
def makeDimension (id : Nat) (ty : Kind) (tensor : String) (mode : Nat) : Expr :=
  .prop .int32 (.var id ty tensor) .dimension mode 0 (dimName tensor mode)

/-- The loop of `WorkspaceRewriter::visit(const GetProperty*)`, workspace_rewriter.cpp 29-48. A mode without a size
is an exception of `at`; here the node stays. -/
def findTemp (mode : Nat) (name : String) : List Temp → Option Expr
  | [] => none
  | t :: l =>
    match t.sizes with
    | some es => if t.name ++ toString (mode + 1) ++ "_dimension" = name then es[mode]?
        else findTemp mode name l
    | none => findTemp mode name l

/-- `WorkspaceRewriter::visit(const GetProperty*)`, 25-51. Other properties stay (tensors are variables, which this
pass does not replace). -/
def wsDim (ts : List Temp) : Expr → Option Expr
  | .prop _ _ .dimension m _ n => findTemp m n ts
  | _ => none

/-- `rewriteTemporaryGP`, 59-62. The `visit` for declarations (53-56) differs from that of the base class only for
passes that replace variables. -/
def rewriteTemporaryGP (ts : List Temp) (s : Stmt) : Stmt := (rwS (wsDim ts) nothing s).1

end Verif.Rewrite.Model
