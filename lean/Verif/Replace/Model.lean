/-
Replacing parts of index expressions and statements: the six functions called `replace`
(src/index_notation/index_notation_rewriter.cpp 247-480) and the rewriter they are built
on (the same file, 13-244).

Expressions and statements are trees of nodes that are told apart by their address, and
the rewriters compare addresses.  A node that a rewriter has just allocated has no address
here (`none`): it differs from every node that existed before.  Index variables are nodes
themselves, and their address is the variable.

What is left out: the iteration algebra of user functions, undefined expressions, the
operator node of reductions and compound assignments (a number here), relations between
index variables other than splits.
-/
namespace Verif.Replace

/-- How an access changes the coordinates of a mode (index_notation.h: `AccessWindow` with
lower bound and stride, `IndexSet`). -/
inductive Mod where
  | window (lo stride : Nat)
  | set (cs : List Nat)
  deriving DecidableEq

/-- An address: of a node, or of an index variable (index_notation_nodes.h 352-375). -/
inductive Addr where
  | node (n : Nat)
  | var (i : Nat)
  deriving DecidableEq

mutual
/-- Index expressions (include/taco/index_notation/index_notation_nodes.h 95-375).
`un` is negation or square root, `bin` one of the four arithmetic operations, `call` an
intrinsic or a user function.  The windows and index sets of an access and whether it
accesses the structure of the tensor are fields of the node (lines 131-135). -/
inductive Expr where
  | lit (a : Option Nat) (v : Int)
  | ivar (i : Nat)
  | acc (a : Option Nat) (t : Nat) (is : List Nat) (mods : List (Nat × Mod)) (struc : Bool)
  | un (a : Option Nat) (op : Nat) (e : Expr)
  | bin (a : Option Nat) (op : Nat) (e f : Expr)
  | cast (a : Option Nat) (ty : Nat) (e : Expr)
  | call (a : Option Nat) (f : Nat) (args : Args)
  | red (a : Option Nat) (op : Nat) (i : Nat) (e : Expr)
/-- Arguments of a call. -/
inductive Args where
  | nil
  | cons (e : Expr) (es : Args)
end

/-- A relation between index variables (include/taco/index_notation/provenance_graph.h
`SplitRelNode`): `parent = outer * factor + inner`. -/
structure Rel where
  parent : Nat
  outer : Nat
  inner : Nat
  factor : Nat
  deriving DecidableEq

/-- The left-hand side of an assignment, an access (index_notation_nodes.h 95-135). -/
structure Lhs where
  a : Option Nat
  t : Nat
  is : List Nat
  mods : List (Nat × Mod)
  deriving DecidableEq

/-- Index statements (index_notation_nodes.h 377-474).  `attrs` are the merge strategy, the
parallel unit, the race strategy and the unroll factor of a loop.  The results of an
assemble statement pair a tensor with the query result that says what it stores. -/
inductive Stmt where
  | assign (a : Option Nat) (lhs : Lhs) (op : Option Nat) (rhs : Expr)
  | yield (a : Option Nat) (is : List Nat) (e : Expr)
  | loop (a : Option Nat) (i : Nat) (attrs : Nat) (s : Stmt)
  | wher (a : Option Nat) (consumer producer : Stmt)
  | seq (a : Option Nat) (definition mutation : Stmt)
  | assemble (a : Option Nat) (queries compute : Stmt) (results : List (Nat × Nat))
  | multi (a : Option Nat) (s₁ s₂ : Stmt)
  | such (a : Option Nat) (s : Stmt) (preds : List Rel)

/-- The address of an expression. -/
def Expr.addr : Expr → Option Addr
  | .lit a _ => a.map .node
  | .ivar i => some (.var i)
  | .acc a _ _ _ _ => a.map .node
  | .un a _ _ => a.map .node
  | .bin a _ _ _ => a.map .node
  | .cast a _ _ => a.map .node
  | .call a _ _ => a.map .node
  | .red a _ _ _ => a.map .node

/-- The address of a statement. -/
def Stmt.addr : Stmt → Option Nat
  | .assign a _ _ _ => a
  | .yield a _ _ => a
  | .loop a _ _ _ => a
  | .wher a _ _ => a
  | .seq a _ _ => a
  | .assemble a _ _ _ => a
  | .multi a _ _ => a
  | .such a _ _ => a

/-- Comparing two handles compares addresses (include/taco/util/intrusive_ptr.h
`operator==`). -/
def sameAddr {A : Type} [DecidableEq A] : Option A → Option A → Bool
  | some p, some q => p = q
  | _, _ => false

/-- `a == op->a` for expressions. -/
def same (x y : Expr) : Bool := sameAddr x.addr y.addr

/-- `s == op->stmt` for statements. -/
def sameS (x y : Stmt) : Bool := sameAddr x.addr y.addr

/-- Whether all arguments are the same (index_notation_rewriter.cpp 111-120). -/
def sameArgs : Args → Args → Bool
  | .cons x xs, .cons y ys => same x y && sameArgs xs ys
  | .nil, .nil => true
  | _, _ => false

/-! ### The rewriter (index_notation_rewriter.cpp 40-244): after its parts have been
rewritten, a node is kept if they are the same, and otherwise a new one is made -/

/-- `visitUnaryOp` (lines 49-58). -/
def reUn (a : Option Nat) (op : Nat) (e e' : Expr) : Expr :=
  if same e' e then .un a op e else .un none op e'

/-- `visitBinaryOp` (lines 64-74). -/
def reBin (a : Option Nat) (op : Nat) (e f e' f' : Expr) : Expr :=
  if same e' e && same f' f then .bin a op e f else .bin none op e' f'

/-- Casts (lines 100-108). -/
def reCast (a : Option Nat) (ty : Nat) (e e' : Expr) : Expr :=
  if same e' e then .cast a ty e else .cast none ty e'

/-- Calls and intrinsic calls (lines 110-148). -/
def reCall (a : Option Nat) (f : Nat) (es es' : Args) : Expr :=
  if sameArgs es' es then .call a f es else .call none f es'

/-- Reductions (lines 150-158): the variable is kept. -/
def reRed (a : Option Nat) (op i : Nat) (e e' : Expr) : Expr :=
  if same e' e then .red a op i e else .red none op i e'

/-- Assignments (lines 160-171): the left-hand side is kept. -/
def reAssign (a : Option Nat) (l : Lhs) (op : Option Nat) (e e' : Expr) : Stmt :=
  if same e' e then .assign a l op e else .assign none l op e'

/-- Yield statements (lines 173-180). -/
def reYield (a : Option Nat) (is : List Nat) (e e' : Expr) : Stmt :=
  if same e' e then .yield a is e else .yield none is e'

/-- Loops (lines 182-190). -/
def reLoop (a : Option Nat) (i attrs : Nat) (s s' : Stmt) : Stmt :=
  if sameS s' s then .loop a i attrs s else .loop none i attrs s'

/-- Where statements (lines 192-201). -/
def reWher (a : Option Nat) (c p c' p' : Stmt) : Stmt :=
  if sameS p' p && sameS c' c then .wher a c p else .wher none c' p'

/-- Sequence statements (lines 203-212). -/
def reSeq (a : Option Nat) (d m d' m' : Stmt) : Stmt :=
  if sameS d' d && sameS m' m then .seq a d m else .seq none d' m'

/-- Assemble statements (lines 214-223): the results are kept. -/
def reAssemble (a : Option Nat) (q c q' c' : Stmt) (rs : List (Nat × Nat)) : Stmt :=
  if sameS q' q && sameS c' c then .assemble a q c rs else .assemble none q' c' rs

/-- Multi statements (lines 225-234). -/
def reMulti (a : Option Nat) (s t s' t' : Stmt) : Stmt :=
  if sameS s' s && sameS t' t then .multi a s t else .multi none s' t'

/-- Such-that statements (lines 236-244): the relations are kept. -/
def reSuch (a : Option Nat) (s s' : Stmt) (ps : List Rel) : Stmt :=
  if sameS s' s then .such a s ps else .such none s' ps

/-! ### Replacing expressions and statements -/

/-- The node's own entry among the substitutions (lines 249-269, `SUBSTITUTE_EXPR`,
`SUBSTITUTE_STMT`). -/
def entry {A B : Type} [DecidableEq A] (m : List (A × B)) (a : Option A) : Option B :=
  match a with
  | some p => m.lookup p
  | none => none

/-- `SUBSTITUTE_EXPR`. -/
def orElse {B : Type} (x : Option B) (y : B) : B :=
  match x with
  | some v => v
  | none => y

mutual
/-- `ReplaceRewriter` on expressions (lines 271-328).  There is no `visit(const CastNode*)`
among its methods: casts are not looked up. -/
def replaceE (m : List (Addr × Expr)) : Expr → Expr
  | .lit a v => orElse (entry m (a.map .node)) (.lit a v)
  | .ivar i => orElse (entry m (some (.var i))) (.ivar i)
  | .acc a t is ms st => orElse (entry m (a.map .node)) (.acc a t is ms st)
  | .un a op e => orElse (entry m (a.map .node)) (reUn a op e (replaceE m e))
  | .bin a op e f => orElse (entry m (a.map .node)) (reBin a op e f (replaceE m e) (replaceE m f))
  | .cast a ty e => reCast a ty e (replaceE m e)
  | .call a f es => orElse (entry m (a.map .node)) (reCall a f es (replaceArgs m es))
  | .red a op i e => orElse (entry m (a.map .node)) (reRed a op i e (replaceE m e))
/-- The arguments of a call (lines 111-119). -/
def replaceArgs (m : List (Addr × Expr)) : Args → Args
  | .nil => .nil
  | .cons e es => .cons (replaceE m e) (replaceArgs m es)
end

/-- `ReplaceRewriter` on statements (lines 330-360), and `replace` with substitutions for
expressions or for statements (lines 451-454, 461-469). -/
def replaceS (m : List (Addr × Expr)) (ms : List (Nat × Stmt)) : Stmt → Stmt
  | .assign a l op e => orElse (entry ms a) (reAssign a l op e (replaceE m e))
  | .yield a is e => orElse (entry ms a) (reYield a is e (replaceE m e))
  | .loop a i at' s => orElse (entry ms a) (reLoop a i at' s (replaceS m ms s))
  | .wher a c p => orElse (entry ms a) (reWher a c p (replaceS m ms c) (replaceS m ms p))
  | .seq a d u => orElse (entry ms a) (reSeq a d u (replaceS m ms d) (replaceS m ms u))
  | .assemble a q c rs =>
    orElse (entry ms a) (reAssemble a q c (replaceS m ms q) (replaceS m ms c) rs)
  | .multi a s t => orElse (entry ms a) (reMulti a s t (replaceS m ms s) (replaceS m ms t))
  | .such a s ps => orElse (entry ms a) (reSuch a s (replaceS m ms s) ps)

/-! ### Replacing index variables -/

/-- The variable that stands in for another. -/
def sub (m : List (Nat × Nat)) (i : Nat) : Nat := orElse (m.lookup i) i

/-- `visit(const AccessNode*)` of `ReplaceIndexVars` (lines 370-388): if a variable is
among the substitutions, a new access is made with the windows and index sets of the old
one; it does not access structure. -/
def replaceAcc (m : List (Nat × Nat)) (a : Option Nat) (t : Nat) (is : List Nat)
    (ms : List (Nat × Mod)) (st : Bool) : Expr :=
  if is.any (fun i => (m.lookup i).isSome) then .acc none t (is.map (sub m)) ms false
  else .acc a t is ms st

mutual
/-- `ReplaceIndexVars` on expressions (lines 363-422).  Casts, calls and reductions are
rewritten by the general rewriter, which keeps the variable of a reduction. -/
def replaceIE (m : List (Nat × Nat)) : Expr → Expr
  | .lit a v => .lit a v
  | .ivar i => .ivar (sub m i)
  | .acc a t is ms st => replaceAcc m a t is ms st
  | .un a op e => reUn a op e (replaceIE m e)
  | .bin a op e f => reBin a op e f (replaceIE m e) (replaceIE m f)
  | .cast a ty e => reCast a ty e (replaceIE m e)
  | .call a f es => reCall a f es (replaceIArgs m es)
  | .red a op i e => reRed a op i e (replaceIE m e)
/-- The arguments of a call. -/
def replaceIArgs (m : List (Nat × Nat)) : Args → Args
  | .nil => .nil
  | .cons e es => .cons (replaceIE m e) (replaceIArgs m es)
end

/-- Rewriting the left-hand side of an assignment (lines 370-388, 392). -/
def replaceLhs (m : List (Nat × Nat)) (l : Lhs) : Lhs :=
  if l.is.any (fun i => (m.lookup i).isSome) then ⟨none, l.t, l.is.map (sub m), l.mods⟩ else l

/-- Assignments in `ReplaceIndexVars` (lines 390-399). -/
def reAssignI (a : Option Nat) (l l' : Lhs) (op : Option Nat) (e e' : Expr) : Stmt :=
  if same e' e && sameAddr l'.a l.a then .assign a l op e else .assign none l' op e'

/-- Loops in `ReplaceIndexVars` (lines 401-412). -/
def reLoopI (a : Option Nat) (i i' attrs : Nat) (s s' : Stmt) : Stmt :=
  if sameS s' s && i' = i then .loop a i attrs s else .loop none i' attrs s'

/-- `replace` with substitutions for index variables, on statements (lines 390-412,
476-479). -/
def replaceIS (m : List (Nat × Nat)) : Stmt → Stmt
  | .assign a l op e => reAssignI a l (replaceLhs m l) op e (replaceIE m e)
  | .yield a is e => reYield a is e (replaceIE m e)
  | .loop a i at' s => reLoopI a i (sub m i) at' s (replaceIS m s)
  | .wher a c p => reWher a c p (replaceIS m c) (replaceIS m p)
  | .seq a d u => reSeq a d u (replaceIS m d) (replaceIS m u)
  | .assemble a q c rs => reAssemble a q c (replaceIS m q) (replaceIS m c) rs
  | .multi a s t => reMulti a s t (replaceIS m s) (replaceIS m t)
  | .such a s ps => reSuch a s (replaceIS m s) ps

/-! ### Replacing tensors -/

/-- `visit(const AccessNode*)` of `ReplaceTensorVars` (lines 431-436): the new access has
neither windows nor index sets. -/
def replaceTAcc (m : List (Nat × Nat)) (a : Option Nat) (t : Nat) (is : List Nat)
    (ms : List (Nat × Mod)) (st : Bool) : Expr :=
  match m.lookup t with
  | some t' => .acc none t' is [] false
  | none => .acc a t is ms st

mutual
/-- `ReplaceTensorVars` on expressions (lines 424-436). -/
def replaceTE (m : List (Nat × Nat)) : Expr → Expr
  | .lit a v => .lit a v
  | .ivar i => .ivar i
  | .acc a t is ms st => replaceTAcc m a t is ms st
  | .un a op e => reUn a op e (replaceTE m e)
  | .bin a op e f => reBin a op e f (replaceTE m e) (replaceTE m f)
  | .cast a ty e => reCast a ty e (replaceTE m e)
  | .call a f es => reCall a f es (replaceTArgs m es)
  | .red a op i e => reRed a op i e (replaceTE m e)
/-- The arguments of a call. -/
def replaceTArgs (m : List (Nat × Nat)) : Args → Args
  | .nil => .nil
  | .cons e es => .cons (replaceTE m e) (replaceTArgs m es)
end

/-- Assignments in `ReplaceTensorVars` (lines 438-448): a replaced left-hand side has
neither windows nor index sets. -/
def replaceTAssign (m : List (Nat × Nat)) (a : Option Nat) (l : Lhs) (op : Option Nat)
    (e e' : Expr) : Stmt :=
  match m.lookup l.t with
  | some t' => .assign none ⟨none, t', l.is, []⟩ op e'
  | none => reAssign a l op e e'

/-- `replace` with substitutions for tensors (lines 424-449, 471-474). -/
def replaceTS (m : List (Nat × Nat)) : Stmt → Stmt
  | .assign a l op e => replaceTAssign m a l op e (replaceTE m e)
  | .yield a is e => reYield a is e (replaceTE m e)
  | .loop a i at' s => reLoop a i at' s (replaceTS m s)
  | .wher a c p => reWher a c p (replaceTS m c) (replaceTS m p)
  | .seq a d u => reSeq a d u (replaceTS m d) (replaceTS m u)
  | .assemble a q c rs => reAssemble a q c (replaceTS m q) (replaceTS m c) rs
  | .multi a s t => reMulti a s t (replaceTS m s) (replaceTS m t)
  | .such a s ps => reSuch a s (replaceTS m s) ps

end Verif.Replace
