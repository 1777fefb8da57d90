import Verif.Rewrite.Syntax
/-!
# What is asked of a rewriting of low-level code

A pass says what it puts in the place of some nodes: `f` for expressions and `g` for statements (`none`: the pass
has nothing to say about this node). The result is the tree in which exactly these nodes are replaced.
-/
namespace Verif.Rewrite
open Verif.Types

/-- The node that the pass puts here, or else `other`. -/
def orElse {α : Type} (r : Option α) (other : α) : α := r.getD other

mutual
/-- The expression with the nodes replaced for which `f` gives another. -/
def replE (f : Expr → Option Expr) : Expr → Expr
  | .undef => .undef
  | .lit ty v => orElse (f (.lit ty v)) (.lit ty v)
  | .var x ty n => orElse (f (.var x ty n)) (.var x ty n)
  | .sizeof k => orElse (f (.sizeof k)) (.sizeof k)
  | .un o ty a => orElse (f (.un o ty a)) (.un o ty (replE f a))
  | .bin o ty a b => orElse (f (.bin o ty a b)) (.bin o ty (replE f a) (replE f b))
  | .many o ty l => orElse (f (.many o ty l)) (.many o ty (replL f l))
  | .prop ty t p m i n => orElse (f (.prop ty t p m i n)) (.prop ty (replE f t) p m i n)
def replL (f : Expr → Option Expr) : List Expr → List Expr
  | [] => []
  | e :: l => replE f e :: replL f l
end

/-- Nothing to execute: no statement, or an empty block. -/
def Empty : Stmt → Bool
  | .undef => true
  | .block [] => true
  | _ => false

/-- A statement in its own scope. -/
def inScope : Stmt → Stmt
  | .scope s => .scope s
  | s => .scope s

/-- The second branch of a conditional: a scope, or nothing. -/
def otherBranch : Stmt → Stmt
  | .undef => .undef
  | s => inScope s

mutual
/-- The statement with the nodes replaced for which `f` and `g` give others. Blocks do not contain empty statements,
and bodies of loops, branches and functions are scopes. -/
def replS (f : Expr → Option Expr) (g : Stmt → Option Stmt) : Stmt → Stmt
  | .undef => .undef
  | .block l => orElse (g (.block l)) (.block ((replSs f g l).filter (fun s => !Empty s)))
  | .scope s => orElse (g (.scope s)) (inScope (replS f g s))
  | .store arr loc d at_ u => orElse (g (.store arr loc d at_ u)) (.store (replE f arr) (replE f loc) (replE f d) at_ u)
  | .ite c a b => orElse (g (.ite c a b))
      (.ite (replE f c) (inScope (replS f g a)) (otherBranch (replS f g b)))
  | .case cs bs al => orElse (g (.case cs bs al)) (.case (replL f cs) ((replSs f g bs).map inScope) al)
  | .switch cs bs x => orElse (g (.switch cs bs x)) (.switch (replL f cs) ((replSs f g bs).map inScope) (replE f x))
  | .loop x a b c s k u n w => orElse (g (.loop x a b c s k u n w))
      (.loop (replE f x) (replE f a) (replE f b) (replE f c) (inScope (replS f g s)) k u n w)
  | .while c s k w => orElse (g (.while c s k w)) (.while (replE f c) (inScope (replS f g s)) k w)
  | .func n os is s => orElse (g (.func n os is s)) (.func n (replL f os) (replL f is) (inScope (replS f g s)))
  | .decl x r => orElse (g (.decl x r)) (.decl (replE f x) (replE f r))
  | .assign x r at_ u => orElse (g (.assign x r at_ u)) (.assign (replE f x) (replE f r) at_ u)
  | .yield cs v => orElse (g (.yield cs v)) (.yield (replL f cs) (replE f v))
  | .alloc x n o ag cl => orElse (g (.alloc x n o ag cl)) (.alloc (replE f x) (replE f n) (replE f o) ag cl)
  | .free x => orElse (g (.free x)) (.free (replE f x))
  | .comment t => orElse (g (.comment t)) (.comment t)
  | .blank => orElse (g .blank) .blank
  | .continue => orElse (g .continue) .continue
  | .break => orElse (g .break) .break
  | .print t ps => orElse (g (.print t ps)) (.print t (replL f ps))
  | .sort as => orElse (g (.sort as)) (.sort (replL f as))
def replSs (f : Expr → Option Expr) (g : Stmt → Option Stmt) : List Stmt → List Stmt
  | [] => []
  | s :: l => replS f g s :: replSs f g l
end

/-! ### Trees as the constructors of the nodes make them -/

/-- The type that a node with one operand has. -/
def unType (o : UnOp) (ty : Kind) (a : Expr) : Prop :=
  match o with
  | .neg | .sqrt => ty = typeOf a
  | .cast => True
  | .malloc => ty = .float64

/-- The type that a node with two operands has: the larger one for arithmetic, `bool` for comparisons, the type of
the array for loads. -/
def biType (o : BiOp) (ty : Kind) (a b : Expr) : Prop :=
  match o with
  | .add | .sub | .mul | .div | .rem => maxType (typeOf a) (typeOf b) = some ty
  | .bitAnd | .bitOr => ty = .uint32
  | .eq | .neq | .gt | .lt | .gte | .lte | .and | .or => ty = .bool
  | .load => ty = typeOf a ∧ b ≠ .undef
  | .text .. => ty = .float64

/-- The type of a minimum and a maximum is that of the first operand. -/
def manyType (o : ManyOp) (ty : Kind) (as : List Expr) : Prop :=
  match o with
  | .min | .max => ∃ a l, as = a :: l ∧ ty = typeOf a
  | .call _ => True

mutual
def BuiltE : Expr → Prop
  | .un o ty a => unType o ty a ∧ BuiltE a
  | .bin o ty a b => biType o ty a b ∧ BuiltE a ∧ BuiltE b
  | .many o ty as => manyType o ty as ∧ BuiltL as
  | .prop ty t p _ _ _ => ty = (if p = .values then typeOf t else .int32) ∧ BuiltE t
  | _ => True
def BuiltL : List Expr → Prop
  | [] => True
  | e :: l => BuiltE e ∧ BuiltL l
end

/-- A scope that is not directly inside of another, or no statement. -/
def isScope : Stmt → Bool
  | .scope _ => true
  | _ => false

mutual
/-- Blocks without empty statements, bodies that are scopes, no scope directly inside of another. -/
def BuiltS : Stmt → Prop
  | .undef | .comment _ | .blank | .continue | .break => True
  | .block l => (∀ s ∈ l, Empty s = false) ∧ BuiltSs l
  | .scope s => isScope s = false ∧ BuiltS s
  | .store a b c _ _ => BuiltE a ∧ BuiltE b ∧ BuiltE c
  | .ite c a b => BuiltE c ∧ isScope a ∧ (isScope b ∨ b = .undef) ∧ BuiltS a ∧ BuiltS b
  | .case cs bs _ => BuiltL cs ∧ (∀ s ∈ bs, isScope s) ∧ BuiltSs bs
  | .switch cs bs e => BuiltE e ∧ BuiltL cs ∧ (∀ s ∈ bs, isScope s) ∧ BuiltSs bs
  | .loop x a b c s _ _ _ _ => BuiltE x ∧ BuiltE a ∧ BuiltE b ∧ BuiltE c ∧ isScope s ∧ BuiltS s
  | .while c s _ _ => BuiltE c ∧ isScope s ∧ BuiltS s
  | .func _ os is s => BuiltL os ∧ BuiltL is ∧ isScope s ∧ BuiltS s
  | .decl x r => BuiltE x ∧ BuiltE r
  | .assign x r _ _ => BuiltE x ∧ BuiltE r
  | .yield cs v => BuiltL cs ∧ BuiltE v
  | .alloc x n o _ _ => BuiltE x ∧ BuiltE n ∧ BuiltE o
  | .free x => BuiltE x
  | .print _ ps => BuiltL ps
  | .sort as => BuiltL as
def BuiltSs : List Stmt → Prop
  | [] => True
  | s :: l => BuiltS s ∧ BuiltSs l
end

/-! ### Where the pass has nothing to say -/

mutual
/-- The pass replaces nothing in the expression. -/
def FreeE (f : Expr → Option Expr) : Expr → Prop
  | .undef => True
  | .lit ty v => f (.lit ty v) = none
  | .var x ty n => f (.var x ty n) = none
  | .sizeof k => f (.sizeof k) = none
  | .un o ty a => f (.un o ty a) = none ∧ FreeE f a
  | .bin o ty a b => f (.bin o ty a b) = none ∧ FreeE f a ∧ FreeE f b
  | .many o ty l => f (.many o ty l) = none ∧ FreeL f l
  | .prop ty t p m i n => f (.prop ty t p m i n) = none ∧ FreeE f t
def FreeL (f : Expr → Option Expr) : List Expr → Prop
  | [] => True
  | e :: l => FreeE f e ∧ FreeL f l
end

mutual
/-- The pass replaces nothing in the statement. -/
def FreeS (f : Expr → Option Expr) (g : Stmt → Option Stmt) : Stmt → Prop
  | .undef => True
  | .block l => g (.block l) = none ∧ FreeSs f g l
  | .scope s => g (.scope s) = none ∧ FreeS f g s
  | .store a b c at_ u => g (.store a b c at_ u) = none ∧ FreeE f a ∧ FreeE f b ∧ FreeE f c
  | .ite c a b => g (.ite c a b) = none ∧ FreeE f c ∧ FreeS f g a ∧ FreeS f g b
  | .case cs bs al => g (.case cs bs al) = none ∧ FreeL f cs ∧ FreeSs f g bs
  | .switch cs bs e => g (.switch cs bs e) = none ∧ FreeE f e ∧ FreeL f cs ∧ FreeSs f g bs
  | .loop x a b c s k u n w =>
    g (.loop x a b c s k u n w) = none ∧ FreeE f x ∧ FreeE f a ∧ FreeE f b ∧ FreeE f c ∧ FreeS f g s
  | .while c s k w => g (.while c s k w) = none ∧ FreeE f c ∧ FreeS f g s
  | .func n os is s => g (.func n os is s) = none ∧ FreeL f os ∧ FreeL f is ∧ FreeS f g s
  | .decl x r => g (.decl x r) = none ∧ FreeE f x ∧ FreeE f r
  | .assign x r at_ u => g (.assign x r at_ u) = none ∧ FreeE f x ∧ FreeE f r
  | .yield cs v => g (.yield cs v) = none ∧ FreeL f cs ∧ FreeE f v
  | .alloc x n o ag cl => g (.alloc x n o ag cl) = none ∧ FreeE f x ∧ FreeE f n ∧ FreeE f o
  | .free x => g (.free x) = none ∧ FreeE f x
  | .comment t => g (.comment t) = none
  | .blank => g .blank = none
  | .continue => g .continue = none
  | .break => g .break = none
  | .print t ps => g (.print t ps) = none ∧ FreeL f ps
  | .sort as => g (.sort as) = none ∧ FreeL f as
def FreeSs (f : Expr → Option Expr) (g : Stmt → Option Stmt) : List Stmt → Prop
  | [] => True
  | s :: l => FreeS f g s ∧ FreeSs f g l
end

/-- The pass keeps types and does not replace expressions by nothing. -/
def KeepsTypes (f : Expr → Option Expr) : Prop :=
  ∀ e e', BuiltE e → f e = some e' → typeOf e' = typeOf e ∧ e' ≠ .undef

/-- A `BinOp`, the node of user-defined operators. -/
def isText : BiOp → Bool
  | .text .. => true
  | _ => false

mutual
/-- Inside of `BinOp` nodes nothing is replaced. -/
def KeptE (f : Expr → Option Expr) : Expr → Prop
  | .un o ty a => f (.un o ty a) = none → KeptE f a
  | .bin o ty a b => f (.bin o ty a b) = none → (isText o → FreeE f a ∧ FreeE f b) ∧ KeptE f a ∧ KeptE f b
  | .many o ty l => f (.many o ty l) = none → KeptL f l
  | .prop ty t p m i n => f (.prop ty t p m i n) = none → KeptE f t
  | _ => True
def KeptL (f : Expr → Option Expr) : List Expr → Prop
  | [] => True
  | e :: l => KeptE f e ∧ KeptL f l
end

mutual
/-- Nothing is replaced inside of `BinOp` nodes, coordinates of yields, old sizes of allocations, and stores and
assignments that are atomic in a parallel unit. -/
def KeptS (f : Expr → Option Expr) (g : Stmt → Option Stmt) : Stmt → Prop
  | .undef | .comment _ | .blank | .continue | .break => True
  | .block l => g (.block l) = none → KeptSs f g l
  | .scope s => g (.scope s) = none → KeptS f g s
  | .store a b c at_ u => g (.store a b c at_ u) = none →
      (u = .notParallel ∨ (FreeE f a ∧ FreeE f b ∧ FreeE f c)) ∧ KeptE f a ∧ KeptE f b ∧ KeptE f c
  | .ite c a b => g (.ite c a b) = none → KeptE f c ∧ KeptS f g a ∧ KeptS f g b
  | .case cs bs al => g (.case cs bs al) = none → KeptL f cs ∧ KeptSs f g bs
  | .switch cs bs e => g (.switch cs bs e) = none → KeptE f e ∧ KeptL f cs ∧ KeptSs f g bs
  | .loop x a b c s k u n w => g (.loop x a b c s k u n w) = none →
      KeptE f x ∧ KeptE f a ∧ KeptE f b ∧ KeptE f c ∧ KeptS f g s
  | .while c s k w => g (.while c s k w) = none → KeptE f c ∧ KeptS f g s
  | .func n os is s => g (.func n os is s) = none → KeptL f os ∧ KeptL f is ∧ KeptS f g s
  | .decl x r => g (.decl x r) = none → KeptE f x ∧ KeptE f r
  | .assign x r at_ u => g (.assign x r at_ u) = none →
      (u = .notParallel ∨ (FreeE f x ∧ FreeE f r)) ∧ KeptE f x ∧ KeptE f r
  | .yield cs v => g (.yield cs v) = none → FreeL f cs ∧ KeptE f v
  | .alloc x n o ag cl => g (.alloc x n o ag cl) = none → KeptE f x ∧ KeptE f n ∧ FreeE f o
  | .free x => g (.free x) = none → KeptE f x
  | .print t ps => g (.print t ps) = none → KeptL f ps
  | .sort as => g (.sort as) = none → KeptL f as
def KeptSs (f : Expr → Option Expr) (g : Stmt → Option Stmt) : List Stmt → Prop
  | [] => True
  | s :: l => KeptS f g s ∧ KeptSs f g l
end

/-! ### Values -/

/-- Meaning of the operators; `V` are the values. -/
structure Meaning (V : Type) where
  undef : V
  lit : Kind → Int → V
  sizeof : Kind → V
  un : UnOp → Kind → V → V
  bin : BiOp → Kind → V → V → V
  many : ManyOp → Kind → List V → V
  prop : Kind → Property → Nat → Nat → String → V → V

mutual
/-- The value of an expression when the variables have the values `σ`. -/
def value {V : Type} (M : Meaning V) (σ : Nat → V) : Expr → V
  | .undef => M.undef
  | .lit ty v => M.lit ty v
  | .var x _ _ => σ x
  | .sizeof k => M.sizeof k
  | .un o ty a => M.un o ty (value M σ a)
  | .bin o ty a b => M.bin o ty (value M σ a) (value M σ b)
  | .many o ty l => M.many o ty (values M σ l)
  | .prop ty t p m i n => M.prop ty p m i n (value M σ t)
def values {V : Type} (M : Meaning V) (σ : Nat → V) : List Expr → List V
  | [] => []
  | e :: l => value M σ e :: values M σ l
end

/-! ### Variables -/

mutual
/-- The variable `x` of type `k` occurs in the expression. -/
def occE (x : Nat) (k : Kind) : Expr → Bool
  | .var y ty _ => x == y && k == ty
  | .un _ _ a => occE x k a
  | .bin _ _ a b => occE x k a || occE x k b
  | .many _ _ l => occL x k l
  | .prop _ t _ _ _ _ => occE x k t
  | _ => false
def occL (x : Nat) (k : Kind) : List Expr → Bool
  | [] => false
  | e :: l => occE x k e || occL x k l
end

mutual
/-- The variable occurs in the statement. -/
def occS (x : Nat) (k : Kind) : Stmt → Bool
  | .undef | .comment _ | .blank | .continue | .break => false
  | .block l => occSs x k l
  | .scope s => occS x k s
  | .store a b c _ _ => occE x k a || occE x k b || occE x k c
  | .ite c a b => occE x k c || occS x k a || occS x k b
  | .case cs bs _ => occL x k cs || occSs x k bs
  | .switch cs bs e => occE x k e || occL x k cs || occSs x k bs
  | .loop v a b c s _ _ _ _ => occE x k v || occE x k a || occE x k b || occE x k c || occS x k s
  | .while c s _ _ => occE x k c || occS x k s
  | .func _ os is s => occL x k os || occL x k is || occS x k s
  | .decl v r => occE x k v || occE x k r
  | .assign v r _ _ => occE x k v || occE x k r
  | .yield cs v => occL x k cs || occE x k v
  | .alloc v n o _ _ => occE x k v || occE x k n || occE x k o
  | .free v => occE x k v
  | .print _ ps => occL x k ps
  | .sort as => occL x k as
def occSs (x : Nat) (k : Kind) : List Stmt → Bool
  | [] => false
  | s :: l => occS x k s || occSs x k l
end

/-- The pass that puts `r` in the place of the variable `x` of the type of `r`. -/
def instead (x : Nat) (r : Expr) : Expr → Option Expr
  | .var y ty _ => if x = y ∧ typeOf r = ty then some r else none
  | _ => none

/-- The pass that removes the declaration of the variable `x` of type `k`. -/
def undeclare (x : Nat) (k : Kind) : Stmt → Option Stmt
  | .decl (.var y ty _) _ => if x = y ∧ k = ty then some (.block []) else none
  | _ => none

mutual
/-- The variable is declared in the statement. -/
def declS (x : Nat) (k : Kind) : Stmt → Bool
  | .decl (.var y ty _) _ => x == y && k == ty
  | .block l => declSs x k l
  | .scope s => declS x k s
  | .ite _ a b => declS x k a || declS x k b
  | .case _ bs _ => declSs x k bs
  | .switch _ bs _ => declSs x k bs
  | .loop _ _ _ _ s _ _ _ _ => declS x k s
  | .while _ s _ _ => declS x k s
  | .func _ _ _ s => declS x k s
  | _ => false
def declSs (x : Nat) (k : Kind) : List Stmt → Bool
  | [] => false
  | s :: l => declS x k s || declSs x k l
end

/-! ### What is executed, without the expressions -/

/-- A statement without its expressions. -/
inductive Tag
  | enter | leave
  | store (atomics : Bool) | branch (other : Bool) | case (n : Nat) (always : Bool) | switch (n : Nat)
  | loop (kind : LoopKind) (unit : PUnit) (unroll width : Nat)
  | while (kind : LoopKind) (width : Nat)
  | func (name : String) | decl | assign (atomics : Bool) | yield | alloc (again clear : Bool) | free
  | comment (t : String) | blank | continue | break | print (fmt : String) | sort

/-- There is a statement. -/
def given : Stmt → Bool
  | .undef => false
  | _ => true

mutual
/-- The statements in their order with all their flags. -/
def outline : Stmt → List Tag
  | .undef => []
  | .block l => outlines l
  | .scope s => .enter :: (outline s ++ [.leave])
  | .store _ _ _ a _ => [.store a]
  | .ite _ a b => .branch (given b) :: (outline a ++ outline b)
  | .case _ bs al => .case bs.length al :: outlines bs
  | .switch _ bs _ => .switch bs.length :: outlines bs
  | .loop _ _ _ _ s k u n w => .loop k u n w :: outline s
  | .while _ s k w => .while k w :: outline s
  | .func n _ _ s => .func n :: outline s
  | .decl _ _ => [.decl]
  | .assign _ _ a _ => [.assign a]
  | .yield _ _ => [.yield]
  | .alloc _ _ _ ag cl => [.alloc ag cl]
  | .free _ => [.free]
  | .comment t => [.comment t]
  | .blank => [.blank]
  | .continue => [.continue]
  | .break => [.break]
  | .print t _ => [.print t]
  | .sort _ => [.sort]
def outlines : List Stmt → List Tag
  | [] => []
  | s :: l => outline s ++ outlines l
end

end Verif.Rewrite
