import Verif.Replace.Model
/-
Specification: what expressions and statements mean, whatever the operations and the type
of numbers are, and what it means to read some nodes as others.
-/
namespace Verif.Replace

/-- The meaning of the operations on numbers. -/
structure Sem (V : Type) where
  lit : Int → V
  num : Nat → V
  flag : Bool → V
  un : Nat → V → V
  bin : Nat → V → V → V
  cast : Nat → V → V
  call : Nat → List V → V
  red : Nat → List V → V
  upd : Option Nat → V → V → V
  zero : V

/-- What the tensors hold, which components they store, and what has been yielded. -/
structure St (V : Type) where
  val : Nat → List Nat → V
  stored : Nat → List Nat → Bool
  out : List (List Nat × V)

/-- Values of index variables. -/
abbrev Env := Nat → Nat

/-- Setting an index variable. -/
def Env.set (ρ : Env) (i v : Nat) : Env := fun j => if j = i then v else ρ j

/-- The coordinate an access uses for a mode. -/
def modify (mods : List (Nat × Mod)) (mode c : Nat) : Nat :=
  match mods.lookup mode with
  | some (.window lo stride) => lo + stride * c
  | some (.set cs) => cs.getD c 0
  | none => c

/-- The coordinates an access uses. -/
def coords (mods : List (Nat × Mod)) : Nat → List Nat → List Nat
  | _, [] => []
  | m, c :: cs => modify mods m c :: coords mods (m + 1) cs

/-- The value of an index variable, which may be split. -/
def value (rels : List Rel) (ρ : Env) (i : Nat) : Nat :=
  match rels.find? (fun r => r.parent = i) with
  | some r => ρ r.outer * r.factor + ρ r.inner
  | none => ρ i

/-- Whether the split variables are inside their dimensions. -/
def inside (dim : Nat → Nat) (rels : List Rel) (ρ : Env) : Bool :=
  rels.all fun r => value rels ρ r.parent < dim r.parent

variable {V : Type}

mutual
/-- The value of an expression. -/
def eval (M : Sem V) (dim : Nat → Nat) (rels : List Rel) (σ : St V) (ρ : Env) : Expr → V
  | .lit _ v => M.lit v
  | .ivar i => M.num (value rels ρ i)
  | .acc _ t is ms st =>
    let c := coords ms 0 (is.map (value rels ρ))
    if st then M.flag (σ.stored t c) else σ.val t c
  | .un _ op e => M.un op (eval M dim rels σ ρ e)
  | .bin _ op e f => M.bin op (eval M dim rels σ ρ e) (eval M dim rels σ ρ f)
  | .cast _ ty e => M.cast ty (eval M dim rels σ ρ e)
  | .call _ f es => M.call f (evalArgs M dim rels σ ρ es)
  | .red _ op i e => M.red op ((List.range (dim i)).map fun v => eval M dim rels σ (ρ.set i v) e)
/-- The values of arguments. -/
def evalArgs (M : Sem V) (dim : Nat → Nat) (rels : List Rel) (σ : St V) (ρ : Env) : Args → List V
  | .nil => []
  | .cons e es => eval M dim rels σ ρ e :: evalArgs M dim rels σ ρ es
end

/-- Setting one component. -/
def put (σ : St V) (t : Nat) (c : List Nat) (v : V) : St V :=
  { σ with val := fun t' c' => if t' = t ∧ c' = c then v else σ.val t' c' }

/-- The tensors a statement assigns. -/
def Stmt.assigned : Stmt → List Nat
  | .assign _ l _ _ => [l.t]
  | .yield _ _ _ => []
  | .loop _ _ _ s => s.assigned
  | .wher _ c _ => c.assigned
  | .seq _ d m => d.assigned ++ m.assigned
  | .assemble _ _ c _ => c.assigned
  | .multi _ s t => s.assigned ++ t.assigned
  | .such _ s _ => s.assigned

/-- Clearing tensors. -/
def clear (z : V) (ts : List Nat) (σ : St V) : St V :=
  { σ with val := fun t => if t ∈ ts then fun _ => z else σ.val t }

/-- Giving tensors back what they held. -/
def restore (ts : List Nat) (old new : St V) : St V :=
  { new with val := fun t => if t ∈ ts then old.val t else new.val t }

/-- Clearing the assembled tensors and storing in them what the queries say. -/
def setUp (isZero : V → Bool) (z : V) (rs : List (Nat × Nat)) (σ : St V) : St V :=
  rs.foldl (fun τ r =>
    { τ with
      val := fun t => if t = r.1 then fun _ => z else τ.val t
      stored := fun t => if t = r.1 then fun c => !isZero (σ.val r.2 c) else τ.stored t }) σ

/-- The effect of a statement.  A where statement clears the tensors of its producer, which
exist only inside it.  An assemble statement runs its queries, sets up the results and
computes. -/
def exec (M : Sem V) (isZero : V → Bool) (dim : Nat → Nat) : Stmt → List Rel → Env → St V → St V
  | .assign _ l op e, rels, ρ, σ =>
    let c := coords l.mods 0 (l.is.map (value rels ρ))
    if inside dim rels ρ then put σ l.t c (M.upd op (σ.val l.t c) (eval M dim rels σ ρ e)) else σ
  | .yield _ is e, rels, ρ, σ =>
    { σ with out := σ.out ++ [(is.map (value rels ρ), eval M dim rels σ ρ e)] }
  | .loop _ i _ s, rels, ρ, σ =>
    (List.range (dim i)).foldl (fun σ v => exec M isZero dim s rels (ρ.set i v) σ) σ
  | .wher _ c p, rels, ρ, σ =>
    restore p.assigned σ (exec M isZero dim c rels ρ
      (exec M isZero dim p rels ρ (clear M.zero p.assigned σ)))
  | .seq _ d m, rels, ρ, σ => exec M isZero dim m rels ρ (exec M isZero dim d rels ρ σ)
  | .assemble _ q c rs, rels, ρ, σ =>
    exec M isZero dim c rels ρ (setUp isZero M.zero rs (exec M isZero dim q rels ρ σ))
  | .multi _ s t, rels, ρ, σ => exec M isZero dim t rels ρ (exec M isZero dim s rels ρ σ)
  | .such _ s ps, rels, ρ, σ => exec M isZero dim s (ps ++ rels) ρ σ

/-! ### Reading nodes as others -/

mutual
/-- An expression whose nodes at some addresses are other expressions. -/
def Expr.subst (m : Addr → Option Expr) (e : Expr) : Expr :=
  match e.addr.bind m with
  | some x => x
  | none =>
    match e with
    | .lit a v => .lit a v
    | .ivar i => .ivar i
    | .acc a t is ms st => .acc a t is ms st
    | .un a op e => .un a op (e.subst m)
    | .bin a op e f => .bin a op (e.subst m) (f.subst m)
    | .cast a ty e => .cast a ty (e.subst m)
    | .call a f es => .call a f (es.subst m)
    | .red a op i e => .red a op i (e.subst m)
/-- Arguments. -/
def Args.subst (m : Addr → Option Expr) : Args → Args
  | .nil => .nil
  | .cons e es => .cons (e.subst m) (es.subst m)
end

/-- A statement whose nodes at some addresses are other expressions and statements. -/
def Stmt.subst (m : Addr → Option Expr) (ms : Nat → Option Stmt) (s : Stmt) : Stmt :=
  match s.addr.bind ms with
  | some x => x
  | none =>
    match s with
    | .assign a l op e => .assign a l op (e.subst m)
    | .yield a is e => .yield a is (e.subst m)
    | .loop a i at' s => .loop a i at' (s.subst m ms)
    | .wher a c p => .wher a (c.subst m ms) (p.subst m ms)
    | .seq a d u => .seq a (d.subst m ms) (u.subst m ms)
    | .assemble a q c rs => .assemble a (q.subst m ms) (c.subst m ms) rs
    | .multi a s t => .multi a (s.subst m ms) (t.subst m ms)
    | .such a s ps => .such a (s.subst m ms) ps

mutual
/-- An expression without its addresses. -/
def Expr.erase : Expr → Expr
  | .lit _ v => .lit none v
  | .ivar i => .ivar i
  | .acc _ t is ms st => .acc none t is ms st
  | .un _ op e => .un none op e.erase
  | .bin _ op e f => .bin none op e.erase f.erase
  | .cast _ ty e => .cast none ty e.erase
  | .call _ f es => .call none f es.erase
  | .red _ op i e => .red none op i e.erase
/-- Arguments. -/
def Args.erase : Args → Args
  | .nil => .nil
  | .cons e es => .cons e.erase es.erase
end

/-- A statement without its addresses. -/
def Stmt.erase : Stmt → Stmt
  | .assign _ l op e => .assign none ⟨none, l.t, l.is, l.mods⟩ op e.erase
  | .yield _ is e => .yield none is e.erase
  | .loop _ i at' s => .loop none i at' s.erase
  | .wher _ c p => .wher none c.erase p.erase
  | .seq _ d u => .seq none d.erase u.erase
  | .assemble _ q c rs => .assemble none q.erase c.erase rs
  | .multi _ s t => .multi none s.erase t.erase
  | .such _ s ps => .such none s.erase ps

/-! ### Nodes in memory: at an address there is one node -/

mutual
/-- All nodes of an expression are where the memory `h` says. -/
def Expr.on (h : Addr → Expr) (e : Expr) : Prop :=
  (∀ a, e.addr = some a → h a = e) ∧
    match e with
    | .lit _ _ => True
    | .ivar _ => True
    | .acc _ _ _ _ _ => True
    | .un _ _ e => e.on h
    | .bin _ _ e f => e.on h ∧ f.on h
    | .cast _ _ e => e.on h
    | .call _ _ es => es.on h
    | .red _ _ _ e => e.on h
/-- Arguments. -/
def Args.on (h : Addr → Expr) : Args → Prop
  | .nil => True
  | .cons e es => e.on h ∧ es.on h
end

/-- All nodes of a statement are where the memory says. -/
def Stmt.on (h : Addr → Expr) (hs : Nat → Stmt) (s : Stmt) : Prop :=
  (∀ a, s.addr = some a → hs a = s) ∧
    match s with
    | .assign _ _ _ e => e.on h
    | .yield _ _ e => e.on h
    | .loop _ _ _ s => s.on h hs
    | .wher _ c p => c.on h hs ∧ p.on h hs
    | .seq _ d u => d.on h hs ∧ u.on h hs
    | .assemble _ q c _ => q.on h hs ∧ c.on h hs
    | .multi _ s t => s.on h hs ∧ t.on h hs
    | .such _ s _ => s.on h hs

mutual
/-- The addresses of the nodes of an expression. -/
def Expr.nodes (e : Expr) : List (Option Addr) :=
  e.addr ::
    match e with
    | .lit _ _ => []
    | .ivar _ => []
    | .acc _ _ _ _ _ => []
    | .un _ _ e => e.nodes
    | .bin _ _ e f => e.nodes ++ f.nodes
    | .cast _ _ e => e.nodes
    | .call _ _ es => es.nodes
    | .red _ _ _ e => e.nodes
/-- Arguments. -/
def Args.nodes : Args → List (Option Addr)
  | .nil => []
  | .cons e es => e.nodes ++ es.nodes
end

/-- The addresses of the expression nodes on the right-hand sides of a statement. -/
def Stmt.exprNodes : Stmt → List (Option Addr)
  | .assign _ _ _ e => e.nodes
  | .yield _ _ e => e.nodes
  | .loop _ _ _ s => s.exprNodes
  | .wher _ c p => c.exprNodes ++ p.exprNodes
  | .seq _ d u => d.exprNodes ++ u.exprNodes
  | .assemble _ q c _ => q.exprNodes ++ c.exprNodes
  | .multi _ s t => s.exprNodes ++ t.exprNodes
  | .such _ s _ => s.exprNodes

/-- The addresses of the statement nodes of a statement. -/
def Stmt.stmtNodes (s : Stmt) : List (Option Nat) :=
  s.addr ::
    match s with
    | .assign _ _ _ _ => []
    | .yield _ _ _ => []
    | .loop _ _ _ s => s.stmtNodes
    | .wher _ c p => c.stmtNodes ++ p.stmtNodes
    | .seq _ d u => d.stmtNodes ++ u.stmtNodes
    | .assemble _ q c _ => q.stmtNodes ++ c.stmtNodes
    | .multi _ s t => s.stmtNodes ++ t.stmtNodes
    | .such _ s _ => s.stmtNodes

/-- All nodes are in memory, and none is at an address of the substitutions. -/
def Without {A B : Type} [DecidableEq A] (m : List (A × B)) (nodes : List (Option A)) : Prop :=
  ∀ n ∈ nodes, ∃ a, n = some a ∧ m.lookup a = none

/-- No cast is at an address of the substitutions. -/
def NoCast (h : Addr → Expr) (m : List (Addr × Expr)) : Prop :=
  ∀ a x, (a, x) ∈ m → ∀ b ty e, h a ≠ .cast b ty e

/-! ### Variables and tensors of a statement -/

mutual
/-- The index variables of an expression. -/
def Expr.ivars : Expr → List Nat
  | .lit _ _ => []
  | .ivar i => [i]
  | .acc _ _ is _ _ => is
  | .un _ _ e => e.ivars
  | .bin _ _ e f => e.ivars ++ f.ivars
  | .cast _ _ e => e.ivars
  | .call _ _ es => es.ivars
  | .red _ _ i e => i :: e.ivars
/-- Arguments. -/
def Args.ivars : Args → List Nat
  | .nil => []
  | .cons e es => e.ivars ++ es.ivars
end

/-- The index variables of relations. -/
def relVars (ps : List Rel) : List Nat := ps.flatMap fun r => [r.parent, r.outer, r.inner]

/-- The index variables of a statement. -/
def Stmt.ivars : Stmt → List Nat
  | .assign _ l _ e => l.is ++ e.ivars
  | .yield _ is e => is ++ e.ivars
  | .loop _ i _ s => i :: s.ivars
  | .wher _ c p => c.ivars ++ p.ivars
  | .seq _ d u => d.ivars ++ u.ivars
  | .assemble _ q c _ => q.ivars ++ c.ivars
  | .multi _ s t => s.ivars ++ t.ivars
  | .such _ s ps => relVars ps ++ s.ivars

mutual
/-- The tensors of an expression. -/
def Expr.tensors : Expr → List Nat
  | .lit _ _ => []
  | .ivar _ => []
  | .acc _ t _ _ _ => [t]
  | .un _ _ e => e.tensors
  | .bin _ _ e f => e.tensors ++ f.tensors
  | .cast _ _ e => e.tensors
  | .call _ _ es => es.tensors
  | .red _ _ _ e => e.tensors
/-- Arguments. -/
def Args.tensors : Args → List Nat
  | .nil => []
  | .cons e es => e.tensors ++ es.tensors
end

/-- The tensors of a statement. -/
def Stmt.tensors : Stmt → List Nat
  | .assign _ l _ e => l.t :: e.tensors
  | .yield _ _ e => e.tensors
  | .loop _ _ _ s => s.tensors
  | .wher _ c p => c.tensors ++ p.tensors
  | .seq _ d u => d.tensors ++ u.tensors
  | .assemble _ q c rs => rs.flatMap (fun r => [r.1, r.2]) ++ (q.tensors ++ c.tensors)
  | .multi _ s t => s.tensors ++ t.tensors
  | .such _ s _ => s.tensors

mutual
/-- Places that replacing index variables overlooks: the variables of reductions, and
accesses of structure.  None of them has a variable of `m`. -/
def Expr.freeOf (m : Nat → Bool) : Expr → Prop
  | .lit _ _ => True
  | .ivar _ => True
  | .acc _ _ is _ st => st = true → ∀ i ∈ is, m i = false
  | .un _ _ e => e.freeOf m
  | .bin _ _ e f => e.freeOf m ∧ f.freeOf m
  | .cast _ _ e => e.freeOf m
  | .call _ _ es => es.freeOf m
  | .red _ _ i e => m i = false ∧ e.freeOf m
/-- Arguments. -/
def Args.freeOf (m : Nat → Bool) : Args → Prop
  | .nil => True
  | .cons e es => e.freeOf m ∧ es.freeOf m
end

/-- The same for statements: also the variables of yields and relations are overlooked. -/
def Stmt.freeOf (m : Nat → Bool) : Stmt → Prop
  | .assign _ _ _ e => e.freeOf m
  | .yield _ is e => (∀ i ∈ is, m i = false) ∧ e.freeOf m
  | .loop _ _ _ s => s.freeOf m
  | .wher _ c p => c.freeOf m ∧ p.freeOf m
  | .seq _ d u => d.freeOf m ∧ u.freeOf m
  | .assemble _ q c _ => q.freeOf m ∧ c.freeOf m
  | .multi _ s t => s.freeOf m ∧ t.freeOf m
  | .such _ s ps => (∀ i ∈ relVars ps, m i = false) ∧ s.freeOf m

mutual
/-- Accesses to tensors of `m` are plain: no windows, no index sets, no structure. -/
def Expr.plainOn (m : Nat → Bool) : Expr → Prop
  | .lit _ _ => True
  | .ivar _ => True
  | .acc _ t _ ms st => m t = true → ms = [] ∧ st = false
  | .un _ _ e => e.plainOn m
  | .bin _ _ e f => e.plainOn m ∧ f.plainOn m
  | .cast _ _ e => e.plainOn m
  | .call _ _ es => es.plainOn m
  | .red _ _ _ e => e.plainOn m
/-- Arguments. -/
def Args.plainOn (m : Nat → Bool) : Args → Prop
  | .nil => True
  | .cons e es => e.plainOn m ∧ es.plainOn m
end

/-- The same for statements; tensors of `m` are not assembled. -/
def Stmt.plainOn (m : Nat → Bool) : Stmt → Prop
  | .assign _ l _ e => (m l.t = true → l.mods = []) ∧ e.plainOn m
  | .yield _ _ e => e.plainOn m
  | .loop _ _ _ s => s.plainOn m
  | .wher _ c p => c.plainOn m ∧ p.plainOn m
  | .seq _ d u => d.plainOn m ∧ u.plainOn m
  | .assemble _ q c rs => (∀ r ∈ rs, m r.1 = false ∧ m r.2 = false) ∧ q.plainOn m ∧ c.plainOn m
  | .multi _ s t => s.plainOn m ∧ t.plainOn m
  | .such _ s _ => s.plainOn m

/-- A function is injective on a list. -/
def InjOn (f : Nat → Nat) (l : List Nat) : Prop := ∀ x ∈ l, ∀ y ∈ l, f x = f y → x = y

/-- The renaming that a list of pairs describes: the first pair for a name counts, other
names stay. -/
def renamed (m : List (Nat × Nat)) (x : Nat) : Nat :=
  match m.find? (fun p => p.1 = x) with
  | some p => p.2
  | none => x

/-- Whether a list of pairs renames a name. -/
def renames (m : List (Nat × Nat)) (x : Nat) : Bool := m.any fun p => p.1 = x

mutual
/-- An expression with its index variables and tensors renamed everywhere. -/
def Expr.rename (f g : Nat → Nat) : Expr → Expr
  | .lit a v => .lit a v
  | .ivar i => .ivar (f i)
  | .acc a t is ms st => .acc a (g t) (is.map f) ms st
  | .un a op e => .un a op (e.rename f g)
  | .bin a op e e' => .bin a op (e.rename f g) (e'.rename f g)
  | .cast a ty e => .cast a ty (e.rename f g)
  | .call a n es => .call a n (es.rename f g)
  | .red a op i e => .red a op (f i) (e.rename f g)
/-- Arguments. -/
def Args.rename (f g : Nat → Nat) : Args → Args
  | .nil => .nil
  | .cons e es => .cons (e.rename f g) (es.rename f g)
end

/-- A statement with its index variables and tensors renamed everywhere. -/
def Stmt.rename (f g : Nat → Nat) : Stmt → Stmt
  | .assign a l op e => .assign a ⟨l.a, g l.t, l.is.map f, l.mods⟩ op (e.rename f g)
  | .yield a is e => .yield a (is.map f) (e.rename f g)
  | .loop a i at' s => .loop a (f i) at' (s.rename f g)
  | .wher a c p => .wher a (c.rename f g) (p.rename f g)
  | .seq a d u => .seq a (d.rename f g) (u.rename f g)
  | .assemble a q c rs =>
    .assemble a (q.rename f g) (c.rename f g) (rs.map fun r => (g r.1, g r.2))
  | .multi a s t => .multi a (s.rename f g) (t.rename f g)
  | .such a s ps =>
    .such a (s.rename f g) (ps.map fun r => ⟨f r.parent, f r.outer, f r.inner, r.factor⟩)

/-- Two states hold the same, with the tensors renamed. -/
def Same (g : Nat → Nat) (ts : List Nat) (σ τ : St V) : Prop :=
  (∀ t ∈ ts, τ.val (g t) = σ.val t ∧ τ.stored (g t) = σ.stored t) ∧ τ.out = σ.out

end Verif.Replace
