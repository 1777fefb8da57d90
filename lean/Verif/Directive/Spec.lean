import Verif.Schedule.Spec
/-!
What a scheduling directive of the command line means: the text of the help (`taco -help=scheduling`) as a relation
between a directive, a name and its parameters, and an operation on the statement.
-/
namespace Verif.Directive

abbrev Name := List Char

/-- The strategies for merging. -/
inductive Merge where
  | twoFinger | gallop
  deriving DecidableEq

/-- The types of bounds. -/
inductive BoundType where
  | minExact | minConstraint | maxExact | maxConstraint
  deriving DecidableEq

/-- The parallel hardware units. -/
inductive ParUnit where
  | notParallel | gpuBlock | gpuWarp | gpuThread | cpuThread | cpuVector
  deriving DecidableEq

/-- The output race strategies. -/
inductive Race where
  | ignoreRaces | noRaces | atomics | temporary | parallelReduction
  deriving DecidableEq

/-- The strategies for assembling a result. -/
inductive AsmStrategy where
  | append | insert
  deriving DecidableEq

/-- The kinds of nodes of an expression, as far as the directives tell them apart. `other` are literals, variables,
casts, calls and reductions. -/
inductive NodeKind where
  | access | unary | binary | other
  deriving DecidableEq

/-- The component types of interest. -/
inductive Ty where
  | float64 | int64 | float32
  deriving DecidableEq

/-- An expression: the kind of its node, its text without spaces, its type and its operands. -/
inductive Expr where
  | node (kind : NodeKind) (text : Name) (type : Ty) (args : List Expr)

/-- The size of a mode of a workspace: the dimension of a variable that has one, otherwise the variable. -/
inductive Dim where
  | size (n : Nat)
  | var (v : Name)
  deriving DecidableEq

/-- The transformations of a statement, with the arguments of the C++ functions of the same name. `pos` names the
argument access by its place among the argument accesses. -/
inductive Op where
  | pos (i ipos : Name) (access : Nat)
  | fuse (i j f : Name)
  | split (i i1 i2 : Name) (factor : Nat)
  | divide (i i1 i2 : Name) (factor : Nat)
  | precompute (e : Option Expr) (origs pres : List Name) (workspace : Name) (type : Ty) (dims : List Dim)
  | reorder (vars : List Name)
  | mergeby (i : Name) (strategy : Merge)
  | bound (i i1 : Name) (n : Nat) (type : BoundType)
  | unroll (i : Name) (factor : Nat)
  | parallelize (i : Name) (unit : ParUnit) (race : Race)
  | assemble (result : Name) (strategy : AsmStrategy) (separate : Bool)

/-- What the directives see of a statement: its index variables, the tensors of its argument accesses and of its
results, the right-hand sides of its assignments in order, and the dimensions of its variables. -/
structure View where
  vars : List Name
  args : List Name
  results : List Name
  exprs : List Expr
  domain : Name → Option Nat

def Merge.text : Merge → String
  | .twoFinger => "TwoFinger"
  | .gallop => "Gallop"

def BoundType.text : BoundType → String
  | .minExact => "MinExact"
  | .minConstraint => "MinConstraint"
  | .maxExact => "MaxExact"
  | .maxConstraint => "MaxConstraint"

def ParUnit.text : ParUnit → String
  | .notParallel => "NotParallel"
  | .gpuBlock => "GPUBlock"
  | .gpuWarp => "GPUWarp"
  | .gpuThread => "GPUThread"
  | .cpuThread => "CPUThread"
  | .cpuVector => "CPUVector"

def Race.text : Race → String
  | .ignoreRaces => "IgnoreRaces"
  | .noRaces => "NoRaces"
  | .atomics => "Atomics"
  | .temporary => "Temporary"
  | .parallelReduction => "ParallelReduction"

def AsmStrategy.text : AsmStrategy → String
  | .append => "Append"
  | .insert => "Insert"

/-- The units of a GPU. -/
def ParUnit.gpu : ParUnit → Prop
  | .gpuBlock | .gpuWarp | .gpuThread => True
  | _ => False

/-- A text of digits denotes a number that fits into 64 bits. -/
def Numeral (p : Name) (n : Nat) : Prop := p ≠ [] ∧ (∀ c ∈ p, isDigit c = true) ∧ decVal p = n ∧ n < 2 ^ 64

/-- `e` occurs in one of the expressions. -/
inductive Occurs (e : Expr) : List Expr → Prop
  | here (es : List Expr) : Occurs e (e :: es)
  | inside (k : NodeKind) (t : Name) (ty : Ty) (as es : List Expr) : Occurs e as → Occurs e (.node k t ty as :: es)
  | later (x : Expr) (es : List Expr) : Occurs e es → Occurs e (x :: es)

def Expr.text : Expr → Name
  | .node _ t _ _ => t

def Expr.kind : Expr → NodeKind
  | .node k _ _ _ => k

def Expr.type : Expr → Ty
  | .node _ _ ty _ => ty

/-- The access is the first one of that tensor. -/
def First (args : List Name) (k : Nat) (tensor : Name) : Prop := args[k]? = some tensor ∧ ∀ j < k, args[j]? ≠ some tensor

/-- What a directive without a subexpression means. Parameters that are to be variables of the statement are ones of it. -/
inductive Means (v : View) : List Name → Op → Prop
  | pos {i ipos tensor k} : i ∈ v.vars → First v.args k tensor → Means v ["pos".toList, i, ipos, tensor] (.pos i ipos k)
  | fuse {i j f} : i ∈ v.vars → j ∈ v.vars → Means v ["fuse".toList, i, j, f] (.fuse i j f)
  | split {i i1 i2 p n} : i ∈ v.vars → Numeral p n → Means v ["split".toList, i, i1, i2, p] (.split i i1 i2 n)
  | divide {i i1 i2 p n} : i ∈ v.vars → Numeral p n → Means v ["divide".toList, i, i1, i2, p] (.divide i i1 i2 n)
  | reorder {vs} : 2 ≤ vs.length → (∀ x ∈ vs, x ∈ v.vars) → Means v ("reorder".toList :: vs) (.reorder vs)
  | mergeby {i} (s : Merge) : i ∈ v.vars → Means v ["mergeby".toList, i, s.text.toList] (.mergeby i s)
  | bound {i i1 p n} (t : BoundType) : i ∈ v.vars → Numeral p n → Means v ["bound".toList, i, i1, p, t.text.toList] (.bound i i1 n t)
  | unroll {i p n} : i ∈ v.vars → Numeral p n → Means v ["unroll".toList, i, p] (.unroll i n)
  | parallelize {i} (u : ParUnit) (r : Race) : i ∈ v.vars → Means v ["parallelize".toList, i, u.text.toList, r.text.toList] (.parallelize i u r)
  | assemble {t} (s : AsmStrategy) : t ∈ v.results → Means v ["assemble".toList, t, s.text.toList] (.assemble t s false)
  | assembleSep {t} (s : AsmStrategy) (b : Bool) : t ∈ v.results →
      Means v ["assemble".toList, t, s.text.toList, (toString b).toList] (.assemble t s b)

/-- Texts whose first character does not make a number of them unless they consist of digits. -/
def Tidy (p : Name) : Prop := ∀ c cs, p = c :: cs → c ≠ '+' ∧ c ≠ '-' ∧ IndexText.isSpace c = false ∧ (isDigit c = true → ∀ x ∈ cs, isDigit x = true)

/-- Text without spaces. -/
def noSpaces (t : Name) : Name := t.filter (· ≠ ' ')

/-- A parameter that lists variables: `i` or `{i,j}`. -/
def Lists (p : Name) (vars : List Name) : Prop :=
  vars ≠ [] ∧ (∀ x ∈ vars, x ≠ [] ∧ Schedule.Plain x) ∧ Schedule.TextOK p ∧ ((∃ x, vars = [x] ∧ p = x) ∨ p = '{' :: Schedule.commas vars ++ ['}']) ∧
    ∀ c ∈ p, IndexText.isSpace c = false

/-- Accesses have no operands. -/
def Leaves (es : List Expr) : Prop := ∀ t ty as, Occurs (.node .access t ty as) es → as = []

/-- The node is an access, a unary or a binary operation with that text. -/
def Hit (t : Name) (e : Expr) : Prop := e.text = t ∧ e.kind ≠ .other

/-- The size of a mode of the workspace. -/
def View.dim (v : View) (x : Name) : Dim := ((v.domain x).map Dim.size).getD (.var x)

/-- What `precompute(expr, i, iw [, workspace])` means: `expr` is the text of a subexpression, all subexpressions with
that text are the same, `i` are variables of the statement. The workspace has values of type double. -/
inductive MeansPrecompute (v : View) : List Name → Op → Prop
  | unnamed {t p q origs pres e} : Lists p origs → Lists q pres → (∀ x ∈ origs, x ∈ v.vars) → Occurs e v.exprs → Hit (noSpaces t) e →
      (∀ e', Occurs e' v.exprs → Hit (noSpaces t) e' → e' = e) →
      MeansPrecompute v ["precompute".toList, t, p, q] (.precompute (some e) origs pres "workspace".toList .float64 (origs.map v.dim))
  | named {t p q w origs pres e} : Lists p origs → Lists q pres → (∀ x ∈ origs, x ∈ v.vars) → Occurs e v.exprs → Hit (noSpaces t) e →
      (∀ e', Occurs e' v.exprs → Hit (noSpaces t) e' → e' = e) →
      MeansPrecompute v ["precompute".toList, t, p, q, w] (.precompute (some e) origs pres w .float64 (origs.map v.dim))

/-- The directives mean these operations, each for the statement that the operations before it have made. -/
inductive Mean {σ : Type} (view : σ → View) (apply : σ → Op → Option σ) : σ → List (List Name) → List Op → Prop
  | nil {s} : Mean view apply s [] []
  | cons {s s' d ds o os} : (Means (view s) d o ∨ (Leaves (view s).exprs ∧ MeansPrecompute (view s) d o)) → apply s o = some s' →
      Mean view apply s' ds os → Mean view apply s (d :: ds) (o :: os)

/-- One of the operations is for a GPU. -/
def AnyGpu (os : List Op) : Prop := ∃ i u r, Op.parallelize i u r ∈ os ∧ u.gpu

/-- The transformations, applied one after the other; `none`: one of them reports an error. -/
def applyAll {σ : Type} (apply : σ → Op → Option σ) : σ → List Op → Option σ
  | s, [] => some s
  | s, o :: os => (apply s o).bind fun s' => applyAll apply s' os

end Verif.Directive
