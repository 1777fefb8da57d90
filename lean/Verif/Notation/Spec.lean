import Verif.Notation.Syntax
import Verif.Recover.Spec

/-!
# What the notations are

Nothing here mentions how the checks walk over statements.
-/

namespace Verif.Notation

open Verif.Recover (Var Rel Known)

/-- `d` is a direct part of `e`. -/
inductive Part : Expr → Expr → Prop where
  | unary {a} : Part a (.unary a)
  | addL {a b} : Part a (.add a b)
  | addR {a b} : Part b (.add a b)
  | subL {a b} : Part a (.sub a b)
  | subR {a b} : Part b (.sub a b)
  | mulL {a b} : Part a (.mul a b)
  | mulR {a b} : Part b (.mul a b)
  | divL {a b} : Part a (.div a b)
  | divR {a b} : Part b (.div a b)
  | call {a} : Part a (.call a)
  | arg {a b} : Part a (.arg a b)
  | argRest {a b} : Part b (.arg a b)
  | reduction {v a} : Part a (.reduction v a)

/-- `d` appears somewhere in `e`. -/
inductive Inside : Expr → Expr → Prop where
  | refl {e} : Inside e e
  | part {d e f} : Inside d e → Part e f → Inside d f

/-- Einsum notation: no divisions, no reductions, and no sums or differences inside of products. -/
def EinsumExpr (e : Expr) : Prop :=
  (∀ a b, ¬Inside (.div a b) e) ∧ (∀ v a, ¬Inside (.reduction v a) e) ∧
    ∀ m n, Inside (.mul m n) e → ∀ a b, ¬Inside (.add a b) (.mul m n) ∧ ¬Inside (.sub a b) (.mul m n)

/-- A variable is used to access a tensor at a place that is below reductions over `bound`. -/
inductive AccessAt : Expr → List Var → Var → Prop where
  | here {vars v} : v ∈ vars → AccessAt (.access vars) [] v
  | reduction {a bound v w} : AccessAt a bound v → AccessAt (.reduction w a) (w :: bound) v
  | part {d e bound v} : Part d e → (∀ w a, e ≠ .reduction w a) → AccessAt d bound v → AccessAt e bound v

/-- Reduction notation: every variable of an access is a variable of the result or bound by a reduction around
the access. -/
def ReductionExpr (lhs : List Var) (e : Expr) : Prop :=
  ∀ bound v, AccessAt e bound v → v ∈ lhs ∨ v ∈ bound

/-- A variable is used in an expression: to access a tensor or as a value. -/
def UsedInExpr (e : Expr) (v : Var) : Prop :=
  (∃ vars, Inside (.access vars) e ∧ v ∈ vars) ∨ Inside (.ivar v) e

/-- `s` is directly below `t`; `producer` and `inWhere` tell on which side of a where statement it is, `loops`
is the loop variable if `t` is a loop. -/
inductive Below : Stmt → Bool → Bool → List Var → Stmt → Prop where
  | forall_ {v s} : Below s false false [v] (.forall_ v s)
  | consumer {c p} : Below c false true [] (.where_ c p)
  | producer {c p} : Below p true true [] (.where_ c p)
  | definition {d m} : Below d false false [] (.sequence d m)
  | mutation {d m} : Below m false false [] (.sequence d m)
  | left {s t} : Below s false false [] (.multi s t)
  | right {s t} : Below t false false [] (.multi s t)
  | queries {q c} : Below q false false [] (.assemble q c)
  | compute {q c} : Below c false false [] (.assemble q c)
  | computeOnly {c} : Below c false false [] (.assembleOnly c)
  | suchThat {s rels} : Below s false false [] (.suchThat s rels)

/-- `s` appears in `t`, inside of the producer of some where statement, inside of some where statement, and
inside of these loops. -/
inductive At : Stmt → Bool → Bool → List Var → Stmt → Prop where
  | here {s} : At s false false [] s
  | step {s t u producer inWhere loops producer' inWhere' loops'} :
      At s producer inWhere loops t → Below t producer' inWhere' loops' u →
      At s (producer' || producer) (inWhere' || inWhere) (loops' ++ loops) u

/-- The variables a statement uses itself. -/
inductive Uses : Stmt → Var → Prop where
  | lhs {lhs compound rhs valid v} : v ∈ lhs → Uses (.assign lhs compound rhs valid) v
  | rhs {lhs compound rhs valid v} : UsedInExpr rhs v → Uses (.assign lhs compound rhs valid) v
  | yieldVars {vars e v} : v ∈ vars → Uses (.yield vars e) v
  | yieldExpr {vars e v} : UsedInExpr e v → Uses (.yield vars e) v

/-- The expressions of a statement itself. -/
inductive HasExpr : Stmt → Expr → Prop where
  | assign {lhs compound rhs valid} : HasExpr (.assign lhs compound rhs valid) rhs
  | yield {vars e} : HasExpr (.yield vars e) e

/-- Concrete notation: inside of the loops of the statement every used variable is known, there are no
reductions and no relations further inside, assignments that are not part of where statements have matching
dimensions, and assignments that sum over a variable (other than those that fill a workspace) accumulate. -/
def Concrete (rels : List Rel) (s : Stmt) : Prop :=
  (∀ t producer inWhere loops, At t producer inWhere loops s → ∀ v, Uses t v → Known rels loops v) ∧
    (∀ t producer inWhere loops, At t producer inWhere loops s → ∀ e, HasExpr t e →
      ∀ v a, ¬Inside (.reduction v a) e) ∧
    (∀ t rels' producer inWhere loops, ¬At (.suchThat t rels') producer inWhere loops s) ∧
    (∀ lhs compound rhs valid producer inWhere loops,
      At (.assign lhs compound rhs valid) producer inWhere loops s →
      (inWhere = false → valid = true) ∧
      (producer = false → (∃ vars, Inside (.access vars) rhs ∧ ∃ v ∈ vars, v ∉ lhs) → compound = true))

/-- The relations and the statement of a (possibly scheduled) statement. -/
def relations : Stmt → List Rel
  | .suchThat _ rels => rels
  | _ => []

/-- The statement that the relations are about. -/
def body : Stmt → Stmt
  | .suchThat s _ => s
  | s => s

/-- A variable that no command introduced. -/
def Original (rels : List Rel) (v : Var) : Prop := ∀ r ∈ rels, v ∉ r.children

/-- There is no loop in the statement. -/
def NoLoops (s : Stmt) : Prop := ∀ t v producer inWhere loops, ¬At (.forall_ v t) producer inWhere loops s

/-- There is no `yield` in the statement. -/
def NoYield (s : Stmt) : Prop := ∀ vars e producer inWhere loops, ¬At (.yield vars e) producer inWhere loops s

end Verif.Notation
