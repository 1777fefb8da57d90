import Verif.IR.Model
import Verif.Scoped.Model
/-!
IR statements and `simplify(const Stmt&)` (src/ir/simplify.cpp 356-722).

Simplifications
* Modelled statements: `Block`, `Scope`, `VarDecl`, `Assign`, `Store`, `IfThenElse`, `For`, `While`. Not modelled:
  `Case`, `Switch`, `Function`, `Allocate`, `Free`, `Print`, `Sort`, `Break`, `Continue`, `Yield`, comments.
* A block is a left-nested `seq`; the empty block is `skip`. A block with one statement is `seq skip s`.
* The branches of `ite` and the bodies of `loop` and `while` are scopes (`Scope::make` in the constructors,
  ir.cpp 619-690).
* Identity of a variable (an `Expr` pointer) is a number; identity of a declaration statement is the number `id`.
* A `Load` or `Store` names its array by a number; arrays are not copy propagated.
* There is one flat store. Well-scoped programs (Spec) do not reuse a visible variable.
-/
namespace Verif.IR
open Verif.Types
open Verif.Scoped (SMap get remove insertScope)

variable {F : Type}

inductive Stmt (F : Type)
  | skip
  | seq (a b : Stmt F)
  | scope (s : Stmt F)
  | decl (id : Nat) (k : Kind) (x : Nat) (e : Expr F)
  | assign (k : Kind) (x : Nat) (e : Expr F)
  | store (k : Kind) (arr : Nat) (loc e : Expr F)
  | ite (c : Expr F) (a b : Stmt F)
  | loop (k : Kind) (x : Nat) (start stop inc : Expr F) (body : Stmt F)
  | while (c : Expr F) (body : Stmt F)
  deriving DecidableEq

/-! ### Meaning -/

def Env.set (σ : Env F) (x : Nat) (v : Val F) : Env F := { σ with var := fun y => if y = x then some v else σ.var y }

def Env.write (σ : Env F) (arr : Nat) (p : Int) (v : Val F) : Env F :=
  { σ with mem := fun a q => if a = arr ∧ q = p then some v else σ.mem a q }

/-- The value of an expression converted to the type of the variable it is assigned to. -/
def evalTo (A : Flt F) (σ : Env F) (e : Expr F) (k : Kind) : Option (Val F) := eval A σ (.cast e k)

/-- Execution with a bound on the depth. `none`: undefined behaviour, or the bound is reached. A `For` is printed
as `for (x = start; x < stop; x += inc)`: `stop` and `inc` are evaluated again in every iteration. -/
def run (A : Flt F) : Nat → Stmt F → Env F → Option (Env F)
  | 0, _, _ => none
  | n + 1, s, σ => match s with
    | .skip => some σ
    | .seq a b => (run A n a σ).bind (run A n b)
    | .scope s => run A n s σ
    | .decl _ k x e => (evalTo A σ e k).map (σ.set x)
    | .assign k x e => (evalTo A σ e k).map (σ.set x)
    | .store k arr loc e => match eval A σ loc with
      | some (.i p) => (evalTo A σ e k).map (σ.write arr p)
      | _ => none
    | .ite c a b => match eval A σ c with
      | some (.b true) => run A n a σ
      | some (.b false) => run A n b σ
      | _ => none
    | .loop k x start stop inc body =>
      run A n (.seq (.assign k x start) (.while (.cmp .lt (.var k x) stop) (.seq body (.assign k x (.arith .add (.var k x) inc))))) σ
    | .while c body => match eval A σ c with
      | some (.b true) => (run A n body σ).bind (run A n (.while c body))
      | some (.b false) => some σ
      | _ => none

/-! ### Loop dependent variables -/

/-- `FindLoopDependentVars`, simplify.cpp 362-396: the level of the first declaration of each variable, and the
loop dependent variables. -/
def ana (lvl : Nat) : Stmt F → (Nat → Option Nat) × List Nat → (Nat → Option Nat) × List Nat
  | .skip, r => r
  | .seq a b, r => ana lvl b (ana lvl a r)
  | .scope s, r => ana lvl s r
  | .decl _ _ x _, r => ((fun y => if y = x then (match r.1 x with | some l => some l | none => some lvl) else r.1 y), r.2)
  | .assign _ x _, r => match r.1 x with
    | some l => if l < lvl then (r.1, x :: r.2) else r
    | none => r
  | .store .., r => r
  | .ite _ a b, r => ana lvl b (ana lvl a r)
  | .loop _ x _ _ _ body, r => ana (lvl + 1) body (r.1, x :: r.2)
  | .while _ body, r => ana (lvl + 1) body r

/-- `findLoopDepVars.loopDependentVars`. -/
def loopDependent (s : Stmt F) : List Nat := (ana 0 s (fun _ => none, [])).2

/-! ### Copy propagation -/

/-- Members of `Simplifier`, simplify.cpp 415-419. -/
structure CP where
  vars : SMap Nat (Kind × Nat)
  decls : SMap Nat Nat
  nec : List Nat
  deps : List (Nat × Nat)

/-- `visit(const Var*)`, simplify.cpp 485-490, on every variable of an expression. -/
def Expr.subst (M : SMap Nat (Kind × Nat)) : Expr F → Expr F
  | .lit k v => .lit k v
  | .var k x => match get M x with
    | some (k', y) => .var k' y
    | none => .var k x
  | .arith op a b => .arith op (a.subst M) (b.subst M)
  | .cmp op a b => .cmp op (a.subst M) (b.subst M)
  | .neg a => .neg (a.subst M)
  | .not a => .not (a.subst M)
  | .and a b => .and (a.subst M) (b.subst M)
  | .or a b => .or (a.subst M) (b.subst M)
  | .cast a k => .cast (a.subst M) k
  | .load k arr loc => .load k arr (loc.subst M)

/-- The variables of an expression. -/
def Expr.vars : Expr F → List Nat
  | .lit .. => []
  | .var _ x => [x]
  | .arith _ a b | .cmp _ a b | .and a b | .or a b => a.vars ++ b.vars
  | .neg a | .not a | .cast a _ | .load _ _ a => a.vars

/-- The declarations that the variables refer to become necessary (lines 487-489). -/
def CP.use (s : CP) (xs : List Nat) : CP := { s with nec := xs.filterMap (get s.decls) ++ s.nec }

/-- Rewriting an expression: replaced variables are marked, then the rules of `ExpressionSimplifier` apply. -/
def CP.rewrite (A : Flt F) (s : CP) (e : Expr F) : Option (Expr F × CP) :=
  (simplify A (e.subst s.vars)).map fun e' => (e', s.use (e.subst s.vars).vars)

/-- `if (varsToReplace.contains(x)) varsToReplace.remove(x)`, lines 473-475. -/
def rm (M : SMap Nat (Kind × Nat)) (x : Nat) : SMap Nat (Kind × Nat) := (remove M x).getD M

/-- The variables reached by the queue of lines 466-482. (On a cycle of copies the code does not terminate; here
the search stops.) -/
def reach (deps : List (Nat × Nat)) : Nat → List Nat → List Nat
  | 0, q => q
  | n + 1, q => q ++ reach deps n (q.flatMap fun x => (deps.filter fun d => d.1 == x).map (·.2))

/-- Lines 462-482: an assignment to an integer variable invalidates the copies of it. -/
def CP.kill (s : CP) (k : Kind) (x : Nat) : CP :=
  if isInt k then { s with vars := (reach s.deps (s.deps.length + 1) [x]).foldl rm s.vars } else s

/-- Insertion into the innermost scope. -/
def insertTop {K V : Type} [DecidableEq K] (M : SMap K V) (k : K) (v : V) : SMap K V :=
  match M with
  | [] => []
  | m :: ms => insertScope m k v :: ms

/-- Lines 434-448. -/
def CP.declare (s : CP) (L : List Nat) (id : Nat) (k : Kind) (x : Nat) (rhs : Expr F) : CP :=
  let s := { s with decls := insertTop s.decls x id }
  match rhs with
  | .var k' y => if isInt k ∧ x ∉ L then { s with vars := insertTop s.vars x (k', y), deps := (y, x) :: s.deps } else s
  | _ => s

def CP.push (s : CP) : CP := { s with vars := (fun _ => none) :: s.vars, decls := (fun _ => none) :: s.decls }
def CP.pop (s : CP) : CP := { s with vars := s.vars.tail, decls := s.decls.tail }

/-- `Simplifier::rewrite` on statements. `none`: the compiler crashes. -/
def cp (A : Flt F) (L : List Nat) : Stmt F → CP → Option (Stmt F × CP)
  | .skip, s => some (.skip, s)
  | .seq a b, s => (cp A L a s).bind fun ra => (cp A L b ra.2).map fun rb => (.seq ra.1 rb.1, rb.2)
  | .scope a, s => (cp A L a s.push).map fun r => (.scope r.1, r.2.pop)
  | .decl id k x e, s => (s.rewrite A e).map fun r => (.decl id k x r.1, r.2.declare L id k x r.1)
  | .assign k x e, s => (s.rewrite A e).map fun r => (.assign k x r.1, (r.2.use [x]).kill k x)
  | .store k arr loc e, s => (s.rewrite A loc).bind fun rl => (rl.2.rewrite A e).map fun re => (.store k arr rl.1 re.1, re.2)
  | .ite c a b, s => (s.rewrite A c).bind fun rc => (cp A L a rc.2.push).bind fun ra =>
      (cp A L b ra.2.pop.push).map fun rb => (.ite rc.1 ra.1 rb.1, rb.2.pop)
  | .loop k x start stop inc body, s => (s.rewrite A start).bind fun r1 => (r1.2.rewrite A stop).bind fun r2 =>
      (r2.2.rewrite A inc).bind fun r3 => (cp A L body r3.2.push).map fun rb => (.loop k x r1.1 r2.1 r3.1 rb.1, rb.2.pop)
  | .while c body, s => (s.rewrite A c).bind fun rc => (cp A L body rc.2.push).map fun rb => (.while rc.1 rb.1, rb.2.pop)

def CP.init : CP := ⟨Scoped.initial, Scoped.initial, [], []⟩

/-! ### Redundant declarations -/

/-- `RemoveRedundantStmts`, simplify.cpp 496-512. -/
def prune (nec : List Nat) : Stmt F → Stmt F
  | .decl id k x e => if id ∈ nec then .decl id k x e else .skip
  | .seq a b => .seq (prune nec a) (prune nec b)
  | .scope s => .scope (prune nec s)
  | .ite c a b => .ite c (prune nec a) (prune nec b)
  | .loop k x s e i b => .loop k x s e i (prune nec b)
  | .while c b => .while c (prune nec b)
  | s => s

/-! ### Redundant loops -/

/-- The variables assigned in a statement. `CheckModified`, simplify.cpp 624-638, is membership. -/
def Stmt.assigned : Stmt F → List Nat
  | .skip | .decl .. | .store .. => []
  | .assign _ x _ => [x]
  | .seq a b | .ite _ a b => a.assigned ++ b.assigned
  | .scope s | .loop _ _ _ _ _ s | .while _ s => s.assigned

/-- `DuplicateBody`, simplify.cpp 520-622: `some none` when the body is not of the required form. -/
def dup (A : Flt F) (count : Expr F) : Stmt F → Option (Option (Stmt F))
  | .skip => some (some .skip)
  | .seq a b => (dup A count a).bind fun ra => match ra with
    | none => some none
    | some a' => (dup A count b).map fun rb => rb.map fun b' => .seq a' b'
  | .scope s => (dup A count s).map fun r => r.map .scope
  | .assign k x (.lit k' v) => some (some (.assign k x (.lit k' v)))
  | .assign k x (.arith .add (.var ka a) (.lit k' v)) =>
    if a = x then (simplify A (.arith .mul count (.lit k' v))).map fun inc => some (.assign k x (.arith .add (.var ka a) inc))
    else some none
  | _ => some none

/-- The loops `visit(const While*)` looks for, simplify.cpp 682-700: `while (i < e) { pre; i = i + 1 }` with `e` not
assigned. -/
def counting (c : Expr F) (body : Stmt F) : Option (Kind × Nat × Kind × Nat × Stmt F) :=
  match c, body with
  | .cmp .lt (.var ki i) (.var ke e), .seq pre (.assign _ i' (.arith .add (.var _ i'') (.lit kl (.i l)))) =>
    if i' = i ∧ i'' = i ∧ (isInt kl || isUInt kl) = true ∧ l = 1 ∧ e ∉ pre.assigned ∧ e ≠ i then some (ki, i, ke, e, pre) else none
  | _, _ => none

/-- `RemoveRedundantLoops`, simplify.cpp 640-719. -/
def removeLoops (A : Flt F) : Stmt F → Option (Stmt F)
  | .seq a b => (removeLoops A a).bind fun a' => (removeLoops A b).map fun b' => .seq a' b'
  | .scope s => (removeLoops A s).map .scope
  | .ite c a b => (removeLoops A a).bind fun a' => (removeLoops A b).map fun b' => .ite c a' b'
  | .loop k x start stop inc body =>
    (simplify A (.arith .div (.arith .sub stop start) inc)).bind fun count => (dup A count body).bind fun r => match r with
      | some body' => some (.ite (.cmp .lt start stop) body' .skip)
      | none => (removeLoops A body).map fun b => .loop k x start stop inc b
  | .while c body =>
    match counting c body with
    | some (ki, i, ke, e, pre) =>
      (simplify A (.arith .sub (.var ke e) (.var ki i))).bind fun count => (dup A count pre).bind fun r => match r with
        | some pre' => some (.ite c (.seq pre' (.assign ki i (.var ke e))) .skip)
        | none => (removeLoops A body).map fun b => .while c b
    | none => (removeLoops A body).map fun b => .while c b
  | s => some s

/-- `simplify(const Stmt&)`. -/
def simplifyStmt (A : Flt F) (s : Stmt F) : Option (Stmt F) :=
  (cp A (loopDependent s) s CP.init).bind fun r => removeLoops A (prune r.2.nec r.1)

end Verif.IR
