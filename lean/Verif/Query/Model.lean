import Verif.EndToEnd.Model
import Verif.Assembly.InsertModel
/-!
Two-phase assembly of a matrix with one dense and one compressed level (`IndexStmt::assemble` with
`AssembleStrategy::Insert`): a first kernel computes how many components every row will have, the arrays
are allocated with that size, and a second kernel inserts the components.

* `SetAssembleStrategy::apply` and its rewriter `LowerAttrQuery`, src/index_notation/transformations.cpp
  1139-1540: the statement of the second kernel is rewritten to the statement of the first. Every access to
  an operand becomes an access to its structure, which is the constant `true` (`lowerAccess`,
  src/lower/lowerer_impl_imperative.cpp 2794-2797); all other nodes of the expression stay. After
  `eliminateRedundantReductions` and `InlineTemporaries` (1440-1540) the innermost statement is
  `nnz(i) += (int32_t) e`, or `q += e` for a boolean scalar `q` when there are loops over summation variables,
  followed by `nnz(i) += (int32_t) q`.
* `lowerMergeCases` 1810-1882 with its test `returnsTrue` 112-175.
* `lowerAssemble` 2617-2775: the part after the query is `insertRunWith` (`Verif/Assembly/InsertModel.lean`).

Simplifications
* Builds without assertions (the default of CMakeLists.txt 48-62 is a release build). With assertions
  `ir::Sub`, `ir::Div`, `ir::Add` and `ir::Mul` reject operands of type bool (src/ir/ir.cpp 285-340), so that the
  compiler stops with an internal error instead; negation has no such assertion.
* Values of the first kernel are rational numbers with a C type. A cast is one to a floating-point type.
* The result is a matrix stored in one dense and one compressed level, in either mode ordering. With more dense
  levels the position of a query result refers to dimensions of the query tensor (`getResult`,
  src/lower/mode_format_impl.cpp 87-99), which are not arguments of the kernel.
* Simplifications of `Verif/EndToEnd/Model.lean` and `Verif/Assembly/InsertModel.lean`.
-/
namespace Verif.Query
open Verif.Merge
open Verif.EndToEnd
open Verif.Pack (Kind Row permute iterate)
open Verif.Assembly (Cell insertRunWith insertOutput)

variable {V : Type}

/-! ### The expression of the query -/

/-- The types the printer and the lowerer distinguish (src/type.cpp 24-78). -/
inductive CTy | bool | int | flt
  deriving DecidableEq, Repr

/-- A value of the first kernel: the type the intermediate representation gives it, and its value in C. -/
structure CVal where
  ty : CTy
  val : Rat
  deriving DecidableEq, Repr

/-- `max_type`, src/type.cpp 48-78. -/
def maxTy : CTy → CTy → CTy
  | .bool, t => t
  | t, .bool => t
  | .flt, _ => .flt
  | _, .flt => .flt
  | .int, .int => .int

/-- The result of `!`, `||` and `&&` in C. -/
def truth (b : Bool) : CVal := ⟨.bool, if b then 1 else 0⟩

/-- Is a value true in C? -/
def CVal.isTrue (x : CVal) : Bool := x.val != 0

/-- Conversion to an integer truncates toward zero. -/
def toInt (x : Rat) : Int := x.num.tdiv x.den

/-- `lowerNeg` 2870-2872, printed as `!` for operands of type bool (src/ir/ir_printer.cpp 137-145); `lowerSqrt`
2901-2903, whose type is that of the operand (src/ir/ir.cpp 262-272); `lowerCast` 2906-2908. `sq` is the
function `sqrt`. -/
def qUn (sq : Rat → Rat) : UnOp → CVal → CVal
  | .neg, x => if x.ty = .bool then truth (!x.isTrue) else ⟨x.ty, -x.val⟩
  | .sqrt, x => ⟨x.ty, sq x.val⟩
  | .cast, x => ⟨.flt, x.val⟩

/-- `lowerAdd` 2875-2880 and `lowerMul` 2889-2894: `||` and `&&` when both operands are of type bool;
`lowerSub` 2883-2886 and `lowerDiv` 2896-2898. `none` is an integer division by zero. -/
def qBin : BinOp → CVal → CVal → Option CVal
  | .add, x, y => some (if maxTy x.ty y.ty = .bool then truth (x.isTrue || y.isTrue) else ⟨maxTy x.ty y.ty, x.val + y.val⟩)
  | .mul, x, y => some (if maxTy x.ty y.ty = .bool then truth (x.isTrue && y.isTrue) else ⟨maxTy x.ty y.ty, x.val * y.val⟩)
  | .sub, x, y => some ⟨maxTy x.ty y.ty, x.val - y.val⟩
  | .div, x, y =>
    if maxTy x.ty y.ty = .flt then some ⟨.flt, x.val / y.val⟩
    else if y.val = 0 then none
    else some ⟨maxTy x.ty y.ty, toInt (x.val / y.val)⟩

/-- The value of an expression in the first kernel. Accesses are accesses to the structure of an operand:
`true` (`lowerAccess` 2794-2797, `LowerAttrQuery::visit(const AccessNode*)`, transformations.cpp). `lit` gives the type and value
of a literal (`lowerLiteral` 2828-2867). -/
def qEval (sq : Rat → Rat) (lit : V → CVal) : Expr V → Option CVal
  | .acc _ => some (truth true)
  | .lit v => some (lit v)
  | .un u a => (qEval sq lit a).map (qUn sq u)
  | .bin b l r => match qEval sq lit l, qEval sq lit r with
    | some x, some y => qBin b x y
    | _, _ => none

/-- `returnsTrue`, lowerer_impl_imperative.cpp 112-175. -/
def returnsTrue (lit : V → CVal) : Expr V → Bool
  | .acc _ => true
  | .lit v => decide (lit v = truth true)
  | .un .neg a => returnsTrue lit a
  | .un .cast a => returnsTrue lit a
  | .un .sqrt _ => false
  | .bin .add l r => returnsTrue lit l || returnsTrue lit r
  | .bin .mul l r => returnsTrue lit l && returnsTrue lit r
  | .bin .sub _ _ => false
  | .bin .div _ _ => false

/-! ### Loops with a test that makes the cases of a merge equal -/

/-- `lowerMergeCases`, lowerer_impl_imperative.cpp 1810-1882, with the branch 1838-1846: when the loop lattice
is exact and `rt` holds of the statement, one body for all cases. -/
def mergeCasesG (rt : Expr V → Bool) (K : Ctx) (I : Input) (st : St) (c : Nat) (lat : List Point)
    (stmt : Option (Expr V)) : List (Event V) :=
  let loopL := getLoopLattice K lat
  if (latIters loopL).length ≠ 1 ∧ exact K loopL = true ∧ stmt.elim false rt = true then
    [⟨c, stmt, readsOf K st.pos stmt⟩]
  else mergeCases K I st c lat stmt

/-- The while loop of one merge point, `lowerMergePoint` 1625-1739; see `Verif.Merge.runWhile`. -/
def runWhileG (rt : Expr V → Bool) (K : Ctx) (I : Input) (lat : List Point) (p : Point)
    (stmt : Option (Expr V)) : Nat → St → Option (Out V)
  | 0, st => if unexhausted I st (p.rangers K) then none else some ⟨st, 0, []⟩
  | fuel + 1, st =>
    if unexhausted I st (p.rangers K) then
      if loadsOk I st p then
        match resolve I st (p.mergers K) with
        | none => none
        | some c =>
          let ev := mergeCasesG rt K I st c lat stmt
          match runWhileG rt K I lat p stmt fuel (advance K I st c p) with
          | none => none
          | some out => some { out with evs := ev ++ out.evs }
      else none
    else some ⟨st, fuel + 1, []⟩

/-- The sequence of while loops, `lowerMergeLattice` 1600-1612; see `Verif.Merge.runPoints`. -/
def runPointsG (rt : Expr V → Bool) (K : Ctx) (I : Input) (lat : List Point) (stmt : Expr V) :
    Nat → List Point → St → Option (List (Event V))
  | _, [], _ => some []
  | fuel, p :: ps, st =>
    match subLattice lat p with
    | [] => none
    | front :: _ =>
      match runWhileG rt K I (subLattice lat p) front (Expr.zeroOut (exhausted lat p) stmt) fuel st with
      | none => none
      | some out =>
        match runPointsG rt K I lat stmt out.fuel ps out.st with
        | none => none
        | some evs' => some (out.evs ++ evs')

/-- `lowerForall` 783-863; see `Verif.Merge.runForall`. -/
def runForallG (rt : Expr V → Bool) (K : Ctx) (srt : List Point → List Point) (I : Input) (fuel : Nat)
    (stmt : Expr V) : Option (List (Event V)) :=
  match latIters (makeLattice K srt stmt) with
  | _ :: _ :: _ => runPointsG rt K I (makeLattice K srt stmt) stmt fuel (getLoopLattice K (makeLattice K srt stmt)) ⟨fun _ => 0, 0⟩
  | _ => runForall K srt I fuel stmt

/-- One loop around the nest `below`: `lowerForall` 647-897 and `lowerForallBody` 2070-2145. The test `rt`
is applied only when the statement of the loop is an assignment, that is, in an innermost loop. -/
def loopG {α : Type} (rt : Expr V → Bool) (srt : List Point → List Point) (innermost : Bool) (l : Loop)
    (below : (Nat → Nat) → Expr V → Option (List (List Nat × α))) (pos : Nat → Nat) (e : Expr V) :
    Option (List (List Nat × α)) :=
  if segsOk l pos e.leaves then
    let I : Input := ⟨crdOf l pos e.leaves, l.n⟩
    match runForallG (if innermost then rt else fun _ => false) (ctxOf l) srt I
        (l.n + (e.leaves.map (fun k => (I.crd k).length)).sum) e with
    | none => none
    | some evs =>
      (evs.mapM (fun (ev : Event V) => match ev.stmt with
        | none => some []
        | some e' => (below (nextPos l pos ev) e').map
            (List.map (fun (x : List Nat × α) => (ev.coord :: x.1, x.2))))).map List.flatten
  else none

/-- A loop nest: the executed scalar statements, with coordinates and the value of `leafK`. -/
def nest {α : Type} (rt : Expr V → Bool) (srt : List Point → List Point) (leafK : (Nat → Nat) → Expr V → Option α) :
    List Loop → (Nat → Nat) → Expr V → Option (List (List Nat × α))
  | [], pos, e => (leafK pos e).map (fun v => [([], v)])
  | l :: ls, pos, e => loopG rt srt ls.isEmpty l (nest rt srt leafK ls) pos e

/-- The `d` loops over the variables of the result: the coordinates they visit, with what the loops `inner` below deliver. -/
def visits {α : Type} (rt : Expr V → Bool) (srt : List Point → List Point)
    (inner : List Loop → (Nat → Nat) → Expr V → Option α) :
    Nat → List Loop → (Nat → Nat) → Expr V → Option (List (List Nat × α))
  | 0, ls, pos, e => (inner ls pos e).map (fun x => [([], x)])
  | _ + 1, [], _, _ => none
  | d + 1, l :: ls, pos, e => loopG rt srt ls.isEmpty l (visits rt srt inner d ls) pos e

/-! ### The two kernels -/

/-- The boolean scalar of the query after the loops over the summation variables: `compoundAssign`
(src/ir/ir_generators.cpp 18-21) takes `||` for a value of type bool and `+` otherwise, and the sum is converted to bool. -/
def flagOf (evs : List (List Nat × CVal)) : Bool :=
  evs.foldl (fun b ev => if ev.2.ty = .bool then b || ev.2.isTrue else (truth b).val + ev.2.val != 0) false

/-- What a visited coordinate adds to the count of its row; `red` are the loops over summation variables. -/
def countOf (red : List Loop) (evs : List (List Nat × CVal)) : Int :=
  match red, evs with
  | [], [ev] => toInt ev.2.val
  | _, evs => if flagOf evs then 1 else 0

/-- The result of the query for row `p`: an array of integers, initialised to zero, whose position is the
coordinate of the row (`getResult`, src/lower/mode_format_impl.cpp 87-99). -/
def countRow (red : List Loop) (vs : List (List Nat × List (List Nat × CVal))) (p : Nat) : Int :=
  ((vs.filter (fun v => v.1.head? == some p)).map (fun v => countOf red v.2)).sum

/-- The first kernel: the number of components of each row. `none` is also a negative number. -/
def queryKernel (sq : Rat → Rat) (lit : V → CVal) (srt : List Point → List Point) (n : Nat) (ls red : List Loop)
    (e : Expr V) : Option (Nat → Nat) :=
  match visits (returnsTrue lit) srt (nest (returnsTrue lit) srt (fun _ e => qEval sq lit e)) 2 (ls ++ red) (fun _ => 0) e with
  | none => none
  | some vs =>
    if (List.range n).all (fun p => decide (0 ≤ countRow red vs p)) then some (fun p => (countRow red vs p).toNat)
    else none

/-- Is the component inserted? With loops over summation variables the scalar they accumulate into has a guard
that is false before them and set by every assignment (`lowerWhere` 2469-2474, `lowerAssignment` 554-559,
`generateAssembleGuard` 3870-3955). -/
def guardOf (red : List Loop) (evs : List (List Nat × V)) : Bool := red.isEmpty || !evs.isEmpty

/-- A visited coordinate as the component that is inserted. -/
def cellOf (o : Ops V) (red : List Loop) (v : List Nat × List (List Nat × V)) : Cell V :=
  ⟨[v.1.getD 0 0], v.1.getD 1 0, leafOf o red v.2⟩

/-- The second kernel: the components it inserts, in order. -/
def cellsKernel (o : Ops V) (srt : List Point → List Point) (vals : Nat → List V) (ls red : List Loop) (e : Expr V) :
    Option (List (Cell V)) :=
  (visits (fun _ => false) srt (kernel o srt vals) 2 (ls ++ red) (fun _ => 0) e).map
    (fun vs => (vs.filter (fun v => guardOf red v.2)).map (cellOf o red))

/-- Pack the operands, run the query, allocate, run the computation with insertion, iterate over the result. -/
def computeInsert (qs : List (Row V) → List (Row V)) (srt : List Point → List Point) (cap : Nat) (o : Ops V)
    (sq : Rat → Rat) (lit : V → CVal) (size : Nat → Nat) (ops : List (Operand V)) (e : Expr V) (r : Result) (red : List Nat) :
    Option (List (Row V)) :=
  match ops.mapM (Operand.storage qs cap o size), (permute r.perm r.vars).map size, r.kinds with
  | some sts, [n, _], [.dense, .sparse] =>
    let ls := loops size ops sts (permute r.perm r.vars)
    let rls := loops size ops sts red
    (queryKernel sq lit srt n ls rls e).bind fun nnz =>
      (cellsKernel o srt (fun k => (sts[k]?.getD ([], [])).2) ls rls e).bind fun cells =>
        (insertRunWith [n] nnz cells).bind fun s =>
          (insertOutput s).bind fun a => iterate r.perm ([.dense n, .comp a.1 a.2.1], a.2.2)
  | _, _, _ => none

end Verif.Query
