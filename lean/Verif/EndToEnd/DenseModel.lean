import Verif.EndToEnd.Model
import Verif.Assembly.InsertModel
import Verif.Assembly.Insert
/-!
The same program with a result of dense levels and the loops in any order: the values of the result are
set to zero (`initResultArrays` and `initValues`, lowerer_impl_imperative.cpp 3045-3154 and 3349-3367),
and every execution of the statement stores to, or adds to, the value at the coordinates of the result
variables (`lowerAssignment`, 501-541; `locate` of dense levels, mode_format_dense.cpp 50-55).

The statement is `forall(v1, ... forall(vd, result op= e))` with `op` addition when there are summation
variables (`makeReductionNotation` and `makeConcreteNotation`, index_notation.cpp 3126-3174).

Simplification: the values are always set to zero; the code omits it when every value is assigned.
-/
namespace Verif.EndToEnd
open Verif.Merge
open Verif.Pack (Kind Row permute iterate)
open Verif.Assembly

variable {V : Type}

/-- The coordinate of an index variable in the body of the loops `vs`. -/
def loopCoord (vs path : List Nat) (v : Nat) : Nat := ((vs.zip path).lookup v).getD 0

/-- `compoundStore` or `Store`, lowerer 524-541, at the locations of the executed statements. `none`:
outside the array. -/
def storeAll (acc : Bool) (o : Ops V) (dims : List Nat) : List (List Nat × V) → List V → Option (List V)
  | [], vals => some vals
  | (c, v) :: evs, vals => match vals[Assembly.locate dims 0 c]? with
    | none => none
    | some x => storeAll acc o dims evs (vals.set (Assembly.locate dims 0 c) (if acc then o.bin .add x v else v))

/-- Pack the operands, run the loops `vs`, iterate over the result. -/
def computeDense (qs : List (Row V) → List (Row V)) (srt : List Point → List Point) (cap : Nat) (o : Ops V)
    (size : Nat → Nat) (ops : List (Operand V)) (e : Expr V) (r : Result) (vs : List Nat) : Option (List (Row V)) :=
  match ops.mapM (Operand.storage qs cap o size) with
  | none => none
  | some sts =>
    let dims := (permute r.perm r.vars).map size
    match kernel o srt (fun k => (sts[k]?.getD ([], [])).2) (loops size ops sts vs) (fun _ => 0) e with
    | none => none
    | some evs =>
      (storeAll (vs.any (fun v => !r.vars.contains v)) o dims
        (evs.map (fun ev => ((permute r.perm r.vars).map (loopCoord vs ev.1), ev.2)))
        (List.replicate (dims.foldl (· * ·) 1) o.zero)).bind
          (fun vals => iterate r.perm (dims.map Lvl.dense, vals))

end Verif.EndToEnd
