import Verif.EndToEnd.DenseModel
import Verif.Workspace.Model
/-!
A whole program with a dense vector as temporary: insert components into operands, compile and run
`forall(v1, ... forall(vd, where(forall(v, result = w(v)), forall(u1, ... w(v) += e))))`, iterate over the result. `v` is the
variable of the last level of the result; the loops `u1, ...` of the producer are `v` and the summation variables in any
order. That is the statement of `optimizeSpMM` (`Verif/Spmm/Model.lean`) and the one users get from `precompute` with one
variable.

The parts are those of `Verif/EndToEnd` (pack, loops, iteration), `Verif/Assembly` (append assembly of the result) and
`Verif/Workspace` (the temporary).

Simplifications: those of `Verif/EndToEnd/Model.lean`, except that the summation loops are not innermost; one thread.
-/
namespace Verif.Spmm
open Verif.Merge
open Verif.Pack (Kind Row permute iterate)
open Verif.Assembly
open Verif.EndToEnd (Operand Result loops loopCoord)
open Verif.Workspace (Ws init round inspectedLevel)

variable {V : Type}

/-- `canAccelerateDenseTemp` 2286-2340, for a temporary that is a dense vector indexed by `v` and the single operand of the
consumer: whether the level it inspects is compressed. -/
def accelerates (r : Result) (v : Nat) : Bool :=
  match (inspectedLevel r.perm (r.vars.idxOf v)).bind (fun l => r.kinds[l]?) with
  | some .sparse => true
  | _ => false

/-- An assignment to a temporary without accelerator, `lowerAssignment` 501-545: `acc` is whether it is `+=`. -/
def denseUpdate (acc : Bool) (o : Ops V) (vals : Arr V) (u : Nat × V) : Option (Arr V) :=
  if acc then (read vals u.1).bind fun x => write vals u.1 (o.bin .add x u.2) else write vals u.1 u.2

/-- The `where` statement without accelerator: the temporary is set to zero (2560-2578), the producer runs, and the consumer
reads all components. -/
def denseRound (acc : Bool) (o : Ops V) (n : Nat) (w : Ws V) (ups : List (Nat × V)) : Option (Ws V × List (Nat × V)) :=
  (ups.foldlM (denseUpdate acc o) (List.replicate n (some o.zero))).bind fun vals =>
    (readAll vals n).map fun xs => ({ w with vals := vals }, (List.range n).zip xs)

/-- What a program needs to know about its temporary. -/
structure Temp where
  /-- `sort` of the list of coordinates -/
  sort : List Nat → List Nat
  /-- the variable that indexes the temporary -/
  v : Nat
  /-- its dimension -/
  n : Nat
  /-- the loops of the producer -/
  mid : List Nat
  /-- whether the producer's assignment is `+=` -/
  acc : Bool
  /-- whether it has an accelerator -/
  accel : Bool

/-- `lowerWhere` 2516-2606: the producer's loops, its assignments to the temporary, and what the consumer stores. -/
def whereBody (o : Ops V) (srt : List Point → List Point) (vals : Nat → List V) (tp : Temp) (ls : List Loop) (w : Ws V)
    (pos : Nat → Nat) (e : Expr V) : Option (Ws V × List (Nat × V)) :=
  (kernel o srt vals ls pos e).bind fun evs =>
    let ups := evs.map (fun ev => (loopCoord tp.mid ev.1 tp.v, ev.2))
    if tp.accel then round (if tp.acc then o.bin .add else fun _ x => x) tp.sort w ups
    else denseRound tp.acc o tp.n w ups

/-- The iterations of the loop around the `where` statement: the temporary is hoisted out of it (783-792). -/
def thread (f : Ws V → Event V → Option (Ws V × List (Nat × V))) : Ws V → List (Event V) → Option (List (Nat × List (Nat × V)))
  | _, [] => some []
  | w, ev :: evs => (f w ev).bind fun r => (thread f r.1 evs).map ((ev.coord, r.2) :: ·)

/-- The loops over the result variables except the last, around the `where` statement: `lowerForall` and `lowerForallBody`, as
in `Verif.EndToEnd.kernelTree`. `d` counts the levels of the result. -/
def wsTree (o : Ops V) (srt : List Point → List Point) (vals : Nat → List V) (tp : Temp) :
    (d : Nat) → List Loop → (Nat → Nat) → Expr V → Option (Tree V d)
  | 0, _, _, _ => none
  | 1, ls, pos, e => (whereBody o srt vals tp ls (init tp.n) pos e).map (fun r => r.2)
  | _ + 2, [], _, _ => none
  | 2, l :: ls, pos, e =>
    if segsOk l pos e.leaves then
      let I : Input := ⟨crdOf l pos e.leaves, l.n⟩
      (runForall (ctxOf l) srt I (l.n + (e.leaves.map (fun k => (I.crd k).length)).sum) e).bind fun evs =>
        thread (fun w ev => ev.stmt.bind (fun e' => whereBody o srt vals tp ls w (nextPos l pos ev) e')) (init tp.n) evs
    else none
  | d + 3, l :: ls, pos, e =>
    if segsOk l pos e.leaves then
      let I : Input := ⟨crdOf l pos e.leaves, l.n⟩
      (runForall (ctxOf l) srt I (l.n + (e.leaves.map (fun k => (I.crd k).length)).sum) e).bind fun evs =>
        (evs.mapM (fun (ev : Event V) => ev.stmt.bind (fun e' =>
          (wsTree o srt vals tp (d + 2) ls (nextPos l pos ev) e').map (fun t => (ev.coord, t))))).map
            (fun (es : List (Nat × Tree V (d + 2))) => es)
    else none

/-- Pack the operands, run the kernel with temporary and assembly of the result, iterate over the result. `mid` are the loops
of the producer. Not modelled: an accelerated temporary that is copied to a dense level (see `Verif/Workspace`). -/
def computeWs (qs : List (Row V) → List (Row V)) (srt : List Point → List Point) (sort : List Nat → List Nat) (cap : Nat)
    (o : Ops V) (size : Nat → Nat) (ops : List (Operand V)) (e : Expr V) (r : Result) (mid : List Nat) :
    Option (List (Row V)) :=
  (ops.mapM (Operand.storage qs cap o size)).bind fun sts =>
    let sv := permute r.perm r.vars
    sv.getLast?.bind fun v =>
      if accelerates r v = true ∧ r.kinds.getLast? = some .dense then none
      else
        let rl := (sv.map size).zip r.kinds
        (wsTree o srt (fun k => (sts[k]?.getD ([], [])).2) ⟨sort, v, size v, mid, mid.any (· != v), accelerates r v⟩
          rl.length (loops size ops sts (sv.dropLast ++ mid)) (fun _ => 0) e).bind
            fun t => (run cap o.zero rl t).bind (iterate r.perm)

end Verif.Spmm
