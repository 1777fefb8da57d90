import Verif.Merge.Kernel
import Verif.Assembly.PackModel
/-!
A whole program: insert components into operands, compile and run one assignment, iterate over the
result. The parts are those of `Verif/Assembly` (the pack kernel of every operand, `TensorBase::pack`,
src/tensor.cpp 294-463; append assembly of the result, src/lower/lowerer_impl_imperative.cpp) and
`Verif/Merge` (lowering of the loops, `lowerForall`, 647-897), with the iteration of `Verif/Pack`
(src/tensor.cpp 936-1020).

The statement is `forall(v1, ... forall(vd, where(result = t, forall(u1, ... t += e))))`: what
`makeConcreteNotation` (index_notation.cpp 3126-3174) and `scalarPromote` (transformations.cpp
1836-1987) make of an assignment whose summation variables are innermost.

Simplifications: the storage order of every operand and of the result agrees with the loop order; an
index variable occurs once per access; fill value zero.
-/
namespace Verif.EndToEnd
open Verif.Merge
open Verif.Pack (Kind Row permute iterate)
open Verif.Assembly

variable {V : Type}

/-- An access to a tensor: the index variable of each mode, the format of each level, the mode
ordering, and the components that were inserted. -/
structure Operand (V : Type) where
  vars : List Nat
  kinds : List Kind
  perm : List Nat
  comps : List (Row V)

/-- The index variables in storage order. -/
def Operand.storageVars (a : Operand V) : List Nat := permute a.perm a.vars

/-- `TensorBase::pack`, tensor.cpp 294-463: the kernel for tensors of order at least one (396-459), and
the sum for scalars (368-393). `size` is the dimension of each index variable. -/
def Operand.storage (qs : List (Row V) → List (Row V)) (cap : Nat) (o : Ops V) (size : Nat → Nat)
    (a : Operand V) : Option (List Lvl × List V) :=
  if a.vars = [] then (packScalar (o.bin .add) o.zero (a.comps.map Prod.snd)).map (fun v => ([], [v]))
  else packKernel qs cap o.zero (o.bin .add) (a.vars.map size) a.kinds a.perm a.comps

/-- The level of an access at an index variable (`Iterators::createAccessIterators`, iterator.cpp
573-650): the level that stores the mode the variable indexes. -/
def levelAt : List Nat → List Lvl → Nat → Option Lvl
  | w :: ws, l :: ls, v => if v = w then some l else levelAt ws ls v
  | _, _, _ => none

/-- The loops, outermost first. -/
def loops (size : Nat → Nat) (ops : List (Operand V)) (sts : List (List Lvl × List V)) (vs : List Nat) : List Loop :=
  vs.map (fun v => ⟨size v, fun k => match ops[k]?, sts[k]? with
    | some a, some st => levelAt a.storageVars st.1 v
    | _, _ => none⟩)

/-- What is stored at a coordinate of the result: the value of the right-hand side, or the scalar the
loops over the summation variables accumulated into, which starts at zero. -/
def leafOf (o : Ops V) : List Loop → List (List Nat × V) → V
  | [], [ev] => ev.2
  | _, evs => evs.foldl (fun acc ev => o.bin .add acc ev.2) o.zero

/-- The loops over the result variables: the coordinates they visit and what is computed below
(`lowerForall` and `lowerForallBody`, lowerer_impl_imperative.cpp 647-897 and 2070-2145). A case without
statement does not occur. -/
def kernelTree (o : Ops V) (srt : List Point → List Point) (vals : Nat → List V) :
    (d : Nat) → List Loop → (Nat → Nat) → Expr V → Option (Tree V d)
  | 0, ls, pos, e => (kernel o srt vals ls pos e).map (fun evs => leaf (leafOf o ls evs))
  | _ + 1, [], _, _ => none
  | d + 1, l :: ls, pos, e =>
    if segsOk l pos e.leaves then
      let I : Input := ⟨crdOf l pos e.leaves, l.n⟩
      match runForall (ctxOf l) srt I (l.n + (e.leaves.map (fun k => (I.crd k).length)).sum) e with
      | none => none
      | some evs =>
        (evs.mapM (fun (ev : Event V) => match ev.stmt with
          | none => none
          | some e' => (kernelTree o srt vals d ls (nextPos l pos ev) e').map (fun t => (ev.coord, t)))).map
            (fun (es : List (Nat × Tree V d)) => es)
    else none

/-- The result of the assignment: its index variables, formats and mode ordering. -/
structure Result where
  vars : List Nat
  kinds : List Kind
  perm : List Nat

/-- Pack the operands, run the kernel with assembly of the result, iterate over the result. `red` are
the summation variables in the order of their loops. -/
def compute (qs : List (Row V) → List (Row V)) (srt : List Point → List Point) (cap : Nat) (o : Ops V)
    (size : Nat → Nat) (ops : List (Operand V)) (e : Expr V) (r : Result) (red : List Nat) :
    Option (List (Row V)) :=
  match ops.mapM (Operand.storage qs cap o size) with
  | none => none
  | some sts =>
    let rl := ((permute r.perm r.vars).map size).zip r.kinds
    match kernelTree o srt (fun k => (sts[k]?.getD ([], [])).2) rl.length
        (loops size ops sts (permute r.perm r.vars ++ red)) (fun _ => 0) e with
    | none => none
    | some t => (run cap o.zero rl t).bind (iterate r.perm)

end Verif.EndToEnd
