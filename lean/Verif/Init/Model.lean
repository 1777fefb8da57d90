import Verif.EndToEnd.Model
import Verif.EndToEnd.DenseModel
/-!
When the values of a result are initialised: src/lower/lowerer_impl_imperative.cpp `hasSparseInserts`
198-233, `initResultArrays` 3055-3154 (before the loops) and 3229-3308 (in the loops),
`resizeAndInitValues` 3311-3346, `initValues` 3349-3364, `finalizeResultArrays` 3157-3203 (allocation of the
values by an assembly kernel), `lowerAssignment` 497-541, `lowerForall` 776-781; the two ways of running a
program in src/tensor.cpp (`assemble` 795-827, `compute` 829-850, `compile` 644-680).

The values array starts with arbitrary contents, and so does every part that `realloc` adds. The statement
is `forall(v1, ... forall(vn, result op= e))`; `op` is the reduction operator when there are reduction variables
(`makeReductionNotation` and `makeConcreteNotation`, index_notation.cpp 3126-3174) or when the assignment
was written with `+=` (`Access::operator+=`, index_notation.cpp 1184-1197). `TensorBase::compile` applies
`scalarPromote` (transformations.cpp 1836-1983; tensor.cpp 652): reduction loops inside of all loops over
variables of the result accumulate into a scalar that starts as the literal zero (`defineScalarVariable`,
3204-3212; `codeToInitializeTemporary`, 2469-2475), which is then stored, with the operator only if there are
reduction loops outside (`reduceOp`, 1887-1889).

`o` are the operations of the expression and the reduction operator (`add`); `o.zero` is the value of what
operands do not store. `lit` is the number zero, and `fill` the fill value of the result: the code uses both
where a reduction has to start from the identity of its operator.

The levels of the result are split behind the last compressed one. The loops over the variables above come
first and in storage order (a result that is appended to is lowered only then); the loops over the other
variables, and those over summation variables, are below and in any order. Every coordinate that the upper
loops visit is a new position of the last compressed level (`appendCoordinate`, 3749-3796: the level below
is dense, so nothing is skipped).

Simplifications: as in `Verif/EndToEnd`; the index arrays of the result are left out (`Verif/Assembly`): what
is observed of them is the list of coordinates of the last compressed level. After separate assembly the
values array has one block per position (C42). Operators other than + and * (`Call`) with the iteration spaces
of sums and products; early exit (C47) is left out.
-/
namespace Verif.Init
open Verif.Merge
open Verif.Pack (Kind Row permute unpermute)
open Verif.EndToEnd (Operand Result loops loopCoord)

variable {V : Type}

/-! ### Memory -/

/-- The values array: its capacity, and what its cells hold. Cells behind the capacity hold what `realloc`
will deliver. -/
structure Mem (V : Type) where
  cell : Nat → V
  cap : Nat

/-- `Store`. `none`: outside the array. -/
def Mem.write (m : Mem V) (i : Nat) (x : V) : Option (Mem V) :=
  if i < m.cap then some { m with cell := fun j => if j = i then x else m.cell j } else none

/-- `Load`. `none`: outside the array. -/
def Mem.read (m : Mem V) (i : Nat) : Option V := if i < m.cap then some (m.cell i) else none

/-- `doubleSizeIfFull`, ir_generators.cpp 32-37. -/
def Mem.double (m : Mem V) (needed : Nat) : Mem V :=
  if m.cap ≤ needed then { m with cap := m.cap * 2 } else m

/-- `atLeastDoubleSizeIfFull`, ir_generators.cpp 39-48. -/
def Mem.atLeastDouble (m : Mem V) (needed : Nat) : Mem V :=
  if m.cap ≤ needed then { m with cap := max (m.cap * 2) (needed + 1) } else m

/-- `initValues`, lowerer 3349-3364: a loop over `n` cells from `lo`. -/
def Mem.fill (x : V) : Nat → Nat → Mem V → Option (Mem V)
  | 0, _, m => some m
  | n + 1, lo, m => (m.write lo x).bind (Mem.fill x n (lo + 1))

/-! ### Decisions -/

/-- The number of levels down to the last compressed one. -/
def upper (kinds : List Kind) : Nat := (kinds.reverse.dropWhile (fun k => k == Kind.dense)).length

/-- The test of `hasSparseInserts` for one loop, 209-214. -/
def sparseLoop (srt : List Point → List Point) (l : Loop) (e : Expr V) : Bool :=
  let L := makeLattice (ctxOf l) srt e
  (latIters L).any (fun x => !x.isFull (ctxOf l) && !x.isDim) || (latLocs L).any (fun x => !x.isFull (ctxOf l))

/-- `hasSparseInserts`, 201-233: a loop over a variable whose level in the result is dense does not visit all
coordinates. `vs` are the variables of the loops `ls`, `sv` and `kinds` the variables and levels of the
result in storage order. -/
def hasSparseInserts (srt : List Point → List Point) (vs : List Nat) (ls : List Loop) (sv : List Nat) (kinds : List Kind)
    (e : Expr V) : Bool :=
  (vs.zip ls).any (fun x => (sv.zip kinds).lookup x.1 == some Kind.dense && sparseLoop srt x.2 e)

/-! ### Loops -/

/-- What the loops below a position of the last compressed level do to the values of this position: the
initialisation in front of a loop (3229-3308), or the assignment (497-541), with the coordinates of these
loops. -/
inductive Act (V : Type)
  | init
  | store (path : List Nat) (v : V)

/-- An action in the body of a loop. -/
def Act.under (c : Nat) : Act V → Act V
  | .init => .init
  | .store path v => .store (c :: path) v

/-- The right-hand side of the assignment: the expression, or the scalar that the innermost reduction loops
accumulated into (`lowerAssignment` to scalars, 466-489). -/
def leafVal (o : Ops V) (lit : V) : List Loop → List (List Nat × V) → V
  | [], [ev] => ev.2
  | _, evs => evs.foldl (fun t ev => o.bin .add t ev.2) lit

/-- The loops below (`lowerForall`, 647-897), with their variables. `mark` are the variables with an
initialisation in front of their loop, `inn` the innermost reduction loops. -/
def actions (o : Ops V) (lit : V) (srt : List Point → List Point) (vals : Nat → List V) (mark : Nat → Bool) (inn : List Loop) :
    List (Nat × Loop) → (Nat → Nat) → Expr V → Option (List (Act V))
  | [], pos, e => (kernel o srt vals inn pos e).map (fun evs => [.store [] (leafVal o lit inn evs)])
  | (v, l) :: ls, pos, e =>
    if segsOk l pos e.leaves then
      let I : Input := ⟨crdOf l pos e.leaves, l.n⟩
      match runForall (ctxOf l) srt I (l.n + (e.leaves.map (fun k => (I.crd k).length)).sum) e with
      | none => none
      | some evs =>
        (evs.mapM (fun (ev : Event V) => match ev.stmt with
          | none => some []
          | some e' => (actions o lit srt vals mark inn ls (nextPos l pos ev) e').map (List.map (Act.under ev.coord)))).map
            (fun (xs : List (List (Act V))) => (if mark v then [Act.init] else []) ++ xs.flatten)
    else none

/-- The loops above: the coordinates they visit, each with the positions of the operands and the remaining
expression. -/
def positions (srt : List Point → List Point) :
    List Loop → (Nat → Nat) → Expr V → Option (List (List Nat × (Nat → Nat) × Expr V))
  | [], pos, e => some [([], pos, e)]
  | l :: ls, pos, e =>
    if segsOk l pos e.leaves then
      let I : Input := ⟨crdOf l pos e.leaves, l.n⟩
      match runForall (ctxOf l) srt I (l.n + (e.leaves.map (fun k => (I.crd k).length)).sum) e with
      | none => none
      | some evs =>
        (evs.mapM (fun (ev : Event V) => match ev.stmt with
          | none => some []
          | some e' => (positions srt ls (nextPos l pos ev) e').map
              (List.map (fun (x : List Nat × (Nat → Nat) × Expr V) => (ev.coord :: x.1, x.2))))).map List.flatten
    else none

/-! ### Execution -/

/-- How the values of a result are written. -/
structure Plan where
  /-- assemble while computing -/
  together : Bool
  /-- the assignment is compound -/
  acc : Bool
  /-- the values must be initialised: `isNonFullyInitialized(tensor) || util::contains(reducedAccesses, write)` -/
  need : Bool
  /-- are there compressed levels -/
  append : Bool
  /-- the variables of the dense levels below the last compressed one, in storage order -/
  low : List Nat
  /-- their dimensions -/
  dims : List Nat
  /-- the variables of the loops below without the innermost reduction loops, outermost first -/
  below : List Nat

/-- The product of the dimensions of the dense levels below (`stride`, 3264-3277). -/
def Plan.stride (P : Plan) : Nat := P.dims.foldl (· * ·) 1

/-- The loop with an initialisation in front of it, 3229-3308: that of the level below the last compressed
level, when assembling. -/
def Plan.mark (P : Plan) (v : Nat) : Bool := P.together && P.append && (P.low.head? == some v)

/-- One action for the values of position `p`. -/
def Plan.act (o : Ops V) (fill : V) (P : Plan) (p : Nat) (m : Mem V) : Act V → Option (Mem V)
  | .init =>
    let m := m.atLeastDouble ((p + 1) * P.stride)
    if P.need then Mem.fill fill P.stride (p * P.stride) m else some m
  | .store path v =>
    let i := Assembly.locate P.dims p (P.low.map (loopCoord P.below path))
    (m.read i).bind fun x => m.write i (if P.acc then o.bin .add x v else v)

/-- The beginning of the body of the loop over the last compressed level when it is the last level
(`resizeAndInitValues`, 3311-3346). -/
def Plan.leaf (lit : V) (P : Plan) (p : Nat) (m : Mem V) : Option (Mem V) :=
  if P.append && P.low.isEmpty then
    let m := if P.together then m.double p else m
    if P.acc then m.write p lit else some m
  else some m

/-- The actions for all positions from `p`, in the order of the loops. -/
def Plan.runAll (o : Ops V) (lit fill : V) (P : Plan) : Nat → List (List (Act V)) → Mem V → Option (Mem V)
  | _, [], m => some m
  | p, as :: rest, m => (P.leaf lit p m).bind fun m => (as.foldlM (P.act o fill p) m).bind (Plan.runAll o lit fill P (p + 1) rest)

/-- The values array before the loops: allocated with the default capacity `cap`, or with the number of
values when that is known (3104-3114); by the assembly kernel when it ran before (3193-3199). Then
3140-3151. A scalar result is accumulated in a variable that starts as zero (381-387). `n` is the number of
positions. -/
def Plan.start (lit fill : V) (P : Plan) (cap n : Nat) (mem : Nat → V) : Option (Mem V) :=
  let m : Mem V := ⟨mem, if P.together && P.append then cap else n * P.stride⟩
  if !P.low.isEmpty && P.need && !(P.together && P.append) then Mem.fill fill (n * P.stride) 0 m
  else if !P.append && P.low.isEmpty then m.write 0 lit else some m

/-- The values of the positions from `p` with their coordinates. -/
def Plan.rows (P : Plan) (m : Mem V) : Nat → List (List Nat) → Option (List (Row V))
  | _, [] => some []
  | p, path :: rest =>
    ((box P.dims).mapM fun c => (m.read (Assembly.locate P.dims p c)).map fun x => (path ++ c, x)).bind fun here =>
      (Plan.rows P m (p + 1) rest).map fun r => here ++ r

/-- The number of innermost reduction loops, if the result is not a scalar: `FindHoistLevel`, transformations.cpp
1840-1927. -/
def promoted (r : Result) (vs : List Nat) : Nat :=
  if r.vars = [] then 0 else (vs.reverse.takeWhile (fun v => !r.vars.contains v)).length

/-- The plan of a program: `vs` are the variables of its loops, outermost first, `plus` says that the
assignment was written with `+=`. -/
def planOf (srt : List Point → List Point) (together plus : Bool) (size : Nat → Nat) (r : Result) (vs : List Nat)
    (ls : List Loop) (e : Expr V) : Plan :=
  let sv := permute r.perm r.vars
  let u := upper r.kinds
  let outer := vs.take (vs.length - promoted r vs)
  let acc := (plus && promoted r vs == 0) || outer.any (fun v => !r.vars.contains v)
  { together := together
    acc := acc
    need := hasSparseInserts srt vs ls sv r.kinds e || acc
    append := u != 0
    low := sv.drop u
    dims := (sv.drop u).map size
    below := outer.drop u }

/-- Pack the operands, run the program, read the result. -/
def compute (together plus : Bool) (qs : List (Row V) → List (Row V)) (srt : List Point → List Point) (cap : Nat) (o : Ops V)
    (lit fill : V) (size : Nat → Nat) (ops : List (Operand V)) (e : Expr V) (r : Result) (vs : List Nat) (mem : Nat → V) :
    Option (List (Row V)) :=
  match ops.mapM (Operand.storage qs cap o size) with
  | none => none
  | some sts =>
    let ls := loops size ops sts vs
    let P := planOf srt together plus size r vs ls e
    match positions srt (ls.take (upper r.kinds)) (fun _ => 0) e with
    | none => none
    | some ps =>
      match ps.mapM (fun x => actions o lit srt (fun k => (sts[k]?.getD ([], [])).2) P.mark
          (ls.drop (vs.length - promoted r vs)) (P.below.zip (ls.drop (upper r.kinds))) x.2.1 x.2.2) with
      | none => none
      | some as =>
        (P.start lit fill cap ps.length mem).bind fun m =>
        (P.runAll o lit fill 0 as m).bind fun m =>
        (P.rows m 0 (ps.map Prod.fst)).map
          (List.map (fun (x : Row V) => (unpermute r.perm x.1, x.2)))

end Verif.Init
