import Verif.Assembly.Model
/-!
Sparsely accelerated dense workspaces: `canAccelerateDenseTemp`, `codeToInitializeDenseAcceleratorArrays`,
`lowerWhere`, `lowerAssignment` and `lowerForallDenseAcceleration` of
src/lower/lowerer_impl_imperative.cpp.

Simplifications
* The producer is the list of its assignments to the workspace, in execution order; the consumer reads the
  workspace once per listed coordinate (that is what `lowerForallDenseAcceleration` emits for the single
  operand that 2307-2311 requires).
* One thread; the arrays of a thread start at `thread * n` of a shared array in the parallel case.
* Memory as in `Verif/Assembly/Model.lean`: `none` is an access outside an array or a load of an unwritten
  slot.
-/
namespace Verif.Workspace
open Verif.Assembly (Arr read write readAll)

variable {V : Type}

/-- The values, the guard `_already_set`, the `_index_list` and its size. -/
structure Ws (V : Type) where
  vals : Arr V
  guard : Arr Bool
  list : Arr Nat
  size : Nat

/-- `codeToInitializeTemporary` 2459-2514 and `codeToInitializeDenseAcceleratorArrays` 2197-2284: the guard
comes from `calloc`, the values and the list are not initialized. -/
def init (n : Nat) : Ws V :=
  ⟨List.replicate n none, List.replicate n (some false), List.replicate n none, 0⟩

/-- An assignment to the workspace, `lowerAssignment` 571-603: the first write at a coordinate stores the
right-hand side, records the coordinate and sets the guard; a later one combines with the stored value. An
assignment without operator is `op := fun _ r => r`. -/
def update (op : V → V → V) (w : Ws V) (u : Nat × V) : Option (Ws V) :=
  (read w.guard u.1).bind fun g =>
    if g = false then
      (write w.vals u.1 u.2).bind fun vals => (write w.list w.size u.1).bind fun list =>
        (write w.guard u.1 true).map fun guard => ⟨vals, guard, list, w.size + 1⟩
    else
      (read w.vals u.1).bind fun v => (write w.vals u.1 (op v u.2)).map fun vals => { w with vals := vals }

/-- One iteration of the consumer, `lowerForallDenseAcceleration` 1270-1279: load the coordinate, deliver it
with its value, reset its guard. -/
def drainStep (s : Ws V × List (Nat × V)) (k : Nat) : Option (Ws V × List (Nat × V)) :=
  (read s.1.list k).bind fun c => (read s.1.vals c).bind fun v =>
    (write s.1.guard c false).map fun guard => ({ s.1 with guard := guard }, s.2 ++ [(c, v)])

/-- `ir::Sort` of the index list (2551-2558): `qsort` on the first `size` elements. -/
def sortList (sort : List Nat → List Nat) (w : Ws V) : Option (Ws V) :=
  (readAll w.list w.size).map fun l => { w with list := (sort l).map some ++ w.list.drop w.size }

/-- One execution of the `where` statement, 2516-2606: the size is reset, the producer runs, the list is
sorted and the consumer runs. -/
def round (op : V → V → V) (sort : List Nat → List Nat) (w : Ws V) (ups : List (Nat × V)) :
    Option (Ws V × List (Nat × V)) :=
  (ups.foldlM (update op) { w with size := 0 }).bind fun w =>
    (sortList sort w).bind fun w => (List.range w.size).foldlM drainStep (w, [])

/-- The `where` statement inside a loop with a hoisted workspace: one round per iteration; the deliveries. -/
def rounds (op : V → V → V) (sort : List Nat → List Nat) : Ws V → List (List (Nat × V)) → Option (List (List (Nat × V)))
  | _, [] => some []
  | w, ups :: rest => (round op sort w ups).bind fun r => (rounds op sort r.1 rest).map (r.2 :: ·)

/-- The level whose format `canAccelerateDenseTemp` inspects for the result mode with index `mode`,
2331-2334. -/
def inspectedLevel (ordering : List Nat) (mode : Nat) : Option Nat := ordering[mode]?

end Verif.Workspace
