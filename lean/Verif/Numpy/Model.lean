import Verif.Numpy.Syntax
import Verif.Types.Model

/-!
# Model of the Python functions on tensors

python_bindings/pytaco/pytensor/taco_tensor.py.  A function raises an exception (`none`) or assigns an index
expression to a new tensor; `Assignment` is what it assigns.  Which values are computed by an assignment: see
`terms`, the meaning of index notation (C21, C63).  Simplifications: formats are left out; operands are tensors
(`as_tensor` of arrays is module PyArray).
-/

namespace Verif.Numpy

/-! ### Python lists -/

/-- Where a slice begins or ends. -/
def bound (n : Nat) (i : Int) : Nat := if i < 0 then (n + i).toNat else i.toNat

/-- `l[i:]`. -/
def sliceFrom {α : Type} (l : List α) (i : Int) : List α := l.drop (bound l.length i)

/-- `l[:i]`. -/
def sliceTo {α : Type} (l : List α) (i : Int) : List α := l.take (bound l.length i)

/-- `l[i]`; `none` is IndexError. -/
def item {α : Type} (l : List α) (i : Int) : Option α :=
  if i < 0 then (if (l.length : Int) + i < 0 then none else l[((l.length : Int) + i).toNat]?) else l[i.toNat]?

/-- `l[i] = x`. -/
def setItem {α : Type} (l : List α) (i : Int) (x : α) : List α := l.set (bound l.length i) x

/-- `_cm.get_index_vars(n)`: new variables; the next one is `c`.
python_bindings/src/pyIndexNotation.cpp:392-427. -/
def fresh (c n : Nat) : List Var := List.range' c n

/-! ### The assignment of index notation -/

/-- Which variables are used for dimensions of which size. -/
def uses (a : Assignment) : List (Var × Nat) :=
  a.lhs.zip a.shape ++ a.operands.flatMap fun o => o.vars.zip o.shape

/-- The checks of an assignment: accesses have one variable per mode (src/index_notation/index_notation.cpp,
`check`), and a variable has one size (src/error/error_checks.cpp:39-88, see module Dims of C30). -/
def consistent (a : Assignment) : Bool :=
  decide (a.lhs.length = a.shape.length) && (a.operands.all fun o => decide (o.vars.length = o.shape.length)) &&
    (uses a).all fun p => (uses a).all fun q => decide (p.1 ≠ q.1) || decide (p.2 = q.2)

/-- `result[lhs] = expr`. -/
def assign (a : Assignment) : Option Assignment := if consistent a then some a else none

/-- The size of a variable. -/
def size (a : Assignment) (v : Var) : Nat := ((uses a).lookup v).getD 0

/-- Without repetitions. -/
def firsts : List Var → List Var
  | [] => []
  | v :: vs => v :: (firsts vs).filter fun w => decide (w ≠ v)

/-- The variables that are summed over: those that are not used on the left (C21). -/
def reductions (a : Assignment) : List Var :=
  (firsts (a.operands.flatMap (·.vars))).filter fun v => decide (v ∉ a.lhs)

def set (e : Env) (v : Var) (x : Nat) : Env := fun w => if w = v then x else e w

/-- Nested loops over variables. -/
def envs : List (Var × Nat) → Env → List Env
  | [], e => [e]
  | (v, n) :: rest, e => (List.range n).flatMap fun x => envs rest (set e v x)

/-- Variables with the given values. -/
def bindEnv (vs : List Var) (c : List Nat) : Env := fun v => ((vs.zip c).lookup v).getD 0

/-- The terms that are summed up for component `r`: the coordinates of the operands. -/
def terms (a : Assignment) (r : List Nat) : List (List (List Nat)) :=
  (envs ((reductions a).map fun v => (v, size a v)) (bindEnv a.lhs r)).map fun e =>
    a.operands.map fun o => o.vars.map e

/-! ### Element-wise functions -/

/-- `_is_broadcastable`: taco_tensor.py:829-833. -/
def isBroadcastable (s1 s2 : List Nat) : Bool := (s1.reverse.zip s2.reverse).all fun p => decide (p.1 = p.2)

/-- `_compute_elt_wise_out_shape`: taco_tensor.py:836-840. -/
def outShape (s1 s2 : List Nat) : Option (List Nat) :=
  if isBroadcastable s1 s2 then some (if s2.length ≤ s1.length then s1 else s2) else none

/-- `_compute_bin_elt_wise_op` with `_get_indices_for_operands`: taco_tensor.py:843-866. -/
def binary (c : Nat) (s1 s2 : List Nat) : Option Assignment :=
  (outShape s1 s2).bind fun out =>
    let vars := fresh c out.length
    if out ≠ [] then
      assign ⟨out, vars, [⟨s1, sliceFrom vars (vars.length - s1.length)⟩, ⟨s2, sliceFrom vars (vars.length - s2.length)⟩]⟩
    else assign ⟨[], [], [⟨s1, []⟩, ⟨s2, []⟩]⟩

/-- `_compute_unary_elt_eise_op`: taco_tensor.py:1461-1475. -/
def unary (c : Nat) (s : List Nat) : Option Assignment :=
  let vars := fresh c s.length
  if s ≠ [] then assign ⟨s, vars, [⟨s, vars⟩]⟩ else assign ⟨[], [], [⟨s, []⟩]⟩

/-- `tensor_floordiv`: taco_tensor.py:1032-1075. -/
def floordiv (c : Nat) (s1 s2 : List Nat) (dtype : Types.Kind) : Option Assignment :=
  if !Types.isInt dtype || !Types.isUInt dtype then none else binary c s1 s2

/-! ### Sums -/

/-- The argument `axis`. -/
inductive Axis where
  | none
  | int (i : Int)
  | list (l : List Int)
  | tuple (l : List Int)

/-- The list made from `axis` by `_as_list`; a tuple becomes the element of a list, and comparing it with a number
raises a TypeError.  taco_tensor.py:2261-2265. -/
def asList : Axis → Option (List Int)
  | .none => some []
  | .int i => some [i]
  | .list l => some l
  | .tuple _ => none

/-- The loop of `_remove_elts_at_index`. -/
def blank {α : Type} (n : Nat) : List (Option α) → List Int → Option (List (Option α))
  | l, [] => some l
  | l, i :: is => if (n : Int) ≤ i ∨ i < 0 then none else blank n (setItem l i none) is

/-- `_remove_elts_at_index`: taco_tensor.py:2251-2258. -/
def removeAt {α : Type} (l : List α) (axes : List Int) : Option (List α) :=
  (blank l.length (l.map some) axes).map fun r => r.filterMap id

/-- `[] if axis is None else _remove_elts_at_index(...)`. -/
def kept {α : Type} (l : List α) : Axis → Option (List α)
  | .none => some []
  | axis => (asList axis).bind (removeAt l)

/-- `tensor_sum`: taco_tensor.py:2268-2325. -/
def sum (c : Nat) (s : List Nat) (axis : Axis) : Option Assignment :=
  let vars := fresh c s.length
  (kept s axis).bind fun shape => (kept vars axis).bind fun out => assign ⟨shape, out, [⟨s, vars⟩]⟩

/-! ### Products -/

/-- `_matrix_out_shape`: taco_tensor.py:2361-2375. -/
def matrixOutShape (s1 s2 : List Nat) : Option (List Nat) :=
  if s1.length < 2 ∨ s2.length < 2 then none
  else if item s1 (-1) ≠ item s2 (-2) then none
  else if !isBroadcastable (sliceTo s1 (-2)) (sliceTo s2 (-2)) then none
  else (item s1 (-2)).bind fun m => (item s2 (-1)).map fun n =>
    (if s2.length ≤ s1.length then sliceTo s1 (-2) else sliceTo s2 (-2)) ++ [m, n]

/-- `matmul`: taco_tensor.py:2378-2438. -/
def matmul (c : Nat) (s1 s2 : List Nat) : Option Assignment :=
  (matrixOutShape s1 s2).bind fun out =>
    let red := c
    let leading := fresh (c + 1) (max s1.length s2.length)
    let v1 := setItem (sliceFrom leading (-(s1.length : Int))) (-1) red
    let v2 := setItem (sliceFrom leading (-(s2.length : Int))) (-2) red
    assign ⟨out, leading, [⟨s1, v1⟩, ⟨s2, v2⟩]⟩

/-- `inner`: taco_tensor.py:2441-2509. -/
def inner (c : Nat) (s1 s2 : List Nat) : Option Assignment :=
  if s1.length = 0 ∨ s2.length = 0 then binary c s1 s2
  else if item s1 (-1) ≠ item s2 (-1) then none
  else
    let out := sliceTo s1 (-1) ++ sliceTo s2 (-1)
    let red := c
    let v1 := fresh (c + 1) (sliceTo s1 (-1)).length
    let v2 := fresh (c + 1 + (sliceTo s1 (-1)).length) (sliceTo s2 (-1)).length
    assign ⟨out, v1 ++ v2, [⟨s1, v1 ++ [red]⟩, ⟨s2, v2 ++ [red]⟩]⟩

/-- `_dot_output_shape`: taco_tensor.py:2512-2518. -/
def dotOutShape (s1 s2 : List Nat) : Option (List Nat) :=
  if item s1 (-1) ≠ item s2 (-2) then none
  else some (sliceTo s1 (-1) ++ sliceTo s2 (-2) ++ sliceFrom s2 (-1))

/-- `dot`: taco_tensor.py:2521-2594. -/
def dot (c : Nat) (s1 s2 : List Nat) : Option Assignment :=
  if s1.length = 0 ∨ s2.length ≤ 1 then inner c s1 s2
  else (dotOutShape s1 s2).bind fun out =>
    let v1 := fresh c (s1.length - 1)
    let v2 := fresh (c + (s1.length - 1)) (s2.length - 1)
    let red := c + (s1.length - 1) + (s2.length - 1)
    assign ⟨out, v1 ++ v2, [⟨s1, v1 ++ [red]⟩, ⟨s2, sliceTo v2 (-1) ++ [red] ++ sliceFrom v2 (-1)⟩]⟩

/-- `outer`: taco_tensor.py:2597-2655. -/
def outer (c : Nat) (s1 s2 : List Nat) : Option Assignment :=
  if s1.length = 0 ∨ s2.length = 0 then binary c s1 s2
  else if s1.length ≠ 1 then none
  else if s2.length ≠ 1 then none
  else assign ⟨s1 ++ s2, [c, c + 1], [⟨s1, [c]⟩, ⟨s2, [c + 1]⟩]⟩

/-- The argument `axes`. -/
inductive Axes where
  | count (n : Int)
  | pair (a b : List Int)

/-- `axes_t1` and `axes_t2`: taco_tensor.py:2751-2771. -/
def axesOf : Axes → List Int × List Int
  | .count n => ((List.range n.toNat).map fun k : Nat => (k : Int) - n, (List.range n.toNat).map fun k : Nat => (k : Int))
  | .pair a b => (a, b)

/-- A negative axis counts from the end. -/
def normalize (n : Nat) (i : Int) : Int := if i < 0 then i + n else i

/-- The loop that compares sizes and normalizes axes; `none` is an exception.
taco_tensor.py:2778-2792. -/
def matchAxes (s1 s2 : List Nat) : List Int → List Int → Option (List Int × List Int)
  | [], [] => some ([], [])
  | a :: as, b :: bs =>
    (item s1 a).bind fun x => (item s2 b).bind fun y =>
      if x ≠ y then none
      else (matchAxes s1 s2 as bs).map fun r => (normalize s1.length a :: r.1, normalize s2.length b :: r.2)
  | _, _ => none

/-- `[k for k in range(order) if k not in axes]`. -/
def notIn (n : Nat) (axes : List Int) : List Nat := (List.range n).filter fun k => decide ((k : Int) ∉ axes)

/-- `vars[axes[k]] = new[k]` for all `k`. -/
def fill (l : List (Option Var)) : List Int → List Var → List (Option Var)
  | i :: is, v :: vs => fill (setItem l i (some v)) is vs
  | _, _ => l

/-- The variables of one operand: those of the sum, then the other ones.  taco_tensor.py:2804-2814.  Every
position is set, so that no `None` is left. -/
def dotVars (n : Nat) (axes : List Int) (red static : List Var) : List Var :=
  (fill (fill (List.replicate n none) axes red) ((notIn n axes).map fun k : Nat => (k : Int)) static).map fun v => v.getD 0

/-- The sizes at the given axes. -/
def sizesAt (s : List Nat) (axes : List Nat) : List Nat := axes.map fun k => s[k]?.getD 0

/-- `tensordot`: taco_tensor.py:2658-2822. -/
def tensordot (c : Nat) (s1 s2 : List Nat) (axes : Axes) : Option Assignment :=
  (matchAxes s1 s2 (axesOf axes).1 (axesOf axes).2).bind fun p =>
    let notin1 := notIn s1.length p.1
    let notin2 := notIn s2.length p.2
    let static1 := fresh c notin1.length
    let static2 := fresh (c + notin1.length) notin2.length
    let red := fresh (c + notin1.length + notin2.length) p.1.length
    assign ⟨sizesAt s1 notin1 ++ sizesAt s2 notin2, static1 ++ static2,
      [⟨s1, dotVars s1.length p.1 red static1⟩, ⟨s2, dotVars s2.length p.2 red static2⟩]⟩

/-! ### Numbers -/

/-- The type of the tensor that `as_tensor` makes from a Python number: `tensor(obj)` with the default type.
taco_tensor.py:812-813, 130. -/
def numberType : Types.Kind := .float32

end Verif.Numpy
