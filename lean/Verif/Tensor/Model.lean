import Verif.Pack.Model
/-!
Operations on whole tensors that iterate over their components: `at`, `equals`, `transpose` and
`removeExplicitFillValues` (include/taco/tensor.h, src/tensor.cpp).

A tensor is what packing leaves (`Verif.Pack`); its components are delivered in storage order
(`Pack.iterate`).  Simplifications: lazy evaluation is left out (`Verif/Lazy`), and the fill value is
a value of the component type.
-/
namespace Verif.Tensor
open Verif.Pack
open Verif.Merge (Lvl)

variable {V : Type}

/-- A packed tensor: dimensions, level formats, mode ordering, fill value and storage
(`TensorBase::Content`, tensor.h 888-925). -/
structure Tensor (V : Type) where
  dims : List Nat
  kinds : List Kind
  perm : List Nat
  fill : V
  st : List Lvl × List V

/-- The constructor (tensor.cpp 112-151), one `insert` per component and `pack()`; `none` when the
number of modes of the format is not the order (tensor.cpp 120-122). `qs` is `qsort`. -/
def make (qs : List (Row V) → List (Row V)) (fill : V) (dims : List Nat) (kinds : List Kind) (perm : List Nat)
    (comps : List (Row V)) : Option (Tensor V) :=
  if kinds.length = dims.length then some ⟨dims, kinds, perm, fill, tensorPack qs fill dims kinds perm comps⟩
  else none

/-- The components in the order of iteration (`iterate<T>(tensor)`). -/
def Tensor.components (t : Tensor V) : Option (List (Row V)) := iterate t.perm t.st

/-- `TensorBase::at`, tensor.h 1032-1047: the value of the first component with the coordinate, and `0`
if there is none. -/
def Tensor.read (zero : V) (t : Tensor V) (c : List Nat) : Option V :=
  if c.length = t.dims.length then
    t.components.map (fun out => match out.find? (fun r => r.1 == c) with | some r => r.2 | none => zero)
  else none

/-- The loops of `equalsTyped`, tensor.cpp 1056-1103; `isZero` and `feq` are `isZero` and
`scalarEquals`. -/
def equalsLoop (isZero : V → Bool) (feq : V → V → Bool) : Nat → List (Row V) → List (Row V) → Bool
  | 0, _, _ => false
  | _ + 1, [], bs => bs.all (fun b => isZero b.2)
  | _ + 1, as, [] => as.all (fun a => isZero a.2)
  | n + 1, a :: as, b :: bs =>
    if a.1 ≠ b.1 then
      if isZero a.2 then equalsLoop isZero feq n as (b :: bs)
      else if isZero b.2 then equalsLoop isZero feq n (a :: as) bs
      else false
    else if !feq a.2 b.2 then false
    else equalsLoop isZero feq n as bs

/-- `equals`, tensor.cpp 1105-1149, for tensors with the same component type: fill values, order,
dimensions, values. `fillEq` is the comparison of literals. -/
def equals (isZero : V → Bool) (feq fillEq : V → V → Bool) (a b : Tensor V) : Option Bool :=
  if !fillEq a.fill b.fill then some false
  else if a.dims ≠ b.dims then some false
  else
    match a.components, b.components with
    | some as, some bs => some (equalsLoop isZero feq (as.length + bs.length + 1) as bs)
    | _, _ => none

/-- `Tensor::transpose`, tensor.h 1235-1253: the result has the default fill value. `none`: a mode
outside the order (undefined behaviour) or a format of the wrong order. -/
def Tensor.transpose (qs : List (Row V) → List (Row V)) (zero : V) (t : Tensor V) (modes : List Nat)
    (kinds : List Kind) (perm : List Nat) : Option (Tensor V) :=
  if modes.all (fun m => decide (m < t.dims.length)) then
    match t.components with
    | none => none
    | some out => make qs zero (permute modes t.dims) kinds perm (out.map (fun r => (permute modes r.1, r.2)))
  else none

/-- `Tensor::removeExplicitFillValues`, tensor.h 1260-1270: the components that are not `value`, in a
new tensor with the default fill value. -/
def Tensor.removeExplicit [DecidableEq V] (qs : List (Row V) → List (Row V)) (zero : V) (t : Tensor V)
    (kinds : List Kind) (perm : List Nat) (value : V) : Option (Tensor V) :=
  match t.components with
  | none => none
  | some out => make qs zero t.dims kinds perm (out.filter (fun r => decide (r.2 ≠ value)))

/-- Numbers of a floating-point type, as far as needed to tell comparisons apart: not a number,
infinities and integers (other finite numbers behave like fractions of integers). -/
inductive Num | nan | inf (neg : Bool) | num (v : Int)
  deriving DecidableEq, Repr

/-- `isZero`, tensor.cpp 1022-1028. -/
def Num.isZero : Num → Bool
  | .num v => v == 0
  | _ => false

/-- `scalarEquals`, tensor.cpp 1038-1045: `|(a-b)/a| > 10e-6` tells `a` and `b` apart, in double
precision; here the division is exact.  A comparison with a quotient that is not a number is false, so
such `a` and `b` are equal: `a` or `b` not a number, `0/0`, and `a` infinite (`(inf-b)/inf`). With `a`
finite and `b` infinite the quotient is infinite, as is `-b/0`. -/
def Num.scalarEquals : Num → Num → Bool
  | .nan, _ => true
  | _, .nan => true
  | .inf _, _ => true
  | .num _, .inf _ => false
  | .num a, .num b =>
    if a = 0 then b == 0
    else decide ((a - b).natAbs * 100000 ≤ a.natAbs)

end Verif.Tensor
