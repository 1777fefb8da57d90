import Verif.Provenance.Model

/-!
# Model of the integer arithmetic of generated kernels in 32 bits

Dimensions, positions, capacities and loop variables of generated kernels are `int` (`int32_t`).  The other
models compute with unbounded numbers; here the same formulas are evaluated with a check after every
operation, `none` being signed overflow, which is undefined behaviour.  All the values are non-negative, so
they are `Nat` and only the upper limit is checked.
-/

namespace Verif.Width

open Verif.Provenance (Step Rec)

/-- The result of an `int` operation: defined when it is below 2^31.  include/taco/type.h (`Int32`), declarations
of dimensions src/codegen/codegen.cpp:250-262. -/
def chk (n : Nat) : Option Nat := if n < 2147483648 then some n else none

/-- `a + b`. -/
def add (a b : Nat) : Option Nat := chk (a + b)

/-- `a * b`. -/
def mul (a b : Nat) : Option Nat := chk (a * b)

/-- `DenseModeFormat::locate` along dense levels: `p * width + i` at every level.
src/lower/mode_format_dense.cpp:50-55. -/
def locate : List Nat → Nat → List Nat → Option Nat
  | d :: ds, p, i :: is => (mul p d).bind fun m => (add m i).bind fun q => locate ds q is
  | _, p, _ => some p

/-- `DenseModeFormat::getAssembledSize` along dense levels: the number of components allocated and initialised.
src/lower/mode_format_dense.cpp:82-84, src/lower/lowerer_impl_imperative.cpp:3095-3140. -/
def size : List Nat → Nat → Option Nat
  | [], s => some s
  | d :: ds, s => (mul s d).bind (size ds)

/-- Appending `n` components from position `p` on to an array of capacity `cap`: before each store
`doubleSizeIfFull`, after it the position is incremented.  src/ir/ir_generators.cpp:32-37,
src/lower/mode_format_compressed.cpp:107-120. -/
def appends : Nat → Nat → Nat → Option Nat
  | 0, _, cap => some cap
  | n + 1, p, cap =>
    (if cap ≤ p then mul cap 2 else some cap).bind fun cap =>
      (add p 1).bind fun p => appends n p cap

/-- `DEFAULT_ALLOC_SIZE`: include/taco/lower/mode_format_impl.h:267. -/
def defaultAllocSize : Nat := 1048576

/-- `(bound + (factor - 1)) / factor`: src/index_notation/provenance_graph.cpp:217, 369, 389. -/
def ceilDiv (e s : Nat) : Option Nat := (add e (s - 1)).map (· / s)

/-- Extents of the loops after a step, as `Provenance.stepExtents` but in 32 bits.
src/index_notation/provenance_graph.cpp:213-224 (split), 358-370 (divide), 713-718 (fuse). -/
def stepExtents : Step → List Nat → Option (List Nat)
  | .split 0 s, e :: es => if s = 0 then none else (ceilDiv e s).map fun o => o :: s :: es
  | .divide 0 d, e :: es => if d = 0 then none else (ceilDiv e d).map fun i => d :: i :: es
  | .fuse 0, e :: e' :: es => (mul e e').map fun f => f :: es
  | .swap 0, e :: e' :: es => some (e' :: e :: es)
  | .split (k+1) s, e :: es => (stepExtents (.split k s) es).map (e :: ·)
  | .divide (k+1) d, e :: es => (stepExtents (.divide k d) es).map (e :: ·)
  | .fuse (k+1), e :: es => (stepExtents (.fuse k) es).map (e :: ·)
  | .swap (k+1), e :: es => (stepExtents (.swap k) es).map (e :: ·)
  | _, [] => none
  | .fuse 0, [_] => none
  | .swap 0, [_] => none

/-- `outer * factor + inner`: src/index_notation/provenance_graph.cpp:229-236, 391. -/
def mulAdd (o s i : Nat) : Option Nat := (mul o s).bind fun m => add m i

/-- An overflow is undefined behaviour of the iteration. -/
def orUb (o : Option Rec) : Rec := o.getD .ub

/-- Recovery of the loop variables before a step, as `Provenance.stepRecover` but in 32 bits.
src/index_notation/provenance_graph.cpp:229-236, 375-391, 670-693, guard of divided variables
src/lower/lowerer_impl_imperative.cpp:743-757. -/
def stepRecover : Step → List Nat → List Nat → Rec
  | .split 0 s, _ :: _, o :: i :: xs => orUb ((mulAdd o s i).map fun v => .ok (v :: xs))
  | .divide 0 d, e :: _, o :: i :: xs =>
    orUb ((ceilDiv e d).bind fun len => (mulAdd o len i).bind fun v => (add o 1).bind fun o1 =>
      (mul o1 len).map fun g => if v ≥ g then .skip else .ok (v :: xs))
  | .fuse 0, _ :: e' :: _, f :: xs =>
    match Provenance.fuseRecover (0, e') f with
    | none => .ub
    | some ij => .ok (ij.1 :: ij.2 :: xs)
  | .swap 0, _ :: _ :: _, a :: b :: xs => .ok (b :: a :: xs)
  | .split (k+1) s, _ :: es, x :: xs => (stepRecover (.split k s) es xs).cons x
  | .divide (k+1) d, _ :: es, x :: xs => (stepRecover (.divide k d) es xs).cons x
  | .fuse (k+1), _ :: es, x :: xs => (stepRecover (.fuse k) es xs).cons x
  | .swap (k+1), _ :: es, x :: xs => (stepRecover (.swap k) es xs).cons x
  | _, _, _ => .ub

/-- Extents of the final loop nest, as `Provenance.scheduleExtents`. -/
def scheduleExtents : List Step → List Nat → Option (List Nat)
  | [], e => some e
  | s :: ss, e => (stepExtents s e).bind (scheduleExtents ss)

/-- Recovered underived variables of an iteration, as `Provenance.scheduleRecover`. -/
def scheduleRecover : List Step → List Nat → List Nat → Rec
  | [], _, x => .ok x
  | s :: ss, e, x =>
    match stepExtents s e with
    | none => .ub
    | some e' => (scheduleRecover ss e' x).bind (stepRecover s e)

/-- The underived variables with which the body of the scheduled nest runs, as `Provenance.execution`. -/
def execution (ss : List Step) (n : List Nat) : Option (List (List Nat)) :=
  match scheduleExtents ss n with
  | none => none
  | some e =>
    if (Provenance.nest e).all (fun x => scheduleRecover ss n x != .ub) then
      some ((Provenance.nest e).filterMap fun x =>
        match scheduleRecover ss n x with
        | .ok u => if Provenance.inBox u n then some u else none
        | _ => none)
    else none

end Verif.Width
