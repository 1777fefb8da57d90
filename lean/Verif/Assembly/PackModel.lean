import Verif.Assembly.Model
/-!
Packing inserted components with the generated kernel: `TensorBase::insert` and
`reinsertPackedComponents` (include/taco/tensor.h 939-1013), `TensorBase::pack` (src/tensor.cpp 295-463),
the kernel `packed(vars) = buffer(vars)` (`getHelperFunctions`, tensor.cpp 955-990) and
`TensorBase::at` (tensor.h 1032-1047).

The buffer is a coordinate (COO) tensor whose levels may hold duplicates. Its loops are emitted by
`lowerMergePoint` with `reduceDuplicateCoordinates` (lowerer_impl_imperative.cpp 1625-1739, 3420-3476).
The result is assembled as in `Verif/Assembly/Model.lean`.
-/
namespace Verif.Assembly
open Verif.Merge (Lvl)
open Verif.Pack (Kind Row permute iterate)

variable {V : Type}

/-- The scan for the end of a segment of equal coordinates, lowerer 3471-3472 and 3456: at most `fuel`
steps from `p`. -/
def segend (crd : List Nat) (x b : Nat) : Nat → Nat → Nat
  | 0, p => p
  | fuel + 1, p => if p < b ∧ crd[p]? = some x then segend crd x b fuel (p + 1) else p

/-- The loop over a level of the buffer in the range `[p,b)`: take a coordinate, scan its duplicates,
run the body for their range, continue after them (lowerer 1625-1739). -/
def visitLoop {T : Type} (crd : List Nat) (body : Nat → Nat → Option T) (b : Nat) : Nat → Nat → Option (List (Nat × T))
  | 0, p => if p < b then none else some []
  | fuel + 1, p =>
    if p < b then
      (crd[p]?).bind fun x =>
        (body p (segend crd x b (b - p) (p + 1))).bind fun t =>
          (visitLoop crd body b fuel (segend crd x b (b - p) (p + 1))).map fun rest => (x, t) :: rest
    else some []

/-- The reduced value of the duplicates in `[p,b)`, lowerer 3434-3438 and 3457-3460. The emitted code
adds the values while it scans for the end of the segment. -/
def reduceVals (add : V → V → V) (vals : List V) (p b : Nat) : Option V :=
  ((List.range' (p + 1) (b - p - 1)).foldlM (fun acc q => (vals[q]?).map (add acc)) ·) =<< vals[p]?

/-- What the loops over the buffer visit in the range `[p,b)`. -/
def visit (add : V → V → V) (vals : List V) : (ls : List (Nat × Kind)) → List (List Nat) → Nat → Nat → Option (Tree V ls.length)
  | [], _, p, b => reduceVals add vals p b
  | _ :: _, [], _, _ => none
  | _ :: ls, crd :: crds, p, b => visitLoop crd (visit add vals ls crds) b (b - p) p

/-- `coordinates[d]`, tensor.cpp 427-439. -/
def columns (order : Nat) (rows : List (Row V)) : List (List Nat) :=
  (List.range order).map (fun d => rows.map (fun r => r.1.getD d 0))

/-- `TensorBase::pack` for tensors of order at least one: permute, sort, move into arrays and run the
kernel (tensor.cpp 396-459). `cap` is the default capacity of level arrays. The kernel is generated for a
tensor variable without fill value (tensor.cpp 964-965), which stands for `zero`; the fill value of the
tensor is not used. -/
def packKernel (qs : List (Row V) → List (Row V)) (cap : Nat) (zero : V) (add : V → V → V) (dims : List Nat)
    (kinds : List Kind) (perm : List Nat) (buffer : List (Row V)) : Option (List Lvl × List V) :=
  let rows := qs (buffer.map (fun r => (permute perm r.1, r.2)))
  let ls := (permute perm dims).zip kinds
  (visit add (rows.map Prod.snd) ls (columns dims.length rows) 0 rows.length).bind (run cap zero ls)

/-- Packing a scalar, tensor.cpp 368-393 and 996-1008: the values become a vector with coordinates zero,
and the kernel adds up what its loop delivers. -/
def packScalar (add : V → V → V) (zero : V) (vals : List V) : Option V :=
  (visit add vals [(1, .sparse)] [vals.map (fun _ => 0)] 0 vals.length).map fun t =>
    (entries t).foldl (fun a e => add a (valOf e.2)) zero

/-- A tensor that is filled by insertion: its packed storage and its coordinate buffer. -/
structure TensorSt (V : Type) where
  packed : Option (List Lvl × List V)
  needsPack : Bool
  buffer : List (Row V)

/-- A new tensor, tensor.cpp 142-150. -/
def TensorSt.new : TensorSt V := ⟨none, true, []⟩

inductive TensorOp (V : Type) where
  | insert (c : List Nat) (v : V)
  | pack

/-- The fixed parameters of a tensor and of its environment. -/
structure TensorEnv (V : Type) where
  qs : List (Row V) → List (Row V)
  cap : Nat
  zero : V
  add : V → V → V
  dims : List Nat
  kinds : List Kind
  perm : List Nat
  /-- The declared fill value. -/
  fill : V

/-- The buffer after `reinsertPackedComponents`, tensor.h 1002-1013. -/
def TensorSt.reinsert (perm : List Nat) (s : TensorSt V) : Option (List (Row V)) :=
  match s.packed with
  | none => some s.buffer
  | some st => (iterate perm st).map (fun old => s.buffer ++ old)

/-- `insert` (tensor.h 939-964) and `pack` (tensor.cpp 295-463): packed components are inserted again
after the new ones and everything is packed. -/
def TensorSt.step (E : TensorEnv V) (s : TensorSt V) : TensorOp V → Option (TensorSt V)
  | .insert c v => some { s with needsPack := true, buffer := s.buffer ++ [(c, v)] }
  | .pack =>
    if s.needsPack then
      (s.reinsert E.perm).bind fun buffer =>
      (packKernel E.qs E.cap E.zero E.add E.dims E.kinds E.perm buffer).map fun st => ⟨some st, false, []⟩
    else some s

def TensorSt.run (E : TensorEnv V) (s : TensorSt V) : List (TensorOp V) → Option (TensorSt V)
  | [] => some s
  | o :: os => (s.step E o).bind (fun s' => TensorSt.run E s' os)

/-- `TensorBase::at`, tensor.h 1032-1047: the first component at the coordinate, or zero. -/
def tensorAt (zero : V) (perm : List Nat) (st : List Lvl × List V) (c : List Nat) : Option V :=
  (iterate perm st).map (fun out =>
    match out.find? (fun r => r.1 == c) with
    | some r => r.2
    | none => zero)

/-! ### The coordinate buffer of a tensor, in bytes -/

/-- `coordinateBuffer->size()` and `coordinateBufferUsed`. -/
structure BufSt where
  size : Nat
  used : Nat

/-- `insertUnsynced`, tensor.h 973-983: `size_t` subtraction wraps around. `none`: the component is
written past the end of the vector. -/
def BufSt.insert (csize : Nat) (b : BufSt) : Option BufSt :=
  let avail := (b.size + 2 ^ 64 - b.used) % 2 ^ 64
  let size := if avail < csize then b.size + csize else b.size
  if b.used + csize ≤ size then some ⟨size, b.used + csize⟩ else none

/-- The end of `pack`: the buffer is cleared; the number of used bytes is reset, except for scalars
(tensor.cpp 391-392, 442-443). -/
def BufSt.afterPack (order : Nat) (b : BufSt) : BufSt :=
  if order = 0 then ⟨0, b.used⟩ else ⟨0, 0⟩

/-- `reserve`, tensor.cpp 173-177. -/
def BufSt.reserve (csize n : Nat) (b : BufSt) : BufSt := ⟨b.size + n * csize, b.used⟩

inductive BufOp where
  | insert
  | reserve (n : Nat)
  | pack

/-- A history of insertions, reservations and packs. Reinsertion of packed components is a sequence of
insertions before a pack. -/
def BufSt.run (order csize : Nat) (b : BufSt) : List BufOp → Option BufSt
  | [] => some b
  | .insert :: os => (b.insert csize).bind (fun b' => BufSt.run order csize b' os)
  | .reserve n :: os => BufSt.run order csize (b.reserve csize n) os
  | .pack :: os => BufSt.run order csize (b.afterPack order) os

end Verif.Assembly
