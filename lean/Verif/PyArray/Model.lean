import Verif.PyArray.Spec

/-!
# Model of the conversions between NumPy, SciPy and tensors

python_bindings/src/pyTensor.cpp and python_bindings/pytaco/pytensor/taco_tensor.py.  Not modelled: types of
components and how pybind11 chooses among the functions for the types; GPU memory.
-/

namespace Verif.PyArray

variable {V : Type}

/-! ### Dense tensors -/

/-- A dense tensor: dimensions, mode ordering and values. -/
structure Dense (V : Type) where
  dims : List Nat
  ordering : List Nat
  values : List V

/-- Elements at the given positions. -/
def pick (l : List Nat) (ps : List Nat) : List Nat := ps.map fun p => l[p]?.getD 0

/-- Positions of dense levels: `pos = parentPos * dimension + coordinate`.
src/lower/mode_format_dense.cpp:50-55. -/
def position : Nat → List Nat → List Nat → Nat
  | pos, n :: dims, x :: c => position (pos * n + x) dims c
  | pos, _, _ => pos

/-- The component at a coordinate; levels follow the mode ordering. -/
def Dense.at (t : Dense V) (c : List Nat) : Option V :=
  t.values[position 0 (pick t.dims t.ordering) (pick c t.ordering)]?

/-- The coordinates in row-major order. -/
def walk : List Nat → List (List Nat)
  | [] => [[]]
  | n :: dims => (List.range n).flatMap fun x => (walk dims).map (x :: ·)

/-! ### from_array -/

/-- The values in row-major order: what pybind11 passes for an argument of type `array_t<T, c_style>`, a copy of the
array if it has another layout. -/
def cValues [Inhabited V] (a : NdArray V) : List V := (walk a.shape).map fun c => (a.at c).getD default

/-- The values in column-major order (`f_style`). -/
def fValues [Inhabited V] (a : NdArray V) : List V := (walk a.shape.reverse).map fun c => (a.at c.reverse).getD default

/-- `from_array`, taco_tensor.py:583-656, with `fromNumpyF`, `fromNumpyC` and `fromNpArr`, pyTensor.cpp:48-104.
`fcontiguous` is the array's flag. -/
def fromArray [Inhabited V] (fcontiguous : Bool) (a : NdArray V) : Dense V :=
  if fcontiguous then ⟨a.shape, (List.range a.shape.length).reverse, fValues a⟩
  else ⟨a.shape, List.range a.shape.length, cValues a⟩

/-! ### The buffer interface -/

/-- The product of the sizes. -/
def product : List Nat → Nat
  | [] => 1
  | n :: dims => n * product dims

/-- `row_major_strides` (in elements), pyTensor.cpp:356-364. -/
def rowMajor : List Nat → List Nat
  | [] => []
  | _ :: dims => product dims :: rowMajor dims

/-- The buffer exported for `np.array(t, copy=False)`, pyTensor.cpp:340-379: the strides are the row-major ones in
the order of the mode ordering. -/
def Dense.exported (t : Dense V) : NdArray V :=
  ⟨t.dims, t.values, 0, (pick (rowMajor t.dims) t.ordering).map fun s : Nat => (s : Int)⟩

/-- `to_dense`, taco_tensor.py:390-397: a row-major tensor with the same components. -/
def Dense.toDense [Inhabited V] (t : Dense V) : Dense V :=
  ⟨t.dims, List.range t.dims.length, (walk t.dims).map fun c => (t.at c).getD default⟩

/-- `to_array`, taco_tensor.py:659-714. -/
def Dense.toArray [Inhabited V] (t : Dense V) : NdArray V := t.toDense.exported

/-! ### Access by index -/

/-- The outcome of `t[i, j]`. -/
inductive Outcome (V : Type) where
  | raised
  | value (v : V)
deriving DecidableEq

/-- `checkBounds`, pyTensor.cpp:22-45: `true` if no exception is thrown. -/
def checkBounds (dims : List Nat) (indices : List Int) : Bool :=
  if dims.isEmpty && (indices.isEmpty || indices == [0]) then true
  else if dims.length ≠ indices.length then false
  else (dims.zip indices).all fun p => decide (p.2 < p.1)

/-- `TensorBase::at`, include/taco/tensor.h:1033-1047: the first stored component with these coordinates, or zero. -/
def lookup (zero : V) (stored : List (List Nat × V)) (indices : List Int) : V :=
  match stored.find? fun e => (e.1.map fun x : Nat => (x : Int)) == indices with
  | some e => e.2
  | none => zero

/-- `elementGetter`, pyTensor.cpp:228-234. -/
def getItem (zero : V) (dims : List Nat) (stored : List (List Nat × V)) (indices : List Int) : Outcome V :=
  if checkBounds dims indices then .value (lookup zero stored (if dims.isEmpty then [] else indices)) else .raised

/-! ### Insertion -/

/-- A tensor with its storage as a function, the buffer of insertions and two flags. -/
structure Tensor (V : Type) where
  stored : List Nat → V
  buffer : List (List Nat × V)
  needsPack : Bool
  neverPacked : Bool

/-- A new tensor, src/tensor.cpp:142-149. -/
def Tensor.new (zero : V) : Tensor V := ⟨fun _ => zero, [], true, true⟩

/-- `setStorage`, src/tensor.cpp:465-470: `neverPacked` stays as it is. -/
def Tensor.setStorage (t : Tensor V) (s : List Nat → V) : Tensor V := { t with stored := s, needsPack := false }

/-- `insert`, include/taco/tensor.h:960-984. -/
def Tensor.insert (t : Tensor V) (c : List Nat) (v : V) : Tensor V :=
  { t with buffer := t.buffer ++ [(c, v)], needsPack := true }

/-- Add the components of a list. -/
def addAll (add : V → V → V) (s : List Nat → V) : List (List Nat × V) → List Nat → V
  | [] => s
  | e :: es => addAll add (fun c => if c = e.1 then add (s c) e.2 else s c) es

/-- `pack`, src/tensor.cpp:295-463: packed components are kept unless the tensor was never packed. -/
def Tensor.pack (zero : V) (add : V → V → V) (t : Tensor V) : Tensor V :=
  if t.needsPack then
    ⟨addAll add (if t.neverPacked then fun _ => zero else t.stored) t.buffer, [], false, false⟩
  else t

/-- The value that a read delivers. -/
def Tensor.read (zero : V) (add : V → V → V) (t : Tensor V) (c : List Nat) : V := (t.pack zero add).stored c

/-- The tensor made from an array. -/
def ofArray (zero : V) (s : List Nat → V) : Tensor V := (Tensor.new zero).setStorage s

/-! ### A scalar -/

/-- A scalar tensor: stored value, inserted values, the number that was assigned last, and flags. -/
structure Scalar (V : Type) where
  stored : V
  buffer : List V
  assigned : Option V
  needsPack : Bool
  needsCompute : Bool
  neverPacked : Bool

def Scalar.new (zero : V) : Scalar V := ⟨zero, [], none, true, false, true⟩

/-- `insert` of the bindings for scalars, pyTensor.cpp:245-252: the number is assigned (src/tensor.cpp:860-881) and
also inserted. -/
def Scalar.insert (t : Scalar V) (v : V) : Scalar V :=
  { t with assigned := some v, needsCompute := true, needsPack := true, buffer := t.buffer ++ [v] }

/-- `syncValues`, src/tensor.cpp:685-693, and `pack`, 295-393. -/
def Scalar.sync (zero : V) (add : V → V → V) (t : Scalar V) : Scalar V :=
  if t.needsPack then
    { t with stored := (if t.neverPacked then t.buffer else t.buffer ++ [t.stored]).foldl add zero, buffer := [],
             needsPack := false, neverPacked := false }
  else if t.needsCompute then { t with stored := t.assigned.getD zero, needsCompute := false }
  else t

/-! ### Lifetimes -/

/-- Memory: blocks by number; `none` is freed memory. -/
abbrev Heap (V : Type) := Nat → Option (List V)

/-- Where a tensor's values are. -/
structure Values where
  block : Nat

/-- What `from_array(a, copy)` does with memory: pybind11 copies an array that has not the requested layout to a
temporary block that is freed when the call returns; `fromNpArr` copies the values or keeps a pointer to them
(pyTensor.cpp:58-76).  `next` is a new block. -/
def fromArrayMemory (copy contiguous : Bool) (b next : Nat) (h : Heap V) : Heap V × Values :=
  if copy then (fun k => if k = next then h b else h k, ⟨next⟩)
  else if contiguous then (h, ⟨b⟩)
  else (fun k => if k = next then none else h k, ⟨next⟩)

/-- What a Python program does with arrays: writing to one in place, or dropping the last reference to it. -/
inductive ArrayOp (V : Type) where
  | write (b : Nat) (vs : List V)
  | drop (b : Nat)

def ArrayOp.block : ArrayOp V → Nat
  | .write b _ => b
  | .drop b => b

def runOp (h : Heap V) : ArrayOp V → Heap V
  | .write b vs => fun k => if k = b then (h b).map fun _ => vs else h k
  | .drop b => fun k => if k = b then none else h k

def runOps (h : Heap V) (ops : List (ArrayOp V)) : Heap V := ops.foldl runOp h

/-- Element-wise functions take their operands by `as_tensor(t, False)` (taco_tensor.py:853) and return before
anything is computed; the result is computed when it is read (src/tensor.cpp:685-693). -/
def elementwise (contiguous : Bool) (b next : Nat) (h : Heap V) (later : List (ArrayOp V)) : Option (List V) :=
  let r := fromArrayMemory false contiguous b next h
  runOps r.1 later r.2.block

/-! ### SciPy matrices -/

/-- The stored components of the tensor made by `from_sp_csr`: the arrays are used as they are (pyTensor.cpp:106-149);
`n` is the number of rows. -/
def fromCsr (n : Nat) (m : SpMatrix V) : List (List Nat × V) :=
  (List.range n).flatMap fun i => (m.row i).map fun e => ([i, e.1], e.2)

end Verif.PyArray
