/-!
# Who owns the memory of a tensor

Arrays (src/storage/array.cpp), storages (src/storage/storage.cpp, src/storage/index.cpp), the structures that are handed to
kernels (src/taco_tensor_t.cpp), and what packing, assembling and computing do to them (src/tensor.cpp).

Memory is a sequence of events. Addresses are numbers and are never used again, so that every access to freed memory shows.
The contents of arrays are left out, as is CUDA memory.
-/

namespace Verif.Memory

abbrev Ptr := Nat

/-- What memory is allocated for. -/
inductive What
  /-- the values of a tensor -/
  | values
  /-- the positions or coordinates of a level -/
  | index
  /-- an array of a `makeArray`: the size of a dense level, or an empty array -/
  | size
  /-- a `taco_tensor_t` -/
  | desc
  /-- the fill value of a `taco_tensor_t` -/
  | fill
  /-- memory of the user -/
  | user
  deriving DecidableEq

/-- What happens to memory. `wild` is an access through a pointer that was never set. -/
inductive Ev
  | malloc (p : Ptr) (w : What)
  | free (p : Ptr)
  | use (p : Ptr)
  | write (p : Ptr)
  | wild
  deriving DecidableEq

/-- The mode formats that storages support, storage.cpp:44-55. -/
inductive Kind | dense | sparse | singleton
  deriving DecidableEq

/-- `Array::Content`, array.cpp:15-19: the data (unset after `Array()`, array.cpp:86-87) and whether the policy is `Free`
(else `UserOwns`; no array of a storage has policy `Delete`). -/
structure Arr where
  ptr : Option Ptr
  owned : Bool

/-- `TensorStorage::Content`, storage.cpp:20-31: mode formats, index arrays of each level and values, as references to
array contents, and the `taco_tensor_t`. -/
structure Store where
  kinds : List Kind
  index : List (List Nat)
  values : Nat
  desc : Ptr

/-- `TensorBase::Content`, tensor.h:885-915: the storage, the state of lazy evaluation, `assembleWhileCompute`, the tensors
on the right-hand side of its assignment, and for a compiled module whether its compute kernel also assembles. -/
structure Tensor where
  store : Nat
  needsPack : Bool
  neverPacked : Bool
  needsAssemble : Bool
  needsCompute : Bool
  flag : Bool
  kernel : Option Bool
  srcs : List Nat

/-- All memory, and all objects by number. Reference counts are left out: an object exists as long as something refers to it.
`held` are the arrays the user holds copies of, `user` the memory the user is responsible for. -/
structure State where
  next : Ptr
  trace : List Ev
  arrays : Nat → Option Arr
  nextA : Nat
  stores : Nat → Option Store
  nextS : Nat
  tensors : Nat → Option Tensor
  nextT : Nat
  held : List Nat
  user : List Ptr

def init : State := ⟨0, [], fun _ => none, 0, fun _ => none, 0, fun _ => none, 0, [], []⟩

def upd {α : Type} (f : Nat → α) (i : Nat) (x : α) : Nat → α := fun j => if j = i then x else f j

/-! ### Primitive steps -/

def emit (e : Ev) (s : State) : State := { s with trace := s.trace ++ [e] }

/-- `malloc` (`alloc_mem`, taco_tensor_t.cpp:10-17). -/
def alloc (w : What) (s : State) : State × Ptr := ({ s with next := s.next + 1, trace := s.trace ++ [.malloc s.next w] }, s.next)

/-- `Array(type, data, size, policy)`, array.cpp:89-94. -/
def addArr (x : Arr) (s : State) : State × Nat := ({ s with arrays := upd s.arrays s.nextA (some x), nextA := s.nextA + 1 }, s.nextA)

/-- `makeArray(type, n)`, array.cpp:212-219. -/
def makeArray (s : State) : State × Nat := addArr ⟨some (alloc .size s).2, true⟩ (alloc .size s).1

/-- Reading through a pointer. -/
def access (p : Option Ptr) (s : State) : State := emit (match p with | some p => .use p | none => .wild) s

/-- The kernel stores values through a pointer. -/
def modify (p : Option Ptr) (s : State) : State := emit (match p with | some p => .write p | none => .wild) s

def setStore (i : Nat) (x : Option Store) (s : State) : State := { s with stores := upd s.stores i x }

def setTensor (t : Nat) (x : Option Tensor) (s : State) : State := { s with tensors := upd s.tensors t x }

/-! ### Reclaiming what nothing refers to -/

/-- Some tensor refers to the storage. -/
def storeUsed (s : State) (i : Nat) : Bool := (List.range s.nextT).any fun t => match s.tensors t with | some x => x.store == i | none => false

/-- The user or a storage that is in use refers to the array. -/
def arrayUsed (s : State) (a : Nat) : Bool :=
  s.held.contains a || (List.range s.nextS).any fun i => storeUsed s i && match s.stores i with
    | some st => st.values == a || st.index.any fun ids => ids.contains a
    | none => false

/-- `~Array::Content`, array.cpp:21-36. -/
def dropArr (s : State) (a : Nat) : List Ev := if arrayUsed s a then [] else match s.arrays a with
  | some ⟨some p, true⟩ => [.free p]
  | _ => []

/-- `~TensorStorage::Content` with `deinit_taco_tensor_t`, storage.cpp:66-68, taco_tensor_t.cpp:68-78. The structure is one
piece of memory here; the fill value is not freed there. -/
def dropStore (s : State) (i : Nat) : List Ev := if storeUsed s i then [] else match s.stores i with
  | some st => [.free st.desc]
  | none => []

/-- The destructors that run when the last references go, here at the end of every call. -/
def reclaim (s : State) : State :=
  { s with
    trace := s.trace ++ ((List.range s.nextA).flatMap (dropArr s) ++ (List.range s.nextS).flatMap (dropStore s))
    arrays := fun a => if arrayUsed s a then s.arrays a else none
    stores := fun i => if storeUsed s i then s.stores i else none }

/-! ### Handing storages to kernels -/

/-- `getIndexArray(k).getData()`. -/
def ptrAt (arrays : Nat → Option Arr) (ids : List Nat) (k : Nat) : Option Ptr := (ids[k]?).bind fun a => (arrays a).bind Arr.ptr

/-- The pointers of a level in the `taco_tensor_t`, storage.cpp:131-166. Where the storage has no arrays yet they are unset
(in the code: what an earlier call left there). -/
def slots (arrays : Nat → Option Arr) : Kind → List Nat → List (Option Ptr)
  | .dense, ids => [ptrAt arrays ids 0]
  | .sparse, ids => [ptrAt arrays ids 0, ptrAt arrays ids 1]
  | .singleton, ids => [none, ptrAt arrays ids 1]

/-- The pointers of a `taco_tensor_t`. -/
structure Args where
  levels : List (Kind × List (Option Ptr))
  vals : Option Ptr
  desc : Ptr

/-- `TensorStorage::operator taco_tensor_t*`, storage.cpp:122-172. -/
def args (s : State) (st : Store) : Args :=
  ⟨(st.kinds.zip st.index).map fun x => (x.1, slots s.arrays x.1 x.2), (s.arrays st.values).bind Arr.ptr, st.desc⟩

def slot (sl : List (Option Ptr)) (k : Nat) : Option Ptr := (sl[k]?).bind id

/-- A kernel reads the arrays of a level (codegen.cpp:266-273; dense levels use the dimension instead of an array). -/
def readLevel (s : State) (l : Kind × List (Option Ptr)) : State := match l.1 with
  | .dense => s
  | .sparse => access (slot l.2 1) (access (slot l.2 0) s)
  | .singleton => access (slot l.2 1) s

/-- A kernel reads the structure, the arrays of the levels and the values of an operand. -/
def readArgs (s : State) (a : Args) : State := access a.vals (a.levels.foldl readLevel (access (some a.desc) s))

/-- A kernel that assembles allocates positions and coordinates of compressed levels and coordinates of singleton levels
(`getAppendInitLevel`, mode_format_compressed.cpp:168-190, mode_format_singleton.cpp:77-93; reallocation of arrays that the
kernel allocated itself is left out). -/
def freshLevel (l : Kind × List (Option Ptr)) (s : State) : State × (Kind × List (Option Ptr)) := match l.1 with
  | .dense => (s, l)
  | .sparse =>
    let a := alloc .index s
    let b := alloc .index a.1
    (b.1, (.sparse, [some a.2, some b.2]))
  | .singleton =>
    let a := alloc .index s
    (a.1, (.singleton, [slot l.2 0, some a.2]))

def freshLevels : List (Kind × List (Option Ptr)) → State → State × List (Kind × List (Option Ptr))
  | [], s => (s, [])
  | l :: ls, s =>
    let a := freshLevel l s
    let b := freshLevels ls a.1
    (b.1, a.2 :: b.2)

/-- A kernel that assembles also allocates the values (lowerer_impl_imperative.cpp:399-408, 3095-3107, 3188-3195) and stores
all pointers in the structure (`packTensorProperty`, codegen.cpp:275-309). -/
def freshArgs (a : Args) (s : State) : State × Args :=
  let l := freshLevels a.levels (access (some a.desc) s)
  let v := alloc .values l.1
  (v.1, ⟨l.2, some v.2, a.desc⟩)

/-- One level of `unpackTensorData`, tensor.cpp:270-288. -/
def unpackLevel (l : Kind × List (Option Ptr)) (s : State) : State × List Nat := match l.1 with
  | .dense =>
    let a := makeArray (access (slot l.2 0) s)
    (a.1, [a.2])
  | .sparse =>
    let a := addArr ⟨slot l.2 0, false⟩ (access (slot l.2 0) s)
    let b := addArr ⟨slot l.2 1, false⟩ a.1
    (b.1, [a.2, b.2])
  | .singleton =>
    let a := makeArray s
    let b := addArr ⟨slot l.2 1, false⟩ a.1
    (b.1, [a.2, b.2])

def unpackLevels : List (Kind × List (Option Ptr)) → State → State × List (List Nat)
  | [], s => (s, [])
  | l :: ls, s =>
    let a := unpackLevel l s
    let b := unpackLevels ls a.1
    (b.1, a.2 :: b.2)

/-- `unpackTensorData`, tensor.cpp:263-291: new arrays around the pointers in the structure; the index arrays are not freed by
them (`UserOwns`), the values are. -/
def unpack (i : Nat) (a : Args) (s : State) : State :=
  let l := unpackLevels a.levels s
  let v := addArr ⟨a.vals, true⟩ l.1
  match v.1.stores i with
  | some st => setStore i (some { st with index := l.2, values := v.2 }) v.1
  | none => v.1

/-! ### The API -/

/-- A new storage, storage.cpp:33-64 with `init_taco_tensor_t`, taco_tensor_t.cpp:32-66: no index arrays and unset values. -/
def newStore (kinds : List Kind) (index : List (List Nat)) (values : Nat) (s : State) : State × Nat :=
  let d := alloc .desc s
  let f := alloc .fill d.1
  ({ setStore f.1.nextS (some ⟨kinds, index, values, d.2⟩) f.1 with nextS := f.1.nextS + 1 }, f.1.nextS)

/-- The index arrays of a new tensor, tensor.cpp:127-137: sizes of the dense levels. -/
def newIndex : List Kind → State → State × List (List Nat)
  | [], s => (s, [])
  | .dense :: ks, s =>
    let a := makeArray s
    let b := newIndex ks a.1
    (b.1, [a.2] :: b.2)
  | _ :: ks, s =>
    let b := newIndex ks s
    (b.1, [] :: b.2)

def newTensor (x : Tensor) (s : State) : State := { setTensor s.nextT (some x) s with nextT := s.nextT + 1 }

/-- `TensorBase(name, type, dimensions, format, fill)`, tensor.cpp:111-155. -/
def construct (kinds : List Kind) (s : State) : State :=
  let ix := newIndex kinds s
  let v := addArr ⟨none, false⟩ ix.1
  let st := newStore kinds ix.2 v.2 v.1
  newTensor ⟨st.2, true, true, false, false, false, none, []⟩ st.1

/-- `makeCSR` with pointers, tensor.h:771-784, index.cpp:104-108: the index arrays remain the user's, the values are given
away if the policy is `Free`. -/
def makeCSR (rowptr colidx vals : Ptr) (owned : Bool) (s : State) : State :=
  let d := makeArray (access (some rowptr) s)
  let r := addArr ⟨some rowptr, false⟩ d.1
  let c := addArr ⟨some colidx, false⟩ r.1
  let v := addArr ⟨some vals, owned⟩ c.1
  let u : State := { v.1 with user := if owned then v.1.user.filter (· != vals) else v.1.user }
  let st := newStore [.dense, .sparse] [[d.2], [r.2, c.2]] v.2 u
  newTensor ⟨st.2, false, true, false, false, false, none, []⟩ st.1

/-- `pack`, tensor.cpp:294-462: reads the packed components again unless nothing was packed before, makes a structure for the
buffer (whose fill value is not freed), and runs a kernel that assembles the result. (The
values of the buffer, which are allocated and freed here too, are left out.) -/
def packTensor (t : Nat) (s : State) : State := match s.tensors t with
  | none => s
  | some x => if !x.needsPack then s else match s.stores x.store with
    | none => s
    | some st =>
      let s := setTensor t (some { x with needsPack := false, neverPacked := false }) s
      let s := if x.neverPacked then s else readArgs s (args s st)
      let d := alloc .desc s
      let f := alloc .fill d.1
      let k := freshArgs (args f.1 st) (access (some d.2) f.1)
      emit (.free d.2) (unpack x.store k.2 (modify k.2.vals k.1))

/-- `syncValues` for tensors that wait to be packed, tensor.cpp:685-693. Operands that wait to be computed are computed by
earlier calls of the history. -/
def sync (s : State) (t : Nat) : State := packTensor t s

/-- The kernel reads the operands. -/
def readTensor (s : State) (t : Nat) : State := match s.tensors t with
  | some x => (match s.stores x.store with | some st => readArgs s (args s st) | none => s)
  | none => s

/-- `assemble`, tensor.cpp:808-827. -/
def assemble (t : Nat) (s : State) : State := match s.tensors t with
  | none => s
  | some x => if x.kernel.isNone || !x.needsAssemble then s else
    let s := x.srcs.foldl sync s
    match s.stores x.store with
    | none => s
    | some st =>
      let s := x.srcs.foldl readTensor s
      let k := freshArgs (args s st) s
      if x.flag then k.1 else unpack x.store k.2 (setTensor t (some { x with needsAssemble := false }) k.1)

/-- The kernel of `compute`: it stores values in arrays it has allocated, or in those of the result. -/
def computeKernel (assembles : Bool) (a : Args) (s : State) : State × Args :=
  if assembles then
    let k := freshArgs a s
    (modify k.2.vals k.1, k.2)
  else (modify a.vals (a.levels.foldl readLevel (access (some a.desc) s)), a)

/-- `compute` of a tensor that waits to be computed, tensor.cpp:835-849. -/
def computeWith (t : Nat) (x : Tensor) (assembles : Bool) (s : State) : State :=
  let s := x.srcs.foldl sync (setTensor t (some { x with needsCompute := false }) s)
  match s.stores x.store with
  | none => s
  | some st =>
    let s := x.srcs.foldl readTensor s
    let k := computeKernel assembles (args s st) s
    if x.flag then unpack x.store k.2 (setTensor t (some { x with needsCompute := false, needsAssemble := false }) k.1) else k.1

/-- `compute`, tensor.cpp:829-850. -/
def compute (t : Nat) (s : State) : State := match s.tensors t with
  | none => s
  | some x => match x.kernel with
    | none => s
    | some assembles => if !x.needsCompute then s else computeWith t x assembles s

/-- Calls of the API, and what users do with their own memory. -/
inductive Op
  /-- make a tensor -/
  | new (kinds : List Kind)
  /-- make a tensor from arrays of the user -/
  | csr (rowptr colidx vals : Ptr) (owned : Bool)
  /-- insert components: the tensor has to be packed again (tensor.h:940-960) -/
  | insert (t : Nat)
  /-- `pack` -/
  | pack (t : Nat)
  /-- assign an expression of the tensors to a tensor (tensor.cpp:860-903) -/
  | assign (t : Nat) (srcs : List Nat)
  /-- `setAssembleWhileCompute`, tensor.cpp:248-250 -/
  | setFlag (t : Nat) (b : Bool)
  /-- `compile`: the module has a compute kernel that assembles or not (tensor.cpp:644-675: as the caller says, or as the
  module from the cache was compiled) -/
  | compile (t : Nat) (assembles : Bool)
  | assemble (t : Nat)
  | compute (t : Nat)
  /-- `setStorage(other.getStorage())`, tensor.cpp:465-470 -/
  | share (t u : Nat)
  /-- the user copies an array of a tensor -/
  | hold (a : Nat)
  | release (a : Nat)
  /-- the last copy of a tensor goes -/
  | drop (t : Nat)
  | userMalloc
  | userFree (p : Ptr)

def change (t : Nat) (f : Tensor → Tensor) (s : State) : State := setTensor t ((s.tensors t).map f) s

def act : Op → State → State
  | .new kinds, s => construct kinds s
  | .csr r c v o, s => makeCSR r c v o s
  | .insert t, s => change t (fun x => { x with needsPack := true }) s
  | .pack t, s => packTensor t s
  | .assign t srcs, s => change t (fun x => { x with needsPack := false, needsAssemble := true, needsCompute := true, kernel := none, srcs := srcs }) s
  | .setFlag t b, s => change t (fun x => { x with flag := b }) s
  | .compile t a, s => change t (fun x => { x with kernel := some a }) s
  | .assemble t, s => assemble t s
  | .compute t, s => compute t s
  | .share t u, s => match s.tensors u with
    | some y => change t (fun x => { x with needsPack := false, store := y.store }) s
    | none => s
  | .hold a, s => if (s.arrays a).isSome then { s with held := a :: s.held } else s
  | .release a, s => { s with held := s.held.erase a }
  | .drop t, s => setTensor t none s
  | .userMalloc, s => let a := alloc .user s; { a.1 with user := a.2 :: a.1.user }
  | .userFree p, s => { emit (.free p) s with user := s.user.filter (· != p) }

/-- A call, and the destructors it causes. -/
def step (o : Op) (s : State) : State := reclaim (act o s)

/-- A history. -/
def run (ops : List Op) (s : State) : State := ops.foldl (fun s o => step o s) s

end Verif.Memory
