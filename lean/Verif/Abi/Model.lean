import Verif.Names.Model
import Verif.Typed.Model
/-!
C79: how a tensor is handed to a kernel and how its result is taken back.

- `TensorStorage::Content` and `operator taco_tensor_t*` (src/storage/storage.cpp 19-66 and 127-178) fill a struct,
- the first lines of the generated C function read its fields into variables (`FindVars`, `printDecls`,
  `unpackTensorProperty`, `printFuncName`: src/codegen/codegen_c.cpp 165-262 and 283-330, src/codegen/codegen.cpp
  232-272, 317-384 and 519-589), the last lines write them back (`packTensorProperty`, `printPack`, 274-306 and
  387-430),
- `unpackTensorData` (src/tensor.cpp 263-293) and `unpackResults` (src/index_notation/kernel.cpp 50-83) make a storage
  of the struct.

Memory is a function from blocks to bytes; numbers in it are not negative. Functions whose arguments are unfolded
(`is_parameter`, which nothing sets) and coroutines are left out.
-/
namespace Verif.Abi

open Names (Name)
open Typed (Byte decodeNat)

abbrev Ptr := Nat

abbrev Heap := Ptr → List Byte

/-- Element `i` of an array of elements of `w` bytes. `none`: outside of the block. -/
def readAt (w : Nat) (h : Heap) (p : Ptr) (i : Nat) : Option Nat :=
  if ((h p).drop (w * i)).length < w then none else some (decodeNat (((h p).drop (w * i)).take w))

/-- `((int*)p)[i]`. -/
def readInt (h : Heap) (p : Ptr) (i : Nat) : Option Nat := readAt 4 h p i

/-! ### The host, src/storage -/

inductive Kind | dense | sparse | singleton
  deriving DecidableEq

/-- `Array`: where it is, how many elements it has, and how many bytes each has. -/
structure HArr where
  ptr : Ptr
  size : Nat
  bytes : Nat
  deriving DecidableEq

/-- `TensorStorage::Content`, storage.cpp 20-31. -/
structure Storage where
  kinds : List Kind
  ordering : List Nat
  dims : List Nat
  index : List (List HArr)
  vals : HArr
  fill : Ptr
  deriving DecidableEq

/-- `taco_tensor_t`, include/taco/taco_tensor_t.h; `none` is a pointer that has not been set. The fields that no kernel
reads are left out. -/
structure Struct where
  dims : List Nat
  indices : List (List (Option Ptr))
  vals : Option Ptr
  fill : Option Ptr
  deriving DecidableEq

/-- How many index arrays the struct has room for, taco_tensor_t.cpp 61-68 with storage.cpp 48-57. -/
def slotCount : Kind → Nat
  | .dense => 1
  | .sparse => 2
  | .singleton => 2

/-- The constructor of `Content`, storage.cpp 33-61, and `init_taco_tensor_t`, taco_tensor_t.cpp 33-72. -/
def initStruct (s : Storage) : Struct :=
  ⟨s.dims, s.kinds.map fun k => List.replicate (slotCount k) none, none, none⟩

/-- One level in `operator taco_tensor_t*`, storage.cpp 135-171. `none`: an array that does not exist is read. -/
def packLevel (k : Kind) (arrs : List HArr) (slots : List (Option Ptr)) : Option (List (Option Ptr)) :=
  match k with
  | .dense => arrs[0]?.map fun a => slots.set 0 (some a.ptr)
  | .sparse => if arrs.isEmpty then some slots else
      arrs[0]?.bind fun a => arrs[1]?.map fun b => (slots.set 0 (some a.ptr)).set 1 (some b.ptr)
  | .singleton => if arrs.isEmpty then some slots else arrs[1]?.map fun b => slots.set 1 (some b.ptr)

def packLevels : List Kind → List (List HArr) → List (List (Option Ptr)) → Option (List (List (Option Ptr)))
  | [], _, _ => some []
  | k :: ks, a :: as, s :: ss => (packLevel k a s).bind fun x => (packLevels ks as ss).map fun xs => x :: xs
  | _ :: _, _, _ => none

/-- `operator taco_tensor_t*`, storage.cpp 127-178. -/
def pack (s : Storage) (t : Struct) : Option Struct :=
  (packLevels s.kinds s.index t.indices).map fun xs =>
    { t with indices := xs, vals := some s.vals.ptr, fill := some s.fill }

/-- One level in `unpackTensorData`, tensor.cpp 270-288, with the number of positions so far. The array that is made of
the size of a dense level is modelled by the array it is copied from. -/
def unpackLevel (h : Heap) (k : Kind) (slots : List (Option Ptr)) (n : Nat) : Option (List HArr × Nat) :=
  match k with
  | .dense => (slots[0]?.bind id).bind fun p => (readInt h p 0).map fun d => ([⟨p, 1, 4⟩], n * d)
  | .sparse => (slots[0]?.bind id).bind fun p => (readInt h p n).bind fun m => (slots[1]?.bind id).map fun q =>
      ([⟨p, n + 1, 4⟩, ⟨q, m, 4⟩], m)
  | .singleton => (slots[1]?.bind id).map fun q => ([⟨q, 0, 4⟩, ⟨q, n, 4⟩], n)

def unpackLevels (h : Heap) : List Kind → List (List (Option Ptr)) → Nat → Option (List (List HArr) × Nat)
  | [], _, n => some ([], n)
  | k :: ks, s :: ss, n => (unpackLevel h k s n).bind fun x => (unpackLevels h ks ss x.2).map fun y => (x.1 :: y.1, y.2)
  | _ :: _, [], _ => none

/-- `unpackTensorData`, tensor.cpp 263-293. `csize` is the number of bytes of a component. -/
def unpack (csize : Nat) (h : Heap) (t : Struct) (s : Storage) : Option (Storage × Nat) :=
  (unpackLevels h s.kinds t.indices 1).bind fun x => t.vals.map fun v =>
    ({ s with index := x.1, vals := ⟨v, x.2, csize⟩ }, x.2)

/-- `unpackResults` of the kernel API, kernel.cpp 50-83: singleton levels are not supported. -/
def unpackKernel (csize : Nat) (h : Heap) (t : Struct) (s : Storage) : Option (Storage × Nat) :=
  if Kind.singleton ∈ s.kinds then none else unpack csize h t s

/-! ### The generated function, src/codegen -/

/-- `TensorProperty`, include/taco/ir/ir.h 74-84, of which these are used. -/
inductive Field | dimension | indices | values | fillValue
  deriving DecidableEq

/-- The order of the enumeration. -/
def Field.rank : Field → Nat
  | .dimension => 1
  | .indices => 5
  | .values => 6
  | .fillValue => 7

/-- `GetProperty`: a field of a tensor. -/
structure PropKey where
  tensor : Nat
  field : Field
  mode : Nat
  index : Nat
  deriving DecidableEq

/-- `GetProperty::make`, src/ir/ir.cpp 829-899, with the names of mode_format_compressed.cpp 273-280 and
mode_format_singleton.cpp 155-162. `tn` are the names of the tensors. -/
def propName (tn : Nat → Name) (k : PropKey) : Name :=
  match k.field with
  | .dimension => tn k.tensor ++ dec (k.mode + 1) ++ "_dimension".toList
  | .indices => tn k.tensor ++ dec (k.mode + 1) ++ (if k.index = 0 then "_pos".toList else "_crd".toList)
  | .values => tn k.tensor ++ "_vals".toList
  | .fillValue => tn k.tensor ++ "_fill_value".toList

/-- `getArrays` of the mode formats: mode_format_dense.cpp 92-95, mode_format_compressed.cpp 273-280,
mode_format_singleton.cpp 155-162; levels are counted from one, `mode` is the entry of the mode ordering
(src/lower/iterator.cpp 586-592). -/
def levelProps (t : Nat) (k : Kind) (mode level : Nat) : List (Option PropKey) :=
  match k with
  | .dense => [some ⟨t, .dimension, mode, 0⟩]
  | .sparse => [some ⟨t, .indices, level - 1, 0⟩, some ⟨t, .indices, level - 1, 1⟩]
  | .singleton => [none, some ⟨t, .indices, level - 1, 1⟩]

/-- What the body of a function mentions: a field of a tensor, or a variable with a name, which can be a pointer. -/
inductive Use
  | prop (k : PropKey)
  | var (id : Nat) (name : Name) (isPtr : Bool)
  deriving DecidableEq

/-- What is named. -/
inductive Key
  | prop (k : PropKey)
  | var (id : Nat)
  deriving DecidableEq

/-- `FindVars`: `map` is `varMap` without the parameters. -/
structure Found where
  counters : Names.Counters
  map : List (Key × Name)

def Found.name (f : Found) (k : Key) : Option Name := (f.map.find? fun e => e.1 = k).map (·.2)

/-- A new entry with a generated name. -/
def Found.fresh (f : Found) (k : Key) (n : Name) : Found :=
  ⟨(Names.getUniqueName f.counters n).2, f.map ++ [(k, (Names.getUniqueName f.counters n).1)]⟩

/-- `FindVars::visit`, codegen_c.cpp 212-261. -/
def visit (tn : Nat → Name) (params : List Nat) (f : Found) : Use → Found
  | .prop k => if k.tensor ∉ params then f else if (f.name (.prop k)).isSome then f else f.fresh (.prop k) (propName tn k)
  | .var id n isPtr => if (f.name (.var id)).isSome then f
      else if isPtr then { f with map := f.map ++ [(.var id, n)] } else f.fresh (.var id) n

/-- All uses, in the order in which the body is visited. -/
def findVars (keywords : List Name) (tn : Nat → Name) (params : List Nat) (uses : List Use) : Found :=
  uses.foldl (visit tn params) ⟨Names.init keywords, []⟩

/-- `varDecls`. -/
def varDecls (f : Found) : List (PropKey × Name) :=
  f.map.filterMap fun e => match e.1 with | .prop k => some (k, e.2) | .var _ => none

/-- The position of a tensor among outputs and inputs, codegen.cpp 335-343. -/
def place (outputs inputs : List Nat) (t : Nat) : Nat :=
  if t ∈ outputs then outputs.idxOf t else outputs.length + inputs.idxOf t

/-- The comparison of `printDecls` and `printPack`, codegen.cpp 331-360 and 396-417. -/
def before (outputs inputs : List Nat) (a b : PropKey) : Bool :=
  if place outputs inputs a.tensor ≠ place outputs inputs b.tensor then
    decide (place outputs inputs a.tensor < place outputs inputs b.tensor)
  else if a.field ≠ b.field then decide (a.field.rank < b.field.rank)
  else if a.mode ≠ b.mode then decide (a.mode < b.mode)
  else decide (a.index < b.index)

/-- `sort`: an insertion sort. -/
def insertProp (lt : PropKey → PropKey → Bool) (x : PropKey × Name) : List (PropKey × Name) → List (PropKey × Name)
  | [] => [x]
  | y :: ys => if lt x.1 y.1 then x :: y :: ys else y :: insertProp lt x ys

def sortProps (lt : PropKey → PropKey → Bool) : List (PropKey × Name) → List (PropKey × Name)
  | [] => []
  | x :: xs => insertProp lt x (sortProps lt xs)

/-- What a C expression on a struct names: `tensor->dimensions[mode]` and so on. -/
structure CField where
  tensor : Name
  field : Field
  mode : Nat
  index : Nat
  deriving DecidableEq

/-- `unpackTensorProperty`, codegen.cpp 232-272: a declaration of a variable, initialised with a field. -/
def declOf (tn : Nat → Name) (e : PropKey × Name) : Name × CField :=
  (e.2, ⟨tn e.1.tensor, e.1.field, e.1.mode, e.1.index⟩)

/-- `printDecls`, codegen.cpp 317-384. -/
def prologue (tn : Nat → Name) (outputs inputs : List Nat) (f : Found) : List (Name × CField) :=
  (sortProps (before outputs inputs) (varDecls f)).map (declOf tn)

/-- `packTensorProperty`, codegen.cpp 274-306: `none` if nothing is written. -/
def writeOf (tn : Nat → Name) (e : PropKey × Name) : Option (CField × Name) :=
  match e.1.field with
  | .dimension => none
  | .fillValue => none
  | _ => some (⟨tn e.1.tensor, e.1.field, e.1.mode, e.1.index⟩, e.2)

/-- `printPack`, codegen.cpp 387-430, for a function that allocates memory (codegen_c.cpp 334-336). -/
def epilogue (tn : Nat → Name) (outputs : List Nat) (f : Found) : List (CField × Name) :=
  (sortProps (before outputs []) ((varDecls f).filter fun e => e.1.tensor ∈ outputs)).filterMap (writeOf tn)

/-! ### C -/

/-- The values of variables: a pointer to the struct of an argument, a number or a pointer to an array, which
is `none` if it was copied from a pointer that has not been set. -/
inductive Val
  | struct (t : Nat)
  | int (n : Nat)
  | ptr (p : Option Ptr)
  deriving DecidableEq

/-- The variables of the outermost scope. -/
abbrev Env := Name → Option Val

def bindVar (e : Env) (n : Name) (v : Val) : Env := fun m => if m = n then some v else e m

/-- A declaration; `none`: the name is declared twice in the same scope, which the compiler rejects. -/
def declare (e : Env) (n : Name) (v : Val) : Option Env := if (e n).isSome then none else some (bindVar e n v)

/-- The parameters, `printFuncName` codegen.cpp 519-589. -/
def declareParams (tn : Nat → Name) : List Nat → Env → Option Env
  | [], e => some e
  | t :: ts, e => (declare e (tn t) (.struct t)).bind (declareParams tn ts)

/-- Reading a field of a struct. `none`: outside of the arrays of the struct. -/
def readField (s : Struct) (f : Field) (mode index : Nat) : Option Val :=
  match f with
  | .dimension => s.dims[mode]?.map Val.int
  | .indices => (s.indices[mode]?.bind fun sl => sl[index]?).map Val.ptr
  | .values => some (.ptr s.vals)
  | .fillValue => some (.ptr s.fill)

/-- The name of a tensor in an expression. -/
def structAt (e : Env) (n : Name) : Option Nat :=
  match e n with
  | some (.struct t) => some t
  | _ => none

def runDecl (structs : Nat → Struct) (e : Env) (d : Name × CField) : Option Env :=
  (structAt e d.2.tensor).bind fun t => (readField (structs t) d.2.field d.2.mode d.2.index).bind fun v => declare e d.1 v

def runDecls (structs : Nat → Struct) : List (Name × CField) → Env → Option Env
  | [], e => some e
  | d :: ds, e => (runDecl structs e d).bind (runDecls structs ds)

/-- Entering the function. -/
def enter (tn : Nat → Name) (outputs inputs : List Nat) (f : Found) (structs : Nat → Struct) : Option Env :=
  (declareParams tn (outputs ++ inputs) fun _ => none).bind (runDecls structs (prologue tn outputs inputs f))

/-- Writing a field of a struct. -/
def writeField (s : Struct) (f : Field) (mode index : Nat) (v : Val) : Option Struct :=
  match f, v with
  | .indices, .ptr p => s.indices[mode]?.bind fun sl =>
      if index < sl.length then some { s with indices := s.indices.set mode (sl.set index p) } else none
  | .values, .ptr p => some { s with vals := p }
  | _, _ => none

def setStruct (structs : Nat → Struct) (t : Nat) (s : Struct) : Nat → Struct := fun u => if u = t then s else structs u

def runWrite (e : Env) (structs : Nat → Struct) (w : CField × Name) : Option (Nat → Struct) :=
  (structAt e w.1.tensor).bind fun t => (e w.2).bind fun v =>
    (writeField (structs t) w.1.field w.1.mode w.1.index v).map (setStruct structs t)

/-- Leaving the function: the last lines are run in the variables that the body left behind. -/
def runWrites (e : Env) : List (CField × Name) → (Nat → Struct) → Option (Nat → Struct)
  | [], structs => some structs
  | w :: ws, structs => (runWrite e structs w).bind (runWrites e ws)

/-! ### A call, tensor.cpp 782-853 -/

/-- What a call of a kernel with one result needs: names, tensors (the result first), and what its body mentions. -/
structure Kernel where
  keywords : List Name
  tn : Nat → Name
  result : Nat
  inputs : List Nat
  uses : List Use
  allocates : Bool

def Kernel.found (k : Kernel) : Found := findVars k.keywords k.tn (k.result :: k.inputs) k.uses

/-- The last lines are only there if the function allocates memory, codegen_c.cpp 334-336. -/
def Kernel.writes (k : Kernel) : List (CField × Name) :=
  if k.allocates then epilogue k.tn [k.result] k.found else []

/-- The structs of all tensors, `packArguments` tensor.cpp 776-806. -/
def packAll (storages : Nat → Storage) (structs : Nat → Struct) : List Nat → Option (Nat → Struct)
  | [] => some structs
  | t :: ts => (pack (storages t) (structs t)).bind fun s => packAll storages (setStruct structs t s) ts

/-- A call: arguments are packed, the function is entered, the body runs, results are written and unpacked. The body is
any function of the variables and the memory. -/
def call (k : Kernel) (csize : Nat) (storages : Nat → Storage) (structs : Nat → Struct) (h : Heap)
    (body : Env → Heap → Env × Heap) : Option (Storage × Nat × Heap) :=
  (packAll storages structs (k.result :: k.inputs)).bind fun ss =>
    (enter k.tn [k.result] k.inputs k.found ss).bind fun e =>
      (runWrites (body e h).1 k.writes ss).bind fun ss' =>
        (unpack csize (body e h).2 (ss' k.result) (storages k.result)).map fun r => (r.1, r.2, (body e h).2)

end Verif.Abi
