import Verif.FileIO.Model
/-!
Tensor files that other programs wrote: the readers of src/storage/file_io_tns.cpp, file_io_mtx.cpp and file_io_rb.cpp
on any text, with the machine widths of the numbers read, and with errors told from undefined behaviour. The pieces
without widths (`lines`, `fields`, `strtol`, `strtod`, `skipComments`, `mtxKind`, `readRB`) are those of `Verif.FileIO`.

Simplifications
* Component values are read by the parameter `N.read`.
* The tensor read is its dimensions and its components in the order of insertion; for `.rb` files also the flags that
  decide whether packing replaces the storage.
* Running out of memory (`reserve`) is left out.
* Files with `array` in their header are left to `Verif.FileIO.readDense`.
-/
namespace Verif.Foreign
open Verif.FileIO
variable {V : Type}

/-- What a call ends with: a value, an exception (`taco_uassert`, `taco_uerror`, an exception of the standard
library), or undefined behaviour. -/
inductive Outcome (α : Type) where
  | ok (a : α)
  | rejected
  | undefined
deriving DecidableEq

/-- Sequencing of calls. -/
def Outcome.bind {α β : Type} : Outcome α → (α → Outcome β) → Outcome β
  | .ok a, f => f a
  | .rejected, _ => .rejected
  | .undefined, _ => .undefined

/-- `INT_MAX`. -/
def intMax : Int := 2147483647

/-- `INT_MIN`. -/
def intMin : Int := -2147483648

/-- `(int)idx` of a `long`: the low 32 bits. -/
def int32 (x : Int) : Int := (x + 2147483648) % 4294967296 - 2147483648

/-- `strtol` gives `LONG_MIN` or `LONG_MAX` for numbers outside of a `long` (file_io_tns.cpp 58, file_io_mtx.cpp 120). -/
def strtolC (s : List Char) : Int × List Char :=
  (max (-9223372036854775808) (min 9223372036854775807 (strtol s).1), (strtol s).2)

/-- `strtoul`: a negative number is negated as an `unsigned long`; `ULONG_MAX` for numbers outside of it
(file_io_mtx.cpp 104). -/
def strtoulC (s : List Char) : Int × List Char :=
  let x := (strtol s).1
  (if x < -18446744073709551615 ∨ 18446744073709551615 < x then 18446744073709551615
   else if x < 0 then x + 18446744073709551616 else x, (strtol s).2)

/-! ### TNS -/

/-- The coordinates of a line, file_io_tns.cpp 57-62: the check against `INT_MAX`, the conversion to `int`, and
`(int)idx - 1`, which overflows for `INT_MIN`. The numbers returned are the `(int)idx`. -/
def coordsTns : Nat → List Char → Outcome (List Int × List Char)
  | 0, s => .ok ([], s)
  | n + 1, s =>
    if (strtolC s).1 > intMax then .rejected
    else if int32 (strtolC s).1 = intMin then .undefined
    else (coordsTns n (strtolC s).2).bind fun q => .ok (int32 (strtolC s).1 :: q.1, q.2)

/-- The loop over the lines, file_io_tns.cpp 55-67. -/
def linesTns (N : Num V) (order : Nat) : List (List Char) → List Int → Outcome (List Int × List (List Int × V))
  | [], dims => .ok (dims, [])
  | l :: ls, dims =>
    (coordsTns order l).bind fun r =>
      (linesTns N order ls (maxDims dims r.1)).bind fun q => .ok (q.1, (r.1.map (· - 1), strtod N r.2) :: q.2)

/-- The constructor of tensors rejects a format of another order, src/tensor.cpp 112-121; a `ModeFormat` (`none`) is
repeated for every mode (63-67). -/
def create {α : Type} (fmt : Option Nat) (order : Nat) (a : α) : Outcome α :=
  match fmt with
  | none => .ok a
  | some n => if n = order then .ok a else .rejected

/-- `dispatchReadTNS`, file_io_tns.cpp 39-86. A first line without a field asks for a vector of `SIZE_MAX` elements,
which throws `std::length_error`. -/
def readTns (N : Num V) (fmt : Option Nat) (text : List Char) : Outcome (List Int × List (List Int × V)) :=
  match lines text with
  | [] => .ok ([], [])
  | l :: ls =>
    match fields (· == ' ') l with
    | [] => .rejected
    | _ :: fs => (linesTns N fs.length (l :: ls) (List.replicate fs.length 0)).bind fun r => create fmt fs.length r

/-! ### MTX -/

/-- The dimensions and the number of entries, file_io_mtx.cpp 103-107. The first argument bounds the iterations: every
one consumes a character. -/
def dimsMtx : Nat → List Char → Outcome (List Int)
  | 0, _ => .ok []
  | f + 1, s =>
    if (strtoulC s).1 = 0 then .ok []
    else if (strtoulC s).1 > intMax then .rejected
    else (dimsMtx f (strtoulC s).2).bind fun ds => .ok ((strtoulC s).1 :: ds)

/-- The coordinates of a line, file_io_mtx.cpp 119-123. -/
def coordsMtx : Nat → List Char → Outcome (List Int × List Char)
  | 0, s => .ok ([], s)
  | n + 1, s =>
    if (strtolC s).1 > intMax then .rejected
    else (coordsMtx n (strtolC s).2).bind fun q => .ok (int32 (strtolC s).1 :: q.1, q.2)

/-- The loop over the lines, file_io_mtx.cpp 117-126: the arrays `coordinates` and `values`. -/
def linesMtx (N : Num V) (order : Nat) : List (List Char) → Outcome (List Int × List V)
  | [] => .ok ([], [])
  | l :: ls => (coordsMtx order l).bind fun r => (linesMtx N order ls).bind fun q => .ok (r.1 ++ q.1, strtod N r.2 :: q.2)

/-- Insertion of entry `i`, file_io_mtx.cpp 138-148: reading behind the arrays and the overflow of `- 1` are
undefined. -/
def insertMtx (order : Nat) (symm : Bool) (coords : List Int) (vals : List V) (i : Nat) : Outcome (List (List Int × V)) :=
  if (coords.drop (i * order)).length < order then .undefined
  else if intMin ∈ (coords.drop (i * order)).take order then .undefined
  else match vals[i]? with
    | none => .undefined
    | some v =>
      let coord := ((coords.drop (i * order)).take order).map (· - 1)
      .ok (if symm ∧ coord.head? ≠ coord.getLast? then [(coord, v), (coord.reverse, v)] else [(coord, v)])

/-- The loop over the entries, file_io_mtx.cpp 137-148; `n` entries from `i` on. -/
def insertsMtx (order : Nat) (symm : Bool) (coords : List Int) (vals : List V) : Nat → Nat → Outcome (List (List Int × V))
  | 0, _ => .ok []
  | n + 1, i => (insertMtx order symm coords vals i).bind fun a =>
      (insertsMtx order symm coords vals n (i + 1)).bind fun b => .ok (a ++ b)

/-- `dispatchReadSparse`, file_io_mtx.cpp 84-151, from the lines after the first. Without any dimension
`dimensions[dimensions.size()-1]` is undefined. -/
def readCoordinate (N : Num V) (fmt : Option Nat) (symm : Bool) (ls : List (List Char)) : Outcome (List Int × List (List Int × V)) :=
  let r := skipComments [] (ls.headD []) ls.tail
  (dimsMtx (r.1.length + 1) r.1).bind fun all =>
    match all.getLast? with
    | none => .undefined
    | some nnz =>
      if symm ∧ all.dropLast.length ≠ 2 then .rejected else
      (linesMtx N all.dropLast.length r.2).bind fun cv =>
        (create fmt all.dropLast.length ()).bind fun _ =>
          (insertsMtx all.dropLast.length symm cv.1 cv.2 nnz.toNat 0).bind fun cs => .ok (all.dropLast, cs)

/-- `dispatchReadMTX`, file_io_mtx.cpp 37-73, for files in coordinate format; `array` files are not described here
(`rejected` stands for them). -/
def readMtx (N : Num V) (fmt : Option Nat) (text : List Char) : Outcome (List Int × List (List Int × V)) :=
  match lines text with
  | [] => .ok ([], [])
  | l :: ls =>
    match mtxKind l with
    | some (true, symm) => readCoordinate N fmt symm ls
    | _ => .rejected

/-! ### Harwell-Boeing -/

/-- A tensor: what its storage lists, its buffer of insertions, and the flags `needsPack` and `neverPacked`
(include/taco/tensor.h 895-915). What packing makes of a list (sorting, adding up) is modelled in `Verif.Assembly`. -/
structure Tensor (V : Type) where
  storage : List (List Int × V)
  buffer : List (List Int × V)
  needsPack : Bool
  neverPacked : Bool

/-- A new tensor, src/tensor.cpp 138-150. -/
def newTensor : Tensor V := ⟨[], [], true, true⟩

/-- `TensorBase::pack`, src/tensor.cpp 294-460: the components of the buffer, and those packed before unless nothing
has been packed yet, replace the storage. -/
def Tensor.pack (t : Tensor V) : Tensor V :=
  if t.needsPack then ⟨(if t.neverPacked then [] else t.storage) ++ t.buffer, [], false, false⟩ else t

/-- The components that CSC arrays list: the columns from `j` on, given by the ends of their segments; `none`: an array
is read behind its end. -/
def cscColumns (rowind : List Int) (vals : List V) : Nat → List Int → Option (List (List Int × V))
  | j, a :: b :: ps =>
    (((List.range (b - a).toNat).mapM fun (k : Nat) =>
      rowind[a.toNat + k]?.bind fun i => vals[a.toNat + k]?.map fun v => ([i, (j : Int)], v))).bind fun cs =>
        (cscColumns rowind vals (j + 1) (b :: ps)).map fun ds => cs ++ ds
  | _, _ => some []

/-- `readRB`, file_io_rb.cpp 325-349: the storage of a new tensor is set; then it is packed if this is asked for. -/
def readRb (N : Num V) (pack : Bool) (text : List Char) : Option (Tensor V) :=
  (readRB N text).bind fun r => (cscColumns r.2.2.2.1 r.2.2.2.2 0 r.2.2.1).map fun cs =>
    let t : Tensor V := { (newTensor : Tensor V) with storage := cs }
    if pack then t.pack else t

end Verif.Foreign
