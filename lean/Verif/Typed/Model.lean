import Verif.Types.Model
/-!
Dynamically typed numbers and vectors of them: `TypedComponentVal`, `TypedIndexVal` and their references
(src/storage/typed_value.cpp, src/storage/typed_index.cpp, include/taco/type.h 163-201) and `TypedVector`
(include/taco/storage/typed_vector.h); elements of an `Array` (src/storage/array.cpp 117-123) have the same layout.

Simplifications
* Arithmetic and comparisons are modelled for booleans and integers; floating-point and complex numbers are copied
  as bytes, and compared by a parameter. Little-endian memory, 32-bit `int`, 64-bit `size_t`, `sizeof(bool) = 1`.
* `err` is `taco_ierror` or a failed `taco_iassert`, which end the program when assertions are compiled in.
* `cap` of a vector is what its `std::vector<char>` has allocated; it grows as in libstdc++.
-/
namespace Verif.Typed
open Verif.Types

abbrev Byte := Fin 256

/-- Outcome of a C++ expression. -/
inductive Out (α : Type)
  | val (a : α)
  /-- Undefined behaviour. -/
  | ub
  /-- An internal error. -/
  | err
  deriving DecidableEq

def Out.bind {α β : Type} : Out α → (α → Out β) → Out β
  | .val a, f => f a
  | .ub, _ => .ub
  | .err, _ => .err

/-! ### Types -/

/-- `Datatype::getNumBytes`, src/type.cpp 80-111; for an undefined type `(-1 + 7) / 8`. -/
def numBytes (k : Kind) : Nat :=
  match numBits k with
  | some b => (b + 7) / 8
  | none => 0

/-- The size of the member of the union that is used for a type, include/taco/type.h 163-201. The members of the
128-bit integers are `long long`. -/
def fieldBytes : Kind → Nat
  | .bool | .uint8 | .int8 => 1
  | .uint16 | .int16 => 2
  | .uint32 | .int32 | .float32 => 4
  | .uint64 | .int64 | .float64 | .complex64 => 8
  | .uint128 | .int128 => 8
  | .complex128 => 16
  | .undefined => 0

/-- `sizeof(ComponentTypeUnion)` and `sizeof(IndexTypeUnion)`. -/
def componentUnion : Nat := 16
def indexUnion : Nat := 8

/-- The types `TypedIndex` has cases for (typed_index.cpp 13-35 and all other switches of the file). -/
def indexKind : Kind → Bool
  | .uint8 | .uint16 | .uint32 | .uint64 | .int8 | .int16 | .int32 | .int64 => true
  | _ => false

/-- Booleans and integers. -/
def integral (k : Kind) : Bool := k == .bool || isInt k || isUInt k

/-! ### Integers in C++ -/

/-- The numbers that a member of the union holds. -/
def holds (k : Kind) (x : Int) : Prop :=
  if k = .bool then x = 0 ∨ x = 1
  else if isInt k = true then -(2 ^ (8 * fieldBytes k - 1)) ≤ x ∧ x < 2 ^ (8 * fieldBytes k - 1)
  else 0 ≤ x ∧ x < 2 ^ (8 * fieldBytes k)

instance (k : Kind) (x : Int) : Decidable (holds k x) := by unfold holds; infer_instance

/-- Conversion of an integer to the type of a member. -/
def conv (k : Kind) (x : Int) : Int :=
  if k = .bool then (if x = 0 then 0 else 1)
  else if isInt k then (x + 2 ^ (8 * fieldBytes k - 1)) % 2 ^ (8 * fieldBytes k) - 2 ^ (8 * fieldBytes k - 1)
  else x % 2 ^ (8 * fieldBytes k)

/-- Integer promotion: arithmetic on narrow types is in `int`. -/
def promoted (k : Kind) : Kind := if k = .bool ∨ fieldBytes k < 4 then .int32 else k

/-- The exact result of an operation, computed in the promoted type and assigned to a member. -/
def assign (k : Kind) (r : Int) : Out Int :=
  if isInt (promoted k) = true ∧ ¬ holds (promoted k) r then .ub else .val (conv k (conv (promoted k) r))

/-! ### Values: typed_value.cpp 11-190, 227-295 and typed_index.cpp 13-160, 254-295 -/

/-- `setInt`, 58-78: also the constructor from an `int`. -/
def setInt (k : Kind) (n : Int) : Out Int := if integral k then .val (conv k n) else .err

/-- `add`, 80-99. -/
def add (k : Kind) (x y : Int) : Out Int := assign k (x + y)

/-- `addInt`, 101-120: an `int` is converted to the promoted type. -/
def addInt (k : Kind) (x n : Int) : Out Int :=
  if k = .bool then assign k (x + conv .bool n) else assign k (x + conv (promoted k) n)

/-- `negate`, 122-144. -/
def negate (k : Kind) (x : Int) : Out Int := if isInt k then assign k (-x) else .err

/-- `multiply`, 146-165. -/
def mul (k : Kind) (x y : Int) : Out Int :=
  if k = .bool then .val (if x ≠ 0 ∧ y ≠ 0 then 1 else 0) else assign k (x * y)

/-- `multiplyInt`, 167-186. -/
def mulInt (k : Kind) (x n : Int) : Out Int :=
  if k = .bool then .val (if x ≠ 0 ∧ n ≠ 0 then 1 else 0) else assign k (x * conv (promoted k) n)

/-- `operator-`, 255-272. -/
def sub (k : Kind) (x y : Int) : Out Int :=
  if isUInt k then assign k (x - y) else (negate k y).bind fun m => add k m x

/-- `getAsIndex`, 13-34: a `size_t`. -/
def asIndex (_k : Kind) (x : Int) : Int := x % 2 ^ 64

/-- `operator++()`, 239-243 (documented as pre-increment): the value of the expression and the new value of the
variable. -/
def preInc (k : Kind) (x : Int) : Out (Int × Int) := (addInt k x 1).bind fun y => .val (x, y)

/-- `operator++(int)`, 245-248 (documented as post-increment). -/
def postInc (k : Kind) (x : Int) : Out (Int × Int) := (addInt k x 1).bind fun y => .val (y, y)

/-! ### Comparisons: typed_value.cpp 443-578, typed_index.cpp 411-538 -/

/-- The four comparisons that are defined in terms of `>` and `==`, 491-505. -/
def ge (gt eq : Bool) : Bool := gt || eq
def lt (gt eq : Bool) : Bool := !ge gt eq
def le (gt : Bool) : Bool := !gt
def ne (eq : Bool) : Bool := !eq

/-- `operator>` and `operator==` on integers of one type, 445-489. -/
def gtVal (x y : Int) : Bool := decide (x > y)
def eqVal (x y : Int) : Bool := decide (x = y)

/-- `operator>` with an `int`, 507-528: unsigned numbers are cast to `signed`. -/
def gtInt (k : Kind) (x n : Int) : Bool := if isUInt k then decide (conv .int32 x > n) else decide (x > n)

/-- `operator==` with an `int`, 530-551. -/
def eqInt (k : Kind) (x n : Int) : Bool := if isUInt k then decide (conv .int32 x = n) else decide (x = n)

/-! ### Bytes -/

/-- Little-endian numbers. -/
def encodeNat : Nat → Nat → List Byte
  | 0, _ => []
  | w + 1, n => Fin.ofNat 256 n :: encodeNat w (n / 256)

def decodeNat : List Byte → Nat
  | [] => 0
  | b :: bs => b.val + 256 * decodeNat bs

/-- The bytes of an integer in the member for its type. -/
def encode (k : Kind) (x : Int) : List Byte := encodeNat (fieldBytes k) (x % 2 ^ (8 * fieldBytes k)).toNat

/-- The integer that the bytes of a member stand for. -/
def decode (k : Kind) (bs : List Byte) : Int := conv k (decodeNat bs)

/-! ### Vectors, typed_vector.h -/

/-- `TypedVector`; `bytes` is `charVector`. -/
structure Vec where
  kind : Kind
  bytes : List Byte
  cap : Nat
  deriving DecidableEq

/-- Lines 18-28. -/
def empty (k : Kind) : Vec := ⟨k, [], 0⟩

/-- `size`, 48-50: a division by the size of the type. -/
def size (v : Vec) : Out Nat := if numBytes v.kind = 0 then .ub else .val (v.bytes.length / numBytes v.kind)

/-- Reading of memory: what `std::vector` holds, followed by whatever is behind it. -/
def load (v : Vec) (behind : List Byte) (off n : Nat) : List Byte := ((v.bytes ++ behind).drop off).take n

/-- `TypedVal(Ref)`, typed_value.cpp 207-209, 357-359 and typed_index.cpp 174-176, 354-356: the whole union is
copied (`union` bytes), and the member for the type is used. -/
def getUnion (v : Vec) (behind : List Byte) (union i : Nat) : List Byte :=
  load v behind (i * numBytes v.kind) union

/-- The bytes of the number at an index, as read by `v[i]` (38-40). -/
def get (v : Vec) (behind : List Byte) (union i : Nat) : List Byte :=
  (getUnion v behind union i).take (fieldBytes v.kind)

/-- The bytes of memory that this reads: offsets from the start of the vector. -/
def touched (v : Vec) (union i : Nat) : List Nat := (List.range union).map fun d => i * numBytes v.kind + d

/-- Writing of bytes inside of the vector. -/
def store (bytes : List Byte) (off : Nat) (new : List Byte) : List Byte :=
  bytes.take off ++ new ++ bytes.drop (off + new.length)

/-- `set` with a number, 67-70, and `TypedComponent::set`, typed_value.cpp 36-56: only the member is written. An
index outside of the vector is undefined. -/
def set (v : Vec) (i : Nat) (k : Kind) (rep : List Byte) : Out Vec :=
  if k ≠ v.kind then .err
  else if (i + 1) * numBytes v.kind ≤ v.bytes.length then
    .val { v with bytes := store v.bytes (i * numBytes v.kind) rep }
  else .ub

/-- `std::vector<char>::resize`: new bytes are zero. -/
def resizeBytes (v : Vec) (n : Nat) : Vec :=
  ⟨v.kind, v.bytes.take n ++ List.replicate (n - v.bytes.length) 0,
    if n ≤ v.cap then v.cap else max n (2 * v.bytes.length)⟩

/-- `resize`, 53-55. -/
def resize (v : Vec) (n : Nat) : Vec := resizeBytes v (n * numBytes v.kind)

/-- `clear`, 63-65. -/
def clear (v : Vec) : Vec := { v with bytes := [] }

/-- `push_back` of a number, 108-112. -/
def push (v : Vec) (k : Kind) (rep : List Byte) : Out Vec :=
  if k ≠ v.kind then .err
  else (size v).bind fun n => set (resize v (n + 1)) n k rep

/-- `push_back_vector` of a vector, 122-126. -/
def pushVector (v w : Vec) : Out Vec :=
  if v.kind ≠ w.kind then .err
  else (size v).bind fun n => (size w).bind fun m =>
    .val { resize v (n + m) with
      bytes := store (resize v (n + m)).bytes (n * numBytes v.kind) (w.bytes.take (numBytes v.kind * m)) }

/-- `push_back(v[i])` of an element of the vector itself, 115-119: the reference points into the memory that
`resize` may move. -/
def pushSelf (v : Vec) (i : Nat) : Out Vec :=
  (size v).bind fun n =>
    if v.cap < (n + 1) * numBytes v.kind then .ub
    else set (resize v (n + 1)) n v.kind (get (resize v (n + 1)) [] (fieldBytes v.kind) i)

/-- Numbers in C++ source: an integer, or `num / 2 ^ e`. -/
inductive Const
  | int (n : Int)
  | dyadic (num : Int) (e : Nat)

/-- Conversion of a constant to the parameter `int` of `TypedComponentVal(Datatype, int)`. -/
def Const.toInt : Const → Out Int
  | .int n => .val (conv .int32 n)
  | .dyadic num e => if holds .int32 (num.tdiv (2 ^ e)) then .val (num.tdiv (2 ^ e)) else .ub

/-- The bytes of an `int` converted to a type, typed_value.cpp 58-78; `enc` gives the bytes of the floating-point
and complex number `num / 2 ^ e`. -/
def repInt (enc : Kind → Int → Nat → List Byte) (k : Kind) (n : Int) : Out (List Byte) :=
  if integral k then .val (encode k (conv k n)) else if k = .undefined then .err else .val (enc k n 0)

/-- `push_back` of a constant, 101-105 and 79-82. -/
def pushConst (enc : Kind → Int → Nat → List Byte) (v : Vec) (c : Const) : Out Vec :=
  (size v).bind fun n => c.toInt.bind fun m => (repInt enc v.kind m).bind fun rep =>
    set (resize v (n + 1)) n v.kind rep

/-- `operator==`, 137-141. -/
def eqVec (v w : Vec) : Out Bool :=
  (size v).bind fun n => (size w).bind fun m =>
    if n ≠ m then .val false
    else if v.kind ≠ w.kind then .val false
    else .val (v.bytes.take (n * numBytes v.kind) == w.bytes.take (n * numBytes v.kind))

/-- The loop of `operator<`, 156-159: the numbers from an index on. -/
def lessLoop (gt eq : List Byte → List Byte → Bool) (x y : Nat → List Byte) : Nat → Nat → Option Bool
  | 0, _ => none
  | fuel + 1, i =>
    if lt (gt (x i) (y i)) (eq (x i) (y i)) then some true
    else if gt (x i) (y i) then some false
    else lessLoop gt eq x y fuel (i + 1)

/-- `operator<`, 154-161; `gt` and `eq` compare two numbers of the type. -/
def less (gt eq : List Byte → List Byte → Bool) (union : Nat) (behind : List Byte) (v w : Vec) : Out Bool :=
  (size v).bind fun n => (size w).bind fun m =>
    if v.kind ≠ w.kind then (if min n m = 0 then .val (decide (n < m)) else .err)
    else .val ((lessLoop gt eq (get v behind union) (get w behind union) (min n m) 0).getD (decide (n < m)))

/-- Comparison of integers given by their bytes. -/
def gtRep (k : Kind) (a b : List Byte) : Bool := gtVal (decode k a) (decode k b)
def eqRep (k : Kind) (a b : List Byte) : Bool := eqVal (decode k a) (decode k b)

/-- `for (auto it = v.begin(); it != v.end(); ++it)` from an address on (166-200, 250-257, and `operator+` of the
pointers, typed_value.cpp 337-339). -/
def walk (v : Vec) (behind : List Byte) (union : Nat) : Nat → Nat → List (List Byte)
  | 0, _ => []
  | fuel + 1, off =>
    if off = v.bytes.length / numBytes v.kind * numBytes v.kind then []
    else (load v behind off union).take (fieldBytes v.kind) :: walk v behind union fuel (off + 1 * numBytes v.kind)

end Verif.Typed
