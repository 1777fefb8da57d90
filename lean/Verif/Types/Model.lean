/-!
Component types and their promotion: `Datatype` and `max_type` (src/type.cpp 14-111, 157-197;
include/taco/type.h 17-36). `sizeof(bool)` is 1. Internal errors are `none`.
-/
namespace Verif.Types

/-- `Datatype::Kind`, type.h 20-37. -/
inductive Kind where
  | bool | uint8 | uint16 | uint32 | uint64 | uint128 | int8 | int16 | int32 | int64 | int128
  | float32 | float64 | complex64 | complex128 | undefined
deriving DecidableEq, Repr

open Kind

/-- Lines 26-34. -/
def isUInt (k : Kind) : Bool := k == uint8 || k == uint16 || k == uint32 || k == uint64 || k == uint128
def isInt (k : Kind) : Bool := k == int8 || k == int16 || k == int32 || k == int64 || k == int128
/-- Lines 36-42. -/
def isFloat (k : Kind) : Bool := k == float32 || k == float64
def isComplex (k : Kind) : Bool := k == complex64 || k == complex128

/-- `getNumBits`, lines 84-111. -/
def numBits : Kind → Option Nat
  | .bool => some 1
  | uint8 | int8 => some 8
  | uint16 | int16 => some 16
  | uint32 | int32 | float32 => some 32
  | uint64 | int64 | float64 | complex64 => some 64
  | complex128 | int128 | uint128 => some 128
  | undefined => none

/-- `UInt(bits)`, 157-168. -/
def uintOf : Nat → Option Kind
  | 8 => some uint8 | 16 => some uint16 | 32 => some uint32 | 64 => some uint64 | 128 => some uint128
  | _ => none

/-- `Int(bits)`, 176-187. -/
def intOf : Nat → Option Kind
  | 8 => some int8 | 16 => some int16 | 32 => some int32 | 64 => some int64 | 128 => some int128
  | _ => none

/-- `max_type`, 48-78. -/
def maxType (a b : Kind) : Option Kind :=
  if a = b then some a
  else if isComplex a || isComplex b then
    if a = complex128 ∨ b = complex128 ∨ a = float64 ∨ b = float64 then some complex128
    else some complex64
  else if isFloat a || isFloat b then
    if a = float64 ∨ b = float64 then some float64 else some float32
  else
    match numBits a, numBits b with
    | some m, some n => if isInt a || isInt b then intOf (if m > n then m else n)
                        else uintOf (if m > n then m else n)
    | _, _ => none

/-- The global constants `UInt128` and `Int128`, 174 and 193. -/
def globalUInt128 : Kind := int128
def globalInt128 : Kind := uint128

end Verif.Types
