import Verif.Types.Model
/-! What dynamically typed numbers and vectors of them should be (C78). Uses no function of the model. -/
namespace Verif.Typed
open Verif.Types

/-- The integer types, their number of bits, and whether they are signed. -/
def intType : Kind → Option (Nat × Bool)
  | .uint8 => some (8, false)
  | .uint16 => some (16, false)
  | .uint32 => some (32, false)
  | .uint64 => some (64, false)
  | .uint128 => some (128, false)
  | .int8 => some (8, true)
  | .int16 => some (16, true)
  | .int32 => some (32, true)
  | .int64 => some (64, true)
  | .int128 => some (128, true)
  | _ => none

/-- The integer `x` is a number of the type. -/
def Fits (k : Kind) (x : Int) : Prop :=
  match intType k with
  | some (b, true) => -(2 ^ (b - 1)) ≤ x ∧ x < 2 ^ (b - 1)
  | some (b, false) => 0 ≤ x ∧ x < 2 ^ b
  | none => k = .bool ∧ (x = 0 ∨ x = 1)

/-- Types of at most 64 bits. -/
def Narrow (k : Kind) : Prop := k ≠ .uint128 ∧ k ≠ .int128

/-- `a` comes before `b` in the dictionary. -/
def Before : List Int → List Int → Prop
  | _, [] => False
  | [], _ :: _ => True
  | x :: xs, y :: ys => x < y ∨ (x = y ∧ Before xs ys)

/-- Operations on a vector of numbers, as a user thinks of them. Numbers are given by their bytes. -/
inductive Op
  | push (x : List (Fin 256))
  | append (xs : List (List (Fin 256)))
  | set (i : Nat) (x : List (Fin 256))
  | resize (n : Nat)
  | clear

/-- A number of `w` bytes that are all zero. -/
def zero (w : Nat) : List (Fin 256) := List.replicate w 0

/-- What an operation does to the list of numbers; `w` is the number of bytes of one. -/
def Op.apply (w : Nat) (xs : List (List (Fin 256))) : Op → List (List (Fin 256))
  | .push x => xs ++ [x]
  | .append ys => xs ++ ys
  | .set i x => xs.set i x
  | .resize n => xs.take n ++ List.replicate (n - xs.length) (zero w)
  | .clear => []

/-- An operation that a user may call on these numbers. -/
def Op.Valid (w : Nat) (xs : List (List (Fin 256))) : Op → Prop
  | .push x => x.length = w
  | .append ys => ∀ y ∈ ys, y.length = w
  | .set i x => i < xs.length ∧ x.length = w
  | .resize _ => True
  | .clear => True

def Valid (w : Nat) (xs : List (List (Fin 256))) : List Op → Prop
  | [] => True
  | o :: os => o.Valid w xs ∧ Valid w (o.apply w xs) os

def applyAll (w : Nat) (xs : List (List (Fin 256))) : List Op → List (List (Fin 256))
  | [] => xs
  | o :: os => applyAll w (o.apply w xs) os

end Verif.Typed
