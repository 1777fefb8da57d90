import Verif.Types.Model
/-! Property C32. -/
namespace Verif.Types
open Kind

/-- All component types a tensor can have. -/
def componentTypes : List Kind :=
  [Kind.bool, uint8, uint16, uint32, uint64, uint128, int8, int16, int32, int64, int128,
   float32, float64, complex64, complex128]

theorem mem_componentTypes (k : Kind) : k ∈ componentTypes ↔ k ≠ undefined := by
  cases k <;> decide

/-- C32. Promotion is defined on component types, and idempotent. -/
theorem promotion_defined (a b : Kind) (ha : a ≠ undefined) (hb : b ≠ undefined) :
    ∃ c, maxType a b = some c ∧ c ≠ undefined := by
  cases a <;> cases b <;> simp_all <;> decide

theorem promotion_idempotent (a : Kind) : maxType a a = some a := by cases a <;> decide

/-- C32. Independent of the order of the operands. -/
theorem promotion_comm (a b : Kind) : maxType a b = maxType b a := by
  cases a <;> cases b <;> decide

/-- C32. Independent of the grouping of the operands. -/
theorem promotion_assoc (a b c : Kind) (ha : a ≠ undefined) (hb : b ≠ undefined) (hc : c ≠ undefined) :
    (maxType a b).bind (maxType · c) = (maxType b c).bind (maxType a ·) := by
  have key : ∀ a ∈ componentTypes, ∀ b ∈ componentTypes, ∀ c ∈ componentTypes,
      (maxType a b).bind (maxType · c) = (maxType b c).bind (maxType a ·) := by decide +kernel
  exact key a ((mem_componentTypes a).2 ha) b ((mem_componentTypes b).2 hb) c ((mem_componentTypes c).2 hc)

/-- C32. Every component type is of exactly one class: boolean, unsigned, signed, floating point or complex. -/
theorem type_classes (k : Kind) (hk : k ≠ undefined) :
    [k == Kind.bool, isUInt k, isInt k, isFloat k, isComplex k].count true = 1 := by
  cases k <;> first | exact absurd rfl hk | decide

/-- C32. The types made from a number of bits are exactly those of the class with as many bits. -/
theorem type_of_bits (n : Nat) (k : Kind) :
    (intOf n = some k ↔ isInt k = true ∧ numBits k = some n) ∧ (uintOf n = some k ↔ isUInt k = true ∧ numBits k = some n) := by
  constructor
  · unfold intOf
    split <;> cases k <;> simp_all [isInt, numBits] <;> omega
  · unfold uintOf
    split <;> cases k <;> simp_all [isUInt, numBits] <;> omega

/-- C32. Different boolean and integer types promote to a signed type exactly if one of them is signed, and to an unsigned
one otherwise; of the width of the wider one. -/
theorem promotion_integers (a b : Kind) (ha : a = Kind.bool ∨ isUInt a = true ∨ isInt a = true)
    (hb : b = Kind.bool ∨ isUInt b = true ∨ isInt b = true) (hab : a ≠ b) :
    ∃ c m n, maxType a b = some c ∧ numBits a = some m ∧ numBits b = some n ∧ numBits c = some (max m n) ∧
      (isInt c = true ↔ isInt a = true ∨ isInt b = true) ∧ (isUInt c = true ↔ ¬ (isInt a = true ∨ isInt b = true)) := by
  cases a <;> cases b <;>
    first
    | exact absurd rfl hab
    | exact absurd ha (by decide)
    | exact absurd hb (by decide)
    | exact ⟨_, _, _, rfl, rfl, rfl, by decide, by decide, by decide⟩

example : (Kind.bool = Kind.bool ∨ isUInt Kind.bool = true ∨ isInt Kind.bool = true) ∧
    maxType .bool uint16 = some uint16 ∧ maxType uint64 int8 = some int64 := by decide

/-- Floating point and complex types. -/
def isFloating (k : Kind) : Bool := isFloat k || isComplex k

/-- The width of a number of the type; for a complex type of its real part. -/
def partBits : Kind → Nat
  | .bool => 1
  | uint8 | int8 => 8
  | uint16 | int16 => 16
  | uint32 | int32 | float32 | complex64 => 32
  | uint64 | int64 | float64 | complex128 => 64
  | int128 | uint128 => 128
  | undefined => 0

/-- C32 (width), for operands that are both integers or both floating point or complex: the promoted
type has at least as many bits as each operand, in total and per real part, is signed when one operand is
and complex when one operand is. -/
theorem promotion_wide_partial (a b : Kind) (ha : a ≠ undefined) (hb : b ≠ undefined)
    (hk : isFloating a = isFloating b) :
    ∃ c m n l, maxType a b = some c ∧ numBits a = some m ∧ numBits b = some n ∧ numBits c = some l ∧
      m ≤ l ∧ n ≤ l ∧ partBits a ≤ partBits c ∧ partBits b ≤ partBits c ∧
      (isInt a = true → isInt c = true) ∧ (isComplex a = true → isComplex c = true) ∧
      (isFloating a = true → isFloating c = true) := by
  cases a <;> cases b <;>
    first
    | exact absurd rfl ha
    | exact absurd rfl hb
    | exact absurd hk (by decide)
    | exact ⟨_, _, _, _, rfl, rfl, rfl, rfl, by decide, by decide, by decide, by decide, by decide, by decide,
        by decide⟩

/-- C32. The promoted type is an upper bound of its operands in the order "promotes to", and every other
upper bound is above it. -/
theorem promotion_least (a b : Kind) (ha : a ≠ undefined) (hb : b ≠ undefined) :
    ∃ c, maxType a b = some c ∧ maxType a c = some c ∧ maxType b c = some c ∧
      ∀ d, d ≠ undefined → maxType a d = some d → maxType b d = some d → maxType c d = some d := by
  have key : ∀ a ∈ componentTypes, ∀ b ∈ componentTypes, ∀ d ∈ componentTypes,
      (maxType a b).bind (maxType a ·) = maxType a b ∧ (maxType a b).bind (maxType b ·) = maxType a b ∧
      (maxType a d = some d → maxType b d = some d → (maxType a b).bind (maxType · d) = some d) := by
    decide +kernel
  obtain ⟨c, hc, hcu⟩ := promotion_defined a b ha hb
  refine ⟨c, hc, ?_, ?_, ?_⟩
  · have := (key a ((mem_componentTypes a).2 ha) b ((mem_componentTypes b).2 hb) a ((mem_componentTypes a).2 ha)).1
    rwa [hc] at this
  · have := (key a ((mem_componentTypes a).2 ha) b ((mem_componentTypes b).2 hb) a ((mem_componentTypes a).2 ha)).2.1
    rwa [hc] at this
  · intro d hd h1 h2
    have := (key a ((mem_componentTypes a).2 ha) b ((mem_componentTypes b).2 hb) d ((mem_componentTypes d).2 hd)).2.2 h1 h2
    rwa [hc] at this

example : isFloating float32 = isFloating complex128 := by decide

/-- C32 (width) is false in general: a 64-bit integer and a 32-bit float promote to the 32-bit float. -/
theorem promotion_wide_fails : ∃ a b c m l, maxType a b = some c ∧ numBits a = some m ∧
    numBits c = some l ∧ l < m :=
  ⟨int64, float32, float32, 64, 32, by decide, by decide, by decide, by decide⟩

/-- C32: the values of both integer operands need not fit: an 8-bit unsigned and an 8-bit signed
integer promote to the 8-bit signed integer, which has no 200. -/
theorem promotion_range_fails : maxType uint8 int8 = some int8 := by decide

/-- The constant `Int128` is the unsigned type and `UInt128` the signed one. -/
theorem global_128_swapped_fails : isInt globalInt128 = false ∧ isUInt globalUInt128 = false := by decide

end Verif.Types
