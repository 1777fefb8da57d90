import Verif.IR.Model
/-! What expression simplification promises. -/
namespace Verif.IR
open Verif.Types

variable {F : Type}

/-! ### Specification: well-typed expressions -/

/-- The values of a type. -/
def valOK (k : Kind) : Val F → Prop
  | .b _ => k = .bool
  | .i x => (isInt k || isUInt k) = true ∧ wrap k x = x
  | .f _ => (isFloat k || isComplex k) = true

/-- Arithmetic is on numbers. -/
def numeric (k : Kind) : Prop := k ≠ .bool ∧ k ≠ .undefined

/-- Expressions whose operands have the same type; `vk` and `ak` give the types of variables and arrays. -/
inductive WT (vk ak : Nat → Kind) : Expr F → Kind → Prop
  | lit {k v} : valOK k v → WT vk ak (.lit k v) k
  | var {x} : WT vk ak (.var (vk x) x) (vk x)
  | arith {op a b k} : numeric k → WT vk ak a k → WT vk ak b k → WT vk ak (.arith op a b) k
  | cmp {op a b k} : WT vk ak a k → WT vk ak b k → WT vk ak (.cmp op a b) .bool
  | neg {a k} : numeric k → WT vk ak a k → WT vk ak (.neg a) k
  | not {a} : WT vk ak a .bool → WT vk ak (.not a) .bool
  | and {a b} : WT vk ak a .bool → WT vk ak b .bool → WT vk ak (.and a b) .bool
  | or {a b} : WT vk ak a .bool → WT vk ak b .bool → WT vk ak (.or a b) .bool
  | cast {a k k'} : k' ≠ .undefined → WT vk ak a k → WT vk ak (.cast a k') k'
  | load {arr loc k} : (isInt k || isUInt k) = true → WT vk ak loc k → WT vk ak (.load (ak arr) arr loc) (ak arr)

/-- Variables and memory hold values of their types. -/
structure EnvOK (vk ak : Nat → Kind) (env : Env F) : Prop where
  var : ∀ x v, env.var x = some v → valOK (vk x) v
  mem : ∀ arr n v, env.mem arr n = some v → valOK (ak arr) v

/-- The laws of exact arithmetic that the rewrite rules use. -/
structure FltLaws (A : Flt F) : Prop where
  zero_add : ∀ k z x, A.eq0 z = true → A.add k z x = x
  add_zero : ∀ k z x, A.eq0 z = true → A.add k x z = x
  zero_sub : ∀ k z x, A.eq0 z = true → A.sub k z x = A.neg k x
  sub_zero : ∀ k z x, A.eq0 z = true → A.sub k x z = x
  zero_mul : ∀ k z x, A.eq0 z = true → A.mul k z x = z
  mul_zero : ∀ k z x, A.eq0 z = true → A.mul k x z = z
  one_mul : ∀ k o x, A.eq1 o = true → A.mul k o x = x
  mul_one : ∀ k o x, A.eq1 o = true → A.mul k x o = x
  div_one : ∀ k o x, A.eq1 o = true → A.div k x o = x

/-- Every part of the expression has a value. -/
def AllDef (A : Flt F) (env : Env F) : Expr F → Prop
  | .lit k v => (eval A env (.lit k v)).isSome
  | .var k x => (eval A env (.var k x)).isSome
  | .arith op a b => AllDef A env a ∧ AllDef A env b ∧ (eval A env (.arith op a b)).isSome
  | .cmp op a b => AllDef A env a ∧ AllDef A env b ∧ (eval A env (.cmp op a b)).isSome
  | .neg a => AllDef A env a ∧ (eval A env (.neg a)).isSome
  | .not a => AllDef A env a ∧ (eval A env (.not a)).isSome
  | .and a b => AllDef A env a ∧ AllDef A env b ∧ (eval A env (.and a b)).isSome
  | .or a b => AllDef A env a ∧ AllDef A env b ∧ (eval A env (.or a b)).isSome
  | .cast a k => AllDef A env a ∧ (eval A env (.cast a k)).isSome
  | .load k arr a => AllDef A env a ∧ (eval A env (.load k arr a)).isSome

end Verif.IR
