import Mathlib.Analysis.SpecialFunctions.Arcosh
import Mathlib.Analysis.SpecialFunctions.Artanh
import Mathlib.Analysis.SpecialFunctions.Arsinh
import Mathlib.Analysis.SpecialFunctions.Pow.Real
import Mathlib.Analysis.SpecialFunctions.Log.Base
import Mathlib.Analysis.SpecialFunctions.Trigonometric.Inverse
import Mathlib.Analysis.SpecialFunctions.Trigonometric.Arctan
import Mathlib.Analysis.SpecialFunctions.Complex.Arg
import Verif.Intrinsic.Model
/-
Specification: the values of the intrinsics over the real numbers.  `none` is a domain
or pole error (NaN, infinity, or a division by zero).  Truth values are 1 and 0.
Rounding and overflow are not modelled.
-/
namespace Verif.Intrinsic

open Classical

noncomputable def truth (p : Prop) : ℝ := if p then 1 else 0

/-- Rounding towards zero. -/
noncomputable def trunc (x : ℝ) : ℝ := if 0 ≤ x then (⌊x⌋ : ℝ) else (⌈x⌉ : ℝ)

/-- C's `pow`. -/
noncomputable def cpow (a b : ℝ) : Option ℝ :=
  if b = 0 then some 1
  else if a = 0 then (if 0 < b then some 0 else none)
  else if 0 < a then some (a ^ b)
  else if b = ⌊b⌋ then some (a ^ ⌊b⌋)
  else none

/-- C's `cbrt`. -/
noncomputable def ccbrt (x : ℝ) : ℝ :=
  if 0 ≤ x then x ^ (1 / 3 : ℝ) else -((-x) ^ (1 / 3 : ℝ))

noncomputable def value1 (f : Fn) (x : ℝ) : Option ℝ :=
  match f with
  | .abs => some |x|
  | .square => some (x * x)
  | .cube => some (x * x * x)
  | .sqrt => if 0 ≤ x then some (Real.sqrt x) else none
  | .cbrt => some (ccbrt x)
  | .exp => some (Real.exp x)
  | .log => if 0 < x then some (Real.log x) else none
  | .log10 => if 0 < x then some (Real.logb 10 x) else none
  | .sin => some (Real.sin x)
  | .cos => some (Real.cos x)
  | .tan => if Real.cos x = 0 then none else some (Real.tan x)
  | .asin => if -1 ≤ x ∧ x ≤ 1 then some (Real.arcsin x) else none
  | .acos => if -1 ≤ x ∧ x ≤ 1 then some (Real.arccos x) else none
  | .atan => some (Real.arctan x)
  | .sinh => some (Real.sinh x)
  | .cosh => some (Real.cosh x)
  | .tanh => some (Real.tanh x)
  | .asinh => some (Real.arsinh x)
  | .acosh => if 1 ≤ x then some (Real.arcosh x) else none
  | .atanh => if -1 < x ∧ x < 1 then some (Real.artanh x) else none
  | .not => some (truth (x = 0))
  | _ => none

noncomputable def value2 (f : Fn) (a b : ℝ) : Option ℝ :=
  match f with
  | .mod => if b = 0 then none else some (a - b * trunc (a / b))
  | .pow => cpow a b
  | .atan2 => some (Complex.arg ⟨b, a⟩)
  | .gt => some (truth (a > b))
  | .lt => some (truth (a < b))
  | .gte => some (truth (a ≥ b))
  | .lte => some (truth (a ≤ b))
  | .eq => some (truth (a = b))
  | .neq => some (truth (a ≠ b))
  | .max => some (max a b)
  | .min => some (min a b)
  | .heaviside => some (b * truth (a = 0) + truth (a > 0))
  | _ => none

/-- The value of an intrinsic. -/
noncomputable def value (f : Fn) : List ℝ → Option ℝ
  | [x] => value1 f x
  | [a, b] => value2 f a b
  | _ => none

/-- The value of what a call was lowered to. -/
noncomputable def loweredValue (f : Fn) (vals : List ℝ) : Lowered → Option ℝ
  | .arg i => vals[i]?
  | .zero => some 0
  | .one => some 1
  | .call => value f vals

/-- Values that arguments can have: literals have their value and unsigned values are
not negative. -/
def Fits (args : List Arg) (vals : List ℝ) : Prop :=
  List.Forall₂ (fun (a : Arg) (v : ℝ) =>
    (∀ q, a.lit = some q → v = (q : ℝ)) ∧ (a.kind = .uint → 0 ≤ v)) args vals

/-- All arguments have the same kind. -/
def SameKind (args : List Arg) : Prop := ∀ a ∈ args, ∀ b ∈ args, a.kind = b.kind

/-- The calls whose declaration is wrong: a remainder by zero, and a power whose
exponent is not positive. -/
def Excluded (f : Fn) (vals : List ℝ) : Prop :=
  (f = .mod ∧ vals[1]? = some 0) ∨ (f = .pow ∧ ∃ e, vals[1]? = some e ∧ e ≤ 0)

end Verif.Intrinsic
