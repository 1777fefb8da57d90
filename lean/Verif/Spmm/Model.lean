import Verif.Kernel.Spec
/-!
The temporary that `TensorBase::compile` inserts into matrix products: `insertTemporaries` and `optimizeSpMM`,
src/index_notation/transformations.cpp 1986-2102. It is applied to every statement that is compiled without a schedule
(src/tensor.cpp 625-640).

Simplifications: the statements of `Verif/Kernel/Syntax.lean`; names of mode formats other than the three built-in ones are one name.
-/
namespace Verif.Spmm
open Verif.Kernel

/-- `ModeFormat::getName`. -/
inductive FmtName | dense | compressed | singleton | other
  deriving DecidableEq, Repr

/-- `ModeFormat`: what 2045-2073 look at. -/
structure MFmt where
  name : FmtName
  ordered : Bool
  deriving DecidableEq, Repr

/-- `Format`: the format of each level and the mode ordering. -/
structure Fmt where
  modes : List MFmt
  ordering : List Nat
  deriving DecidableEq, Repr

/-- Attributes of a loop made by `forall(i, stmt)` (index_notation.cpp 2236-2245): no parallel unit and so on. -/
def plainLoop : Attrs := ⟨0, 0, 0, 0⟩

/-- Modes of an access made by `TensorVar::operator()` (index_notation.cpp 2653-2665): no windows and index sets. -/
def plainModes (is : List Nat) : List Mode := is.map (fun _ => .plain)

/-- The operators `+=` and `*` of the statement that is built. -/
structure Codes where
  add : Nat
  mul : Nat

/-- 2045-2050: the result is stored by rows, in a dense and a compressed level. -/
def resultFormat (f : Fmt) : Bool :=
  (f.modes[0]?.map MFmt.name == some .dense) && (f.modes[1]?.map MFmt.name == some .compressed) &&
    (f.ordering[0]? == some 0) && (f.ordering[1]? == some 1)

/-- 2054-2066 and 2068-2073: the operands are stored by rows, in ordered levels. -/
def operandFormat (f : Fmt) : Bool :=
  (f.modes[0]?.map MFmt.ordered == some true) && (f.modes[1]?.map MFmt.ordered == some true) &&
    (f.ordering[0]? == some 0) && (f.ordering[1]? == some 1)

/-- The statement 2080-2085; `w` is the new tensor variable. -/
def withTemporary (cd : Codes) (w i k j A B C : Nat) : Stmt :=
  .loop i plainLoop (.wher
    (.loop j plainLoop (.assign A false [i, j] (plainModes [i, j]) none (.acc w false [j] (plainModes [j]))))
    (.loop k plainLoop (.loop j plainLoop (.assign w false [j] (plainModes [j]) (some cd.add)
      (.bin cd.mul (.acc B false [i, k] (plainModes [i, k])) (.acc C false [k, j] (plainModes [k, j])))))))

/-- `optimizeSpMM` 1991-2085. -/
def optimizeSpMM (cd : Codes) (fmt : Nat → Fmt) (w : Nat) (s : Stmt) : Stmt :=
  match s with
  | .loop i _ (.loop k _ (.loop j _ (.assign A _ isA _ _ (.bin op (.acc B _ isB _) (.acc C _ isC _))))) =>
    if op = cd.mul ∧ isA = [i, j] ∧ isB = [i, k] ∧ isC = [k, j] ∧
        resultFormat (fmt A) = true ∧ operandFormat (fmt B) = true ∧ operandFormat (fmt C) = true then
      withTemporary cd w i k j A B C
    else s
  | s => s

/-- `insertTemporaries` 2087-2102. -/
def insertTemporaries (cd : Codes) (fmt : Nat → Fmt) (w : Nat) (s : Stmt) : Stmt := optimizeSpMM cd fmt w s

end Verif.Spmm
