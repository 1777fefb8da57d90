import Verif.Concrete.Syntax
/-
Specification of the reordering of loops.
-/
namespace Verif.Concrete

variable {R : Type}

/-- `s'` is `s` with nested loops over `old` exchanged for nested loops over `new`. -/
inductive Replaced (old new : List Nat) : Stmt R → Stmt R → Prop
  | assign (t is plus e) : Replaced old new (.assign t is plus e) (.assign t is plus e)
  | loop (i) {s s'} : Replaced old new s s' → Replaced old new (.loop i s) (.loop i s')
  | wher {c c' p p'} : Replaced old new c c' → Replaced old new p p' →
      Replaced old new (.wher c p) (.wher c' p')
  | nest (s) : Replaced old new (loops old s) (loops new s)

/-- The tensor a statement computes. -/
def Stmt.target : Stmt R → Nat
  | .assign t _ _ _ => t
  | .loop _ s => s.target
  | .wher c _ => c.target

/-- The index variables it is stored at. -/
def Stmt.targetVars : Stmt R → List Nat
  | .assign _ is _ _ => is
  | .loop _ s => s.targetVars
  | .wher c _ => c.targetVars

/-- Is it accumulated into? -/
def Stmt.accumulates : Stmt R → Bool
  | .assign _ _ plus _ => plus
  | .loop _ s => s.accumulates
  | .wher c _ => c.accumulates

/-- The tensors a statement reads that it does not compute itself in a producer. -/
def Stmt.reads : Stmt R → List Nat
  | .assign _ _ _ e => e.tensors
  | .loop _ s => s.reads
  | .wher c p => c.reads.filter (· ≠ p.target) ++ p.reads

/-- Nothing reads the tensor that is being computed, except a consumer what its producer
computed. -/
def Stmt.wellFormed : Stmt R → Prop
  | .assign t _ _ e => t ∉ e.tensors
  | .loop _ s => s.wellFormed
  | .wher c p => c.wellFormed ∧ p.wellFormed ∧ c.target ∉ p.reads ∧ c.target ≠ p.target

/-- No loop is inside a loop over the same variable. -/
def Stmt.noShadow : List Nat → Stmt R → Prop
  | _, .assign _ _ _ _ => True
  | above, .loop i s => i ∉ above ∧ s.noShadow (i :: above)
  | above, .wher c p => c.noShadow above ∧ p.noShadow above

/-- Each nest of loops over `is` accumulates into its result, or stores it at coordinates
that are different in all iterations. -/
def Stmt.reorderable (is : List Nat) : Stmt R → Prop
  | .assign _ _ _ _ => True
  | .loop i s => (i ∈ is → s.accumulates = true ∨ ∀ j ∈ is, j ∈ s.targetVars) ∧ s.reorderable is
  | .wher c p => c.reorderable is ∧ p.reorderable is

end Verif.Concrete
