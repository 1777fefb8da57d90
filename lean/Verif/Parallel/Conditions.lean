import Verif.Concrete.Promote.Spec
/-
Specification: conditions on statements under which loops over an index variable can be made
parallel.
-/
namespace Verif.Parallel

open Concrete

variable {R : Type}

/-- Each loop over `i` contains an access at `i`. -/
def Used (i : Nat) : Stmt R → Prop
  | .assign _ _ _ _ => True
  | .loop j s => (j = i → Mentions i s) ∧ Used i s
  | .wher c p => Used i c ∧ Used i p
where
  /-- Some access is at `i`. -/
  Mentions (i : Nat) : Stmt R → Prop
    | .assign _ is _ e => i ∈ is ∨ i ∈ e.varsAll
    | .loop _ s => Mentions i s
    | .wher c p => Mentions i c ∨ Mentions i p

/-- Each loop over `i` stores its result at `i`, so that different iterations store it at
different coordinates. -/
def Exclusive (i : Nat) : Stmt R → Prop
  | .assign _ _ _ _ => True
  | .loop j s => (j = i → i ∈ s.targetVars) ∧ Exclusive i s
  | .wher c p => Exclusive i c ∧ Exclusive i p

/-- Below the loops `above` and in producers of the temporaries `temps`: each loop over `i`
stores its result at `i`, or accumulates into a tensor at coordinates not all of which are fixed
outside of the loop, or accumulates into a scalar that is no temporary. -/
def Accumulating (i : Nat) : List Nat → List Nat → Stmt R → Prop
  | _, _, .assign _ _ _ _ => True
  | above, temps, .loop j s =>
    (j = i → i ∈ s.targetVars ∨ (s.accumulates = true ∧
      ((∃ k ∈ s.targetVars, k ∉ above) ∨ (s.targetVars = [] ∧ s.target ∉ temps)))) ∧
    Accumulating i (j :: above) temps s
  | above, temps, .wher c p => Accumulating i above temps c ∧ Accumulating i above (p.target :: temps) p

/-- Below the loops `above`: each loop over `i` accumulates into one component of its result,
and the temporaries that are computed inside from something at `i` are stored at `i`. -/
def OneComponent (i : Nat) : List Nat → Stmt R → Prop
  | _, .assign _ _ _ _ => True
  | above, .loop j s =>
    (j = i → s.accumulates = true ∧ (∀ k ∈ s.targetVars, k ∈ above) ∧ Temps i s) ∧
    OneComponent i (j :: above) s
  | above, .wher c p => OneComponent i above c ∧ OneComponent i above p
where
  /-- What is computed from something at `i` is stored at `i`. -/
  All (i : Nat) : Stmt R → Prop
    | .assign _ is _ e => i ∈ e.varsAll → i ∈ is
    | .loop _ s => All i s
    | .wher c p => All i c ∧ All i p
  /-- So it is for temporaries. -/
  Temps (i : Nat) : Stmt R → Prop
    | .assign _ _ _ _ => True
    | .loop _ s => Temps i s
    | .wher c p => Temps i c ∧ All i p

/-- The loops of a statement are over other variables than `i`, and its accesses too. -/
def Fresh (i : Nat) : Stmt R → Prop
  | .assign _ is _ e => i ∉ is ∧ i ∉ e.varsAll
  | .loop j s => j ≠ i ∧ Fresh i s
  | .wher c p => Fresh i c ∧ Fresh i p

/-- Accesses at `i` are inside of loops over `i`. -/
def Bound (i : Nat) : Stmt R → Prop
  | .assign _ is _ e => i ∉ is ∧ i ∉ e.varsAll
  | .loop j s => j = i ∨ Bound i s
  | .wher c p => Bound i c ∧ Bound i p

end Verif.Parallel
