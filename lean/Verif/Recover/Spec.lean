import Verif.Recover.Syntax

/-!
# What it means to recover index variables

Nothing here mentions how the compiler decides which variables to compute.
-/

namespace Verif.Recover

/-- A variable is known inside some loops if it is a loop variable, or if every variable that replaced it is
known. -/
inductive Known (rels : List Rel) (loops : List Var) : Var → Prop where
  | loop {v : Var} : v ∈ loops → Known rels loops v
  | derived {v : Var} {r : Rel} : r ∈ rels → v ∈ r.parents → (∀ c ∈ r.children, Known rels loops c) →
      Known rels loops v

/-- The declarations of a kernel are in order if every variable is a loop variable or is computed from
variables that were declared before (`seen`). -/
def InOrder (rels : List Rel) (loops : List Var) : List Var → List Var → Prop
  | _, [] => True
  | seen, v :: rest =>
    (v ∈ loops ∨ ∃ r ∈ rels, v ∈ r.parents ∧ ∀ c ∈ r.children, c ∈ seen) ∧
      InOrder rels loops (v :: seen) rest

/-- The relations of a schedule: every command replaces variables that have not been replaced yet by new
variables. -/
inductive Schedule : List Rel → Prop where
  | nil : Schedule []
  | add {rels : List Rel} {r : Rel} : Schedule rels →
      (∀ p ∈ r.parents, ∀ q ∈ rels, p ∉ q.parents) →
      (∀ c ∈ r.children, c ∉ r.parents ∧ ∀ q ∈ rels, c ∉ q.parents ∧ c ∉ q.children) →
      r.parents.Nodup → r.children.Nodup → Schedule (rels ++ [r])

/-- A variable that was not replaced: loops run over these. -/
def Leaf (rels : List Rel) (v : Var) : Prop := ∀ r ∈ rels, v ∉ r.parents

/-- `Derives rels v d`: `d` is `v` or takes the place of it, over any number of commands. -/
inductive Derives (rels : List Rel) : Var → Var → Prop where
  | refl {v : Var} : Derives rels v v
  | step {v c d : Var} {r : Rel} : r ∈ rels → v ∈ r.parents → c ∈ r.children → Derives rels c d →
      Derives rels v d

/-- No variable is derived from both pieces of a split: pieces are not fused again. -/
def PiecesApart (rels : List Rel) : Prop :=
  ∀ r ∈ rels, ∀ c ∈ r.children, ∀ c' ∈ r.children, c ≠ c' →
    ∀ d, ¬(Derives rels c d ∧ Derives rels c' d)

/-- No workspace variables, and not both fused loops and loops over positions. -/
def Plain (rels : List Rel) : Prop :=
  (∀ r ∈ rels, r.kind ≠ .precompute) ∧
    ((∀ r ∈ rels, r.kind ≠ .pos) ∨ (∀ r ∈ rels, r.kind ≠ .fuse))

end Verif.Recover
