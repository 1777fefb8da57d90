import Verif.Cuda.Spec
/-
When the CUDA backend keeps the meaning of loops: conditions on statements, stated with the meaning of
the loops as they are written.
-/
namespace Verif.Cuda

variable {Ev : Type}

/-- No `continue` belongs to the loop around the statement. -/
def noCont : Stmt Ev → Prop
  | .cont => False
  | .seq a b => noCont a ∧ noCont b
  | .ite _ a b => noCont a ∧ noCont b
  | .par _ _ _ _ _ b => noCont b
  | _ => True

/-- No effect on memory. -/
def silent : Stmt Ev → Prop
  | .emit _ _ => False
  | .seq a b => silent a ∧ silent b
  | .ite _ a b => silent a ∧ silent b
  | .wloop _ b => silent b
  | .loop _ _ _ _ b => silent b
  | .par _ _ _ _ _ b => silent b
  | .red _ _ _ _ b => silent b
  | _ => True

/-- The variables a statement assigns; the variables of its loops belong to the loops. -/
def assigned : Stmt Ev → List Var
  | .set x _ => [x]
  | .seq a b => assigned a ++ assigned b
  | .ite _ a b => assigned a ++ assigned b
  | .wloop _ b => assigned b
  | .loop _ _ _ _ b => assigned b
  | .par _ _ _ _ _ b => assigned b
  | .red _ _ _ _ b => assigned b
  | _ => []

/-- Once an iteration of the loop is skipped, all later ones are, and they leave the variables `D`
alone. -/
def Sticky (n : Nat) (D : List Var) (x : Var) (b : Stmt Ev) : Prop :=
  ∀ (s : Env) (v v' : Int), v < v' → (run n b (upd s x v)).ctl = .cont →
    let o := run n b (upd (run n b (upd s x v)).env x v')
    o.ctl = .cont ∧ o.evs = [] ∧ ∀ y ∈ D, y ≠ x → o.env y = (run n b (upd s x v)).env y

/-- The variables known to be set after the statement, when those in `D` are before. -/
def known (D : List Var) : Stmt Ev → List Var
  | .set x _ => x :: D
  | .seq a b => known (known D a) b
  | _ => D

/-- Statements that only read variables in `D` or set before, break out of their own loops only, and
skip iterations only of `for` loops in which skipping once is skipping to the end. -/
def Plain (n : Nat) : (inLoop : Bool) → (D : List Var) → Stmt Ev → Prop
  | _, _, .skip => True
  | _, _, .cont => True
  | l, _, .brk => l = true
  | _, _, .ret => False
  | _, D, .emit rs _ => rs ⊆ D
  | _, D, .set _ e => e.reads ⊆ D
  | l, D, .seq a b => Plain n l D a ∧ Plain n l (known D a) b
  | l, D, .ite c a b => c.reads ⊆ D ∧ Plain n l D a ∧ Plain n l D b
  | _, D, .wloop c b => c.reads ⊆ D ∧ Plain n true D b ∧ noCont b
  | _, D, .loop x lo hi step b =>
    lo.reads ⊆ D ∧ hi.reads ⊆ D ∧ step.reads ⊆ D ∧ Plain n true (x :: D) b ∧
      (noCont b ∨ Sticky n D x b)
  | _, _, .par _ _ _ _ _ _ => False
  | _, _, .red _ _ _ _ _ => False

/-- The loop that adds up what the threads left: run for the variable of the threads. -/
def Reduction (n : Nat) (t : ParLoop) (D : List Var) : Stmt Ev → Prop
  | .red x lo _ _ r => x = t.x ∧ lo = t.lo ∧ Plain n true (x :: D) r ∧ (∀ y ∈ assigned r, y ∉ D) ∧
      (noCont r ∨ Sticky n D x r)
  | _ => False

/-- The contents of a loop for blocks: one loop for threads, perhaps inside one for warps, with
declarations, skipped blocks, conditions and loops around it, and reductions after it.  `inner` says
that the threads of one warp are left (or that there are no warps), `d` counts the loops around. -/
def Contents (n : Nat) (t : ParLoop) (w : Option ParLoop) :
    (inner : Bool) → (d : Nat) → (D : List Var) → Stmt Ev → Prop
  | inner, d, D, .par .thread x lo hi step b =>
    inner = true ∧ (⟨x, lo, hi, step⟩ : ParLoop) = t ∧ Plain n false (x :: D) b ∧
      (d = 0 ∨ noCont b) ∧ ∀ y ∈ assigned b, y ∉ D
  | inner, d, D, .par .warp x lo hi step b =>
    inner = false ∧ w = some ⟨x, lo, hi, step⟩ ∧ Contents n t w true d (x :: D) b ∧
      ∀ y ∈ assigned b, y ∉ D
  | inner, d, D, .seq a b =>
    (Plain n false D a ∧ silent a ∧ (d = 0 ∨ noCont a) ∧ Contents n t w inner d (known D a) b) ∨
    (inner = true ∧ Contents n t w inner d D a ∧ noCont a ∧ Reduction n t D b)
  | inner, d, D, .ite c a b => c.reads ⊆ D ∧ Contents n t w inner d D a ∧ b = .skip
  | inner, d, D, .loop x lo hi step b =>
    lo.reads ⊆ D ∧ hi.reads ⊆ D ∧ step.reads ⊆ D ∧ x ≠ t.x ∧ (∀ p ∈ w, x ≠ p.x) ∧
      Contents n t w inner (d + 1) (x :: D) b
  | _, _, _, _ => False

/-- A kernel whose threads can do the work of its loop: `D` are the variables of the host that it
reads.  The sizes of its loops for threads and warps are whole multiples of their steps. -/
structure Kernel.Fits (n : Nat) (k : Kernel Ev) (t : ParLoop) (w : Option ParLoop) (D : List Var)
    (s : Env) : Prop where
  contents : Contents n t w (w = none) 0 (k.x :: D) k.body
  own : ∀ y ∈ assigned k.body, y ∉ D ∧ y ≠ t.x ∧ ∀ p ∈ w, y ≠ p.x
  threadVar : t.x ∉ k.x :: D
  warpVar : ∀ p ∈ w, p.x ∉ k.x :: D ∧ p.x ≠ t.x
  threads : 0 < t.step ∧ t.lo < t.hi ∧ t.step ∣ t.hi - t.lo
  warps : ∀ p ∈ w, 0 < p.step ∧ p.lo ≤ p.hi ∧ p.step ∣ p.hi - p.lo
  step : 0 < k.step.eval s

end Verif.Cuda
