import Verif.Lazy.Model
/-
Specification: the same calls carried out at once.  Inserting adds a component to the
tensor, an assignment gives the tensor the value of the expression over the operands'
values at that time, reading returns the tensor's value, and everything else does nothing.
-/
namespace Verif.Lazy

/-- What a call does to the values of the tensors. -/
def eagerStep (sem : Nat → List Val → Val) (σ : Nat → Val) : Op → (Nat → Val)
  | .insert t c v => fun u => if u = t then addAt (σ t) c v else σ u
  | .assign t a => fun u => if u = t then sem a.1 (a.2.map σ) else σ u
  | .assignScalar t a => fun u => if u = t then sem a.1 (a.2.map σ) else σ u
  | _ => σ

/-- What a history of calls reads: one entry for every `read`. -/
def eagerReads (sem : Nat → List Val → Val) : (Nat → Val) → List Op → List Val
  | _, [] => []
  | σ, .read t :: ops => σ t :: eagerReads sem σ ops
  | σ, op :: ops => eagerReads sem (eagerStep sem σ op) ops

/-- The values read in a list of outcomes. -/
def reads : List Out → List Val
  | [] => []
  | .value v :: outs => v :: reads outs
  | _ :: outs => reads outs

/-- The histories the theorem is about: a tensor is not inserted into after it was
assigned, an expression does not mention the tensor it is assigned to, `compute` is only
called by way of `evaluate`, and tensors are neither destroyed nor given storage from
outside.  `assigned` are the tensors assigned so far. -/
def Plain : List Nat → List Op → Prop
  | _, [] => True
  | assigned, .insert t _ _ :: ops => t ∉ assigned ∧ Plain assigned ops
  | assigned, .assign t a :: ops => t ∉ a.2 ∧ Plain (t :: assigned) ops
  | assigned, .assignScalar t a :: ops => t ∉ a.2 ∧ Plain (t :: assigned) ops
  | _, .compute _ :: _ => False
  | _, .destroy _ :: _ => False
  | _, .setStorage _ _ :: _ => False
  | assigned, _ :: ops => Plain assigned ops

/-- Nothing is pending, and everything inserted so far is in the buffer or packed. -/
def Good (x : T) : Prop :=
  x.needsCompute = false ∧ (x.needsPack = true ∨ (x.neverPacked = false ∧ x.buffer = []))

/-- A weaker condition, on the state a call is made in: components are inserted into a
tensor that was never assigned, or that is up to date and was packed before it was
assigned; an expression does not mention the tensor it is assigned to; `compute` follows
`assemble`; tensors are neither destroyed nor given storage from outside. -/
def Fine (s : State) : Op → Prop
  | .insert t _ _ => (s t).assign = none ∨ Good (s t)
  | .assign t a => t ∉ a.2
  | .assignScalar t a => t ∉ a.2
  | .compute t => (s t).needsCompile = true ∨ (s t).needsCompute = false ∨
      (s t).needsAssemble = false
  | .destroy _ => False
  | .setStorage _ _ => False
  | _ => True

/-- Every call of a history is `Fine` in the state it is made in. -/
def AllFine (sem : Nat → List Val → Val) (fuel : Nat) : State → List Op → Prop
  | _, [] => True
  | s, op :: ops => Fine s op ∧ ∀ s' o, step sem fuel s op = some (s', o) →
      AllFine sem fuel s' ops

end Verif.Lazy
