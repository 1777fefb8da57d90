import Verif.Memory.Model

/-! What a user may rely on, and what the user has to do for it. -/

namespace Verif.Memory

/-- Memory is used and freed only after it was allocated and before it was freed, and no pointer is used before it is set. -/
def Safe (tr : List Ev) : Prop := ∀ pre e post, tr = pre ++ e :: post → match e with
  | .malloc p _ => ∀ w, .malloc p w ∉ pre
  | .free p | .use p | .write p => (∃ w, .malloc p w ∈ pre) ∧ .free p ∉ pre
  | .wild => False

/-- Memory of this kind was allocated and is not freed. -/
def Leaked (tr : List Ev) (p : Ptr) (w : What) : Prop := .malloc p w ∈ tr ∧ .free p ∉ tr

/-- No array that exists refers to the memory. -/
def Unreferenced (s : State) (p : Ptr) : Prop := ∀ a x, s.arrays a = some x → x.ptr ≠ some p

/-- The tensor exists and does not wait to be computed. -/
def NotPending (s : State) (t : Nat) : Prop := ∃ x, s.tensors t = some x ∧ x.needsCompute = false

/-- What the user has to observe with each call.
* Pointers given to `makeCSR` are memory of the user; values that are given away are nothing else at the same time.
* A tensor is assembled and computed only when the tensors of its assignment exist and do not wait to be computed.
* A tensor is computed with a kernel that was compiled for its `assembleWhileCompute`, after it was assembled (unless that
  happens while computing).
* Memory of the user is freed by the user, once, and when no array refers to it.
* A storage that is set belongs to a tensor that holds values. -/
def Allowed (s : State) : Op → Prop
  | .csr r c v owned => r ∈ s.user ∧ c ∈ s.user ∧ v ∈ s.user ∧ (owned = true → v ≠ r ∧ v ≠ c ∧ Unreferenced s v)
  | .assemble t => ∀ x, s.tensors t = some x → ∀ u ∈ x.srcs, NotPending s u
  | .compute t => ∀ x, s.tensors t = some x → (∀ u ∈ x.srcs, NotPending s u) ∧ x.kernel = some x.flag ∧
      (x.flag = false → x.needsAssemble = false)
  | .share _ u => ∀ y, s.tensors u = some y → y.needsPack = false ∧ y.needsCompute = false
  | .userFree p => p ∈ s.user ∧ Unreferenced s p
  | _ => True

/-- A history in which the user observes this. -/
def AllowedAll : List Op → State → Prop
  | [], _ => True
  | o :: ops, s => Allowed s o ∧ AllowedAll ops (step o s)

/-- The history leaves `assembleWhileCompute` alone. -/
def NoFlag (ops : List Op) : Prop := ∀ o ∈ ops, match o with
  | .setFlag _ b => b = false
  | _ => True

end Verif.Memory
