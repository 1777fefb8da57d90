/-
Model of the delayed evaluation of tensors: the flags of a tensor, its insertion buffer,
its assignment and the tensors that wait for it, and the calls that change them
(src/tensor.cpp, include/taco/tensor.h).

What is left out: the contents of storage are an abstract map from coordinates to
integers, a kernel is an abstract function of the operands' contents, packing adds the
buffered components to the packed ones (modelled in detail in `Verif/Pack`), and
`assembleWhileCompute` is `false`.  Tensors are numbers.
-/
namespace Verif.Lazy

/-- The contents of a tensor. -/
abbrev Val := List Nat → Int

/-- Adding a component. -/
def addAt (f : Val) (c : List Nat) (v : Int) : Val := fun c' => if c' = c then f c' + v else f c'

/-- Adding the buffered components. -/
def addAll (f : Val) (buf : List (List Nat × Int)) : Val :=
  buf.foldl (fun f p => addAt f p.1 p.2) f

/-- The components that are not zero. -/
def support (v : Val) : List Nat → Bool := fun c => v c != (0 : Int)

/-- An assignment: the number of the expression and its operands. -/
abbrev Assign := Nat × List Nat

/-- `TensorBase::Content` (include/taco/tensor.h 880-930).  `asm` is the result of
`assemble`: which components there is room for.  `alive` is `false` after the last handle
is gone. -/
structure T where
  store : Val := fun _ => 0
  asm : Option (List Nat → Bool) := none
  buffer : List (List Nat × Int) := []
  neverPacked : Bool := true
  needsPack : Bool := true
  needsCompile : Bool := false
  needsAssemble : Bool := false
  needsCompute : Bool := false
  assign : Option Assign := none
  kernel : Option Assign := none
  deps : List Nat := []
  alive : Bool := true

abbrev State := Nat → T

/-- Changing one tensor. -/
def set (s : State) (t : Nat) (x : T) : State := fun u => if u = t then x else s u

/-- A new tensor (src/tensor.cpp 112-151). -/
def initial : State := fun _ => {}

/-- `pack` (src/tensor.cpp 294-463): the packed components are reinserted into the buffer
unless the tensor was never packed, and the buffer is packed. -/
def pack (s : State) (t : Nat) : State :=
  let x := s t
  if x.needsPack then
    set s t { x with
      needsPack := false
      neverPacked := false
      store := if x.neverPacked then addAll (fun _ => 0) x.buffer else addAll x.store x.buffer
      buffer := [] }
  else s

/-- The distinct operands of an assignment, `getTensors` (src/tensor.cpp 740-776).  The
order in which the map is traversed is not modelled. -/
def operands (a : Option Assign) : List Nat :=
  match a with
  | none => []
  | some a => a.2.eraseDups

/-- `compile` (src/tensor.cpp 605-674) once it is known that there is an assignment. -/
def compile (s : State) (t : Nat) : State :=
  let x := s t
  if x.needsCompile then set s t { x with needsCompile := false, kernel := x.assign } else s

/-- `removeDependentTensor` on the list of waiting tensors (src/tensor.cpp 699-721): the
last occurrence at the back, otherwise the first one, which is replaced by the last
element. -/
def removeDep (l : List Nat) (t : Nat) : List Nat :=
  if l.getLast? = some t then l.dropLast
  else
    match l.findIdx? (· == t) with
    | none => l
    | some i => (l.set i (l.getLastD 0)).dropLast

/-- Syncing all operands in turn. -/
def syncAll (sync : State → Nat → Option State) : List Nat → State → Option State
  | [], s => some s
  | o :: os, s => (sync s o).bind (syncAll sync os)

/-- Syncing all operands in turn and taking oneself off their lists. -/
def syncRemove (sync : State → Nat → Option State) (t : Nat) :
    List Nat → State → Option State
  | [], s => some s
  | o :: os, s => (sync s o).bind fun s =>
      syncRemove sync t os (set s o { s o with deps := removeDep (s o).deps t })

/-- What a kernel computes: `sem` gives the meaning of expressions. -/
def kernelValue (sem : Nat → List Val → Val) (s : State) (t : Nat) : Option Val :=
  match (s t).kernel, (s t).assign with
  | some k, some a => some (sem k.1 (a.2.map fun o => (s o).store))
  | _, _ => none

/-- Calling the `assemble` kernel (src/tensor.cpp 819-826). -/
def callAssemble (sem : Nat → List Val → Val) (s : State) (t : Nat) : Option State :=
  (kernelValue sem s t).map fun v =>
    set s t { s t with asm := some (support v), needsAssemble := false }

/-- `assemble` (src/tensor.cpp 808-827).  `none` is a failed assertion. -/
def assemble (sem : Nat → List Val → Val) (sync : State → Nat → Option State) (s : State)
    (t : Nat) : Option State :=
  if (s t).needsCompile then none
  else if (s t).needsAssemble then
    (syncAll sync (operands (s t).assign) s).bind fun s => callAssemble sem s t
  else some s

/-- Calling the `compute` kernel (src/tensor.cpp 842-849): it fills the components there
is room for; without assembled storage the outcome is undefined. -/
def callCompute (sem : Nat → List Val → Val) (s : State) (t : Nat) : Option State :=
  match kernelValue sem s t, (s t).asm with
  | some v, some a => some (set s t { s t with store := fun c => if a c then v c else 0 })
  | _, _ => none

/-- `compute` (src/tensor.cpp 829-850). -/
def compute (sem : Nat → List Val → Val) (sync : State → Nat → Option State) (s : State)
    (t : Nat) : Option State :=
  if (s t).needsCompile then none
  else if (s t).needsCompute then
    (syncRemove sync t (operands (s t).assign)
      (set s t { s t with needsCompute := false })).bind fun s => callCompute sem s t
  else some s

/-- `syncValues` (src/tensor.cpp 685-693) with the recursive calls given.  `none` if the
tensor is gone. -/
def syncWith (sem : Nat → List Val → Val) (sync : State → Nat → Option State) (s : State)
    (t : Nat) : Option State :=
  if (s t).alive = false then none
  else if (s t).needsPack then some (pack s t)
  else if (s t).needsCompute then
    (assemble sem sync (compile s t) t).bind fun s => compute sem sync s t
  else some s

/-- `syncValues` with a bound on the depth of recursion. -/
def syncN (sem : Nat → List Val → Val) : Nat → State → Nat → Option State
  | 0, _, _ => none
  | n + 1, s, t => syncWith sem (syncN sem n) s t

/-- `syncDependentTensors` (src/tensor.cpp 733-738). -/
def syncDependents (sync : State → Nat → Option State) (s : State) (t : Nat) : Option State :=
  (syncAll sync (s t).deps s).map fun s => set s t { s t with deps := [] }

/-- Adding the tensor to the lists of the operands (src/tensor.cpp 695-697). -/
def addDeps (t : Nat) : List Nat → State → State
  | [], s => s
  | o :: os, s => addDeps t os (set s o { s o with deps := (s o).deps ++ [t] })

/-- Taking the tensor off the lists of the operands. -/
def removeDeps (t : Nat) : List Nat → State → State
  | [], s => s
  | o :: os, s => removeDeps t os (set s o { s o with deps := removeDep (s o).deps t })

/-- The calls a user can make. -/
inductive Op where
  | insert (t : Nat) (c : List Nat) (v : Int)
  | assign (t : Nat) (a : Assign)
  | assignScalar (t : Nat) (a : Assign)
  | pack (t : Nat)
  | compile (t : Nat)
  | assemble (t : Nat)
  | compute (t : Nat)
  | evaluate (t : Nat)
  | read (t : Nat)
  | destroy (t : Nat)
  | setStorage (t : Nat) (v : Val)

/-- What a call shows to the user: nothing, an error that leaves everything as it was, or
the contents that were read. -/
inductive Out where
  | done
  | error
  | value (v : Val)

/-- A tensor that waits is taken off its operands' lists (src/tensor.cpp 533-538). -/
def unwait (s : State) (t : Nat) : State :=
  if (s t).needsCompute then removeDeps t (operands (s t).assign) s else s

/-- The comparison with the old assignment (src/tensor.cpp 531-540): if the assignment is
new the tensor stops waiting for the old operands and must be compiled. -/
def retire (s : State) (t : Nat) (a : Assign) : State :=
  if (s t).assign = some a then s
  else set (unwait s t) t { unwait s t t with needsCompile := true }

/-- The part of `AccessTensorNode::setAssignment` after the waiting tensors were synced
(src/tensor.cpp 524-544). -/
def assignTo (s : State) (t : Nat) (a : Assign) : State :=
  let s := set s t { s t with needsPack := false }
  let s := retire s t a
  let s := set s t { s t with needsAssemble := true, needsCompute := true }
  let s := addDeps t (operands (some a)) s
  set s t { s t with assign := some a }

/-- The same part of `TensorBase::operator=` for scalars (src/tensor.cpp 866-880): the
tensor is not taken off the old operands' lists. -/
def assignScalarTo (s : State) (t : Nat) (a : Assign) : State :=
  let s := addDeps t (operands (some a)) s
  let s := set s t { s t with needsPack := false }
  let s := if (s t).assign = some a then s else set s t { s t with needsCompile := true }
  set s t { s t with needsAssemble := true, needsCompute := true, assign := some a }

/-- The effect of one call; `none` if it crashes or does not return. -/
def step (sem : Nat → List Val → Val) (fuel : Nat) (s : State) : Op → Option (State × Out)
  | .insert t c v =>                                        -- tensor.h 939-965
    (syncDependents (syncN sem fuel) s t).map fun s =>
      (set s t { s t with buffer := (s t).buffer ++ [(c, v)], needsPack := true }, .done)
  | .assign t a =>                                          -- tensor.cpp 521-545
    (syncDependents (syncN sem fuel) s t).map fun s => (assignTo s t a, .done)
  | .assignScalar t a =>                                    -- tensor.cpp 860-881
    (syncDependents (syncN sem fuel) s t).map fun s => (assignScalarTo s t a, .done)
  | .pack t => some (pack s t, .done)
  | .compile t =>
    if (s t).assign = none then some (s, .error) else some (compile s t, .done)
  | .assemble t =>
    if (s t).needsCompile then some (s, .error)
    else (assemble sem (syncN sem fuel) s t).map fun s => (s, .done)
  | .compute t =>
    if (s t).needsCompile then some (s, .error)
    else (compute sem (syncN sem fuel) s t).map fun s => (s, .done)
  | .evaluate t =>                                          -- tensor.cpp 852-858
    if (s t).assign = none then some (s, .error)
    else ((assemble sem (syncN sem fuel) (compile s t) t).bind fun s =>
      compute sem (syncN sem fuel) s t).map fun s => (s, .done)
  | .read t =>                                              -- tensor.h 362-366, 1039
    (syncN sem fuel s t).map fun s => (s, .value (s t).store)
  | .destroy t => some (set s t { s t with alive := false }, .done)
  | .setStorage t v =>                                      -- tensor.cpp 465-470
    some (set s t { s t with needsPack := false, store := v }, .done)

/-- A history of calls. -/
def run (sem : Nat → List Val → Val) (fuel : Nat) : State → List Op → Option (State × List Out)
  | s, [] => some (s, [])
  | s, op :: ops =>
    (step sem fuel s op).bind fun r =>
      (run sem fuel r.1 ops).map fun q => (q.1, r.2 :: q.2)

end Verif.Lazy
