import Verif.Dims.Model
/-! What the sizes of tensors are meant to be. -/
namespace Verif.Dims
open Verif.IndexText (X Op Assign)

/-- The accesses of an expression: name and variables. -/
def accs : X → List (Name × List Name)
  | .lit _ | .other _ => []
  | .acc n vs => [(n, vs)]
  | .neg a => accs a
  | .bin _ a b => accs a ++ accs b

/-- The expression with every access reduced to its name and its variables is the one that was written. -/
def Same : T Access → X → Prop
  | .lit m, .lit n => m = n
  | .other w, .other u => w = u
  | .acc a, .acc n vs => a.tensor.name = n ∧ a.vars = vs
  | .neg a, .neg b => Same a b
  | .bin op a b, .bin op' a' b' => op = op' ∧ Same a a' ∧ Same b b'
  | _, _ => False

/-- The accesses of the whole assignment. -/
def allAccs (s : Assign) : List (Name × List Name) := (s.name, s.vars) :: accs s.rhs

/-- The accesses of the result. -/
def Parsed.accesses (r : Parsed) : List Access := r.lhs :: r.rhs.leaves

/-- The sizes that the user fixed for a tensor: those of the tensor that was read, otherwise those of the option. -/
def given (o : Options) (name : Name) : Option (List Nat) :=
  match o.loaded.lookup name with
  | some t => some t.dims
  | none => o.dims name

/-- Tensors that were read are known by their own names. -/
def LoadedOK (o : Options) : Prop := ∀ n t, o.loaded.lookup n = some t → t.name = n

/-- The user fixed the size of a variable: by an option, or by the size of an operand that is indexed with it. -/
def Declared (o : Options) (s : Assign) (v : Name) : Prop :=
  o.dims v ≠ none ∨ ∃ a ∈ accs s.rhs, given o a.1 ≠ none ∧ v ∈ a.2

/-- The options ask for exactly the sizes `size` of the variables of the assignment. -/
structure Sizes (o : Options) (s : Assign) (size : Name → Nat) : Prop where
  /-- Tensors whose size is given, the result among them, have these sizes. -/
  tensors : ∀ a ∈ allAccs s, ∀ ds, given o a.1 = some ds → ds = a.2.map size
  /-- Variables whose size is given have this size. -/
  vars : ∀ a ∈ allAccs s, ∀ v ∈ a.2, ∀ ds, o.dims v = some ds → ds.head? = some (size v)
  /-- All others have the default size. -/
  others : ∀ a ∈ allAccs s, given o a.1 = none → ∀ v ∈ a.2, ¬ Declared o s v → size v = o.default
  /-- Formats have as many modes as the tensors. -/
  formats : ∀ a ∈ allAccs s, ∀ f, o.formats a.1 = some f → f.length = a.2.length

/-- The user asks for a size of a variable: by an option for a variable that occurs, or by an operand of given sizes. -/
def Asked (o : Options) (s : Assign) (v : Name) (d : Nat) : Prop :=
  ((∃ a ∈ allAccs s, v ∈ a.2) ∧ ∃ ds, o.dims v = some (d :: ds)) ∨
    ∃ a ∈ accs s.rhs, ∃ (i : Nat) (ds : List Nat), a.2[i]? = some v ∧ given o a.1 = some ds ∧ ds[i]? = some d

/-- Every tensor whose sizes are not given is indexed with the same variables wherever it occurs. -/
def Uniform (o : Options) (s : Assign) : Prop := ∀ a ∈ allAccs s, ∀ b ∈ allAccs s, a.1 = b.1 → given o a.1 = none → a.2 = b.2

end Verif.Dims
