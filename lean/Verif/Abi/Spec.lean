import Verif.Abi.Model
/-!
C79: what it means that a kernel works on the arrays of the tensors it is called with, and that its results arrive.
-/
namespace Verif.Abi

/-- The contents of a storage level: the size of a dense level, or lists of positions and coordinates. -/
inductive LevelData
  | dense (n : Nat)
  | compressed (pos crd : List Nat)
  | singleton (crd : List Nat)
  deriving DecidableEq

/-- Memory at `p` is an array of elements of `w` bytes that starts with these numbers. -/
def Holds (w : Nat) (h : Heap) (p : Ptr) (xs : List Nat) : Prop := ∀ (i x : Nat), xs[i]? = some x → readAt w h p i = some x

/-- The arrays of a level, as the host's classes read them, have these contents. -/
def HostLevel (h : Heap) : Kind → List HArr → LevelData → Prop
  | .dense, [a], .dense n => a.size = 1 ∧ Holds a.bytes h a.ptr [n]
  | .sparse, [a, b], .compressed pos crd => a.size = pos.length ∧ b.size = crd.length ∧ Holds a.bytes h a.ptr pos ∧
      Holds b.bytes h b.ptr crd
  | .singleton, [_, b], .singleton crd => b.size = crd.length ∧ Holds b.bytes h b.ptr crd
  | _, _, _ => False

/-- The index of a storage has these contents. -/
def HostHolds (h : Heap) (s : Storage) (ls : List LevelData) : Prop :=
  s.index.length = s.kinds.length ∧ ls.length = s.kinds.length ∧
    ∀ (i : Nat) k a l, s.kinds[i]? = some k → s.index[i]? = some a → ls[i]? = some l → HostLevel h k a l

/-- The variables that stand for a level in a kernel have these contents, as `int` arrays. `v` are the values of the
variables, `m` is the mode that level `i` stores. -/
def KernelLevel (h : Heap) (v : PropKey → Option Val) (t m i : Nat) : LevelData → Prop
  | .dense n => v ⟨t, .dimension, m, 0⟩ = some (.int n)
  | .compressed pos crd => ∃ p q, v ⟨t, .indices, i, 0⟩ = some (.ptr (some p)) ∧ Holds 4 h p pos ∧
      v ⟨t, .indices, i, 1⟩ = some (.ptr (some q)) ∧ Holds 4 h q crd
  | .singleton crd => ∃ q, v ⟨t, .indices, i, 1⟩ = some (.ptr (some q)) ∧ Holds 4 h q crd

/-- The number of positions after the levels. -/
def positions : Nat → List LevelData → Nat
  | n, [] => n
  | n, .dense d :: ls => positions (n * d) ls
  | _, .compressed _ crd :: ls => positions crd.length ls
  | n, .singleton _ :: ls => positions n ls

/-- The arrays of the levels have the sizes that the levels above ask for. -/
def Fits : Nat → List LevelData → Prop
  | _, [] => True
  | n, .dense d :: ls => Fits (n * d) ls
  | n, .compressed pos crd :: ls => pos.length = n + 1 ∧ pos[n]? = some crd.length ∧ Fits crd.length ls
  | n, .singleton crd :: ls => crd.length = n ∧ Fits n ls

/-- All index arrays are arrays of 32-bit integers. -/
def Int32Index (s : Storage) : Prop := ∀ as ∈ s.index, ∀ a ∈ as, a.bytes = 4

/-- The sizes of dense levels are the dimensions of the modes they store. -/
def DenseSizes (s : Storage) (ls : List LevelData) : Prop :=
  ∀ (i m n : Nat), s.kinds[i]? = some .dense → ls[i]? = some (.dense n) → s.ordering[i]? = some m → s.dims[m]? = some n

/-- The value of the variable that stands for a field in the kernel. -/
def varValue (f : Found) (e : Env) (k : PropKey) : Option Val := (f.name (.prop k)).bind e

/-- The fields that a struct for a storage has; these are the ones a kernel may mention. -/
def FieldOf (s : Storage) (k : PropKey) : Prop :=
  match k.field with
  | .dimension => k.mode < s.dims.length ∧ k.index = 0
  | .indices => (s.kinds[k.mode]? = some .sparse ∧ (k.index = 0 ∨ k.index = 1)) ∨
      (s.kinds[k.mode]? = some .singleton ∧ k.index = 1)
  | _ => k.mode = 0 ∧ k.index = 0

/-- The shape of the struct of a storage: it never changes. -/
def Shaped (s : Storage) (t : Struct) : Prop :=
  t.dims = s.dims ∧ t.indices.map List.length = s.kinds.map slotCount

/-- Levels and their contents are of the same kind. -/
def SameKind : Kind → LevelData → Prop
  | .dense, .dense _ => True
  | .sparse, .compressed _ _ => True
  | .singleton, .singleton _ => True
  | _, _ => False

/-- A storage whose index has these contents, in the form in which kernels read it. -/
structure Operand (h : Heap) (s : Storage) (t : Struct) (ls : List LevelData) : Prop where
  shaped : Shaped s t
  holds : HostHolds h s ls
  int32 : Int32Index s
  dense : DenseSizes s ls
  ordering : s.ordering.length = s.kinds.length

/-- A storage that a kernel can write its result to: dense levels have their sizes, other levels have arrays or not. -/
structure Target (s : Storage) (t : Struct) : Prop where
  shaped : Shaped s t
  length : s.index.length = s.kinds.length
  dense : ∀ (i : Nat) as, s.kinds[i]? = some .dense → s.index[i]? = some as → ∃ a, as = [a]
  other : ∀ (i : Nat) k as, s.kinds[i]? = some k → k ≠ .dense → s.index[i]? = some as → as = [] ∨ ∃ a b, as = [a, b]

end Verif.Abi
