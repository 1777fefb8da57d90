import Verif.Format.Model
/-! What a user means by equal formats and by a variant of a mode format. -/
namespace Verif.Format

/-- The mode formats are the same but for padding. -/
def SameMode (a b : Impl) : Prop :=
  a.kind = b.kind ∧ a.isFull = b.isFull ∧ a.isOrdered = b.isOrdered ∧ a.isUnique = b.isUnique ∧
  a.isZeroless = b.isZeroless ∧ (a.kind ≠ .dense → a.allocSize = b.allocSize)

/-- A format that the constructors can make: every mode format is defined and made by its
constructor, and the ordering has an entry for each mode. -/
def Made' (f : Fmt) : Prop :=
  (∀ p ∈ f.packs, ∀ m ∈ p.modes, ∃ i, m = some i ∧ Made i) ∧ f.ordering.length = f.order

/-- Formats of the same structure: the same packs of the same mode formats in the same order. -/
def SameFmt (a b : Fmt) : Prop :=
  a.ordering = b.ordering ∧ a.packs.length = b.packs.length ∧
  ∀ (i : Nat) (p q : Pack), a.packs[i]? = some p → b.packs[i]? = some q → p.modes.length = q.modes.length ∧
    ∀ (j : Nat) (m n : Impl), p.modes[j]? = some (some m) → q.modes[j]? = some (some n) → SameMode m n

/-- The flag that a property speaks about and the value it asks for. -/
inductive Flag | full | ordered | unique | branchless | compact | zeroless | padded
  deriving DecidableEq

def Prop'.flag : Prop' → Flag
  | .full | .notFull => .full
  | .ordered | .notOrdered => .ordered
  | .unique | .notUnique => .unique
  | .branchless | .notBranchless => .branchless
  | .compact | .notCompact => .compact
  | .zeroless | .notZeroless => .zeroless
  | .padded | .notPadded => .padded

/-- The properties that can be configured for each kind of mode format. -/
def Configurable : Kind → Flag → Prop
  | .dense, g => g = .ordered ∨ g = .unique ∨ g = .zeroless
  | .compressed, g => g = .full ∨ g = .ordered ∨ g = .unique ∨ g = .zeroless
  | .singleton, g => g = .full ∨ g = .ordered ∨ g = .unique ∨ g = .zeroless ∨ g = .padded

/-- The last of a list of properties that speaks about a flag. -/
def lastAbout (g : Flag) (ps : List Prop') : Option Prop' := (ps.reverse).find? (fun p => decide (p.flag = g))

end Verif.Format
