import Verif.Format.Model
/-! C101: formats as keys of Python's dictionaries. What a user expects: the value of a key is the one that was last
stored for an equal key. Only the comparison of formats is used here. -/
namespace Verif.PyHash
open Verif.Format

/-- What was stored, oldest first. -/
abbrev History (α : Type) := List (Fmt × α)

/-- `v` was stored for a format that equals `k`, and nothing was stored for such a format after it. -/
def LastFor {α : Type} (h : History α) (k : Fmt) (v : α) : Prop :=
  ∃ before k' after, h = before ++ (k', v) :: after ∧ k'.eq k = true ∧ ∀ e ∈ after, e.1.eq k = false

/-- Nothing was stored for a format that equals `k`. -/
def NeverFor {α : Type} (h : History α) (k : Fmt) : Prop := ∀ e ∈ h, e.1.eq k = false

end Verif.PyHash
