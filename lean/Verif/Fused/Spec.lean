import Verif.Fused.Model
import Verif.Pack.Spec
/-!
What a loop over fused positions should do: visit what the loops over the levels visit, in the same
order. The loops over the levels are `Verif.Pack.walk`, here with the number of the position as value.
-/
namespace Verif.Fused
open Verif.Merge (Lvl)
open Verif.Pack

/-- The components in the order of the loops over the levels, with their position in the last level. -/
def unfused (lv : List Lvl) : Option (List (List Nat × Nat)) :=
  match getSize lv with
  | none => none
  | some n => walk (List.range n) lv 0

/-- No position of the level above has an empty segment. -/
def NoEmpty (pos : List Nat) : Prop := ∀ p a b, pos[p]? = some a → pos[p + 1]? = some b → a < b

/-- Below compressed levels no segment is empty (as in every packed tensor). -/
def NoEmptyBelow : List Lvl → Prop
  | .comp _ _ :: .comp pos crd :: ls => NoEmpty pos ∧ NoEmptyBelow (.comp pos crd :: ls)
  | _ :: ls => NoEmptyBelow ls
  | [] => True

/-- The levels that can be fused: compressed, except for the first one, which can be dense, and at
least two. -/
def Fusable : List Lvl → Prop
  | _ :: l :: ls => ∀ x ∈ l :: ls, ∃ pos crd, x = .comp pos crd
  | _ => False

/-- The first stored component has coordinate zero in every compressed level above the last one, and
when there are more than two levels the first row of a dense first level is not empty. -/
def StartsAtZero : List Lvl → Prop
  | .dense _ :: .comp pos crd :: l :: ls =>
    (∀ a, pos[1]? = some a → 0 < a) ∧ StartsAtZero (.comp pos crd :: l :: ls)
  | .comp _ crd :: l :: ls => (∀ c, crd[0]? = some c → c = 0) ∧ StartsAtZero (l :: ls)
  | _ => True

/-- No row of a dense first level is empty, when there are more than two levels. -/
def RowsFilled : List Lvl → Prop
  | .dense _ :: .comp pos _ :: _ :: _ => NoEmpty pos
  | _ => True

end Verif.Fused
