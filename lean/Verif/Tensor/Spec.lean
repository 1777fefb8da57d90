import Verif.Tensor.Model
import Verif.Pack.Spec
/-! Tensors as a user sees them: a value at each coordinate. -/
namespace Verif.Tensor
open Verif.Pack

variable {V : Type}

/-- The tensor holds the given components: packed from them, at distinct coordinates inside the
dimensions, with any sort that `qsort` may be. -/
def Holds (t : Tensor V) (fill : V) (dims : List Nat) (comps : List (Row V)) : Prop :=
  (∃ qs, QsortSpec dims.length qs ∧ make qs fill dims t.kinds t.perm comps = some t) ∧
  t.perm.Perm (List.range dims.length) ∧ (∀ r ∈ comps, inRange dims r.1) ∧ (comps.map Prod.fst).Nodup

/-- The inverse of a permutation of modes. -/
def inverse (p : List Nat) : List Nat := (List.range p.length).map p.idxOf

end Verif.Tensor
