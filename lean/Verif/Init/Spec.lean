import Verif.EndToEnd.Spec
/-!
What a user expects of the components of a result, whatever its memory held before. The meaning of an
assignment is that of `Verif/EndToEnd/Spec.lean`.
-/
namespace Verif.Init
open Verif.Pack (Row inRange)

/-- The components of a result are those of `f`: every coordinate is listed at most once and with its
value, and what is not listed is zero. -/
structure Holds {V : Type} (zero : V) (dims : List Nat) (f : List Nat → V) (out : List (Row V)) : Prop where
  once : (out.map Prod.fst).Nodup
  value : ∀ x ∈ out, inRange dims x.1 ∧ x.2 = f x.1
  rest : ∀ c, inRange dims c → c ∉ out.map Prod.fst → f c = zero

end Verif.Init
