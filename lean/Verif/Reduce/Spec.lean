/-!
The meaning of explicit reductions `Reduction(op, i, e)`: include/taco/index_notation/index_notation.h 569-590
(`Reduction`) and the user documentation of `Func`: the values of `e` for all `i` are combined with `op`, starting
from the identity of `op`.
-/
namespace Verif.Reduce

/-- A reduction operator with its identity. -/
structure Op (V : Type) where
  f : V → V → V
  ident : V

/-- What makes an operator usable for reductions. -/
structure Op.Laws {V : Type} (op : Op V) : Prop where
  assoc : ∀ a b c, op.f (op.f a b) c = op.f a (op.f b c)
  ident_left : ∀ a, op.f op.ident a = a
  ident_right : ∀ a, op.f a op.ident = a

/-- The values of the index variables. -/
abbrev Env := Nat → Nat

def Env.set (ρ : Env) (i x : Nat) : Env := fun j => if j = i then x else ρ j

/-- `Reduction(op1, i1, Reduction(op2, i2, ... e))` for given values of the other variables. -/
def nested {V : Type} (size : Nat → Nat) (e : Env → V) : List (Op V × Nat) → Env → V
  | [], ρ => e ρ
  | (op, i) :: rs, ρ => (List.range (size i)).foldl (fun a x => op.f a (nested size e rs (ρ.set i x))) op.ident

end Verif.Reduce
