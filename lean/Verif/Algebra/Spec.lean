import Verif.Algebra.Model
/-
Specification: what an iteration-space description denotes, what it means for an
operator to have an annihilator or an identity, and what a reduction computes.
-/
namespace Verif.Algebra

/-- Which points belong to an iteration space, given which regions a point is in. -/
def Mem (inRegion : Nat → Prop) : Alg → Prop
  | .region n => inRegion n
  | .compl a => ¬ Mem inRegion a
  | .inter a b => Mem inRegion a ∧ Mem inRegion b
  | .union a b => Mem inRegion a ∨ Mem inRegion b

/-- Complements are applied to regions only. -/
def Normal : Alg → Prop
  | .region _ => True
  | .compl (.region _) => True
  | .compl _ => False
  | .inter a b => Normal a ∧ Normal b
  | .union a b => Normal a ∧ Normal b

/-- A position a declaration speaks about. -/
def Declared {V} (p : Decl V) (i : Nat) : Prop := p.positions = [] ∨ i ∈ p.positions

/-- The operator really has the declared annihilator: with it at a declared position
the result is it. -/
def HasAnnihilator {V} (op : List V → V) (p : Decl V) : Prop :=
  ∀ (args : List V) i, Declared p i → args[i]? = some p.val → op args = p.val

/-- The operator really has the declared identity: if all arguments but one are the
identity, at declared positions, the result is that one. -/
def HasIdentity {V} (op : List V → V) (p : Decl V) : Prop :=
  ∀ (args : List V) k x, args[k]? = some x →
    (∀ i, i < args.length → i ≠ k → Declared p i ∧ args[i]? = some p.val) → op args = x

/-- The value of an argument. -/
def argVal {V} (env : Nat → V) : Arg V → V
  | .lit v => v
  | .expr n => env n

/-- The value of a rewritten call. -/
def callVal {V} (op : List V → V) (env : Nat → V) : Call V → V
  | .arg a => argVal env a
  | .call args => op (args.map (argVal env))

/-- All the values the right-hand side takes for one location of the result, in loop
order: `loops` enumerates the values of the loop variables. -/
def envs : List (Nat × Nat) → (Nat → Nat) → List (Nat → Nat)
  | [], env => [env]
  | (v, n) :: rest, env => (List.range n).flatMap fun x => envs rest (setVar env v x)

/-- The value of a reduction at one location: the operator folded over the values of
the right-hand side at that location, starting from the value already there. -/
def reduced {V} (op : List V → V) (n : Nest V) (start : V) (k : List Nat) : V :=
  (((envs n.loops (fun _ => 0)).filter (fun env => n.lhs.map env = k)).filterMap n.rhs).foldl
    (fun acc r => op [acc, r]) start

end Verif.Algebra
