import Verif.Pack.Model
/-! Specification of packing, independent of `packTensor`. -/
namespace Verif.Pack
open Verif.Merge (Lvl box)

variable {V : Type}

/-- The value inserted first at a coordinate, or the fill value. -/
def firstAt (fill : V) (rows : List (Row V)) (c : List Nat) : V :=
  match rows.find? (fun r => r.1 == c) with
  | some r => r.2
  | none => fill

/-- The number of leading modes up to and including the last compressed one. -/
def keyLen : List Kind → Nat
  | [] => 0
  | .sparse :: ks => keyLen ks + 1
  | .dense :: ks => if keyLen ks = 0 then 0 else keyLen ks + 1

/-- A coordinate has a slot when dense levels materialise it or some row agrees with it on the modes
down to the last compressed level. -/
def stored (kinds : List Kind) (rows : List (Row V)) (c : List Nat) : Bool :=
  decide (keyLen kinds = 0) || rows.any (fun r => r.1.take (keyLen kinds) == c.take (keyLen kinds))

/-- Coordinates have one entry per mode and lie inside the dimensions. -/
def inRange (dims : List Nat) (c : List Nat) : Prop :=
  c.length = dims.length ∧ ∀ m (h : m < c.length) (h' : m < dims.length), c[m] < dims[m]

/-- Well formed index arrays over `s` parent positions and `m` values. -/
def IndexWF : Nat → List (Nat × Lvl) → Nat → Prop
  | s, [], m => m = s
  | s, (n, .dense d) :: ls, m => d = n ∧ IndexWF (s * n) ls m
  | s, (n, .comp pos crd) :: ls, m =>
    pos.length = s + 1 ∧ pos[0]? = some 0 ∧ pos[s]? = some crd.length ∧ pos.Pairwise (· ≤ ·) ∧
    (∀ p a b, pos[p]? = some a → pos[p + 1]? = some b →
      ((crd.drop a).take (b - a)).Pairwise (· < ·)) ∧
    (∀ x ∈ crd, x < n) ∧ IndexWF crd.length ls m

end Verif.Pack
