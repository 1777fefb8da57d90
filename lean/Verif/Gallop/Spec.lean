import Verif.Gallop.Model
/-!
What co-iterating the levels of a product has to do, independently of the loop: the coordinates that all
levels store, in increasing order, each with the positions at which each level stores it.
-/
namespace Verif.Gallop

/-- The positions of the segment at which the level stores coordinate `c` are exactly those of `[p,q)`,
and there is at least one. -/
def Stored (it : Iter) (c : Int) (p q : Nat) : Prop :=
  it.s ≤ p ∧ p < q ∧ q ≤ it.e ∧ ∀ i, it.s ≤ i → i < it.e → (it.crd[i]? = some c ↔ p ≤ i ∧ i < q)

/-- Every level stores `c`, at the given ranges. -/
def AllStored (c : Int) : List Iter → List (Nat × Nat) → Prop
  | [], [] => True
  | it :: its, r :: rs => Stored it c r.1 r.2 ∧ AllStored c its rs
  | _, _ => False

/-- The events are the common coordinates with their positions, in increasing order of coordinates. -/
def Intersection (its : List Iter) (evs : List Event) : Prop :=
  evs.Pairwise (fun a b => a.1 < b.1) ∧ ∀ c rs, (c, rs) ∈ evs ↔ AllStored c its rs

/-- A level as stored in a tensor: the segment lies in the array and its coordinates increase, strictly
unless the level may hold duplicates. -/
structure Ordered (it : Iter) : Prop where
  bounds : it.s ≤ it.e
  inside : it.e ≤ it.crd.length
  sorted : ∀ i j x y, it.s ≤ i → i < j → j < it.e → it.crd[i]? = some x → it.crd[j]? = some y →
    x ≤ y ∧ (it.unique = true → x < y)

/-- Number of coordinates stored in the segments. -/
def entries (its : List Iter) : Nat := (its.map (fun it => it.e - it.s)).sum

/-- The laws of zero. -/
structure Laws {V : Type} (o : Arith V) : Prop where
  add_zero : ∀ x, o.add x o.zero = x
  zero_add : ∀ x, o.add o.zero x = x
  mul_zero : ∀ x, o.mul x o.zero = o.zero
  zero_mul : ∀ x, o.mul o.zero x = o.zero

/-- The component of a vector at coordinate `c`: the sum of the values stored for it. -/
def component {V : Type} (o : Arith V) (it : Iter) (vals : List V) (c : Int) : V :=
  (List.range' it.s (it.e - it.s)).foldl
    (fun acc i => if it.crd[i]? = some c then o.add acc (vals[i]?.getD o.zero) else acc) o.zero

/-- `x * y * z`, from left to right. -/
def times {V : Type} (o : Arith V) : List V → V
  | [] => o.zero
  | [v] => v
  | v :: w :: vs => times o (o.mul v w :: vs)
termination_by vs => vs.length

/-- `sum(c, a(c) * b(c) * ...)` for `c` from `0` to `n - 1`. -/
def sumProduct {V : Type} (o : Arith V) (n : Nat) (xs : List (Iter × List V)) : V :=
  (List.range n).foldl
    (fun acc (c : Nat) => o.add acc (times o (xs.map (fun x => component o x.1 x.2 c)))) o.zero

end Verif.Gallop
