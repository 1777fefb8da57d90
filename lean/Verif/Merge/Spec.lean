import Verif.Merge.Expr
/-!
Specification of what a kernel computes, independent of lattices and loops.

Storage of an operand is a list of levels, one per loop variable of the statement (`none` when the
operand is not indexed by that variable), and a value array: the arrays `dimension`, `pos`, `crd` and
`vals` of `taco_tensor_t` (`include/taco/taco_tensor_t.h`).
-/
namespace Verif.Merge

/-- A storage level (mode_format_dense.cpp, mode_format_compressed.cpp). -/
inductive Lvl
  | dense (n : Nat)
  | comp (pos crd : List Nat)
  deriving DecidableEq, Repr

/-- The stored coordinates below position `p`: `crd[pos[p] .. pos[p+1])`, with the start. `none`: a
load outside the arrays. -/
def segment (pos crd : List Nat) (p : Nat) : Option (Nat × List Nat) :=
  match pos[p]?, pos[p + 1]? with
  | some a, some b => if a ≤ b ∧ b ≤ crd.length then some (a, (crd.drop a).take (b - a)) else none
  | _, _ => none

/-- The position of coordinate `c` below position `p`, if stored. -/
def locate (l : Option Lvl) (p c : Nat) : Option Nat :=
  match l with
  | none => some p
  | some (.dense n) => some (p * n + c)
  | some (.comp pos crd) =>
    match segment pos crd p with
    | none => none
    | some (a, seg) => if c ∈ seg then some (a + seg.idxOf c) else none

/-- The value of an operand at the coordinates of the loop variables: zero when not stored. -/
def valueAt {V : Type} (zero : V) (vals : List V) : List (Option Lvl) → List Nat → Nat → V
  | [], _, p => vals.getD p zero
  | _ :: _, [], _ => zero
  | l :: ls, c :: cs, p =>
    match locate l p c with
    | none => zero
    | some p' => valueAt zero vals ls cs p'

/-- Well formed storage: dense levels have the size of the dimension; compressed levels have one
segment per parent position, inside `crd`, strictly increasing and below the dimension; there is a
value for every position of the last level. -/
def wfLevels : Nat → List (Nat × Option Lvl) → Nat → Prop
  | s, [], m => s ≤ m
  | s, (_, none) :: ls, m => wfLevels s ls m
  | s, (n, some (.dense nd)) :: ls, m => nd = n ∧ wfLevels (s * nd) ls m
  | s, (n, some (.comp pos crd)) :: ls, m =>
    (∀ p, p < s → ∃ a seg, segment pos crd p = some (a, seg) ∧ seg.Pairwise (· < ·) ∧ ∀ x ∈ seg, x < n) ∧
    wfLevels crd.length ls m

/-- All coordinate tuples, in lexicographic order. -/
def box : List Nat → List (List Nat)
  | [] => [[]]
  | n :: ns => (List.range n).flatMap (fun c => (box ns).map (c :: ·))

/-- The access is a factor of the expression: it occurs in an operand of every product, and in both
operands of every sum. -/
def factor {V : Type} (k : Nat) : Expr V → Bool
  | .acc j => j == k
  | .lit _ => false
  | .un _ a => factor k a
  | .bin .mul l r => factor k l || factor k r
  | .bin .div l r => factor k l || factor k r
  | .bin .add l r => factor k l && factor k r
  | .bin .sub l r => factor k l && factor k r

end Verif.Merge
