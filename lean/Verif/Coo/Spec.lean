import Verif.Merge.Expr
/-!
Specification of operands whose levels may list a coordinate several times: coordinate formats
(`COO`, src/format.cpp 408-430) and other formats with `not unique` or singleton levels.

Storage of an operand is a list of levels, one per loop variable of the statement (`none` when the
operand is not indexed by that variable), and a value array.  A component may be stored at several
positions; its value is their sum, in the order of the positions.
-/
namespace Verif.Coo
open Verif.Merge

/-- A storage level: dense (mode_format_dense.cpp), compressed (mode_format_compressed.cpp) and singleton
(mode_format_singleton.cpp); `uniq` is the property of the same name of the mode format. The coordinate
array of a singleton level is its own: `COO` asserts that the coordinates of a component are not packed next
to each other (`isAoS`, src/format.cpp 413). -/
inductive CLvl
  | dense (n : Nat)
  | comp (uniq : Bool) (pos crd : List Nat)
  | sing (uniq : Bool) (crd : List Nat)
  deriving DecidableEq, Repr

/-- The positions below the position `p` that store coordinate `c`. -/
def below (l : Option CLvl) (c p : Nat) : List Nat :=
  match l with
  | none => [p]
  | some (.dense n) => [p * n + c]
  | some (.comp _ pos crd) =>
    match pos[p]?, pos[p + 1]? with
    | some a, some b => (List.range' a (b - a)).filter (fun q => crd[q]? == some c)
    | _, _ => []
  | some (.sing _ crd) => if crd[p]? = some c then [p] else []

/-- The value of an operand at the coordinates of the loop variables: the sum of the values at all the
positions that store these coordinates. -/
def valueC {V : Type} (o : Ops V) (vals : List V) : List (Option CLvl) → List Nat → List Nat → V
  | [], _, ps => ps.foldl (fun acc p => o.bin .add acc (vals.getD p o.zero)) o.zero
  | _ :: _, [], _ => o.zero
  | l :: ls, c :: cs, ps => valueC o vals ls cs (ps.flatMap (below l c))

/-- The coordinates listed below the positions `lo .. hi - 1`, with the position of the first. `none`:
the arrays are too short. -/
def listed (l : CLvl) (lo hi : Nat) : Option (Nat × List Nat) :=
  match l with
  | .dense _ => none
  | .comp _ pos crd =>
    match pos[lo]?, pos[hi]? with
    | some a, some b => if a ≤ b ∧ b ≤ crd.length then some (a, (crd.drop a).take (b - a)) else none
    | _, _ => none
  | .sing _ crd => if hi ≤ crd.length then some (lo, (crd.drop lo).take (hi - lo)) else none

/-- The segments of the positions `lo .. hi - 1` follow each other. -/
def contiguous (l : CLvl) (lo hi : Nat) : Prop :=
  match l with
  | .comp _ pos _ => ∀ p, lo ≤ p → p < hi → ∃ a b, pos[p]? = some a ∧ pos[p + 1]? = some b ∧ a ≤ b
  | _ => True

/-- Does the format promise that no coordinate is listed twice? -/
def CLvl.uniq : CLvl → Bool
  | .dense _ => true
  | .comp u _ _ => u
  | .sing u _ => u

/-- The listed coordinates are ordered, without repetition when the level is unique. -/
def ordered (u : Bool) (seg : List Nat) : Prop :=
  if u then seg.Pairwise (· < ·) else seg.Pairwise (· ≤ ·)

/-- Well formed storage below the positions `lo .. hi - 1`, which store the same coordinates so far: dense
levels have the size of the dimension and lie below a single position; other levels list ordered
coordinates of the dimension, and the positions of one coordinate are well formed in turn; there is a
value for every position of the last level. -/
def wfC : List (Nat × Option CLvl) → Nat → Nat → Nat → Prop
  | [], m, _, hi => hi ≤ m
  | (_, none) :: ls, m, lo, hi => wfC ls m lo hi
  | (n, some (.dense nd)) :: ls, m, lo, hi =>
    nd = n ∧ hi = lo + 1 ∧ ∀ c, c < n → wfC ls m (lo * nd + c) (lo * nd + c + 1)
  | (n, some l) :: ls, m, lo, hi =>
    contiguous l lo hi ∧ ∃ a seg, listed l lo hi = some (a, seg) ∧ ordered l.uniq seg ∧
      (∀ c ∈ seg, c < n) ∧
      ∀ c ∈ seg, wfC ls m (a + seg.countP (fun x => decide (x < c))) (a + seg.countP (fun x => decide (x ≤ c)))

/-! ### coordinate storage of a list of components -/

/-- One coordinate of every component. -/
def column (rows : List (List Nat)) (j : Nat) : List Nat := rows.map (fun r => r.getD j 0)

/-- The levels of the coordinate format (`COO`, src/format.cpp 408-430) for components listed with their
coordinates: a compressed level for the first coordinate, singleton levels for the others; the last level is
unique unless `dups` is set, the others are not unique. -/
def cooLevels (dups : Bool) (rows : List (List Nat)) : Nat → List CLvl
  | 0 => []
  | order + 1 => .comp (order == 0 && !dups) [0, rows.length] (column rows 0) ::
      (List.range' 1 order).map (fun j => .sing (j == order && !dups) (column rows j))

/-- Lexicographic order of coordinates. -/
def lexLe : List Nat → List Nat → Prop
  | [], _ => True
  | _ :: _, [] => False
  | a :: as, b :: bs => a < b ∨ (a = b ∧ lexLe as bs)

/-- Components in lexicographic order, with coordinates inside the dimensions, each listed once unless
duplicates are allowed. -/
structure RowsOK (dups : Bool) (dims : List Nat) (rows : List (List Nat)) : Prop where
  len : ∀ r ∈ rows, r.length = dims.length
  bound : ∀ r ∈ rows, ∀ j, j < dims.length → r.getD j 0 < dims.getD j 0
  sorted : rows.Pairwise lexLe
  nodup : dups = false → rows.Nodup

/-- The value of a component of a list of components: the sum of the values listed for its coordinates. -/
def listedSum {V : Type} (o : Ops V) (rows : List (List Nat)) (vals : List V) (c : List Nat) : V :=
  ((rows.zip vals).filter (fun rv => rv.1 == c)).foldl (fun s rv => o.bin .add s rv.2) o.zero

/-- The levels that the loops of a statement use: an operand is not indexed by every loop variable. -/
def usedLevels (ls : List (Nat × Option CLvl)) : List (Nat × CLvl) :=
  ls.filterMap (fun x => x.2.map (fun l => (x.1, l)))

/-- The coordinates of a loop tuple that index the operand. -/
def usedCoords : List (Option CLvl) → List Nat → List Nat
  | [], _ => []
  | _ :: _, [] => []
  | none :: ls, _ :: cs => usedCoords ls cs
  | some _ :: ls, c :: cs => c :: usedCoords ls cs

end Verif.Coo
