import Verif.Search.Model
import Verif.Provenance.Model
/-!
# Model of split loops over compressed operands

`split(i, i0, i1, s)` on a loop whose operands are compressed.  The loop over `i0` is a loop over a
dimension (`MergeLattice::make`, merge_lattice.cpp:1006-1019, returns the mode iterator alone while `i`
cannot be recovered).  The loop over `i1` is a merge of the operands with the derived variable `i1` as
an extra iterator that is not full (`hasCoordBounds`, provenance_graph.cpp:1257-1259).  `i1` bounds the
loop (`MergePoint::rangers`, merge_lattice.cpp:1228-1247) and takes no part in choosing the next
coordinate (`MergePoint::mergers`, merge_lattice.cpp:1249-1279).  The code emitted for it is
`lowerMergeLattice`, lowerer_impl_imperative.cpp:1582-1623:

    i  = A_crd[iA];                     // 3555-3561: also when iA is the end of the segment
    i1 = i - i0*s;                      // recoverChild
    i1_end = s;                         // 3573
    while (iA < A_end && i1 < i1_end) { // 3843-3867
      i = A_crd[iA];  ...  iA++;
      i = A_crd[iA];  i1 = i - i0*s;    // 3658-3670: also when iA has reached the end
    }

* A coordinate array is a `List Int`; a read outside it is undefined behaviour (`none`).
* Coordinates and derived variables are `Int` (the code subtracts), positions are `Nat`.
* The body of the loop is not modelled; what it sees is: the coordinate and, for every operand, the
  position of the component stored there, if there is one.
* Operands have unique, ordered coordinates (`compressed`), without windows or index sets.
-/
namespace Verif.Strip

open Verif.Search (binarySearchAfter)
open Verif.Provenance (splitOuterBounds splitInnerBounds)

/-- One segment of a compressed level: the coordinate array of the level and the position range
`[lo,hi)` of the segment (`bounds[0]`, `bounds[1]`, lowerer_impl_imperative.cpp:3488). -/
structure Seg where
  crd : List Int
  lo : Nat
  hi : Nat
deriving DecidableEq, Repr

/-- How the position of an operand is initialised at the start of a strip: by a binary search
(lowerer_impl_imperative.cpp:3490-3512), at the start of the segment because the bound of the strip is
the bound of the dimension (3513-3515), or at the start of the segment because the parent level has
duplicates (3529-3541, no search at all). -/
inductive Start where
  | search
  | begin
deriving DecidableEq, Repr

/-- One execution of the merge loop: the values of the outer variables fix how many coordinates are
before the strip (`base`: the innermost variable is the coordinate minus `base`,
`SplitRelNode::recoverChild`, provenance_graph.cpp:238-266), where its range ends (`len`) and from where
operands start. -/
structure Strip where
  base : Int
  len : Int
  start : Start
deriving DecidableEq, Repr

/-- Initial position, `codeToInitializeIteratorVar`, lowerer_impl_imperative.cpp:3478-3542. The target of
the search is the lower bound of the strip (`computeRelativeBound`, provenance_graph.cpp:176-182). -/
def startPos (t : Strip) (g : Seg) : Option Nat :=
  match t.start with
  | .search => binarySearchAfter g.crd g.lo g.hi t.base
  | .begin => some g.lo

/-- `i1 = i - i0*s`: recovery of the innermost variable from a coordinate,
lowerer_impl_imperative.cpp:3599-3615, provenance_graph.cpp:255-264. -/
def recoverInner (t : Strip) (i : Int) : Int := i - t.base

/-- What the body sees in one iteration with one operand: the coordinate and the position. -/
abbrev Visit := Int × Nat

/-- The loop of a merge point with one operand, lowerer_impl_imperative.cpp:1625-1743, from position `p`
and value `inner` of the innermost variable. Returns the visits. The fuel bounds the number of
iterations; callers give the length of the segment, which the condition never lets it exceed. -/
def loop1 (t : Strip) (g : Seg) : Nat → Nat → Int → Option (List Visit)
  | 0, _, _ => some []
  | fuel + 1, p, inner =>
    if p < g.hi ∧ inner < t.len then do
      let i ← g.crd[p]?
      let next ← g.crd[p + 1]?
      let rest ← loop1 t g fuel (p + 1) (recoverInner t next)
      some ((i, p) :: rest)
    else some []

/-- The code of one strip with one operand: initialisation (the operand, then the innermost variable,
lowerer_impl_imperative.cpp:3584-3597) and the loop. -/
def strip1 (g : Seg) (t : Strip) : Option (List Visit) := do
  let p ← startPos t g
  let i ← g.crd[p]?
  loop1 t g (g.hi - p) p (recoverInner t i)

/-- What the body sees in one iteration with two operands. -/
abbrev Visit2 := Int × Option Nat × Option Nat

/-- `(coord == i) ? advance : stay`, lowerer_impl_imperative.cpp:3652-3655. -/
def advance (x i : Int) (p : Nat) : Nat := if x = i then p + 1 else p

/-- The component of an operand at the resolved coordinate (the comparisons of the cases,
lowerer_impl_imperative.cpp:1853-1877). -/
def component (x i : Int) (p : Nat) : Option Nat := if x = i then some p else none

/-- The loop of a merge point with both operands of a binary operator. The smaller of the two
coordinates is visited (`resolveCoordinate`, lowerer_impl_imperative.cpp:1791-1806); afterwards both
coordinates are loaded again, whatever the positions are. Returns the visits and the final positions and
innermost variable. -/
def loop2 (t : Strip) (a b : Seg) : Nat → Nat → Nat → Int → Option (List Visit2 × Nat × Nat × Int)
  | 0, pa, pb, inner => some ([], pa, pb, inner)
  | fuel + 1, pa, pb, inner =>
    if pa < a.hi ∧ pb < b.hi ∧ inner < t.len then do
      let x ← a.crd[pa]?
      let y ← b.crd[pb]?
      let i := min x y
      let pa' := advance x i pa
      let pb' := advance y i pb
      let x' ← a.crd[pa']?
      let y' ← b.crd[pb']?
      let (rest, r) ← loop2 t a b fuel pa' pb' (recoverInner t (min x' y'))
      some ((i, component x i pa, component y i pb) :: rest, r)
    else some ([], pa, pb, inner)

/-- Initialisation of a strip with two operands: both positions, then the coordinates, then the
innermost variable; then the loop that both operands take part in. -/
def both (a b : Seg) (t : Strip) : Option (List Visit2 × Nat × Nat × Int) := do
  let pa ← startPos t a
  let pb ← startPos t b
  let x ← a.crd[pa]?
  let y ← b.crd[pb]?
  loop2 t a b ((a.hi - pa) + (b.hi - pb)) pa pb (recoverInner t (min x y))

/-- The innermost variable after a loop with one operand has run from position `p`: it keeps its value if
the loop is not entered (lowerer_impl_imperative.cpp:3658-3670). -/
def innerAfter (t : Strip) (g : Seg) (vs : List Visit) (inner : Int) : Option Int :=
  match vs.getLast? with
  | none => some inner
  | some v => (g.crd[v.2 + 1]?).map (recoverInner t)

/-- A strip of a sum of two operands: the merge points `{A,B,i1}`, `{A,i1}`, `{B,i1}` in this order
(`unionLattices`, merge_lattice.cpp:627-701; one while loop each, lowerer_impl_imperative.cpp:1605-1613).
Nothing is recomputed between the loops. -/
def stripUnion (a b : Seg) (t : Strip) : Option (List Visit2) := do
  let (vs, pa, pb, inner) ← both a b t
  let va ← loop1 t a (a.hi - pa) pa inner
  let inner' ← innerAfter t a va inner
  let vb ← loop1 t b (b.hi - pb) pb inner'
  some (vs ++ va.map (fun v => (v.1, some v.2, none)) ++ vb.map (fun v => (v.1, none, some v.2)))

/-- A strip of a product of two operands: one merge point `{A,B,i1}` (`intersectLattices`,
merge_lattice.cpp:537-620) whose only case is that both operands have a component. -/
def stripIntersection (a b : Seg) (t : Strip) : Option (List Visit2) := do
  let (vs, _) ← both a b t
  some (vs.filter fun v => v.2.1.isSome && v.2.2.isSome)

/-- The loops around the merge loop run it once per strip, in order. -/
def runAll {α : Type} (f : Strip → Option (List α)) : List Strip → Option (List α)
  | [] => some []
  | t :: ts => do
    let v ← f t
    let w ← runAll f ts
    some (v ++ w)

/-- The strips of `split(i, i0, i1, s)` on a dimension of size `n`: the outer loop runs over
`splitOuterBounds`, the inner variable ends at `splitInnerBounds` (provenance_graph.cpp:203-227). -/
def splitStrips (n s : Nat) : List Strip :=
  (List.range (splitOuterBounds (0, n) s).2).map fun (o : Nat) =>
    { base := (o : Int) * s, len := (splitInnerBounds (0, n) s).2, start := .search }

/-- The strips when `i1` is split again, `split(i1, i2, i3, s')`: `i1 = i - i0*s`, `i3 = i1 - i2*s'`, and
the innermost variable ends at `s'` (`deriveIterBounds` looks only at the parent's bounds). -/
def nestedStrips (n s s' : Nat) : List Strip :=
  (List.range (splitOuterBounds (0, n) s).2).flatMap fun (o : Nat) =>
    (List.range (splitOuterBounds (splitInnerBounds (0, n) s) s').2).map fun (o' : Nat) =>
      { base := (o : Int) * s + (o' : Int) * s', len := (splitInnerBounds (0, s) s').2, start := .search }

/-- The strips of a split below a parent level with duplicates: the operands start at the beginning of
their segment in every strip (lowerer_impl_imperative.cpp:3529-3541). -/
def chainedStrips (n s : Nat) : List Strip :=
  (splitStrips n s).map fun t => { t with start := .begin }

/-- The strips when the two loops of a split are exchanged, `reorder(i1, i0)`: `i1` runs over
`[0, s)` outside, the bounds of `i` are those of the dimension (`computeRelativeBound`,
provenance_graph.cpp:183-186) so there is no search, and `i0` is recovered as `i - i1`
(`recoverChild`, provenance_graph.cpp:244-252: there is no division by the factor). -/
def reorderedStrips (n s : Nat) : List Strip :=
  (List.range (splitInnerBounds (0, n) s).2).map fun (i : Nat) =>
    { base := (i : Int), len := ((splitOuterBounds (0, n) s).2 : Int), start := .begin }

end Verif.Strip
