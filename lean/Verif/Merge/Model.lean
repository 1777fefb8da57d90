import Verif.Merge.Expr
/-!
Merge lattices (`src/lower/merge_lattice.cpp`) and the loops emitted from them
(`src/lower/lowerer_impl_imperative.cpp`), for one `forall` over an index variable without
derivations.

Simplifications
* An `Iterator` is the dimension iterator of the loop variable or the level iterator of one access;
  equal accesses share their iterator (`Iterators::createAccessIterators`, iterator.cpp 572-650,
  inserts into a map keyed by access).  Sets of iterators compare by membership.
* `results` of a merge point are not carried: every point gets the same list
  (merge_lattice.cpp 386-396).
* The assertion of the `MergePoint` constructor on unordered iterators (merge_lattice.cpp 1254-1258)
  rejects programs and is not modelled.
* `std::sort` is not stable, so it is a parameter `srt` of the construction; theorems quantify over
  every function returning a permutation in non-increasing order of size.
* Omitter points arise only from complements in user-defined operators, which the expression type
  does not contain; the flag is nevertheless carried through all functions.
* Positions of an iterator count from the start of the segment of its parent position.
-/
namespace Verif.Merge

/-- `Iterator` (iterator.h): the dimension iterator of the loop, or the level iterator of access
`k` at the loop variable. -/
inductive It | dim | lev (k : Nat)
  deriving DecidableEq, Repr

/-- The mode format properties the lattice and the loops look at (iterator.cpp 158-235). -/
structure Attr where
  full : Bool
  ordered : Bool
  unique : Bool
  locate : Bool
  posIter : Bool
  coordIter : Bool
  deriving DecidableEq, Repr

/-- Dense mode, mode_format_dense.cpp 10-18: full, ordered, unique, locate only. -/
def denseAttr : Attr := ⟨true, true, true, true, false, false⟩
/-- Compressed mode with default properties, mode_format_compressed.cpp 14-25: ordered, unique,
iterated by position. -/
def compressedAttr : Attr := ⟨false, true, true, false, true, false⟩

/-- How each access uses the loop variable: `none` when it does not index it. -/
abbrev Ctx := Nat → Option Attr

namespace It
/-- iterator.cpp 146-148. -/
def isDim : It → Bool | dim => true | lev _ => false
/-- iterator.cpp 154-158; the loop has no coordinate bounds so its dimension iterator is full. -/
def isFull (K : Ctx) : It → Bool | dim => true | lev k => (K k).elim false (·.full)
/-- iterator.cpp 160-164. -/
def isOrdered (K : Ctx) : It → Bool | dim => true | lev k => (K k).elim false (·.ordered)
/-- iterator.cpp 166-170. -/
def isUnique (K : Ctx) : It → Bool | dim => true | lev k => (K k).elim false (·.unique)
/-- iterator.cpp 202-206. -/
def hasLocate (K : Ctx) : It → Bool | dim => false | lev k => (K k).elim false (·.locate)
end It

/-- `util::removeDuplicates`, collections.h 100-112: keep first occurrences. -/
def dedupGo (seen : List It) : List It → List It
  | [] => []
  | x :: xs => if x ∈ seen then dedupGo seen xs else x :: dedupGo (x :: seen) xs

def dedup (l : List It) : List It := dedupGo [] l

/-- `MergePoint`, merge_lattice.cpp 1242-1264. -/
structure Point where
  iters : List It
  locs : List It
  isOm : Bool
  deriving DecidableEq, Repr

/-- Constructor, merge_lattice.cpp 1250-1264. -/
def mkPoint (iters locs : List It) (om : Bool) : Point := ⟨dedup iters, dedup locs, om⟩

namespace Point
/-- `MergePoint::tensorRegion`, merge_lattice.cpp 1331-1337. -/
def region (p : Point) : List It := p.iters.filter (fun x => !x.isDim) ++ p.locs
/-- The sort key of `pointSort`, merge_lattice.cpp 548-554. -/
def size (p : Point) : Nat := p.iters.length + p.locs.length

/-- `MergePoint::rangers`, merge_lattice.cpp 1270-1289. -/
def rangers (K : Ctx) (p : Point) : List It :=
  if p.iters.any (fun x => !x.isFull K) then p.iters.filter (fun x => !x.isFull K) else p.iters

/-- `MergePoint::mergers`, merge_lattice.cpp 1291-1321. -/
def mergers (K : Ctx) (p : Point) : List It :=
  if p.iters.any (fun x => x.isFull K) then p.iters.filter (fun x => x.isFull K)
  else
    let numNotFull := (p.iters.filter (fun x => !x.isFull K && x.isDim)).length
    if numNotFull ≠ p.iters.length ∧ numNotFull > 0 then p.iters.filter (fun x => !x.isDim)
    else p.iters
end Point

/-- Equality of two `std::set<Iterator>`. -/
def setEq (a b : List It) : Bool := a.all (fun x => x ∈ b) && b.all (fun x => x ∈ a)

/-- `util::contains(set<set<Iterator>>, s)`. -/
def containsSet (ss : List (List It)) (s : List It) : Bool := ss.any (fun t => setEq t s)

/-- The loop appending the combinations, merge_lattice.cpp 566-588 and 641-668: `aset`/`bset` are
the regions of the two points, `aroot`/`broot` the regions of the largest points. -/
def hasIntersection (aset bset aroot broot : List It) : Bool :=
  aset.all (fun x => !(!(x ∈ bset : Bool) && (x ∈ broot : Bool))) &&
  bset.all (fun x => !(!(x ∈ aset : Bool) && (x ∈ aroot : Bool)))

/-- Region of the first point of a sorted list, merge_lattice.cpp 557-563. -/
def rootRegion : List Point → List It
  | [] => []
  | p :: _ => p.region

/-- All combinations of the points of two lattices that agree on shared iterators. -/
def combos (f : Point → Point → Point) (as bs : List Point) : List Point :=
  as.flatMap (fun a => bs.filterMap (fun b =>
    if hasIntersection a.region b.region (rootRegion as) (rootRegion bs) then some (f a b) else none))

/-- `deduplicateDimensionIterators`, merge_lattice.cpp 843-862. -/
def dedupDims (found : Bool) : List It → List It
  | [] => []
  | .dim :: xs => if found then dedupDims found xs else .dim :: dedupDims true xs
  | x :: xs => x :: dedupDims found xs

/-- `intersectPoints`, merge_lattice.cpp 715-740. -/
def intersectPoints (K : Ctx) (locateLeft : Bool) (l r : Point) : Point :=
  let side := if locateLeft then l else r
  let its := side.iters.filter (fun x => !x.hasLocate K)
  let locs := side.iters.filter (fun x => x.hasLocate K)
  let its := its.filter (fun x => !x.isDim)
  let iters := if locateLeft then its ++ r.iters else l.iters ++ its
  let locs := if locateLeft then locs ++ l.locs ++ r.locs else l.locs ++ locs ++ r.locs
  mkPoint (dedupDims false iters) locs (l.isOm || r.isOm)

/-- `unionPoints`, merge_lattice.cpp 748-759. -/
def unionPoints (l r : Point) : Point :=
  mkPoint (dedupDims false (l.iters ++ r.iters)) (l.locs ++ r.locs) (l.isOm && r.isOm)

/-- `MergeLattice::iterators`, merge_lattice.cpp 1096-1100. -/
def latIters : List Point → List It
  | [] => []
  | p :: _ => p.iters

/-- `MergeLattice::locators`, merge_lattice.cpp 1102-1106. -/
def latLocs : List Point → List It
  | [] => []
  | p :: _ => p.locs

/-- `locateFromLeft`, merge_lattice.cpp 761-789. -/
def locateFromLeft (K : Ctx) (l r : List Point) : Bool :=
  if (latIters r).any It.isDim then false
  else if (latIters l).any It.isDim then true
  else if (latIters r).any (fun x => x.isFull K && x.hasLocate K) then false
  else if (latIters l).any (fun x => x.isFull K && x.hasLocate K) then true
  else decide ((latIters l).countP (fun x => x.hasLocate K) >
               (latIters r).countP (fun x => x.hasLocate K))

/-- `getProducerOrOmitterRegions`, merge_lattice.cpp 889-900. -/
def typedRegions (ps : List Point) (om : Bool) : List (List It) :=
  (ps.filter (fun p => p.isOm == om)).map Point.region

/-- `correctPointTypes`, merge_lattice.cpp 902-921. -/
def correctPointTypes (l r ps : List Point) (preserveOmit : Bool) : List Point :=
  ps.map (fun p =>
    if containsSet (typedRegions l preserveOmit) p.region &&
       containsSet (typedRegions r preserveOmit) p.region
    then mkPoint p.iters p.locs preserveOmit else p)

/-- `removeDuplicatedTensorRegions`, merge_lattice.cpp 935-963. -/
def removeDupRegions (prod omits : List (List It)) (preserveOmitters : Bool) :
    List (List It) → List Point → List Point
  | _, [] => []
  | seen, p :: ps =>
    if containsSet seen p.region then removeDupRegions prod omits preserveOmitters seen ps
    else
      let p' := if containsSet prod p.region && containsSet omits p.region
                then mkPoint p.iters p.locs preserveOmitters else p
      p' :: removeDupRegions prod omits preserveOmitters (p.region :: seen) ps

def removeDuplicatedTensorRegions (ps : List Point) (preserveOmitters : Bool) : List Point :=
  removeDupRegions (typedRegions ps false) (typedRegions ps true) preserveOmitters [] ps

/-- `insertDimensionIteratorIfNotOrdered`, merge_lattice.cpp 791-811. -/
def insertDimIfNotOrdered (K : Ctx) (ps : List Point) : List Point :=
  ps.map (fun p =>
    if p.iters.any (fun x => !x.isOrdered K) && !p.iters.any It.isDim
    then mkPoint (p.iters ++ [.dim]) p.locs p.isOm else p)

/-- `moveLocateSubsetIteratorsToLocateSet`, merge_lattice.cpp 813-841. -/
def moveLocateSubset (K : Ctx) (ps : List Point) : List Point :=
  match (latIters ps).filter (fun x => x.isFull K) with
  | [] => ps
  | firstFull :: _ =>
    ps.map (fun p =>
      mkPoint (p.iters.filter (fun x => !(x.hasLocate K && x != firstFull)))
        (p.locs ++ p.iters.filter (fun x => x.hasLocate K && x != firstFull)) p.isOm)

/-- `intersectLattices`, merge_lattice.cpp 538-614. -/
def intersectLattices (K : Ctx) (srt : List Point → List Point) (l r : List Point) : List Point :=
  let locateLeft := locateFromLeft K l r
  let ps := combos (intersectPoints K locateLeft) (srt l) (srt r)
  let ps := srt ps
  let ps := correctPointTypes l r ps false
  removeDuplicatedTensorRegions ps true

/-- `unionLattices`, merge_lattice.cpp 622-706. -/
def unionLattices (K : Ctx) (srt : List Point → List Point) (l r : List Point) : List Point :=
  let ps := combos unionPoints (srt l) (srt r)
  let ps := ps ++ l ++ r
  let ps := srt ps
  let ps := correctPointTypes l r ps true
  let ps := removeDuplicatedTensorRegions ps false
  let ps := insertDimIfNotOrdered K ps
  moveLocateSubset K ps

/-- `modeIterationLattice`, merge_lattice.cpp 88-90. -/
def modeLattice : List Point := [mkPoint [.dim] [] false]

/-- `MergeLatticeBuilder::visit` for accesses 179-253, literals 255-259, unary nodes 261-263,
281-287, `AddNode`/`SubNode` 265-271 through `UnionNode` 141-154, `MulNode`/`DivNode` 273-279 through
`IntersectNode` 129-139.  None of the operands produced here is the empty lattice. -/
def build {V : Type} (K : Ctx) (srt : List Point → List Point) : Expr V → List Point
  | .acc k =>
    match K k with
    | none => modeLattice
    | some a => if !a.coordIter && !a.posIter then [mkPoint [.dim] [.lev k] false]
                else [mkPoint [.lev k] [] false]
  | .lit _ => modeLattice
  | .un _ a => build K srt a
  | .bin .add l r => unionLattices K srt (build K srt l) (build K srt r)
  | .bin .sub l r => unionLattices K srt (build K srt l) (build K srt r)
  | .bin .mul l r => intersectLattices K srt (build K srt l) (build K srt r)
  | .bin .div l r => intersectLattices K srt (build K srt l) (build K srt r)

/-- `removePointsThatLackFullIterators`, merge_lattice.cpp 1030-1049. -/
def removeLackFull (K : Ctx) (ps : List Point) : List Point :=
  ps.filter (fun p => ((latIters ps).filter (fun x => x.isFull K)).all (fun x => x ∈ p.iters))

/-- `removePointsWithIdenticalIterators`, merge_lattice.cpp 1051-1066. -/
def removeIdentical : List (List It) → List Point → List Point
  | _, [] => []
  | seen, p :: ps =>
    if containsSet seen p.iters then removeIdentical seen ps
    else p :: removeIdentical (p.iters :: seen) ps

/-- `getLoopLattice`, merge_lattice.cpp 1204-1207. -/
def getLoopLattice (K : Ctx) (ps : List Point) : List Point := removeIdentical [] (removeLackFull K ps)

/-- `MergeLattice::make`, merge_lattice.cpp 1005-1028, for a loop variable without derivations and
a lattice without omitters and special regions. -/
def makeLattice {V : Type} (K : Ctx) (srt : List Point → List Point) (e : Expr V) : List Point :=
  getLoopLattice K (build K srt e)

/-- `MergeLattice::subLattice`, merge_lattice.cpp 1075-1090. -/
def subLattice (ps : List Point) (p : Point) : List Point :=
  ps.filter (fun q => q.iters.all (fun x => x ∈ p.iters))

/-- `MergeLattice::exhausted`, merge_lattice.cpp 1108-1122, as a test on accesses: level iterators of
the lattice that are not in the region of the point.  `getExhaustedAccesses`,
lowerer_impl_imperative.cpp 3003-3011, maps them to their accesses. -/
def exhausted (ps : List Point) (p : Point) : Nat → Bool := fun k =>
  (latIters ps ++ latLocs ps).any (fun x => x == .lev k) && !(p.region.any (fun x => x == .lev k))

/-- `MergeLattice::exact`, merge_lattice.cpp 1129-1156. -/
def exact (K : Ctx) (ps : List Point) : Bool :=
  if ps.any (fun p => p.isOm) then false
  else if ps.any (fun p => p.iters.all (fun x => x.isFull K)) then true
  else (latIters ps).all (fun x => ps.any (fun p => p.iters == [x]))

/-! ### The emitted loops -/

/-- Run-time state of the emitted loops: a position per level iterator and the coordinate counter of
the dimension iterator. -/
structure St where
  pos : Nat → Nat
  i : Nat

/-- Input of one loop nest level: the coordinates of the segment of each access, and the dimension
size. -/
structure Input where
  crd : Nat → List Nat
  n : Nat

/-- The coordinate variable of an iterator; `none` is a load outside the segment
(lowerer_impl_imperative.cpp 3686-3747). -/
def coordOf (I : Input) (st : St) : It → Option Nat
  | .dim => some st.i
  | .lev k => (I.crd k)[st.pos k]?

/-- `checkThatNoneAreExhausted`, lowerer_impl_imperative.cpp 3843-3867. -/
def unexhausted (I : Input) (st : St) (rangers : List It) : Bool :=
  rangers.all (fun x => match x with
    | .dim => decide (st.i < I.n)
    | .lev k => decide (st.pos k < (I.crd k).length))

/-- Minimum of a list of coordinates (`ir::Min`); `none` on the empty list. -/
def minList : List Nat → Option Nat
  | [] => none
  | [x] => some x
  | x :: xs => (minList xs).map (fun m => min x m)

/-- `resolveCoordinate`, lowerer_impl_imperative.cpp 1741-1808, without windows and galloping. -/
def resolve (I : Input) (st : St) : List It → Option Nat
  | [x] => coordOf I st x
  | ms => (ms.mapM (coordOf I st)).bind minList

/-- Does the resolved coordinate match the rangers of a case point:
`compareToResolvedCoordinate<Eq>`, lowerer_impl_imperative.h 429-443. -/
def caseMatches (K : Ctx) (I : Input) (st : St) (c : Nat) (p : Point) : Bool :=
  (p.rangers K).all (fun x => coordOf I st x == some c)

/-- The first matching case; with `alwaysMatch` the last clause is an unconditional `else`
(ir_printer.cpp 296-324). -/
def firstCase (matches' : Point → Bool) (alwaysMatch : Bool) : List Point → Option Point
  | [] => none
  | [p] => if alwaysMatch || matches' p then some p else none
  | p :: q :: ps => if matches' p then some p else firstCase matches' alwaysMatch (q :: ps)

/-- An executed loop body: the coordinate, the statement executed there, and the positions at which
the accesses of that statement read their compressed level. -/
structure Event (V : Type) where
  coord : Nat
  stmt : Option (Expr V)
  reads : List (Nat × Nat)

/-- The position variables used by a statement: `k ↦ pos k` for its compressed accesses
(the body refers to `iterator.getPosVar()`, lowerer_impl_imperative.cpp 2070-2145). -/
def readsOf {V : Type} (K : Ctx) (pos : Nat → Nat) (s : Option (Expr V)) : List (Nat × Nat) :=
  match s with
  | none => []
  | some e => (e.leaves.filter (fun k => (K k).elim false (·.posIter))).map (fun k => (k, pos k))

/-- `lowerMergeCases`, lowerer_impl_imperative.cpp 1810-1882, without omitters and boolean
`returnsTrue` statements: the events of one loop iteration at coordinate `c`. A `Case` with a single
clause prints that clause as `if` with its condition even when `alwaysMatch` holds
(ir_printer.cpp 301-307). -/
def mergeCases {V : Type} (K : Ctx) (I : Input) (st : St) (c : Nat) (lat : List Point)
    (stmt : Option (Expr V)) : List (Event V) :=
  let loopL := getLoopLattice K lat
  if (latIters loopL).length = 1 then [⟨c, stmt, readsOf K st.pos stmt⟩]
  else
    match firstCase (caseMatches K I st c) (exact K loopL && decide (loopL.length > 1)) loopL with
    | none => []
    | some p =>
      let s := Expr.zeroOutOpt (exhausted loopL p) stmt
      [⟨c, s, readsOf K st.pos s⟩]

/-- Advance one level iterator (`codeToIncIteratorVars`, lowerer_impl_imperative.cpp 3617-3684,
two-finger strategy, unique iterators). -/
def incIter (K : Ctx) (I : Input) (st : St) (c : Nat) (k : Nat) : Nat :=
  if It.isFull K (.lev k) then st.pos k + 1
  else if coordOf I st (.lev k) == some c then st.pos k + 1 else st.pos k

/-- `codeToIncIteratorVars` for all iterators of a point. -/
def advance (K : Ctx) (I : Input) (st : St) (c : Nat) (p : Point) : St :=
  match p.iters with
  | [.dim] => { st with i := st.i + 1 }
  | [.lev k] => { st with pos := fun j => if j = k then st.pos k + 1 else st.pos j }
  | its =>
    { pos := fun j => if .lev j ∈ its then incIter K I st c j else st.pos j
      i := if .dim ∈ its then st.i + 1 else st.i }

/-- Load the coordinates of the position iterators of a point
(`codeToLoadCoordinatesFromPosIterators`, lowerer_impl_imperative.cpp 3686-3747): succeeds when every
load is inside its segment. -/
def loadsOk (I : Input) (st : St) (p : Point) : Bool :=
  p.iters.all (fun x => (coordOf I st x).isSome)

/-- What a loop leaves behind: the final state, the unused iterations of the budget, the events. -/
structure Out (V : Type) where
  st : St
  fuel : Nat
  evs : List (Event V)

/-- The while loop of one merge point, `lowerMergePoint`, lowerer_impl_imperative.cpp 1625-1739.
Every iteration costs one unit of the budget. `none`: an out-of-segment load, or the budget is
exhausted. -/
def runWhile {V : Type} (K : Ctx) (I : Input) (lat : List Point) (p : Point)
    (stmt : Option (Expr V)) : Nat → St → Option (Out V)
  | 0, st => if unexhausted I st (p.rangers K) then none else some ⟨st, 0, []⟩
  | fuel + 1, st =>
    if unexhausted I st (p.rangers K) then
      if loadsOk I st p then
        match resolve I st (p.mergers K) with
        | none => none
        | some c =>
          let ev := mergeCases K I st c lat stmt
          match runWhile K I lat p stmt fuel (advance K I st c p) with
          | none => none
          | some out => some { out with evs := ev ++ out.evs }
      else none
    else some ⟨st, fuel + 1, []⟩

/-- The sequence of while loops, `lowerMergeLattice`, lowerer_impl_imperative.cpp 1600-1612. The
point of a loop is the first point of its sublattice (`pointLattice.points().front()`, 1630). -/
def runPoints {V : Type} (K : Ctx) (I : Input) (lat : List Point) (stmt : Expr V) :
    Nat → List Point → St → Option (List (Event V))
  | _, [], _ => some []
  | fuel, p :: ps, st =>
    let sub := subLattice lat p
    match sub with
    | [] => none
    | front :: _ =>
      match runWhile K I sub front (Expr.zeroOut (exhausted lat p) stmt) fuel st with
      | none => none
      | some out =>
        match runPoints K I lat stmt out.fuel ps out.st with
        | none => none
        | some evs' => some (out.evs ++ evs')

/-- `lowerForall`, lowerer_impl_imperative.cpp 783-863: a single unique iterator gives a plain loop
over the dimension (`lowerForallDimension` 1190) or over the positions of the segment
(`lowerForallPosition` 1304); otherwise the merge loops. `fuel` bounds the total number of
iterations of the merge loops. -/
def runForall {V : Type} (K : Ctx) (srt : List Point → List Point) (I : Input) (fuel : Nat)
    (stmt : Expr V) : Option (List (Event V)) :=
  let lat := makeLattice K srt stmt
  match latIters lat with
  | [] => none
  | [.dim] => some ((List.range I.n).map (fun c => ⟨c, some stmt, readsOf K (fun _ => 0) (some stmt)⟩))
  | [.lev k] =>
    some ((I.crd k).zipIdx.map (fun cp =>
      ⟨cp.1, some stmt, readsOf K (fun j => if j = k then cp.2 else 0) (some stmt)⟩))
  | _ :: _ :: _ => runPoints K I lat stmt fuel (getLoopLattice K lat) ⟨fun _ => 0, 0⟩

end Verif.Merge
