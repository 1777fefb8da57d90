import Verif.Pack.Model
import Verif.Search.Model
import Verif.Provenance.Model
/-!
Loops over the positions of the last of several fused levels (`fuse` followed by `pos`):
`lowerForallFusedPosition` and `searchForFusedPositionStart`,
src/lower/lowerer_impl_imperative.cpp 1007-1188 and 1418-1581, with the bounds of
`PosRelNode::deriveIterBounds`, src/index_notation/provenance_graph.cpp 458-491.

The loop variable is a position of the last level. The positions and coordinates of the levels above
are kept in variables that the generated code moves forward, or finds by binary search at the start of
a chunk of a parallel loop.

Simplifications: one tensor, whose levels are fused in storage order (`underivedAncestors` are the
levels from the outside in); the search on CPUs (blocks of a GPU use other helpers); unique levels.
-/
namespace Verif.Fused
open Verif.Merge (Lvl)
open Verif.Pack
open Verif.Search (binarySearchBefore)
open Verif.Provenance

/-- A level above the last one: its coordinates (`none`: dense, the coordinate is the position) and the
`pos` array of the level below (`posIteratorLevel`). -/
structure Link where
  crd : Option (List Nat)
  pos : List Nat

/-- The levels above the last one from the inside out, and the coordinates of the last one. `none`: a
level other than the first is dense, it has no position bounds (`posBounds`, 1486). -/
def chainFrom (cur : Option (List Nat)) (acc : List Link) : List Lvl → Option (List Link × List Nat)
  | [] => cur.map (fun crd => (acc, crd))
  | .comp pos crd :: ls => chainFrom (some crd) (⟨cur, pos⟩ :: acc) ls
  | .dense _ :: _ => none

def chain : List Lvl → Option (List Link × List Nat)
  | [] => none
  | .dense _ :: ls => chainFrom none [] ls
  | .comp _ crd :: ls => chainFrom (some crd) [] ls

/-- `locateCoordVar`, 1488-1494 and 1176-1184: the coordinate at a position. -/
def coordAt (l : Link) (p : Nat) : Option Nat :=
  match l.crd with
  | none => some p
  | some crd => crd[p]?

/-- The position and coordinate variables of the levels above, from the inside out. -/
abbrev St := List (Nat × Nat)

/-- `while (known == pos[p+1]) { p++; c = ...; parents }`, 1487 and 1495-1501, with the number of
iterations bounded by the fuel. -/
def whileStep (l : Link) (known : Nat) (parents : Nat → St → Option St) :
    Nat → Nat × Nat → St → Option ((Nat × Nat) × St)
  | 0, _, _ => none
  | f + 1, s, st =>
    match l.pos[s.1 + 1]? with
    | none => none
    | some e =>
      if known = e then
        match coordAt l (s.1 + 1), parents (s.1 + 1) st with
        | some c, some st' => whileStep l known parents f (s.1 + 1, c) st'
        | _, _ => none
      else some (s, st)

/-- `if (known == pos[p+1]) { p++; c = ...; parents }`, 1496-1498: for a level with positions. -/
def ifStep (l : Link) (known : Nat) (parents : Nat → St → Option St) (s : Nat × Nat) (st : St) :
    Option ((Nat × Nat) × St) :=
  match l.pos[s.1 + 1]? with
  | none => none
  | some e =>
    if known = e then
      match coordAt l (s.1 + 1), parents (s.1 + 1) st with
      | some c, some st' => some ((s.1 + 1, c), st')
      | _, _ => none
    else some (s, st)

/-- The code that moves the variables of the levels above to the current position (1472-1505): the
code of a level is inside the body of the code of the level below it. -/
def track : List Link → Nat → St → Option St
  | [], _, st => some st
  | _ :: _, _, [] => none
  | l :: ls, known, s :: st =>
    ((if l.crd.isSome then ifStep l known (track ls) s st
      else whileStep l known (track ls) (l.pos.length + 1) s st)).map (fun r => r.1 :: r.2)

/-- The loop over positions: move the variables, load the last coordinate (`recoverVariable`,
provenance_graph.cpp 567-588), run the body. An event is the coordinates and the position. -/
def loop (ch : List Link) (crd : List Nat) : List Nat → St → Option (List (List Nat × Nat))
  | [], _ => some []
  | k :: ks, st =>
    match track ch k st with
    | none => none
    | some st' =>
      match crd[k]?, loop ch crd ks st' with
      | some c, some r => some (((st'.map Prod.snd).reverse ++ [c], k) :: r)
      | _, _ => none

/-- The variables at the start of a serial loop, 1461-1466: everything is zero. -/
def serialStart (ch : List Link) : St := ch.map (fun _ => (0, 0))

/-- A serial loop over all positions (`deriveIterBounds`, provenance_graph.cpp 468-486). -/
def serial (lv : List Lvl) : Option (List (List Nat × Nat)) :=
  match chain lv, getSize lv with
  | some (ch, crd), some n => loop ch crd (loopRange (0, n)) (serialStart ch)
  | _, _ => none

/-- The search for the variables of the levels above at a position, 1007-1188: `sizes` are the numbers
of positions of the levels (`parentSize`, 1017-1030). -/
def searchStart : List Link → List Nat → Nat → Option St
  | [], _, _ => some []
  | _ :: _, [], _ => none
  | l :: ls, n :: ns, t =>
    match binarySearchBefore (l.pos.map Int.ofNat) 0 n t with
    | none => none
    | some p =>
      match coordAt l p, searchStart ls ns p with
      | some c, some st => some ((p, c) :: st)
      | _, _ => none

/-- The numbers of positions of the levels, from the outside in. -/
def sizesFrom (s : Nat) : List Lvl → Option (List Nat)
  | [] => some []
  | .dense n :: ls => (sizesFrom (s * n) ls).map (s * n :: ·)
  | .comp pos _ :: ls => match pos[s]? with
    | none => none
    | some s' => (sizesFrom s' ls).map (s' :: ·)

/-- The numbers of positions of the levels above the last one, from the inside out. -/
def parentSizes (lv : List Lvl) : Option (List Nat) := (sizesFrom 1 lv).map (fun l => l.reverse.tail)

/-- One iteration of a parallel loop over chunks `[start, start + len)` of the positions: search, then
loop over the chunk with the guard `if (fpos >= end) continue` (lowerForall, 664-679). -/
def chunk (lv : List Lvl) (start len : Nat) : Option (List (List Nat × Nat)) :=
  match chain lv, getSize lv, parentSizes lv with
  | some (ch, crd), some n, some ns =>
    match searchStart ch ns start with
    | none => none
    | some st => loop ch crd ((List.range' start len).filter (fun k => !posGuardSkips (0, n) k)) st
  | _, _, _ => none

/-- A parallel loop over the chunks of `split(fpos, chunk, ., s)`; the events in the order of the
chunks. -/
def splitChunks (lv : List Lvl) (s : Nat) : Option (List (List Nat × Nat)) :=
  match getSize lv with
  | none => none
  | some n => forAll (fun c => chunk lv (splitRecover s c 0) s) (loopRange (splitOuterBounds (0, n) s))

/-- A parallel loop over the chunks of `divide(fpos, chunk, ., d)`. -/
def divideChunks (lv : List Lvl) (d : Nat) : Option (List (List Nat × Nat)) :=
  match getSize lv with
  | none => none
  | some n =>
    forAll (fun c => chunk lv (divideRecover (0, n) d c 0) (divideInnerBounds (0, n) d).2) (loopRange (divideOuterBounds (0, n) d))

/-- The events of the first iteration of a loop over an outer level that is not fused: the bounds are
those of the whole last level, not those of the segment (`deriveIterBounds` "assumes complete
iteration", provenance_graph.cpp 468-486). The coordinate of the outer level is left out. -/
def innerFirst (lv : List Lvl) : Option (List (List Nat × Nat)) :=
  match chain lv.tail, getSize lv with
  | some (ch, crd), some n => loop ch crd (loopRange (0, n)) (serialStart ch)
  | _, _ => none

end Verif.Fused
