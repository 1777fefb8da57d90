import Verif.Window.Model
import Verif.Merge.Model
/-!
Merge loops over windowed operands: `lowerMergeLattice`/`lowerMergePoint`
(lowerer_impl_imperative.cpp 1583-1739) with the guards that windows add to them
(`codeToLoadCoordinatesFromPosIterators` 3686-3733, `resolveCoordinate` 1741-1808,
`codeToInitializeIteratorVar` 3517-3526).

Lattices, cases and increments are those of `Verif.Merge.Model`; positions are absolute positions in
the `crd` array of the operand.  Simplification: as there, a load at or after the end of the segment
counts as undefined even when the array goes on; a negative projected coordinate gives `none`.
-/
namespace Verif.Window
open Verif.Search Verif.Merge

/-- A compressed level of an operand below its parent position: the array, the segment
(`posIterBounds`, mode_format_compressed.cpp 80-86) and the window of the access. -/
structure Acc where
  arr : List Int
  s : Nat
  e : Nat
  win : Option Window

/-- Input of one windowed loop nest level. -/
structure WInput where
  acc : Nat → Acc
  n : Nat

/-- What loading the coordinate of a position iterator does to the loop body: the coordinate variable
is set, or the iteration is skipped after advancing the iterator, or the loop is left. -/
inductive Load | ok (c : Nat) | skip | stop
  deriving DecidableEq, Repr

/-- `codeToLoadCoordinatesFromPosIterators`, lowerer_impl_imperative.cpp 3694-3730, for one iterator,
and the same code in `resolveCoordinate` 1744-1781: load, stride guard, projection, bound guard. -/
def load (A : Acc) (p : Nat) : Option Load :=
  if p < A.e then
    match A.arr[p]? with
    | none => none
    | some x =>
      match A.win with
      | none => if x < 0 then none else some (.ok x.toNat)
      | some w =>
        if w.stride = 0 then none
        else if w.offStride x then some .skip
        else if w.beyond (w.project x) then some .stop
        else if w.project x < 0 then none
        else some (.ok (w.project x).toNat)
  else none

/-- What the loads at the head of a loop body do together. -/
inductive Loaded | ok | skip (k : Nat) | stop
  deriving DecidableEq, Repr

/-- The loads of several iterators, in order (lowerer_impl_imperative.cpp 3691-3731). -/
def loadAll (W : WInput) (st : St) : List It → Option Loaded
  | [] => some .ok
  | .dim :: xs => loadAll W st xs
  | .lev k :: xs =>
    match load (W.acc k) (st.pos k) with
    | none => none
    | some (.ok _) => loadAll W st xs
    | some .skip => some (.skip k)
    | some .stop => some .stop

/-- The head of the loop of a merge point: the loads, emitted only when the point has several
iterators (3689), and the load of a single merger in `resolveCoordinate` (1742-1781). -/
def header (K : Ctx) (W : WInput) (st : St) (p : Point) : Option Loaded :=
  match (if p.iters.length > 1 then loadAll W st p.iters else some .ok) with
  | some .ok =>
    match p.mergers K with
    | [.lev k] => loadAll W st [.lev k]
    | _ => some .ok
  | r => r

/-- The coordinate variables seen by the rest of the loop body: the loaded coordinates, projected
(3721, 1776). -/
def view (W : WInput) : Input where
  crd k := ((W.acc k).arr.take (W.acc k).e).map (fun x => match (W.acc k).win with
    | none => x.toNat
    | some w => (w.project x).toNat)
  n := W.n

/-- The while loop of one merge point with the guards of windows; see `Merge.runWhile`. Every
iteration costs one unit of the budget. -/
def runWhileW {V : Type} (K : Ctx) (W : WInput) (lat : List Point) (p : Point)
    (stmt : Option (Expr V)) : Nat → St → Option (Out V)
  | 0, st => if unexhausted (view W) st (p.rangers K) then none else some ⟨st, 0, []⟩
  | fuel + 1, st =>
    if unexhausted (view W) st (p.rangers K) then
      match header K W st p with
      | none => none
      | some (.skip k) =>
        runWhileW K W lat p stmt fuel { st with pos := fun j => if j = k then st.pos k + 1 else st.pos j }
      | some .stop => some ⟨st, fuel, []⟩
      | some .ok =>
        match resolve (view W) st (p.mergers K) with
        | none => none
        | some c =>
          let ev := mergeCases K (view W) st c lat stmt
          match runWhileW K W lat p stmt fuel (advance K (view W) st c p) with
          | none => none
          | some out => some { out with evs := ev ++ out.evs }
    else some ⟨st, fuel + 1, []⟩

/-- The sequence of while loops; see `Merge.runPoints`. -/
def runPointsW {V : Type} (K : Ctx) (W : WInput) (lat : List Point) (stmt : Expr V) :
    Nat → List Point → St → Option (List (Event V))
  | _, [], _ => some []
  | fuel, p :: ps, st =>
    match subLattice lat p with
    | [] => none
    | front :: _ =>
      match runWhileW K W (subLattice lat p) front (Expr.zeroOut (exhausted lat p) stmt) fuel st with
      | none => none
      | some out =>
        match runPointsW K W lat stmt out.fuel ps out.st with
        | none => none
        | some evs' => some (out.evs ++ evs')

/-- `codeToInitializeIteratorVar`, lowerer_impl_imperative.cpp 3484-3526: the first position of a
segment, searched for when the access is windowed. -/
def startPos (A : Acc) : Option Nat :=
  match A.win with
  | none => some A.s
  | some w => binarySearchAfter A.arr A.s A.e w.lo

/-- The position loop over a single iterator, with or without window (`lowerForallPosition`). -/
def posLoop (A : Acc) : Option (List (Nat × Int)) :=
  match A.win with
  | some w => serialLoop A.arr A.s A.e w
  | none => (List.range' A.s (A.e - A.s)).mapM (fun p => (A.arr[p]?).map (fun x => (p, x)))

/-- Start positions of all the iterators of the loop lattice (`codeToInitializeIteratorVars`,
lowerer_impl_imperative.cpp 3587-3601). -/
def startAll (W : WInput) : List It → Option (Nat → Nat)
  | [] => some (fun _ => 0)
  | .dim :: xs => startAll W xs
  | .lev k :: xs =>
    match startPos (W.acc k), startAll W xs with
    | some b, some f => some (fun j => if j = k then b else f j)
    | _, _ => none

/-- `lowerForall` over windowed operands; see `Merge.runForall`. -/
def runForallW {V : Type} (K : Ctx) (srt : List Point → List Point) (W : WInput) (fuel : Nat)
    (stmt : Expr V) : Option (List (Event V)) :=
  let lat := makeLattice K srt stmt
  match latIters lat with
  | [] => none
  | [.dim] => some ((List.range W.n).map (fun c => ⟨c, some stmt, readsOf K (fun _ => 0) (some stmt)⟩))
  | [.lev k] =>
    (posLoop (W.acc k)).map (List.map (fun pc =>
      ⟨pc.2.toNat, some stmt, readsOf K (fun j => if j = k then pc.1 else 0) (some stmt)⟩))
  | x :: y :: zs =>
    match startAll W (x :: y :: zs) with
    | none => none
    | some f => runPointsW K W lat stmt fuel (getLoopLattice K lat) ⟨f, 0⟩

end Verif.Window
