import Verif.Merge.Model
import Verif.Algebra.Model
import Verif.Omit.Spec
/-!
The loop generated for the call of a user-defined operator: the merge lattice of an iteration-space
description with complements (`src/lower/merge_lattice.cpp`), the zeroing of the arguments of the call
(`src/index_notation/index_notation.cpp`) and the cases with explicit zero checks
(`src/lower/lowerer_impl_imperative.cpp`).  The operations on merge points and on iterators are those
of `Verif.Merge.Model`, where omitter points are carried.

Simplifications
* One `forall` over an index variable without derivations; the body assigns one call to the result.
* Every operand is an access of a vector in one compressed level (ordered, unique, no duplicates), so
  every level iterator is a leaf.
* The operator has no declared properties: `Annihilator`/`Identity` rewriting of calls is modelled in
  `Verif.Algebra.Model`, and `returnsTrue` (lowerer_impl_imperative.cpp 112-178) is false for it.
* The case that zeroes a full result when nothing matches (lowerer_impl_imperative.cpp 2008-2026) does
  not execute the call and needs a full operand, so it does not arise.
* The merge strategy is two-finger merging.
-/
namespace Verif.Omit
open Verif.Algebra (Alg dispatch)
open Verif.Merge (It Attr Ctx Point mkPoint compressedAttr latIters latLocs intersectLattices
  unionLattices getLoopLattice subLattice exhausted exact St coordOf unexhausted resolve firstCase
  advance loadsOk dedup)

/-- Every access indexes the loop variable by a compressed level. -/
def K0 : Ctx := fun _ => some compressedAttr

/-- The segments of the operands as input of the merge loops. -/
def input {V : Type} (X : Operands V) : Merge.Input := ⟨X.crd, X.n⟩

/-! ### The lattice -/

/-- `flipPoints`, merge_lattice.cpp 879-887. -/
def flipPoints (ps : List Point) : List Point := ps.map (fun p => mkPoint p.iters p.locs (!p.isOm))

/-- `includeDimensionIterator`, merge_lattice.cpp 515-533. -/
def includeDim (ps : List Point) : List Point :=
  ps.map (fun p => if p.iters.any It.isDim then p else mkPoint (p.iters ++ [.dim]) p.locs p.isOm)

/-- `visit(const ComplementNode*)`, merge_lattice.cpp 102-128.  `includeMissingProducerPoints` (489-513)
adds points for the nonempty proper subsets of the region of the first point; the region of one access
has none. -/
def complementPoints (ps : List Point) : List Point :=
  let ps := includeDim (flipPoints ps)
  if ps.any (fun p => p.locs.isEmpty && p.iters == [.dim]) then ps
  else ps ++ [mkPoint [.dim] [] false]

/-- `visit` of `RegionNode` 92-100 with `AccessNode` 179-253, `ComplementNode` 102-128 (the assertion
at 103 is `none`), `IntersectNode` 130-140, `UnionNode` 142-155. -/
def build (srt : List Point → List Point) : Alg → Option (List Point)
  | .region k => some [mkPoint [.lev k] [] false]
  | .compl (.region k) => some (complementPoints [mkPoint [.lev k] [] false])
  | .compl _ => none
  | .inter a b =>
    match build srt a, build srt b with
    | some l, some r => some (if l.isEmpty || r.isEmpty then [] else intersectLattices K0 srt l r)
    | _, _ => none
  | .union a b =>
    match build srt a, build srt b with
    | some l, some r =>
      some (if l.isEmpty then r else if r.isEmpty then l else unionLattices K0 srt l r)
    | _, _ => none

/-- `anyModeIteratorIsLeaf`, merge_lattice.cpp 1158-1164. -/
def anyLeaf (lat : List Point) : Bool := (latIters lat ++ latLocs lat).any (fun x => !x.isDim)

/-- `needExplicitZeroChecks`, merge_lattice.cpp 1068-1073; `keep`: there are regions to keep. -/
def needChecks (lat : List Point) (keep : Bool) : Bool := lat.any (fun p => p.isOm) || keep

/-- `MergeLattice::make`, merge_lattice.cpp 1005-1028.  `CallNode` stores the description after
`applyDemorgan` (index_notation_nodes.cpp 45) and its visitor (merge_lattice.cpp 300-326) keeps a region
for every special definition. -/
def makeLattice {V : Type} (srt : List Point → List Point) (op : Op V) : Option (List Point) :=
  match build srt (dispatch op.alg) with
  | none => none
  | some lat =>
    if anyLeaf lat && needChecks lat (!op.special.isEmpty) then some lat
    else some (getLoopLattice K0 lat)

/-- `retrieveRegionIteratorsToOmit`, merge_lattice.cpp 1166-1198. -/
def toOmit (lat : List Point) (p : Point) : List It :=
  dedup ((if p.isOm then p.region else []) ++
    (lat.filter (fun q => decide (q.region.length > p.region.length) && q.isOm)).flatMap
      (fun q => q.region.filter (fun x => !(x ∈ p.region : Bool))))

/-! ### The call -/

/-- The arguments of the call, `none` for a literal zero, and `definedRegions`, the arguments that the
choice of a special definition takes to be stored (`CallNode`, index_notation_nodes.h 287-315). -/
structure Call where
  args : List (Option Nat)
  defined : List Nat
  deriving DecidableEq, Repr

/-- The call as written (`definedIndices`, index_notation_nodes.cpp 18-36: all arguments). -/
def initCall (n : Nat) : Call := ⟨(List.range n).map some, List.range n⟩

/-- `Zero::visit(const AccessNode*)`, index_notation.cpp 3785-3793, followed by the replacement of an
undefined argument by zero (3925). -/
def zeroArg (z : Nat → Bool) : Option Nat → Option Nat
  | none => none
  | some k => if z k then none else some k

/-- Is the argument defined after rewriting?  A literal is (3795-3797). -/
def argDefined (z : Nat → Bool) : Option Nat → Bool
  | none => true
  | some k => !z k

/-- `Zero::visit(const CallNode*)`, index_notation.cpp 3906-3957. -/
def zeroCall (z : Nat → Bool) (c : Call) : Call :=
  let args := c.args.map (zeroArg z)
  if args = c.args then c
  else ⟨args, (List.range c.args.length).filter (fun i => (c.args[i]?).elim false (argDefined z))⟩

/-- The value of an argument: `vals[pos]` of the operand, or zero. -/
def argVal {V : Type} (X : Operands V) (pos : Nat → Nat) : Option Nat → Option V
  | none => some X.zero
  | some k => (X.vals k)[pos k]?

/-- `lowerTensorOp`, lowerer_impl_imperative.cpp 2919-2936, and the value of the emitted expression.
`none`: a load outside the values. -/
def evalCall {V : Type} (op : Op V) (X : Operands V) (pos : Nat → Nat) (c : Call) : Option V :=
  match specialFor op.special c.defined with
  | some f => (c.defined.mapM (fun i => (c.args[i]?).bind (argVal X pos))).map f
  | none => (c.args.mapM (argVal X pos)).map op.func

/-! ### The cases -/

/-- The condition of a case of `lowerCasesFromMap`, lowerer_impl_imperative.cpp 1975-1990: the
operands that must be nonzero and those that must not be. Only the iterators of the lattice have an
entry in the map (`constructInnerLoopCasePreamble` 1895-1957). -/
def caseConds (lat : List Point) (p : Point) : List (Nat × Bool) :=
  let inMap := fun x => (latIters lat ++ latLocs lat).contains x
  ((p.rangers K0 ++ p.locs).filter inMap).filterMap
      (fun x => match x with | .lev k => some (k, true) | .dim => none) ++
  ((toOmit lat p).filter inMap).filterMap
      (fun x => match x with | .lev k => some (k, false) | .dim => none)

/-- Does the condition hold, when `nz` tells which operands are nonzero? -/
def condsHold (nz : Nat → Bool) (cs : List (Nat × Bool)) : Bool := cs.all (fun x => nz x.1 == x.2)

/-- `lowerCasesFromMap`, lowerer_impl_imperative.cpp 1959-2031: omitters are skipped (1972); a case
without a condition is executed unconditionally and ends the list (1997-2002), before the cases that
precede it. -/
def casesFromMap (lat : List Point) (nz : Nat → Bool) (call : Call) : List Call :=
  let ps := lat.filter (fun p => !p.isOm)
  let cs := ps.takeWhile (fun p => !(caseConds lat p).isEmpty)
  (if ps.any (fun p => (caseConds lat p).isEmpty) then [call] else []) ++
  (match firstCase (fun p => condsHold nz (caseConds lat p)) (exact K0 lat && decide (cs.length > 1)) cs with
   | none => []
   | some p => [zeroCall (exhausted lat p) call])

/-- The part of `lowerForallBody` that depends on the lattice, lowerer_impl_imperative.cpp 2089-2115. -/
def body (lat : List Point) (nz : Nat → Bool) (call : Call) : List Call :=
  if anyLeaf lat && decide (lat.length > 1) then casesFromMap lat nz call else [call]

/-- The stored value differs from zero (`constructCheckForAccessZero`, lowerer_impl_imperative.cpp
1884-1888). -/
def nonzero {V : Type} [DecidableEq V] (X : Operands V) (pos : Nat → Nat) (k : Nat) : Bool :=
  decide ((X.vals k)[pos k]? ≠ some X.zero)

/-- The condition of a structural case, lowerer_impl_imperative.cpp 1853-1862. -/
def structMatch {V : Type} (X : Operands V) (st : St) (c : Nat) (lat : List Point) (p : Point) : Bool :=
  (p.rangers K0).all (fun x => coordOf (input X) st x == some c) &&
  (p.isOm || (toOmit lat p).all (fun x => !(coordOf (input X) st x == some c)))

/-- `lowerMergeCases`, lowerer_impl_imperative.cpp 1810-1882, with
`lowerMergeCasesWithExplicitZeroChecks` 2033-2068: the calls executed in one loop iteration. The lattice
is a `subLattice`, which keeps no regions (merge_lattice.cpp 1089). -/
def mergeCases {V : Type} [DecidableEq V] (X : Operands V) (st : St) (c : Nat) (lat : List Point)
    (call : Call) : List Call :=
  if anyLeaf lat && needChecks lat false then
    if lat.length = 1 ∧ (latIters lat).length = 1 then [call]
    else casesFromMap lat
      (fun k => coordOf (input X) st (.lev k) == some c && nonzero X st.pos k) call
  else
    let loopL := getLoopLattice K0 lat
    if (latIters loopL).length = 1 then body loopL (nonzero X st.pos) call
    else
      match firstCase (structMatch X st c loopL) (exact K0 loopL && decide (loopL.length > 1)) loopL with
      | none => []
      | some p => [zeroCall (exhausted loopL p) call]

/-- Is the first point an omitter? -/
def frontOm : List Point → Bool
  | [] => false
  | p :: _ => p.isOm

/-- The assertions of lowering that a single iterator is not an omitter,
lowerer_impl_imperative.cpp 1833 and 2043. -/
def lowerable (lat : List Point) : Bool :=
  if anyLeaf lat && needChecks lat false then
    !(decide (lat.length = 1) && decide ((latIters lat).length = 1) && frontOm lat)
  else
    !(decide ((latIters (getLoopLattice K0 lat)).length = 1) && frontOm (getLoopLattice K0 lat))

/-! ### The loops -/

/-- The while loop of one merge point, `lowerMergePoint`, lowerer_impl_imperative.cpp 1625-1739, as
`Merge.runWhile`; the result lists coordinates with the values of the executed calls. -/
def runWhile {V : Type} [DecidableEq V] (op : Op V) (X : Operands V) (lat : List Point) (p : Point)
    (call : Call) : Nat → St → Option (St × Nat × List (Nat × V))
  | 0, st => if unexhausted (input X) st (p.rangers K0) then none else some (st, 0, [])
  | fuel + 1, st =>
    if unexhausted (input X) st (p.rangers K0) then
      if loadsOk (input X) st p then
        match resolve (input X) st (p.mergers K0) with
        | none => none
        | some c =>
          match (mergeCases X st c lat call).mapM (evalCall op X st.pos) with
          | none => none
          | some vs =>
            match runWhile op X lat p call fuel (advance K0 (input X) st c p) with
            | none => none
            | some out => some (out.1, out.2.1, vs.map (fun v => (c, v)) ++ out.2.2)
      else none
    else some (st, fuel + 1, [])

/-- The sequence of while loops, `lowerMergeLattice`, lowerer_impl_imperative.cpp 1600-1612. -/
def runPoints {V : Type} [DecidableEq V] (op : Op V) (X : Operands V) (lat : List Point) :
    Nat → List Point → St → Option (List (Nat × V))
  | _, [], _ => some []
  | fuel, p :: ps, st =>
    match subLattice lat p with
    | [] => none
    | front :: rest =>
      match runWhile op X (front :: rest) front (zeroCall (exhausted lat p) (initCall op.arity)) fuel st with
      | none => none
      | some out =>
        match runPoints op X lat out.2.1 ps out.1 with
        | none => none
        | some evs => some (out.2.2 ++ evs)

/-- A loop over one iterator: the coordinates with the positions of the operands. -/
def runPlain {V : Type} [DecidableEq V] (op : Op V) (X : Operands V) (lat : List Point) :
    List (Nat × (Nat → Nat)) → Option (List (Nat × V))
  | [] => some []
  | (c, pos) :: rest =>
    match (body lat (nonzero X pos) (initCall op.arity)).mapM (evalCall op X pos), runPlain op X lat rest with
    | some vs, some evs => some (vs.map (fun v => (c, v)) ++ evs)
    | _, _ => none

/-- `lowerForall`, lowerer_impl_imperative.cpp 783-863: one iterator gives a plain loop
(`lowerForallDimension` 1190, `lowerForallPosition` 1304), otherwise the merge loops. `none`: an assertion
of lowering fails, a load is outside its array, or the loops need more than `fuel` iterations. -/
def run {V : Type} [DecidableEq V] (srt : List Point → List Point) (op : Op V) (X : Operands V)
    (fuel : Nat) : Option (List (Nat × V)) :=
  match makeLattice srt op with
  | none => none
  | some lat =>
    match latIters lat with
    | [] => none
    | [.dim] => runPlain op X lat ((List.range X.n).map (fun c => (c, fun _ => 0)))
    | [.lev k] => runPlain op X lat ((X.crd k).zipIdx.map (fun cp => (cp.1, fun j => if j = k then cp.2 else 0)))
    | _ :: _ :: _ =>
      if (getLoopLattice K0 lat).all (fun p => lowerable (subLattice lat p)) then
        runPoints op X lat fuel (getLoopLattice K0 lat) ⟨fun _ => 0, 0⟩
      else none

end Verif.Omit
