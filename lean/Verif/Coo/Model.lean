import Verif.Merge.Model
import Verif.Coo.Spec
/-!
The merge loops over operands with levels that are not unique, and loop nests over them: deduplication
loops, segment ends and iterator chaining (src/lower/lowerer_impl_imperative.cpp).

Simplifications, beyond those of `Verif.Merge.Model`: the positions of a segment are counted from its
start; a deduplication loop is a count of equal coordinates; the loop that sums the values of a leaf level
is run where the value is used; no windows, index sets or galloping.
-/
namespace Verif.Coo
open Verif.Merge

/-- The input of one loop: the coordinates of the segment of each access, whether its level is unique,
and the size of the dimension. -/
structure CInput where
  crd : Nat → List Nat
  uniq : Nat → Bool
  n : Nat

/-- Coordinates only: what the loads, the merge and the cases look at. -/
def CInput.plain (W : CInput) : Input := ⟨W.crd, W.n⟩

/-- Whether the deduplication loops start after the current position: one merger, a position iterator
(`alwaysReduce`, lowerer_impl_imperative.cpp 1719). -/
def alwaysReduce (K : Ctx) (p : Point) : Bool :=
  match p.mergers K with
  | [.lev k] => (K k).elim false (·.posIter)
  | _ => false

/-- The iterations of `while (segend < end && crd[segend] == coordinate) segend++`
(`reduceDuplicateCoordinates`, lowerer_impl_imperative.cpp 3467-3474) over the rest of a segment. -/
def skipEqual (c : Nat) : List Nat → Nat
  | [] => 0
  | x :: xs => if x = c then skipEqual c xs + 1 else 0

/-- The end of the run of equal coordinates: the `segend` variable, or the iterator variable itself for a
leaf level, after the deduplication loop (lowerer_impl_imperative.cpp 3440-3474). -/
def segend (always : Bool) (W : CInput) (st : St) (c k : Nat) : Nat :=
  let q := if always then st.pos k + 1 else st.pos k
  q + skipEqual c ((W.crd k).drop q)

/-- An executed loop body. Each read is an access, its position and the end of the positions that store the
coordinate; `always` tells how the deduplication loops started. -/
structure CEvent (V : Type) where
  coord : Nat
  stmt : Option (Expr V)
  always : Bool
  reads : List (Nat × Nat × Nat)

/-- The positions used by a statement: the position variable, and the end of the run for a level that is
not unique (`dupIters`, lowerer_impl_imperative.cpp 1716-1721). -/
def readsC {V : Type} (K : Ctx) (always : Bool) (W : CInput) (st : St) (c : Nat) (s : Option (Expr V)) :
    List (Nat × Nat × Nat) :=
  match s with
  | none => []
  | some e => (e.leaves.filter (fun k => (K k).elim false (·.posIter))).map (fun k =>
      (k, st.pos k, if W.uniq k then st.pos k + 1 else segend always W st c k))

/-- `lowerMergeCases`, lowerer_impl_imperative.cpp 1810-1882, after the deduplication loops. -/
def mergeCasesC {V : Type} (K : Ctx) (always : Bool) (W : CInput) (st : St) (c : Nat) (lat : List Point)
    (stmt : Option (Expr V)) : List (CEvent V) :=
  let loopL := getLoopLattice K lat
  if (latIters loopL).length = 1 then [⟨c, stmt, always, readsC K always W st c stmt⟩]
  else
    match firstCase (caseMatches K W.plain st c) (exact K loopL && decide (loopL.length > 1)) loopL with
    | none => []
    | some p =>
      let s := Expr.zeroOutOpt (exhausted loopL p) stmt
      [⟨c, s, always, readsC K always W st c s⟩]

/-- `codeToIncIteratorVars`, lowerer_impl_imperative.cpp 3617-3684: a level that is not unique goes on at the
end of the run. -/
def advanceC (K : Ctx) (always : Bool) (W : CInput) (st : St) (c : Nat) (p : Point) : St :=
  match p.iters with
  | [.dim] => { st with i := st.i + 1 }
  | [.lev k] =>
    { st with pos := fun j => if j = k then (if W.uniq k then st.pos k + 1 else segend always W st c k)
        else st.pos j }
  | its =>
    { pos := fun j => if .lev j ∈ its then
          (if W.uniq j then incIter K W.plain st c j else segend always W st c j) else st.pos j
      i := if .dim ∈ its then st.i + 1 else st.i }

/-- What a loop leaves behind. -/
structure OutC (V : Type) where
  st : St
  fuel : Nat
  evs : List (CEvent V)

/-- The while loop of one merge point, `lowerMergePoint`, lowerer_impl_imperative.cpp 1625-1739, with the
deduplication loops between the resolved coordinate and the cases. -/
def runWhileC {V : Type} (K : Ctx) (W : CInput) (lat : List Point) (p : Point)
    (stmt : Option (Expr V)) : Nat → St → Option (OutC V)
  | 0, st => if unexhausted W.plain st (p.rangers K) then none else some ⟨st, 0, []⟩
  | fuel + 1, st =>
    if unexhausted W.plain st (p.rangers K) then
      if loadsOk W.plain st p then
        match resolve W.plain st (p.mergers K) with
        | none => none
        | some c =>
          let ev := mergeCasesC K (alwaysReduce K p) W st c lat stmt
          match runWhileC K W lat p stmt fuel (advanceC K (alwaysReduce K p) W st c p) with
          | none => none
          | some out => some { out with evs := ev ++ out.evs }
      else none
    else some ⟨st, fuel + 1, []⟩

/-- The sequence of while loops, `lowerMergeLattice`, lowerer_impl_imperative.cpp 1600-1612. -/
def runPointsC {V : Type} (K : Ctx) (W : CInput) (lat : List Point) (stmt : Expr V) :
    Nat → List Point → St → Option (List (CEvent V))
  | _, [], _ => some []
  | fuel, p :: ps, st =>
    let sub := subLattice lat p
    match sub with
    | [] => none
    | front :: _ =>
      match runWhileC K W sub front (Expr.zeroOut (exhausted lat p) stmt) fuel st with
      | none => none
      | some out =>
        match runPointsC K W lat stmt out.fuel ps out.st with
        | none => none
        | some evs' => some (out.evs ++ evs')

/-- The events of a loop over the positions of a unique level (`lowerForallPosition`,
lowerer_impl_imperative.cpp 1304-1410). -/
def positionEvents {V : Type} (K : Ctx) (W : CInput) (k : Nat) (stmt : Expr V) : List (CEvent V) :=
  (W.crd k).zipIdx.map (fun cp =>
    ⟨cp.1, some stmt, false,
      readsC K false W ⟨fun j => if j = k then cp.2 else 0, 0⟩ cp.1 (some stmt)⟩)

/-- `lowerForall`, lowerer_impl_imperative.cpp 783-863: only a single *unique* iterator gives a plain loop
(798). -/
def runForallC {V : Type} (K : Ctx) (srt : List Point → List Point) (W : CInput) (fuel : Nat)
    (stmt : Expr V) : Option (List (CEvent V)) :=
  let lat := makeLattice K srt stmt
  match latIters lat with
  | [] => none
  | [.dim] => some ((List.range W.n).map (fun c =>
      ⟨c, some stmt, false, readsC K false W ⟨fun _ => 0, 0⟩ c (some stmt)⟩))
  | [.lev k] =>
    if W.uniq k then some (positionEvents K W k stmt)
    else runPointsC K W lat stmt fuel (getLoopLattice K lat) ⟨fun _ => 0, 0⟩
  | _ :: _ :: _ => runPointsC K W lat stmt fuel (getLoopLattice K lat) ⟨fun _ => 0, 0⟩

/-! ### loop nests -/

/-- A loop: the size of its dimension and the level of each access at its variable. -/
structure CLoop where
  n : Nat
  lvl : Nat → Option CLvl

/-- Properties of the mode formats: singleton levels, like compressed ones, are iterated by position and
have neither `locate` nor `full` (mode_format_singleton.cpp 16-23, mode_format_compressed.cpp 14-25). -/
def attrC : CLvl → Attr
  | .dense _ => denseAttr
  | .comp _ _ _ => compressedAttr
  | .sing _ _ => compressedAttr

def ctxC (l : CLoop) : Ctx := fun k => (l.lvl k).map attrC

/-- Where an access stands: its position variable, its segment end (used when its level is not unique),
whether its level is unique, and how its reduced value was initialized. -/
structure Cur where
  lo : Nat
  hi : Nat
  uniq : Bool
  always : Bool

/-- The position whose segment ends the iteration of the next level: the position itself below a unique
level or the root, and `segend - 1` otherwise — iterator chaining
(lowerer_impl_imperative.cpp 1363-1394, 3493-3541). -/
def Cur.last (u : Cur) : Nat := if u.uniq then u.lo else u.hi - 1

/-- The segment of the next level: `posIterBounds` at both ends (mode_format_compressed.cpp 80-86,
mode_format_singleton.cpp 74-77). `none`: a load outside the arrays. -/
def bounds (l : CLvl) (u : Cur) : Option (Nat × List Nat) :=
  match l with
  | .dense _ => none
  | .comp _ P C =>
    match P[u.lo]?, P[u.last + 1]? with
    | some a, some b => if a ≤ b ∧ b ≤ C.length then some (a, (C.drop a).take (b - a)) else none
    | _, _ => none
  | .sing _ C =>
    if u.last + 1 ≤ C.length then some (u.lo, (C.drop u.lo).take (u.last + 1 - u.lo)) else none

/-- Is the level iterated by position? -/
def CLvl.sparse : CLvl → Bool
  | .dense _ => false
  | _ => true

/-- The segment of an access of the statement at the loop. -/
def crdC (l : CLoop) (cur : Nat → Cur) (leaves : List Nat) (k : Nat) : List Nat :=
  if k ∈ leaves then
    match l.lvl k with
    | some x => match bounds x (cur k) with
      | some (_, seg) => seg
      | none => []
    | none => []
  else []

/-- The input of the loop. -/
def inputC (l : CLoop) (cur : Nat → Cur) (leaves : List Nat) : CInput :=
  ⟨crdC l cur leaves, fun k => ((l.lvl k).map CLvl.uniq).getD true, l.n⟩

/-- Are all the bounds loads of the loop inside the arrays? -/
def boundsOk (l : CLoop) (cur : Nat → Cur) (leaves : List Nat) : Bool :=
  leaves.all (fun k => match l.lvl k with
    | some x => !x.sparse || (bounds x (cur k)).isSome
    | none => true)

/-- The state of an access inside the body: unchanged when it is not indexed by the loop variable,
`parent*width + coord` for dense (mode_format_dense.cpp 50-55), and the run of positions found by the loop
otherwise. -/
def nextCur {V : Type} (l : CLoop) (cur : Nat → Cur) (ev : CEvent V) (k : Nat) : Cur :=
  match l.lvl k with
  | none => cur k
  | some (.dense nd) => ⟨(cur k).lo * nd + ev.coord, (cur k).lo * nd + ev.coord + 1, true, false⟩
  | some x =>
    let a := ((bounds x (cur k)).map Prod.fst).getD 0
    let r := (ev.reads.lookup k).getD (0, 0)
    ⟨a + r.1, a + r.2, x.uniq, ev.always⟩

/-- The loop that adds the values of a run to the reduced value (`compoundAssign(reducedVal, partialVal)`,
lowerer_impl_imperative.cpp 3453-3459). `none`: out of bounds. -/
def addRun {V : Type} (o : Ops V) (vals : List V) : Nat → Nat → V → Option V
  | 0, _, acc => some acc
  | m + 1, q, acc => match vals[q]? with
    | none => none
    | some v => addRun o vals m (q + 1) (o.bin .add acc v)

/-- The value of an access: a load at its position, or the reduced value of the run when its last level is
not unique (`lowerAccess`, lowerer_impl_imperative.cpp 2805-2807; initialization 3434-3438). -/
def leafVal {V : Type} (o : Ops V) (vals : List V) (u : Cur) : Option V :=
  if u.uniq then vals[u.lo]?
  else if u.always then
    match vals[u.lo]? with
    | none => none
    | some v => addRun o vals (u.hi - (u.lo + 1)) (u.lo + 1) v
  else addRun o vals (u.hi - u.lo) u.lo o.zero

/-- Evaluate the right-hand side (lowerer_impl_imperative.cpp 2790-2890). -/
def evalC {V : Type} (o : Ops V) (vals : Nat → List V) (cur : Nat → Cur) : Expr V → Option V
  | .acc k => leafVal o (vals k) (cur k)
  | .lit v => some v
  | .un u a => (evalC o vals cur a).map (o.un u)
  | .bin b l r => match evalC o vals cur l, evalC o vals cur r with
    | some x, some y => some (o.bin b x y)
    | _, _ => none

/-- The loop nest (`lowerForall`/`lowerForallBody`, lowerer_impl_imperative.cpp 647-897, 2070-2145): the
executed scalar statements, coordinates and value. The budget of a merge is the dimension size plus the
number of listed coordinates. -/
def kernelC {V : Type} (o : Ops V) (srt : List Point → List Point) (vals : Nat → List V) :
    List CLoop → (Nat → Cur) → Expr V → Option (List (List Nat × V))
  | [], cur, e => (evalC o vals cur e).map (fun v => [([], v)])
  | l :: ls, cur, e =>
    if boundsOk l cur e.leaves then
      let W := inputC l cur e.leaves
      match runForallC (ctxC l) srt W (l.n + (e.leaves.map (fun k => (W.crd k).length)).sum) e with
      | none => none
      | some evs =>
        (evs.mapM (fun (ev : CEvent V) => match ev.stmt with
          | none => some []
          | some e' => (kernelC o srt vals ls (nextCur l cur ev) e').map
              (List.map (fun (cv : List Nat × V) => (ev.coord :: cv.1, cv.2))))).map List.flatten
    else none

/-- Before the first loop every access is at the root (`Iterator::getParent().isRoot()`). -/
def rootCur : Cur := ⟨0, 1, true, false⟩

end Verif.Coo
