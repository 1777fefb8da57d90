import Verif.Search.Model
import Verif.Window.Model
/-!
The loop that co-iterates the levels of a product, for both merge strategies of
`IndexStmt::mergeby(i, strategy)`.

`SetMergeStrategy::apply` (src/index_notation/transformations.cpp 155-215) accepts `Gallop` when every
iterator of the loop is ordered and the merge lattice has one point, that is, when the expression is a
product of the levels; it does not look at duplicates or windows.  The lattice then gives one `while`
loop with one case, whose condition is that all levels are at the resolved coordinate.

* A level is an array `crd` and the segment `[s,e)` of the parent position.  Loads outside the array are
  undefined behaviour (`none`).  At least two levels take part (one level gives a `for` loop).
* The loop body is not executed; it is recorded with the coordinate and, for each level, the range of
  positions it uses: one position of a unique level, the positions that are chained or reduced of a level
  with duplicates.
* Not modelled: levels merged with a dimension of a derived variable, full levels, index sets.
-/
namespace Verif.Gallop
open Verif.Search Verif.Window

/-- `MergeStrategy`, include/taco/ir_tags.h 36-40. -/
inductive Strategy | twoFinger | gallop
  deriving DecidableEq, Repr

/-- An iterator over a compressed level, as seen by the merge loop: array, bounds of the segment, the
properties `isUnique` and `isLeaf`, the window, and whether the parent level has duplicates
(`!getParent().isUnique()`).  src/lower/iterator.cpp, include/taco/lower/iterator.h. -/
structure Iter where
  crd : List Int
  s : Nat
  e : Nat
  unique : Bool := true
  leaf : Bool := true
  window : Option Window := none
  chained : Bool := false
  deriving DecidableEq, Repr

/-- The iterators with their position variables. -/
abbrev St := List (Iter × Nat)

/-- An execution of the loop body: the coordinate and the range of positions of every level. -/
abbrev Event := Int × List (Nat × Nat)

/-- First position, `codeToInitializeIteratorVar`, lowerer_impl_imperative.cpp 3485-3535: a window is
searched for, unless the parent has duplicates (3523-3534). -/
def initOne (it : Iter) : Option Nat :=
  match it.window with
  | none => some it.s
  | some w => if it.chained then some it.s else binarySearchAfter it.crd it.s it.e w.lo

/-- `codeToInitializeIteratorVars`, lowerer_impl_imperative.cpp 3587-3600. -/
def init : List Iter → Option St
  | [] => some []
  | it :: its =>
    match initOne it, init its with
    | some p, some st => some ((it, p) :: st)
    | _, _ => none

/-- Outcome of loading one coordinate: a coordinate, a `continue` after skipping the position (stride
guard) or a `break` (window guard). -/
inductive Load1 | coord (c : Int) | skip | leave
  deriving DecidableEq, Repr

/-- `codeToLoadCoordinatesFromPosIterators` for one iterator, lowerer_impl_imperative.cpp 3686-3733. -/
def loadOne (x : Iter × Nat) : Option Load1 :=
  match x.1.crd[x.2]? with
  | none => none
  | some v =>
    match x.1.window with
    | none => some (.coord v)
    | some w =>
      if w.stride = 0 then none
      else if w.offStride v then some .skip
      else if w.beyond (w.project v) then some .leave
      else some (.coord (w.project v))

/-- Outcome of loading all coordinates. -/
inductive Load | coords (cs : List Int) | next (st : St) | leave
  deriving DecidableEq, Repr

/-- `codeToLoadCoordinatesFromPosIterators`, lowerer_impl_imperative.cpp 3686-3733: the iterators in
order; the stride guard increments the position of its iterator and continues. -/
def loadAll : St → Option Load
  | [] => some (.coords [])
  | x :: xs =>
    match loadOne x with
    | none => none
    | some .skip => some (.next ((x.1, x.2 + 1) :: xs))
    | some .leave => some .leave
    | some (.coord c) =>
      match loadAll xs with
      | none => none
      | some (.coords cs) => some (.coords (c :: cs))
      | some (.next st) => some (.next (x :: st))
      | some .leave => some .leave

/-- `resolveCoordinate`, lowerer_impl_imperative.cpp 1793-1807: the largest coordinate when galloping
(`mergeWithMax`, 1693-1698), else the smallest. -/
def resolve (strat : Strategy) : List Int → Int
  | [] => 0
  | c :: cs => cs.foldl (match strat with | .gallop => max | .twoFinger => min) c

/-- The loop of `reduceDuplicateCoordinates`, lowerer_impl_imperative.cpp 3462-3473:
`while (segend < end && crd[segend] == coordinate) segend++`; the first argument bounds the number of
iterations and is `end - segend` at the call. -/
def dupEnd (crd : List Int) (e : Nat) (c : Int) : Nat → Nat → Option Nat
  | 0, p => some p
  | n + 1, p =>
    if p < e then
      match crd[p]? with
      | none => none
      | some v => if v = c then dupEnd crd e c n (p + 1) else some p
    else some p

/-- End of the positions that the body uses.  A unique level uses one; a level with duplicates runs the
loop of `reduceDuplicateCoordinates` from its position (`alwaysReduce` is false since several iterators
are merged, lowerer_impl_imperative.cpp 1703-1708). -/
def rangeEnd (x : Iter × Nat) (c : Int) : Option Nat :=
  if x.1.unique then some (x.2 + 1) else dupEnd x.1.crd x.1.e c (x.1.e - x.2) x.2

/-- The ranges of all levels. -/
def ranges (c : Int) : St → Option (List (Nat × Nat))
  | [] => some []
  | x :: xs =>
    match rangeEnd x c, ranges c xs with
    | some q, some rs => some ((x.2, q) :: rs)
    | _, _ => none

/-- Position of an iterator at the end of an iteration.
* In the body of the case every iterator is incremented when galloping (`lowerForallBody`,
  lowerer_impl_imperative.cpp 2126-2133; `matched`).
* Then `codeToIncIteratorVars`, 3639-3665: a unique level gallops to the coordinate or is incremented when
  it is at the coordinate; a level with duplicates that is not a leaf continues at `segend`; a leaf with
  duplicates was moved by the deduplication loop. -/
def advanceOne (strat : Strategy) (c : Int) (matched : Bool) (x : Iter × Nat) (v : Int) : Option Nat :=
  if x.1.unique then
    match strat with
    | .gallop => gallop x.1.crd (if matched then x.2 + 1 else x.2) x.1.e c
    | .twoFinger => some (x.2 + (if v = c then 1 else 0))
  else
    match rangeEnd x c with
    | none => none
    | some q =>
      if x.1.leaf then
        match strat with
        | .gallop => some (if matched then q + 1 else q)
        | .twoFinger => some q
      else some q

/-- The positions of all iterators at the end of an iteration. -/
def advance (strat : Strategy) (c : Int) (matched : Bool) : St → List Int → Option St
  | [], _ => some []
  | _ :: _, [] => none
  | x :: xs, v :: vs =>
    match advanceOne strat c matched x v, advance strat c matched xs vs with
    | some p, some st => some ((x.1, p) :: st)
    | _, _ => none

/-- One evaluation of the loop condition (`checkThatNoneAreExhausted`, lowerer_impl_imperative.cpp
3843-3867) and of the body (`lowerMergePoint`, 1625-1739, with the single case of `lowerMergeCases`,
1845-1880).  `some none`: the loop is left. -/
def step (strat : Strategy) (st : St) : Option (Option (List Event × St)) :=
  if st.all (fun x => decide (x.2 < x.1.e)) then
    match loadAll st with
    | none => none
    | some .leave => some none
    | some (.next st') => some (some ([], st'))
    | some (.coords cs) =>
      match ranges (resolve strat cs) st,
            advance strat (resolve strat cs) (cs.all (fun v => v == resolve strat cs)) st cs with
      | some rs, some st' =>
        some (some (if cs.all (fun v => v == resolve strat cs) then [(resolve strat cs, rs)] else [], st'))
      | _, _ => none
  else some none

/-- At most `fuel` iterations of the loop: the executions of the body, and whether the loop was left. -/
def loop (strat : Strategy) : Nat → St → Option (List Event × Bool)
  | 0, _ => some ([], false)
  | n + 1, st =>
    match step strat st with
    | none => none
    | some none => some ([], true)
    | some (some (evs, st')) =>
      match loop strat n st' with
      | none => none
      | some (evs', fin) => some (evs ++ evs', fin)

/-- The whole loop with its initialization. -/
def run (strat : Strategy) (fuel : Nat) (its : List Iter) : Option (List Event × Bool) :=
  match init its with
  | none => none
  | some st => loop strat fuel st

/-! ### The value computed in the body -/

/-- Addition, multiplication and zero of the component type. -/
structure Arith (V : Type) where
  zero : V
  add : V → V → V
  mul : V → V → V

/-- The additions of the deduplication loop, lowerer_impl_imperative.cpp 3433-3473: `n` components from
position `p` are added to the reduced value. -/
def reduceFrom {V : Type} (o : Arith V) (vals : List V) : Nat → Nat → V → Option V
  | 0, _, acc => some acc
  | n + 1, p, acc =>
    match vals[p]? with
    | none => none
    | some v => reduceFrom o vals n (p + 1) (o.add acc v)

/-- The value of an operand in the body: the component at the position (`lowerAccess`,
lowerer_impl_imperative.cpp 2788-2830), or the variable that holds the reduced value. -/
def operandVal {V : Type} (o : Arith V) (it : Iter) (vals : List V) (r : Nat × Nat) : Option V :=
  if it.unique then vals[r.1]? else reduceFrom o vals (r.2 - r.1) r.1 o.zero

/-- The values of all operands. -/
def operandVals {V : Type} (o : Arith V) : List (Iter × List V) → List (Nat × Nat) → Option (List V)
  | [], _ => some []
  | _ :: _, [] => none
  | x :: xs, r :: rs =>
    match operandVal o x.1 x.2 r, operandVals o xs rs with
    | some v, some vs => some (v :: vs)
    | _, _ => none

/-- `a * b * c` associates to the left. -/
def product {V : Type} (o : Arith V) : List V → V
  | [] => o.zero
  | v :: vs => vs.foldl o.mul v

/-- The statement `y += a(i) * b(i) * ...` in the loop body, one after the other. -/
def accumulate {V : Type} (o : Arith V) (xs : List (Iter × List V)) : List Event → V → Option V
  | [], acc => some acc
  | ev :: evs, acc =>
    match operandVals o xs ev.2 with
    | none => none
    | some vs => accumulate o xs evs (o.add acc (product o vs))

/-- The kernel of `y = sum(i, a(i) * b(i) * ...)` over vectors whose levels are the iterators: `none` when
it is undefined or has not finished after `fuel` iterations. -/
def kernel {V : Type} (o : Arith V) (strat : Strategy) (fuel : Nat) (xs : List (Iter × List V)) : Option V :=
  match run strat fuel (xs.map (·.1)) with
  | some (evs, true) => accumulate o xs evs o.zero
  | _ => none

end Verif.Gallop
