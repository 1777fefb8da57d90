import Verif.Search.Model
/-!
Index sets: `A(i({s0, s1, ...}))`, an access whose mode is projected on a list of indices.

The list is packed into a compressed vector when the access is made.  A dense mode is accessed at the
coordinate that the packed vector holds at the loop coordinate.  A compressed mode is co-iterated with the
packed vector; where both hold the same coordinate, the loop coordinate is the position in the packed
vector.

* Modelled for products: every level takes part in every coordinate, so that the merge lattice has one
  point and the loop one case (two-finger strategy).  A level without index set is allowed besides levels
  with index sets.
* The loop body is not executed; it is recorded with the loop coordinate and the positions of the levels.
* A read outside an array is undefined behaviour (`none`).
* Not modelled: unions, windows and duplicates together with index sets, the strategy `Gallop`.
-/
namespace Verif.IndexSet
open Verif.Search

/-! ### The packed index set -/

/-- Loop of `getUniqueEntries`, src/storage/pack.cpp 46-53. -/
def uniqueFrom (prev : Int) : List Int → List Int
  | [] => []
  | c :: cs => if c > prev then c :: uniqueFrom c cs else uniqueFrom prev cs

/-- `getUniqueEntries`, src/storage/pack.cpp 37-56. -/
def getUniqueEntries : List Int → List Int
  | [] => []
  | c :: cs => c :: uniqueFrom c cs

/-- Insertion of an index into a sorted list. -/
def insertSorted (x : Int) : List Int → List Int
  | [] => [x]
  | y :: ys => if x ≤ y then x :: y :: ys else y :: insertSorted x ys

/-- The sorted list of coordinates, `qsort` in src/tensor.cpp 385-389; the algorithm does not matter, since
equal coordinates of a vector cannot be told apart. -/
def sort : List Int → List Int
  | [] => []
  | x :: xs => insertSorted x (sort xs)

/-- The array `crd` of the vector that holds the index set, src/tensor.cpp 503-510: the indices are
inserted and packed, that is, sorted (tensor.cpp 385-389) and stored once each (pack.cpp 93).  The
dimension of the vector is not consulted. -/
def packSet (s : List Int) : List Int := getUniqueEntries (sort s)

/-- `AccessTensorNode`, src/tensor.cpp 497-514: an index set has at most as many elements as the mode
(`taco_uassert`, 502); the elements themselves are not checked. -/
def access (dim : Nat) (s : List Int) : Option (List Int) :=
  if s.length ≤ dim then some (packSet s) else none

/-- The dimension of the loop variable: the length of the list given by the user,
src/lower/lowerer_impl_imperative.cpp 325-350. -/
def loopDim (s : List Int) : Nat := s.length

/-! ### Dense modes -/

/-- The position of a dense mode at loop coordinate `c`, `declLocatePosVars`,
src/lower/lowerer_impl_imperative.cpp 3393-3401: locate at `set_crd[c]`.  The parent position is 0. -/
def locate (crd : List Int) (c : Nat) : Option Int := crd[c]?

/-- The value read at a position of the value array; a position outside of it is undefined behaviour. -/
def readAt {V : Type} (vals : List V) (p : Int) : Option V :=
  if 0 ≤ p then vals[p.toNat]? else none

/-- `forall(i, a(i) = b(i({...})))` for a dense `b` and a dense result: the loop over the dimension
(`lowerForallDimension`, lowerer_impl_imperative.cpp 1190-1232). -/
def denseLoop {V : Type} (vals : List V) (crd : List Int) : List Nat → Option (List V)
  | [] => some []
  | c :: cs =>
    match locate crd c with
    | none => none
    | some p =>
      match readAt vals p, denseLoop vals crd cs with
      | some v, some vs => some (v :: vs)
      | _, _ => none

/-- The program `a(i) = b(i({...}))` for vectors: the access, then the loop. -/
def denseProgram {V : Type} (vals : List V) (s : List Int) : Option (List V) :=
  match access vals.length s with
  | none => none
  | some crd => denseLoop vals crd (List.range (loopDim s))

/-! ### Compressed modes -/

/-- A compressed level in the merge loop: array and segment, and the array of the packed index set if the
access has one (`Iterator::getIndexSetIterator`, src/lower/iterator.cpp 621-636). -/
structure Level where
  crd : List Int
  s : Nat
  e : Nat
  set : Option (List Int) := none
  deriving DecidableEq, Repr

/-- A level with its position and the position of its index set iterator. -/
structure Cursor where
  lvl : Level
  p : Nat
  k : Nat
  deriving DecidableEq, Repr

abbrev St := List Cursor

/-- An execution of the body: the loop coordinate and the positions of the levels. -/
abbrev Event := Int × List Nat

/-- `codeToInitializeIteratorVars`, lowerer_impl_imperative.cpp 3587-3600: the start of the segment, and
position 0 of the index set. -/
def init (ls : List Level) : St := ls.map (fun l => ⟨l, l.s, 0⟩)

/-- `checkThatNoneAreExhausted`, lowerer_impl_imperative.cpp 3843-3867; the iterators of the index sets
are iterators of the lattice point (merge_lattice.cpp 236-240). -/
def more (x : Cursor) : Bool :=
  decide (x.p < x.lvl.e) &&
    (match x.lvl.set with | none => true | some s => decide (x.k < s.length))

/-- Outcome of the head of the loop for one level: its loop coordinate, or new positions and
`continue`. -/
inductive Head1 | coord (c : Int) | next (x : Cursor)
  deriving DecidableEq, Repr

/-- Load of the coordinate (`codeToLoadCoordinatesFromPosIterators`, lowerer_impl_imperative.cpp
3686-3733) and, with an index set, its comparison with the coordinate of the set (`lowerMergePoint`,
1644-1702): on a match the coordinate becomes the position in the set, else both gallop to the larger
one. -/
def headOne (x : Cursor) : Option Head1 :=
  match x.lvl.crd[x.p]? with
  | none => none
  | some a =>
    match x.lvl.set with
    | none => some (.coord a)
    | some s =>
      match s[x.k]? with
      | none => none
      | some b =>
        let m := max a b
        if a = m ∧ b = m then some (.coord x.k)
        else
          match gallop x.lvl.crd x.p x.lvl.e m, gallop s x.k s.length m with
          | some p', some k' => some (.next ⟨x.lvl, p', k'⟩)
          | _, _ => none

/-- Outcome of the head of the loop. -/
inductive Head | coords (cs : List Int) | next (st : St)
  deriving DecidableEq, Repr

/-- The head of the loop: the levels in order; the first mismatch continues with the next iteration. -/
def headAll : St → Option Head
  | [] => some (.coords [])
  | x :: xs =>
    match headOne x with
    | none => none
    | some (.next x') => some (.next (x' :: xs))
    | some (.coord c) =>
      match headAll xs with
      | none => none
      | some (.coords cs) => some (.coords (c :: cs))
      | some (.next st) => some (.next (x :: st))

/-- `resolveCoordinate`, lowerer_impl_imperative.cpp 1793-1807: the smallest coordinate. -/
def resolve : List Int → Int
  | [] => 0
  | c :: cs => cs.foldl min c

/-- `codeToIncIteratorVars`, lowerer_impl_imperative.cpp 3639-3665: a level at the coordinate advances,
with the iterator of its index set (whose coordinate is the same after a match). -/
def advance (c : Int) : St → List Int → St
  | x :: xs, v :: vs => (if v = c then ⟨x.lvl, x.p + 1, x.k + 1⟩ else x) :: advance c xs vs
  | _, _ => []

/-- One iteration: `lowerMergePoint`, lowerer_impl_imperative.cpp 1625-1739.  The only case requires all
levels at the coordinate (`lowerMergeCases`, 1810-1882). -/
def step (st : St) : Option (List Event × St) :=
  match headAll st with
  | none => none
  | some (.next st') => some ([], st')
  | some (.coords cs) =>
    let c := resolve cs
    some (if cs.all (fun v => v == c) then [(c, st.map (·.p))] else [], advance c st cs)

/-- The `while` loop; the first argument bounds the number of iterations, and running out of it is
undefined. -/
def loop : Nat → St → Option (List Event)
  | 0, st => if st.all more then none else some []
  | n + 1, st =>
    if st.all more then
      match step st with
      | none => none
      | some (evs, st') =>
        match loop n st' with
        | none => none
        | some evs' => some (evs ++ evs')
    else some []

/-- An access of the user: level arrays, the dimension of the mode and the list of indices. -/
structure Operand where
  crd : List Int
  s : Nat
  e : Nat
  dim : Nat
  set : Option (List Int) := none
  deriving DecidableEq, Repr

/-- The level of an operand: its index set is packed when the access is made. -/
def Operand.level (o : Operand) : Option Level :=
  match o.set with
  | none => some ⟨o.crd, o.s, o.e, none⟩
  | some s => (access o.dim s).map (fun crd => ⟨o.crd, o.s, o.e, some crd⟩)

/-- The levels of the operands. -/
def levels : List Operand → Option (List Level)
  | [] => some []
  | o :: os =>
    match o.level, levels os with
    | some l, some ls => some (l :: ls)
    | _, _ => none

/-- The loop of a product of accesses. -/
def run (n : Nat) (os : List Operand) : Option (List Event) :=
  match levels os with
  | none => none
  | some ls => loop n (init ls)

end Verif.IndexSet
