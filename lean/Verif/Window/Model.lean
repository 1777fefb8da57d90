import Verif.Search.Model
/-!
Windowed and strided accesses `A(i(lo,hi,stride))`: the arithmetic and the guards emitted by
`src/lower/lowerer_impl_imperative.cpp` for one level.

* A level is the array `crd : List Int` and the segment `[s,e)` of its parent position; a load outside
  the array is undefined behaviour and gives `none`.
* Window bounds are `int` literals of the generated code (`iterator.cpp:613-620`).  The constructor
  of the access (`tensor.cpp:479-520`) checks only `0 ≤ lo` and `hi ≤ dimension`, so nothing else is
  assumed here; a stride of `0` is a division by zero and gives `none`.  The subtractions and products
  below do not overflow `int` for coordinates inside the tensor, and are not checked.
-/
namespace Verif.Window
open Verif.Search

/-- `Iterator::Content::Window`, iterator.h 214-226 (`setWindowBounds`, iterator.cpp 452-456). -/
structure Window where
  lo : Int
  hi : Int
  stride : Int
  deriving DecidableEq, Repr

/-- `Access::getWindowSize`, index_notation.cpp 1072-1076, and the dimension of the loop,
lowerer_impl_imperative.cpp 329-348: `(hi - lo) / stride` with C division. -/
def Window.size (w : Window) : Int := (w.hi - w.lo).tdiv w.stride

/-- `Iterator::isStrided`, iterator.cpp 444-450. -/
def Window.isStrided (w : Window) : Bool := !(w.stride == 1)

/-- The condition of `strideBoundsGuard`, lowerer_impl_imperative.cpp 4070-4088, emitted only for
strided iterators: `(crd - lo) % stride != 0` skips the coordinate. -/
def Window.offStride (w : Window) (x : Int) : Bool :=
  w.isStrided && decide ((x - w.lo).tmod w.stride ≠ 0)

/-- `projectWindowedPositionToCanonicalSpace`, lowerer_impl_imperative.cpp 4091-4093. -/
def Window.project (w : Window) (x : Int) : Int := (x - w.lo).tdiv w.stride

/-- `projectCanonicalSpaceToWindowedPosition`, lowerer_impl_imperative.cpp 4096-4098. -/
def Window.unproject (w : Window) (c : Int) : Int := c * w.stride + w.lo

/-- The condition of `upperBoundGuardForWindowPosition`, lowerer_impl_imperative.cpp 4061-4067:
`coord >= (hi - lo) / stride` leaves the loop. -/
def Window.beyond (w : Window) (c : Int) : Bool := decide (c ≥ w.size)

/-- The body of the serial position loop over the given positions, `lowerForallPosition`,
lowerer_impl_imperative.cpp 1311-1340: stride guard (`continue`), coordinate, bound guard (`break`).
The result lists position and coordinate of each execution of the loop body. -/
def serialBody (a : List Int) (w : Window) : List Nat → Option (List (Nat × Int))
  | [] => some []
  | p :: ps =>
    match a[p]? with
    | none => none
    | some x =>
      if w.offStride x then serialBody a w ps
      else if w.beyond (w.project x) then some []
      else (serialBody a w ps).map ((p, w.project x) :: ·)

/-- The serial loop, lowerer_impl_imperative.cpp 1363-1413: the first position is found by
`taco_binarySearchAfter` (`searchForStartOfWindowPosition`, 4026-4037), the last is the end of the
segment. -/
def serialLoop (a : List Int) (s e : Nat) (w : Window) : Option (List (Nat × Int)) :=
  if w.stride = 0 then none
  else match binarySearchAfter a s e w.lo with
    | none => none
    | some b => serialBody a w (List.range' b (e - b))

/-- The body of a loop parallelized over CPU threads: no bound guard, since OpenMP does not allow
`break` (lowerer_impl_imperative.cpp 1333-1338). -/
def threadBody (a : List Int) (w : Window) : List Nat → Option (List (Nat × Int))
  | [] => some []
  | p :: ps =>
    match a[p]? with
    | none => none
    | some x =>
      if w.offStride x then threadBody a w ps
      else (threadBody a w ps).map ((p, w.project x) :: ·)

/-- The loop parallelized over CPU threads, lowerer_impl_imperative.cpp 1371-1382: the end is found by
a second search (`searchForEndOfWindowPosition`, 4043-4054). -/
def threadLoop (a : List Int) (s e : Nat) (w : Window) : Option (List (Nat × Int)) :=
  if w.stride = 0 then none
  else match binarySearchAfter a s e w.lo, binarySearchAfter a s e w.hi with
    | some b, some b' => threadBody a w (List.range' b (b' - b))
    | _, _ => none

/-- The loop over the dimension of the window with a dense level located at every coordinate:
`lowerForallDimension`, lowerer_impl_imperative.cpp 1190-1232, with `declLocatePosVars` 3388-3393.
Lists the located coordinate and the loop variable. -/
def denseLoop (w : Window) : Option (List (Int × Int)) :=
  if w.stride = 0 then none
  else some ((List.range w.size.toNat).map (fun (c : Nat) => (w.unproject (c : Int), (c : Int))))

end Verif.Window
