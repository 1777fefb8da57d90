/-!
# Model of the search helpers in the generated C prelude

`/repo/src/codegen/codegen_c.cpp:26-155` (`cHeaders`) contains, as C text that is pasted into every
kernel, `taco_gallop`, `taco_binarySearchAfter` and `taco_binarySearchBefore`.

* A C `int*` is a `List Int`; reading outside the allocation is undefined behaviour, so a read is
  `a[i]? : Option Int` and `none` propagates.
* Index arithmetic is on C `int`.  Indices are never negative here, so they are `Nat`, but every
  sum or product that C computes goes through `chk`, which is `none` (signed overflow, undefined
  behaviour) at `2^31` and above.
-/
namespace Verif.Search

/-- Result of an `int` computation with non-negative mathematical value `n`: undefined (`none`) when
it does not fit a 32-bit signed `int`. (C signed overflow; not a function of the source.) -/
def chk (n : Nat) : Option Nat := if n < 2147483648 then some n else none

/-- First loop of `taco_gallop`, codegen_c.cpp:71-74:
`while (curr + step < arrayEnd && array[curr + step] < target) { curr += step; step = step * 2; }`.
Returns the final `(curr, step)`. The hypothesis `0 < step` holds at the only call (`step = 1`). -/
def gallopUp (a : List Int) (e : Nat) (t : Int) (curr step : Nat) (hs : 0 < step) :
    Option (Nat × Nat) :=
  match chk (curr + step) with
  | none => none
  | some j =>
    if j < e then
      match a[j]? with
      | none => none
      | some v =>
        if v < t then
          match chk (step * 2) with
          | none => none
          | some _ =>
            if curr + step < e then gallopUp a e t (curr + step) (step * 2) (by omega)
            else some (curr, step)   -- unreachable: `j = curr + step`
        else some (curr, step)
    else some (curr, step)
termination_by e - curr

/-- Second loop of `taco_gallop`, codegen_c.cpp:77-82:
`while (step > 0) { if (curr + step < arrayEnd && array[curr + step] < target) curr += step; step = step / 2; }`.
Returns the final `curr`. -/
def gallopDown (a : List Int) (e : Nat) (t : Int) (curr step : Nat) : Option Nat :=
  if _h : 0 < step then
    match chk (curr + step) with
    | none => none
    | some j =>
      if j < e then
        match a[j]? with
        | none => none
        | some v => if v < t then gallopDown a e t (curr + step) (step / 2)
                    else gallopDown a e t curr (step / 2)
      else gallopDown a e t curr (step / 2)
  else some curr
termination_by step

/-- `taco_gallop`, codegen_c.cpp:65-84. Note that `array[arrayStart]` is read before
`arrayStart >= arrayEnd` is tested. -/
def gallop (a : List Int) (s e : Nat) (t : Int) : Option Nat :=
  match a[s]? with
  | none => none
  | some v =>
    if v ≥ t ∨ s ≥ e then some s
    else
      match gallopUp a e t s 1 (by omega) with
      | none => none
      | some (curr, step) =>
        match gallopDown a e t curr (step / 2) with
        | none => none
        | some curr => chk (curr + 1)

/-- Outcome of the common loop of the two binary searches: either it returned from inside the loop
(`found mid`) or it fell out with final bounds. -/
inductive Bs where
  | found (mid : Nat)
  | bounds (lo up : Nat)
deriving DecidableEq, Repr

/-- The loop shared verbatim by `taco_binarySearchAfter` (codegen_c.cpp:91-103) and
`taco_binarySearchBefore` (codegen_c.cpp:112-124):
`while (upperBound - lowerBound > 1) { mid = (upperBound + lowerBound) / 2; ... }`. -/
def bsLoop (a : List Int) (t : Int) (lo up : Nat) : Option Bs :=
  if _h : up - lo > 1 then
    match chk (up + lo) with
    | none => none
    | some _ =>
      match a[(up + lo) / 2]? with
      | none => none
      | some v =>
        if v < t then bsLoop a t ((up + lo) / 2) up
        else if v > t then bsLoop a t lo ((up + lo) / 2)
        else some (.found ((up + lo) / 2))
  else some (.bounds lo up)
termination_by up - lo

/-- `taco_binarySearchAfter`, codegen_c.cpp:85-105. -/
def binarySearchAfter (a : List Int) (s e : Nat) (t : Int) : Option Nat :=
  match a[s]? with
  | none => none
  | some v =>
    if v ≥ t then some s
    else match bsLoop a t s e with
      | none => none
      | some (.found m) => some m
      | some (.bounds _ up) => some up

/-- `taco_binarySearchBefore`, codegen_c.cpp:106-126. -/
def binarySearchBefore (a : List Int) (s e : Nat) (t : Int) : Option Nat :=
  match a[e]? with
  | none => none
  | some v =>
    if v ≤ t then some e
    else match bsLoop a t s e with
      | none => none
      | some (.found m) => some m
      | some (.bounds lo _) => some lo

end Verif.Search
