import Verif.Merge.Spec
/-!
Packing of coordinates into level arrays: `src/storage/pack.cpp`, `src/storage/index.cpp`
(`Index::getSize`) and the preparation of the coordinate buffer in `TensorBase::pack`
(`src/tensor.cpp`).

Simplifications
* The structure of arrays `coords[i][k]` is a list of rows; the range `[begin,end)` of rows handled by
  a recursive call is a list, and each recursive call drops the coordinate of its level.
* Values are an arbitrary type; byte offsets are element offsets.
* Array sizes are below 2^31 (`pos`, `valuesIndex` and sizes are `int`), so casts are the identity.
* Formats other than `Dense` and `Sparse` are rejected by the code (`taco_not_supported_yet`).
-/
namespace Verif.Pack
open Verif.Merge (Lvl)

variable {V : Type}

/-- `ModeFormat`s handled by pack.cpp: `Dense` and `Sparse` (format.h). -/
inductive Kind | dense | sparse
  deriving DecidableEq, Repr

/-- A row: the remaining coordinates and the value. -/
abbrev Row (V : Type) := List Nat × V

/-- `levelCoords[cend] == j`, pack.cpp 76 and 97. -/
def headIs (j : Nat) (r : Row V) : Bool := r.1.head? == some j

/-- Drop the coordinate of the current level (the recursive call uses `i+1`, pack.cpp 29). -/
def tailRow (r : Row V) : Row V := (r.1.tail, r.2)

/-- Loop of `getUniqueEntries`, pack.cpp 46-53. -/
def uniqueFrom (prev : Nat) : List Nat → List Nat
  | [] => []
  | c :: cs => if c > prev then c :: uniqueFrom c cs else uniqueFrom prev cs

/-- `getUniqueEntries`, pack.cpp 37-56. -/
def getUniqueEntries : List Nat → List Nat
  | [] => []
  | c :: cs => c :: uniqueFrom c cs

/-- The coordinates of the current level. -/
def heads (rows : List (Row V)) : List Nat := rows.map (fun r => r.1.headD 0)

/-- `indices` (pack.cpp 137-155): the pair of arrays `pos`, `crd` of each level, unused for dense
levels. -/
abbrev Ix := List (List Nat × List Nat)

/-- The loop over the coordinates of a level: scan the segment of `j`, pack it, continue after it;
pack.cpp 71-81 and 93-102. -/
def packSegs (pk : List (Row V) → Ix × List V → Ix × List V) :
    List Nat → List (Row V) → Ix × List V → Ix × List V
  | [], _, st => st
  | j :: js, rows, st =>
    packSegs pk js (rows.dropWhile (headIs j)) (pk ((rows.takeWhile (headIs j)).map tailRow) st)

/-- The value stored at the last level, pack.cpp 18-26: `vals[cbegin]`, or the fill value. -/
def leafValue (fill : V) : List (Row V) → V
  | [] => fill
  | r :: _ => r.2

/-- `packTensor`, pack.cpp 61-106, with `PACK_NEXT_LEVEL` (17-32) at the last level: the value of the
first row of the segment, or the fill value. -/
def packTensor (fill : V) : List (Nat × Kind) → List (Row V) → Ix × List V → Ix × List V
  | [], rows, (ixs, vals) =>
    (ixs, vals ++ [leafValue fill rows])
  | (n, .dense) :: ls, rows, (ix :: ixs, vals) =>
    let st := packSegs (packTensor fill ls) (List.range n) rows (ixs, vals)
    (ix :: st.1, st.2)
  | (_, .sparse) :: ls, rows, ((pos, crd) :: ixs, vals) =>
    let uniq := getUniqueEntries (heads rows)
    let st := packSegs (packTensor fill ls) uniq rows (ixs, vals)
    ((pos ++ [crd.length + uniq.length], crd ++ uniq) :: st.1, st.2)
  | _ :: _, _, ([], vals) => ([], vals)

/-- The index arrays before packing, pack.cpp 140-157. -/
def initIx (ls : List (Nat × Kind)) : Ix :=
  ls.map (fun l => match l.2 with | .dense => ([], []) | .sparse => ([0], []))

/-- The mode indices of the result, pack.cpp 167-183. -/
def toLevels : List (Nat × Kind) → Ix → List Lvl
  | (n, .dense) :: ls, _ :: ixs => .dense n :: toLevels ls ixs
  | (_, .sparse) :: ls, (pos, crd) :: ixs => .comp pos crd :: toLevels ls ixs
  | _, _ => []

/-- `pack`, pack.cpp 121-191. -/
def pack (fill : V) (ls : List (Nat × Kind)) (rows : List (Row V)) : List Lvl × List V :=
  let st := packTensor fill ls rows (initIx ls, [])
  (toLevels ls st.1, st.2)

/-- The allocated number of values, pack.cpp 139-160. -/
def maxSize (numCoordinates : Nat) (ls : List (Nat × Kind)) : Nat :=
  ls.foldl (fun m l => match l.2 with | .dense => m * l.1 | .sparse => numCoordinates) 1

/-- `Index::getSize`, index.cpp 53-67; `none`: a load outside `pos`. -/
def getSizeFrom : Nat → List Lvl → Option Nat
  | s, [] => some s
  | s, .dense n :: ls => getSizeFrom (s * n) ls
  | s, .comp pos _ :: ls => match pos[s]? with | none => none | some s' => getSizeFrom s' ls

def getSize (ls : List Lvl) : Option Nat := getSizeFrom 1 ls

/-! ### The coordinate buffer of a tensor -/

/-- Permute the coordinates of a row to the storage order, tensor.cpp 399-417. -/
def permute (perm : List Nat) (c : List Nat) : List Nat := perm.map (fun j => c.getD j 0)

/-- `lexicographicalCmp`, tensor.cpp 252-261, on coordinates whose difference does not overflow. -/
def lexCmp : List Nat → List Nat → Int
  | a :: as, b :: bs => if (a : Int) - b ≠ 0 then (a : Int) - b else lexCmp as bs
  | _, _ => 0

/-- What `qsort` guarantees on rows of `order` coordinates: a permutation in which no element compares
greater than a later one. -/
def QsortSpec (order : Nat) (qs : List (Row V) → List (Row V)) : Prop :=
  ∀ l, (∀ r ∈ l, r.1.length = order) → (qs l).Perm l ∧ (qs l).Pairwise (fun a b => lexCmp a.1 b.1 ≤ 0)

/-- Permute, sort and pack the inserted components, tensor.cpp 396-445 followed by pack.cpp. The
tensor class runs a generated kernel instead of pack.cpp for the last step; see `Verif/Assembly`. -/
def tensorPack (qs : List (Row V) → List (Row V)) (fill : V) (dims : List Nat) (kinds : List Kind)
    (perm : List Nat) (buffer : List (Row V)) : List Lvl × List V :=
  let rows := qs (buffer.map (fun r => (permute perm r.1, r.2)))
  pack fill ((permute perm dims).zip kinds) rows

/-! ### Iteration -/

/-- Concatenate the results of a loop body; `none` as soon as one iteration faults. -/
def forAll {α : Type} (f : Nat → Option (List α)) : List Nat → Option (List α)
  | [] => some []
  | q :: qs =>
    match f q, forAll f qs with
    | some a, some b => some (a ++ b)
    | _, _ => none

/-- The loops of the generated iteration routine (`Yield` under one `forall` per level,
tensor.cpp 973-979; `lowerForallDimension`, lowerer_impl_imperative.cpp 1190, and
`lowerForallPosition`, 1304): the coordinates in storage order with their value. `none`: a load outside
an array. -/
def walk (vals : List V) : List Lvl → Nat → Option (List (List Nat × V))
  | [], p => match vals[p]? with | none => none | some v => some [([], v)]
  | .dense n :: ls, p =>
    forAll (fun j => (walk vals ls (p * n + j)).map (List.map (fun r => (j :: r.1, r.2)))) (List.range n)
  | .comp pos crd :: ls, p =>
    match pos[p]?, pos[p + 1]? with
    | some a, some b =>
      forAll (fun q => match crd[q]? with
        | none => none
        | some c => (walk vals ls q).map (List.map (fun r => (c :: r.1, r.2)))) (List.range' a (b - a))
    | _, _ => none

/-- Storage order back to the order of the modes: `Yield` reports `indexVars` (tensor.cpp 970-979). -/
def unpermute (perm : List Nat) (path : List Nat) : List Nat :=
  (List.range perm.length).map (fun m => path.getD (perm.idxOf m) 0)

/-- Iterating a tensor. -/
def iterate (perm : List Nat) (st : List Lvl × List V) : Option (List (List Nat × V)) :=
  (walk st.2 st.1 0).map (List.map (fun r => (unpermute perm r.1, r.2)))

end Verif.Pack
