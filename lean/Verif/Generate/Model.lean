import Verif.Generate.Spec
/-!
Generated tensors: include/taco/util/fill.h. Values are left out; a tensor is the list of the coordinates that are inserted. Sizes are
those for which the products of lines 134 and 246 are `int`. What `std::random_shuffle` does and the products of factors and sizes,
which are `double`, are arguments; what the language promises about them is `Shuffled` and `Rounded`.
-/
namespace Verif.Generate
open Verif.Options (Fill)

/-- How a step ends: with a value, with an error that is reported, with an exception that nobody catches, or with undefined
behaviour. -/
inductive Res (α : Type) where
  | ok (a : α)
  | error
  | crash
  | undefined
  deriving DecidableEq

/-- What comes after a step that ends with a value. -/
def Res.bind {α β : Type} : Res α → (α → Res β) → Res β
  | .ok a, f => f a
  | .error, _ => .error
  | .crash, _ => .crash
  | .undefined, _ => .undefined

/-- A factor. -/
structure Frac where
  num : Nat
  den : Nat
  deriving DecidableEq

/-- `fillFactors`, fill.h 28-37; `at` throws for what is not in it. -/
def factor : Fill → Option Frac
  | .dense => some ⟨1, 1⟩
  | .uniform => some ⟨1, 1⟩
  | .random => some ⟨1, 1⟩
  | .sparse => some ⟨7, 100⟩
  | .hyperSparse => some ⟨5, 1000⟩
  | .slicingH => some ⟨1, 100⟩
  | .slicingV => some ⟨1, 100⟩
  | .fem => some ⟨0, 1⟩
  | .blocked => none

/-- The factor of line 182 and 190, `fillFactors.at(FillMethod::Dense)`. -/
def one : Frac := ⟨1, 1⟩

/-- Comparisons and conversions with `fillValue*n`: how many `i` from 0 on are below it, and the `int` that it becomes. -/
structure Arith where
  upTo : Frac → Nat → Nat
  trunc : Frac → Nat → Nat

/-- What arithmetic with `double` promises for sizes that are `int` and the factors of `factor`: a product with 1 is exact, products
with smaller factors are not more than the size, and products are close to the real ones. -/
structure Rounded (a : Arith) : Prop where
  exact : ∀ n, a.upTo one n = n
  upTo_le : ∀ (q : Frac) (n : Nat), q.num ≤ q.den → a.upTo q n ≤ n
  trunc_le : ∀ (q : Frac) (n : Nat), q.num ≤ q.den → a.trunc q n ≤ n
  close : ∀ (q : Frac) (n : Nat), 0 < q.den → q.num * n / q.den ≤ a.upTo q n ∧ a.upTo q n ≤ q.num * n / q.den + 1

/-- Vectors that are shuffled: `positions` of a vector (line 105), `pos` (lines 134 and 246), `positions[j]` after they are made,
`positions[1]` in the iteration `i` (lines 170 and 291) and `positions[2]` in the iteration `i`, `j` (line 289). -/
structure Shuffles where
  vec : List Nat
  all : List Nat
  axis : Nat → List Nat
  mid : Nat → List Nat
  inner : Nat → Nat → List Nat

/-- `positions` of a vector before it is shuffled, fill.h 105-108: it has `n` zeros to begin with. -/
def vecStart (n : Nat) : List Nat := List.replicate n 0 ++ List.range n

/-- `pos` before it is shuffled, fill.h 134-137 and 246-249. -/
def allStart (dims : List Nat) : List Nat := List.range (dims.foldr (· * ·) 1)

/-- `positions[j]` before it is shuffled: fill.h 139-143 for matrices, and 251-255 for tensors of order 3, where the bound is
`tensorSize[0]` for all `j`. -/
def axisStart (dims : List Nat) (j : Nat) : List Nat :=
  match dims with
  | [m, n] => List.range (if j = 0 then m else n)
  | d :: _ => List.range d
  | [] => []

/-- What `std::random_shuffle` promises: the same elements in any order. -/
structure Shuffled (dims : List Nat) (s : Shuffles) : Prop where
  vec : s.vec.Perm (vecStart (dims.headD 0))
  all : s.all.Perm (allStart dims)
  axis : ∀ j, (s.axis j).Perm (axisStart dims j)
  mid : ∀ i, (s.mid i).Perm (axisStart dims 1)
  inner : ∀ i j, (s.inner i j).Perm (axisStart dims 2)

/-- An element of a vector; reading behind its end is undefined. -/
def read (l : List Nat) (i : Nat) : Res Nat :=
  match l[i]? with
  | some x => .ok x
  | none => .undefined

/-- A loop from 0 to `k`, with the coordinates that its iterations insert. -/
def loop (k : Nat) (f : Nat → Res (List (List Int))) : Res (List (List Int)) :=
  match k with
  | 0 => .ok []
  | k + 1 => (loop k f).bind fun l => (f k).bind fun m => .ok (l ++ m)

/-- `fillVector`, fill.h 73-124. -/
def fillVector (a : Arith) (s : Shuffles) (q : Frac) (n : Nat) : Fill → Res (List (List Int))
  | .dense | .uniform | .random => loop n fun i => .ok [[(i : Int)]]
  | .sparse | .hyperSparse => loop (a.trunc q n) fun i => (read s.vec i).bind fun p => .ok [[(p : Int)]]
  | _ => .error

/-- The loop of finite element matrices, fill.h 197-207: the coordinates of one iteration. -/
def femAt (m i : Nat) : List (List Int) :=
  [[(i : Int), (i : Int)], [(i : Int) + 1, (i : Int)], [(i : Int), (i : Int) + 1]] ++
    if (i : Int) < (m : Int) - 3 then [[(i : Int) + 3, (i : Int)], [(i : Int), (i : Int) + 3]] else []

/-- `case FillMethod::FEM`, fill.h 196-210: only the first size is looked at. The loop has `m - 1` iterations, none if that is
negative. -/
def femFill (m : Nat) : Res (List (List Int)) :=
  (loop (m - 1) fun i => .ok (femAt m i)).bind fun l => .ok (l ++ [[(m : Int) - 1, (m : Int) - 1]])

/-- `fillMatrix`, fill.h 126-236. Blocks are not modelled: `fillTensor` ends before them. -/
def fillMatrix (a : Arith) (s : Shuffles) (q : Frac) (m n : Nat) : Fill → Res (List (List Int))
  | .dense | .uniform => loop m fun i => loop (a.upTo q n) fun j => .ok [[(i : Int), (j : Int)]]
  | .sparse | .hyperSparse =>
    loop (a.upTo q m) fun i => loop (a.upTo q n) fun j => (read (s.axis 0) i).bind fun x => (read (s.mid i) j).bind fun y => .ok [[(x : Int), (y : Int)]]
  | .random => loop (a.upTo q s.all.length) fun i => (read s.all i).bind fun p => .ok [[((p % n : Nat) : Int), ((p / n : Nat) : Int)]]
  | .slicingH =>
    loop (a.upTo q m) fun i => loop (a.upTo one n) fun j => (read (s.axis 0) i).bind fun x => (read (s.axis 1) j).bind fun y => .ok [[(x : Int), (y : Int)]]
  | .slicingV =>
    loop (a.upTo q m) fun j => loop (a.upTo one n) fun i => (read (s.axis 0) i).bind fun x => (read (s.axis 1) j).bind fun y => .ok [[(x : Int), (y : Int)]]
  | .fem => femFill m
  | .blocked => .error

/-- `fillTensor3`, fill.h 238-312. -/
def fillTensor3 (a : Arith) (s : Shuffles) (q : Frac) (d e f : Nat) : Fill → Res (List (List Int))
  | .dense | .uniform => loop d fun i => loop e fun j => loop (a.upTo q f) fun k => .ok [[(i : Int), (j : Int), (k : Int)]]
  | .sparse | .hyperSparse =>
    loop (a.upTo q d) fun i => loop (a.upTo q e) fun j => loop (a.upTo q f) fun k =>
      (read (s.axis 0) i).bind fun x => (read (s.mid i) j).bind fun y => (read (s.inner i j) k).bind fun z => .ok [[(x : Int), (y : Int), (z : Int)]]
  | .random => loop (a.upTo q s.all.length) fun i => (read s.all i).bind fun p =>
      .ok [[((p % e : Nat) : Int), ((p / e % f : Nat) : Int), ((p / e / f : Nat) : Int)]]
  | _ => .error

/-- `fillTensor` as the command line calls it, fill.h 48-71 with `fillValue` -1, and tools/taco.cpp 1124-1126. -/
def fillTensor (a : Arith) (s : Shuffles) (dims : List Nat) (f : Fill) : Res (List (List Int)) :=
  match factor f with
  | none => .crash
  | some q =>
    match dims with
    | [n] => fillVector a s q n f
    | [m, n] => fillMatrix a s q m n f
    | [d, e, g] => fillTensor3 a s q d e g f
    | _ => .error

end Verif.Generate
