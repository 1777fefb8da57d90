import Verif.Pack.Model
/-!
Assembly of a result tensor by appending: the code that `LowererImplImperative` emits around the loops
of a kernel to build the index arrays and values of its result, with the level functions of dense and
compressed levels.

* src/lower/lowerer_impl_imperative.cpp: `initResultArrays` 3045-3154 and 3217-3308,
  `resizeAndInitValues` 3311-3346, `initValues` 3349-3367, `appendCoordinate` 3749-3796,
  `generateAppendPositions` 3799-3824, `finalizeResultArrays` 3157-3198
* src/lower/mode_format_compressed.cpp: `getAppendInitLevel` 157-190, `getAppendInitEdges` 135-155,
  `getAppendCoord` 107-120, `getAppendEdges` 122-129, `getAppendFinalizeLevel` 192-211
* src/lower/mode_format_dense.cpp: `locate` 50-55
* src/ir/ir_generators.cpp: `doubleSizeIfFull` 32-37, `atLeastDoubleSizeIfFull` 39-48

What a loop nest visits is a tree of coordinates: one list of coordinates and subtrees per loop, with
the computed value at the leaves. A loop over the rows of a sparse operand, over the dimension, or a
merge loop is one such list.

Simplifications
* An array is the list of its slots, `none` for a slot that was not written; its length is the value of
  the capacity variable the code keeps for it. Writing outside an array and reading a slot that was not
  written make the whole run `none`.
* Kernels that assemble and compute in one pass (`assembleWhileCompute`, and all pack kernels).
* The initialisation of dense values with the fill value is always emitted; the code omits it when it
  knows that every value is assigned.
* `getAppendFinalizeLevel` skips the prefix sum for one parent position, where it changes nothing.
* `int` arithmetic does not overflow.
-/
namespace Verif.Assembly
open Verif.Merge (Lvl)
open Verif.Pack (Kind)

variable {V : Type}

/-! ### Memory -/

abbrev Arr (α : Type) := List (Option α)

/-- `Store`. -/
def write {α : Type} (a : Arr α) (i : Nat) (x : α) : Option (Arr α) :=
  if i < a.length then some (a.set i (some x)) else none

/-- `Load`. -/
def read {α : Type} (a : Arr α) (i : Nat) : Option α := (a[i]?).join

/-- `Allocate` with `is_realloc`: `realloc`. -/
def realloc {α : Type} (a : Arr α) (n : Nat) : Arr α := a.take n ++ List.replicate (n - a.length) none

/-- `doubleSizeIfFull`, ir_generators.cpp 32-37. -/
def doubleSizeIfFull {α : Type} (a : Arr α) (needed : Nat) : Arr α :=
  if a.length ≤ needed then realloc a (a.length * 2) else a

/-- `atLeastDoubleSizeIfFull`, ir_generators.cpp 39-48. -/
def atLeastDoubleSizeIfFull {α : Type} (a : Arr α) (needed : Nat) : Arr α :=
  if a.length ≤ needed then realloc a (max (a.length * 2) (needed + 1)) else a

/-- A loop storing `x` at `b, b+1, ...`, `k` times. -/
def fillFrom {α : Type} (x : α) : Nat → Nat → Arr α → Option (Arr α)
  | 0, _, a => some a
  | k + 1, b, a => (write a b x).bind (fillFrom x k (b + 1))

/-! ### Levels -/

/-- The arrays of a compressed level of the result and its position variable. -/
structure CompSt where
  pos : Arr Nat
  crd : Arr Nat
  size : Nat

/-- The result tensor: its compressed levels from the outermost, and the values. -/
structure St (V : Type) where
  comps : List CompSt
  vals : Arr V

/-- What a loop nest of the given depth visits. -/
def Tree (V : Type) : Nat → Type
  | 0 => V
  | d + 1 => List (Nat × Tree V d)

/-- The value at a leaf. -/
def valOf (t : Tree V 0) : V := t

/-- A leaf. -/
def leaf (v : V) : Tree V 0 := v

/-- The coordinates a loop visits, with what is visited below. -/
def entries {d : Nat} (t : Tree V (d + 1)) : List (Nat × Tree V d) := t

/-- Initialisation before the loops, lowerer 3073-3108 and 3139-3151, with `getAppendInitLevel`. `sz` is
the number of parent positions where it is a known constant (no compressed level above), `ud` says that
the parent level is dense, `cap` is the default capacity. -/
def initLevels (cap : Nat) (fill : V) : Bool → Option Nat → List (Nat × Kind) → St V
  | _, some k, [] => ⟨[], List.replicate k (some fill)⟩
  | _, none, [] => ⟨[], List.replicate cap none⟩
  | _, sz, (n, .dense) :: ls => initLevels cap fill true (sz.map (· * n)) ls
  | ud, some k, (_, .sparse) :: ls =>
    let s := initLevels cap fill false none ls
    ⟨⟨some 0 :: List.replicate k (if ud then some 0 else none), List.replicate cap none, 0⟩ :: s.comps, s.vals⟩
  | _, none, (_, .sparse) :: ls =>
    let s := initLevels cap fill false none ls
    ⟨⟨some 0 :: List.replicate (cap - 1) none, List.replicate cap none, 0⟩ :: s.comps, s.vals⟩

/-- Initialisation below a new position of an append level, for the positions `[b,e)` of the given
levels: lowerer 3251-3304 with `getAppendInitEdges`, and `resizeAndInitValues` at a leaf. `ud` says that
a dense level lies between. -/
def initDown (fill : V) : Bool → List (Nat × Kind) → Nat → Nat → St V → Option (St V)
  | false, [], b, _, s => some { s with vals := doubleSizeIfFull s.vals b }
  | true, [], b, e, s =>
    (fillFrom fill (e - b) b (atLeastDoubleSizeIfFull s.vals e)).map fun v => { s with vals := v }
  | _, (n, .dense) :: ls, b, e, s => initDown fill true ls (b * n) (e * n) s
  | ud, (_, .sparse) :: _, b, e, s =>
    match s.comps with
    | [] => none
    | c :: cs =>
      if ud then
        (fillFrom 0 (e - b) (b + 1) (atLeastDoubleSizeIfFull c.pos e)).map fun p =>
          { s with comps := { c with pos := p } :: cs }
      else some { s with comps := { c with pos := doubleSizeIfFull c.pos e } :: cs }

/-- The position variable of the first of the levels, if it is an append level. -/
def childSize : List (Nat × Kind) → St V → Option Nat
  | (_, .sparse) :: _, s => s.comps.head?.map (·.size)
  | _, _ => none

/-- `getAppendCoord` and the increment of the position variable, lowerer 3764 and 3783. -/
def appendCoord (c : CompSt) (i : Nat) : Option CompSt :=
  (write (doubleSizeIfFull c.crd c.size) c.size i).map fun crd => { c with crd := crd, size := c.size + 1 }

/-- The loops of the kernel at parent position `p`, with the assembly code in them. -/
def assemble (fill : V) : Bool → (ls : List (Nat × Kind)) → Nat → Tree V ls.length → St V → Option (St V)
  | _, [], p, v, s => (write s.vals p (valOf v)).map fun a => { s with vals := a }
  | _, (n, .dense) :: ls, p, t, s =>
    List.foldlM (fun (s : St V) (e : Nat × Tree V ls.length) => assemble fill true ls (p * n + e.1) e.2 s) s (entries t)
  | ud, (_, .sparse) :: ls, p, t, s =>
    match s.comps with
    | [] => none
    | c :: cs =>
      (List.foldlM (fun (x : CompSt × St V) (e : Nat × Tree V ls.length) =>
        (initDown fill false ls x.1.size (x.1.size + 1) x.2).bind fun s1 =>
        (assemble fill false ls x.1.size e.2 s1).bind fun s2 =>
        -- the guard against appending empty slices, lowerer 3786-3792
        if (childSize ls s1).isSome && childSize ls s1 == childSize ls s2 then some (x.1, s2)
        else (appendCoord x.1 e.1).map fun c' => (c', s2)) (c, (⟨cs, s.vals⟩ : St V)) (entries t)).bind fun x =>
      (write x.1.pos (p + 1) (if ud then x.1.size - c.size else x.1.size)).map fun pos =>
        ⟨{ x.1 with pos := pos } :: x.2.comps, x.2.vals⟩

/-- The prefix sum loop of `getAppendFinalizeLevel`, 200-208: `k` iterations from `p`. -/
def prefixSum : Nat → Nat → Nat → Arr Nat → Option (Arr Nat)
  | 0, _, _, pos => some pos
  | k + 1, p, acc, pos =>
    (read pos p).bind fun x => (write pos p (acc + x)).bind (prefixSum k (p + 1) (acc + x))

/-- `finalizeResultArrays`, lowerer 3157-3198, for `sz` parent positions. -/
def finalize : Bool → Nat → List (Nat × Kind) → List CompSt → Option (List CompSt)
  | _, _, [], cs => some cs
  | _, sz, (n, .dense) :: ls, cs => finalize true (sz * n) ls cs
  | _, _, (_, .sparse) :: _, [] => none
  | ud, sz, (_, .sparse) :: ls, c :: cs =>
    (if ud then prefixSum sz 1 0 c.pos else some c.pos).bind fun pos =>
      (finalize false c.size ls cs).map fun cs' => { c with pos := pos } :: cs'

/-- The first `n` slots of an array, all of which must have been written. -/
def readAll {α : Type} (a : Arr α) (n : Nat) : Option (List α) :=
  if n ≤ a.length then (a.take n).mapM id else none

/-- The arrays of the result as the storage of the tensor refers to them (`unpackTensorData`,
tensor.cpp 263-292). -/
def output : Nat → List (Nat × Kind) → List CompSt → Arr V → Option (List Lvl × List V)
  | sz, [], _, vals => (readAll vals sz).map fun v => ([], v)
  | sz, (n, .dense) :: ls, cs, vals => (output (sz * n) ls cs vals).map fun r => (.dense n :: r.1, r.2)
  | _, (_, .sparse) :: _, [], _ => none
  | sz, (_, .sparse) :: ls, c :: cs, vals =>
    (readAll c.pos (sz + 1)).bind fun pos => (readAll c.crd c.size).bind fun crd =>
      (output c.size ls cs vals).map fun r => (.comp pos crd :: r.1, r.2)

/-- A whole kernel: initialise, run the loops, finalise. -/
def run (cap : Nat) (fill : V) (ls : List (Nat × Kind)) (t : Tree V ls.length) : Option (List Lvl × List V) :=
  (assemble fill false ls 0 t (initLevels cap fill false (some 1) ls)).bind fun s =>
    (finalize false 1 ls s.comps).bind fun cs => output 1 ls cs s.vals

end Verif.Assembly
