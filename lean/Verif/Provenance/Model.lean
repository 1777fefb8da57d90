/-!
# Model of loop derivations (split, divide, fuse, bound, pos) and their recovery

Source: `/repo/src/index_notation/provenance_graph.cpp` (bounds and recovery formulas) and
`/repo/src/lower/lowerer_impl_imperative.cpp:647-757` (`lowerForall`: recovery steps and guards).

Loop bounds and index variables are never negative, so they are `Nat`; C integer division on
non-negative values is `Nat` division.  A bound pair `(lo, hi)` is the half-open loop range.
`size_t` factors are `Nat`; a factor `0` is a division by zero in the generated code and is
excluded where it matters by explicit hypotheses.
-/
namespace Verif.Provenance

/-- Iteration bounds `{minBound, maxBound}` of a loop: `for (v = lo; v < hi; v++)`
(lowerForallDimension, lowerer_impl_imperative.cpp:1190-1232). -/
abbrev Bounds := Nat × Nat

/-- `SplitRelNode::deriveIterBounds` for the outer variable, provenance_graph.cpp:215-219. -/
def splitOuterBounds (p : Bounds) (s : Nat) : Bounds := (p.1 / s, (p.2 + (s - 1)) / s)

/-- `SplitRelNode::deriveIterBounds` for the inner variable, provenance_graph.cpp:220-224. -/
def splitInnerBounds (_p : Bounds) (s : Nat) : Bounds := (0, s)

/-- `SplitRelNode::recoverVariable`, provenance_graph.cpp:229-236. -/
def splitRecover (s outer inner : Nat) : Nat := outer * s + inner

/-- `DivideRelNode::deriveIterBounds`, outer variable, provenance_graph.cpp:358-364. -/
def divideOuterBounds (_p : Bounds) (d : Nat) : Bounds := (0, d)

/-- `DivideRelNode::deriveIterBounds`, inner variable, provenance_graph.cpp:365-370. -/
def divideInnerBounds (p : Bounds) (d : Nat) : Bounds := (p.1 / d, (p.2 + (d - 1)) / d)

/-- `DivideRelNode::recoverVariable`, provenance_graph.cpp:375-391. -/
def divideRecover (p : Bounds) (d outer inner : Nat) : Nat :=
  outer * ((p.2 - p.1 + (d - 1)) / d) + inner

/-- The extra guard on a divided variable, lowerer_impl_imperative.cpp:743-757: `true` means the
generated code executes `continue`.  `dimLen` is the difference of the inner variable's bounds. -/
def divideGuardSkips (p : Bounds) (d outer parent : Nat) : Bool :=
  let b := divideInnerBounds p d
  decide (parent ≥ (outer + 1) * (b.2 - b.1))

/-- `FuseRelNode::combineParentBounds` (used by `deriveIterBounds`), provenance_graph.cpp:713-718. -/
def fuseBounds (o i : Bounds) : Bounds :=
  (o.1 * (i.2 - i.1) + i.1, o.2 * (i.2 - i.1) + i.1)

/-- `FuseRelNode::recoverVariable` for both parents (coordinate case), provenance_graph.cpp:670-693.
`none` is the division by zero of `f / innerSize`. -/
def fuseRecover (i : Bounds) (f : Nat) : Option (Nat × Nat) :=
  if i.2 - i.1 = 0 then none else some (f / (i.2 - i.1), f % (i.2 - i.1))

/-- `BoundRelNode::deriveIterBounds` (`MaxExact`), provenance_graph.cpp:781-798. -/
def boundBounds (p : Bounds) (b : Nat) : Bounds := (p.1, b)

/-- The values of the index variable of `for (v = lo; v < hi; v++)`. -/
def loopRange (b : Bounds) : List Nat := (List.range (b.2 - b.1)).map (b.1 + ·)

/-- Underived guard, lowerer_impl_imperative.cpp:727-731: `if (v >= hi) continue;`. -/
def underivedGuardSkips (p : Bounds) (v : Nat) : Bool := decide (v ≥ p.2)

/-- The loop nest generated for `split(v, outer, inner, s)` on a loop with bounds `p`: the list of
values of the recovered `v` for which the body runs, in execution order. -/
def splitLoop (p : Bounds) (s : Nat) : List Nat :=
  (loopRange (splitOuterBounds p s)).flatMap fun o =>
    (loopRange (splitInnerBounds p s)).filterMap fun i =>
      let v := splitRecover s o i
      if underivedGuardSkips p v then none else some v

/-- The loop nest generated for `divide(v, outer, inner, d)`; guards in source order. -/
def divideLoop (p : Bounds) (d : Nat) : List Nat :=
  (loopRange (divideOuterBounds p d)).flatMap fun o =>
    (loopRange (divideInnerBounds p d)).filterMap fun i =>
      let v := divideRecover p d o i
      if underivedGuardSkips p v then none
      else if divideGuardSkips p d o v then none else some v

/-- The loop generated for `fuse(i, j, f)`: recovered pairs for which the body runs (both underived
guards applied), `none` if some iteration divides by zero. -/
def fuseLoop (oB iB : Bounds) : Option (List (Nat × Nat)) :=
  ((loopRange (fuseBounds oB iB)).mapM (fuseRecover iB)).map fun l =>
    l.filter fun ij => !underivedGuardSkips oB ij.1 && !underivedGuardSkips iB ij.2

/-- The loop generated for `bound(i, ib, b, MaxExact)`: `i` recovered as `ib`, no guard
(`hasExactBound` switches it off, lowerer_impl_imperative.cpp:649-650). -/
def boundLoop (p : Bounds) (b : Nat) : List Nat := loopRange (boundBounds p b)

/-- Position guard, lowerer_impl_imperative.cpp:664-679:
`if (pos < lo || pos >= hi) continue;`. -/
def posGuardSkips (p : Bounds) (v : Nat) : Bool := decide (v < p.1) || decide (v ≥ p.2)

/-- The loop nest for a position loop over `[lo,hi)` (the position range of one segment, `lo` is in
general not zero) that has been split by `s`; only the position guard applies. -/
def posSplitLoop (p : Bounds) (s : Nat) : List Nat :=
  (loopRange (splitOuterBounds p s)).flatMap fun o =>
    (loopRange (splitInnerBounds p s)).filterMap fun i =>
      let v := splitRecover s o i
      if posGuardSkips p v then none else some v

/-! ## Sequences of derivations on a loop nest

A schedule applied to a nest of loops.  `ForAllReplace` (transformations.cpp:721-796) rewrites the
loop(s) of the parent variable(s) into loops of the children in place, so the nest is a list and a
derivation refers to the position of the loop it rewrites. -/

/-- One scheduling command (index_notation.cpp: split 1819, divide 1838, reorder 1892, fuse 1982;
`bound` 2001).  `swap k` exchanges the adjacent loops `k` and `k+1`; every `reorder` is a
composition of such swaps. -/
inductive Step where
  | split (k s : Nat)
  | divide (k d : Nat)
  | fuse (k : Nat)
  | swap (k : Nat)
deriving DecidableEq, Repr

/-- Extents of the loops after a step; `none` if the step does not apply to this nest (taco then
reports an error).  All lower bounds are `0` (they are for underived variables, and the formulas
above preserve it, see `derive_lo_zero`). -/
def stepExtents : Step → List Nat → Option (List Nat)
  | .split 0 s, e :: es => if s = 0 then none else
      some ((splitOuterBounds (0, e) s).2 :: (splitInnerBounds (0, e) s).2 :: es)
  | .divide 0 d, e :: es => if d = 0 then none else
      some ((divideOuterBounds (0, e) d).2 :: (divideInnerBounds (0, e) d).2 :: es)
  | .fuse 0, e :: e' :: es => some ((fuseBounds (0, e) (0, e')).2 :: es)
  | .swap 0, e :: e' :: es => some (e' :: e :: es)
  | .split (k+1) s, e :: es => (stepExtents (.split k s) es).map (e :: ·)
  | .divide (k+1) d, e :: es => (stepExtents (.divide k d) es).map (e :: ·)
  | .fuse (k+1), e :: es => (stepExtents (.fuse k) es).map (e :: ·)
  | .swap (k+1), e :: es => (stepExtents (.swap k) es).map (e :: ·)
  | _, [] => none
  | .fuse 0, [_] => none
  | .swap 0, [_] => none

/-- Outcome of recovering the parents' values in one iteration: values, the iteration is skipped by a
`continue`, or undefined behaviour (division by zero). -/
inductive Rec where
  | ok (u : List Nat)
  | skip
  | ub
deriving DecidableEq, Repr

/-- Put the untouched outer loop variable back in front. -/
def Rec.cons (x : Nat) : Rec → Rec
  | .ok u => .ok (x :: u)
  | .skip => .skip
  | .ub => .ub

/-- Sequencing of recovery steps. -/
def Rec.bind : Rec → (List Nat → Rec) → Rec
  | .ok u, f => f u
  | .skip, _ => .skip
  | .ub, _ => .ub

/-- Recovery of the loop variables before a step (extents `e`) from those after it. The last case
(shape mismatch) cannot happen in generated code and is counted as `ub`. -/
def stepRecover : Step → List Nat → List Nat → Rec
  | .split 0 s, _ :: _, o :: i :: xs => .ok (splitRecover s o i :: xs)
  | .divide 0 d, e :: _, o :: i :: xs =>
      let v := divideRecover (0, e) d o i
      if divideGuardSkips (0, e) d o v then .skip else .ok (v :: xs)
  | .fuse 0, _ :: e' :: _, f :: xs =>
      match fuseRecover (0, e') f with
      | none => .ub
      | some ij => .ok (ij.1 :: ij.2 :: xs)
  | .swap 0, _ :: _ :: _, a :: b :: xs => .ok (b :: a :: xs)
  | .split (k+1) s, _ :: es, x :: xs => (stepRecover (.split k s) es xs).cons x
  | .divide (k+1) d, _ :: es, x :: xs => (stepRecover (.divide k d) es xs).cons x
  | .fuse (k+1), _ :: es, x :: xs => (stepRecover (.fuse k) es xs).cons x
  | .swap (k+1), _ :: es, x :: xs => (stepRecover (.swap k) es xs).cons x
  | _, _, _ => .ub

/-- Extents of the final loop nest of a schedule (commands in the order the user gives them);
`none` if some command does not apply. -/
def scheduleExtents : List Step → List Nat → Option (List Nat)
  | [], e => some e
  | s :: ss, e => (stepExtents s e).bind (scheduleExtents ss)

/-- Recovered underived variables for one iteration `x` of the final nest, before the underived
guards. (`newlyRecoverableParents` recovers parents transitively, provenance_graph.cpp:1310-1340,
children before parents.) -/
def scheduleRecover : List Step → List Nat → List Nat → Rec
  | [], _, x => .ok x
  | s :: ss, e, x =>
    match stepExtents s e with
    | none => .ub
    | some e' => (scheduleRecover ss e' x).bind (stepRecover s e)

/-- `x` lies in the box of extents `e`: one value per loop, each below its extent. -/
def inBox : List Nat → List Nat → Bool
  | [], [] => true
  | x :: xs, e :: es => decide (x < e) && inBox xs es
  | _, _ => false

/-- The iterations of a nest of loops `for (x0 = 0; x0 < e0; x0++) for (x1 = 0; ...) ...`, in
execution order. -/
def nest : List Nat → List (List Nat)
  | [] => [[]]
  | e :: es => (List.range e).flatMap fun x => (nest es).map (x :: ·)

/-- The underived variables with which the body of the scheduled nest runs, in execution order:
recovery, then the underived guards `if (u_i >= n_i) continue;`
(lowerer_impl_imperative.cpp:727-731).  `none`: some iteration has undefined behaviour or the
schedule does not apply. -/
def execution (ss : List Step) (n : List Nat) : Option (List (List Nat)) :=
  match scheduleExtents ss n with
  | none => none
  | some e =>
    if (nest e).all (fun x => scheduleRecover ss n x != .ub) then
      some ((nest e).filterMap fun x =>
        match scheduleRecover ss n x with
        | .ok u => if inBox u n then some u else none
        | _ => none)
    else none

/-! ### Guard elision with `bound` -/

/-- The test with which `lowerForall` drops the underived guard, lowerer_impl_imperative.cpp:710-726:
for `bound(i, ib, b, MaxExact)` followed by derivations of `ib`, the guard on `i` is dropped when the
bound is divisible by the upper bound of the innermost loop being lowered. -/
def guardElided (b innermost : Nat) : Bool := b % innermost == 0

/-- `bound(i, ib, b); split(ib, i0, i1, s)`: values of `i` for which the body runs. -/
def boundSplitLoop (n b s : Nat) : List Nat :=
  (loopRange (splitOuterBounds (boundBounds (0, n) b) s)).flatMap fun o =>
    (loopRange (splitInnerBounds (boundBounds (0, n) b) s)).filterMap fun i =>
      let v := splitRecover s o i
      if !guardElided b s && underivedGuardSkips (0, n) v then none else some v

/-- `bound(i, ib, b); split(ib, i0, i1, s); split(i1, j0, j1, t)`: values of `i` for which the body
runs; the guard on `i` is placed in (or dropped from) the loop over `j1`, whose bound is `t`. -/
def boundSplitSplitLoop (n b s t : Nat) : List Nat :=
  (loopRange (splitOuterBounds (boundBounds (0, n) b) s)).flatMap fun o =>
    (loopRange (splitOuterBounds (splitInnerBounds (0, b) s) t)).flatMap fun j0 =>
      (loopRange (splitInnerBounds (splitInnerBounds (0, b) s) t)).filterMap fun j1 =>
        let v := splitRecover s o (splitRecover t j0 j1)
        if !guardElided b t && underivedGuardSkips (0, n) v then none else some v

end Verif.Provenance
