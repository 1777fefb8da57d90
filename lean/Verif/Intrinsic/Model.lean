/-
Model of the intrinsic functions: which sets of arguments they declare as
zero-preserving, what they are lowered to when arguments are literals, and how the
declaration is used by the merge lattice construction and by the zero rewriter.
-/
namespace Verif.Intrinsic

/-- The intrinsics (include/taco/index_notation/intrinsic.h 16-226,
src/index_notation/intrinsic.cpp). -/
inductive Fn where
  | mod | abs | pow | square | cube | sqrt | cbrt | exp | log | log10
  | sin | cos | tan | asin | acos | atan | atan2
  | sinh | cosh | tanh | asinh | acosh | atanh
  | gt | lt | gte | lte | eq | neq | max | min | heaviside | not
  deriving DecidableEq, Repr

/-- The kinds of component types the code distinguishes.  Widths are left out; `Bool`
and complex types, which most of the functions reject, are not modelled. -/
inductive Kind where
  | uint | sint | float
  deriving DecidableEq, Repr

/-- An argument as far as the code looks at it: its kind, and its value if it is a
literal. -/
structure Arg where
  kind : Kind
  lit : Option Rat
  deriving DecidableEq, Repr

/-- `isa<Literal>(x) && to<Literal>(x).getVal<T>() ...` with `T` of kind `k`; `none` is
the failed assertion in `getVal` when the literal has another type
(include/taco/index_notation/index_notation.h 370, index_notation_nodes.h 159-163). -/
def litSat (k : Kind) (x : Arg) (p : Rat → Bool) : Option Bool :=
  match x.lit with
  | none => some false
  | some q => if x.kind = k then some (p q) else none

/-- `if (c1) return r1; else if (c2) return r2; ... return d;` -/
def choose2 (c1 : Option Bool) (r1 : List (List Nat)) (c2 : Option Bool)
    (r2 d : List (List Nat)) : Option (List (List Nat)) :=
  match c1 with
  | none => none
  | some true => some r1
  | some false =>
    match c2 with
    | none => none
    | some true => some r2
    | some false => some d

/-- `equals(x, Literal::zero(x.getDataType()))`. -/
def isZeroLit (x : Arg) : Bool := x.lit = some 0

/-- `neq`, `max` and `min` (intrinsic.cpp 1418-1426, 1464-1474, 1512-1522). -/
def eitherZero (a b : Arg) : List (List Nat) :=
  if isZeroLit a then [[1]] else if isZeroLit b then [[0]] else [[0, 1]]

/-- `zeroPreservingArgs` of the functions of two arguments. -/
def zeroPreserving2 (f : Fn) (a b : Arg) : Option (List (List Nat)) :=
  match f with
  | .mod => some [[0], [1]]                                  -- 56-59
  | .pow => some [[0]]                                       -- 164-167
  | .atan2 =>                                                -- 731-754
    match b.kind with
    | .float => choose2 (litSat .float b (fun q => 0 < q)) [[0]] (some false) [] [[0, 1]]
    | _ => none
  | .gt =>                                                   -- 1031-1091
    match b.kind with
    | .uint => some [[0]]
    | k => choose2 (litSat k b (fun q => 0 ≤ q)) [[0]] (litSat k a (fun q => q ≤ 0)) [[1]]
        [[0, 1]]
  | .lt =>                                                   -- 1113-1173
    match b.kind with
    | .uint => some [[1]]
    | k => choose2 (litSat k a (fun q => 0 ≤ q)) [[1]] (litSat k b (fun q => q ≤ 0)) [[0]]
        [[0, 1]]
  | .gte =>                                                  -- 1196-1271
    match b.kind with
    | .uint => choose2 (litSat .uint b (fun q => 0 < q)) [[0]] (some false) [] []
    | k => choose2 (litSat k b (fun q => 0 < q)) [[0]] (litSat k a (fun q => q < 0)) [[1]] []
  | .lte =>                                                  -- 1294-1369
    match b.kind with
    | .uint => choose2 (litSat .uint a (fun q => 0 < q)) [[1]] (some false) [] []
    | k => choose2 (litSat k a (fun q => 0 < q)) [[1]] (litSat k b (fun q => q < 0)) [[0]] []
  | .eq => some []                                           -- 1391-1394
  | .neq => some (eitherZero a b)
  | .max => some (eitherZero a b)
  | .min => some (eitherZero a b)
  | .heaviside => some (if isZeroLit b then [[0]] else [])   -- 1556-1566
  | _ => none

/-- `zeroPreservingArgs` of the functions of one argument: empty for `exp` (355),
`log` (398), `log10` (436), `cos` (523), `acos` (647), `cosh` (840), `acosh` (964) and
`not` (1594), `{{0}}` for the others. -/
def zeroPreserving1 (f : Fn) : Option (List (List Nat)) :=
  match f with
  | .exp | .log | .log10 | .cos | .acos | .cosh | .acosh | .not => some []
  | .abs | .square | .cube | .sqrt | .cbrt | .sin | .tan | .asin | .atan | .sinh | .tanh
  | .asinh | .atanh => some [[0]]
  | _ => none

/-- `zeroPreservingArgs`; `none` for a failed assertion (wrong number or type of
arguments). -/
def zeroPreservingArgs (f : Fn) : List Arg → Option (List (List Nat))
  | [_] => zeroPreserving1 f
  | [a, b] => zeroPreserving2 f a b
  | _ => none

/-! ### Lowering -/

/-- What a call is lowered to: one of its arguments, a literal 0 or 1, or the call of
the C function (or operator). -/
inductive Lowered where
  | arg (i : Nat)
  | zero
  | one
  | call
  deriving DecidableEq, Repr

/-- `lower` of the functions of one argument (intrinsic.cpp 74-82, 182-192, 212-222,
242-250, 286-295, 327-340, 371-378, 414-421, 452-459, 495-508, 539-546, 582-589,
625-634, 663-670, 769-776, 812-825, 856-863, 899-906, 942-951, 980-987, 1578-1590). -/
def lower1 (f : Fn) (a : Arg) : Lowered :=
  match f with
  | .sqrt => if a.lit = some 0 ∨ a.lit = some 1 then .arg 0 else .call
  | .cbrt => if a.lit = some 0 ∨ a.lit = some 1 ∨ a.lit = some (-1) then .arg 0 else .call
  | .exp | .cos | .cosh | .not => if a.lit = some 0 then .one else .call
  | .log | .log10 => if a.lit = some 1 then .zero else .call
  | .acos | .acosh => .call
  | _ => if a.lit = some 0 then .arg 0 else .call

/-- `lower` of the functions of two arguments (intrinsic.cpp 25-34, 129-150, 707-724,
1022-1029, 1105-1111, 1188-1194, 1286-1292, 1383-1389, 1408-1414, 1440-1456,
1488-1504, 1536-1554). -/
def lower2 (f : Fn) (a b : Arg) : Lowered :=
  match f with
  | .mod => if a.lit = some 0 then .arg 0 else .call
  | .pow =>
    if a.lit = some 0 ∨ b.lit = some 1 then .arg 0
    else if b.lit = some 0 then .one else .call
  | .atan2 | .max | .min => if a.lit = some 0 ∧ b.lit = some 0 then .arg 0 else .call
  | .heaviside => if a.lit = some 0 then .arg 1 else .call
  | _ => .call

def lower (f : Fn) : List Arg → Lowered
  | [a] => lower1 f a
  | [a, b] => lower2 f a b
  | _ => .call

/-! ### Uses -/

/-- Whether a point is in the iteration space built for an intrinsic
(src/lower/merge_lattice.cpp 326-357): starting from the whole mode, arguments outside
all the sets are united with it, which changes nothing; then it is intersected, for
every set, with the union of the regions of the set's arguments. -/
def iterated (sets : List (List Nat)) (inRegion : Nat → Bool) : Bool :=
  sets.all fun s => s.any inRegion

/-- An argument after the zero rewriting: the zero literal if it vanished
(src/index_notation/index_notation.cpp 3965-3976). -/
def zeroArg (vanished : Bool) (a : Arg) : Arg :=
  if vanished then ⟨a.kind, some 0⟩ else a

/-- `Zero::visit(CallIntrinsicNode)` (index_notation.cpp 3961-3993): whether the call
vanishes, that is, whether the vanished arguments include a zero-preserving set of the
rewritten call. -/
def zeroIntrinsic (f : Fn) (args : List (Arg × Bool)) : Option Bool :=
  (zeroPreservingArgs f (args.map fun p => zeroArg p.2 p.1)).map fun sets =>
    sets.any fun s => s.all fun i => (args[i]?.map Prod.snd).getD false

end Verif.Intrinsic
