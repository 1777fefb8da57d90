import Verif.Directive.Spec
/-!
How the command line tool turns scheduling directives into transformations: `setSchedulingCommands`, tools/taco.cpp
311-649. A directive is the list of strings that `ScheduleParser` returns (`Verif.Schedule`). The transformations
themselves are a parameter: a function that returns the new statement, or nothing when it reports an error.

Index variables are compared by their names (`operator==` and `operator<` of `IndexVarNode`, index_notation_nodes.cpp
74-80), so a variable is its name here. Reporting an error ends the call (error.h 63-69), whichever error it is.
-/
namespace Verif.Directive
open Verif.IndexText Verif.Schedule

/-- How a step ends: with a value, with an error that is reported, or with undefined behaviour. -/
inductive Res (α : Type) where
  | ok (a : α)
  | error
  | undefined
  deriving DecidableEq

/-- What comes after a step that ends with a value. -/
def Res.bind {α β : Type} : Res α → (α → Res β) → Res β
  | .ok a, f => f a
  | .error, _ => .error
  | .undefined, _ => .undefined

/-- The lambda `findVar`, taco.cpp 312-322: the variable of that name among the variables of the provenance graph. -/
def findVar (v : View) (name : Name) : Res Name := if name ∈ v.vars then .ok name else .error

/-- `findVar` of each name, lines 405-408 and 491-494. -/
def findVars (v : View) : List Name → Res (List Name)
  | [] => .ok []
  | x :: xs => (findVar v x).bind fun y => (findVars v xs).bind fun ys => .ok (y :: ys)

/-- The end of `sscanf(text, "%zu", &n)` after white space and the sign: at least one digit; digits that denote more
than a `size_t` holds are undefined behaviour; a negative number wraps around. -/
def scanDigits (negative : Bool) (cs : Name) : Res Nat :=
  let ds := cs.takeWhile isDigit
  if ds = [] then .error
  else if 2 ^ 64 ≤ decVal ds then .undefined
  else .ok (if negative then (2 ^ 64 - decVal ds) % 2 ^ 64 else decVal ds)

/-- The sign of a number that `sscanf` reads. -/
def scanSign : Name → Res Nat
  | '-' :: cs => scanDigits true cs
  | '+' :: cs => scanDigits false cs
  | cs => scanDigits false cs

/-- `sscanf(text, "%zu", &n) == 1`, taco.cpp 363, 378, 522 and 547: what follows the number is not looked at. -/
def scanZu (text : Name) : Res Nat := scanSign (text.dropWhile isSpace)

/-- A value of a list of names, or an error. -/
def lookup {α : Type} (table : List (String × α)) (name : Name) : Res α :=
  match table with
  | [] => .error
  | (s, a) :: rest => if name = s.toList then .ok a else lookup rest name

/-- The comparisons of taco.cpp 505-512. -/
def mergeTable : List (String × Merge) := [("TwoFinger", .twoFinger), ("Gallop", .gallop)]

/-- The comparisons of taco.cpp 526-537. -/
def boundTable : List (String × BoundType) :=
  [("MinExact", .minExact), ("MinConstraint", .minConstraint), ("MaxExact", .maxExact), ("MaxConstraint", .maxConstraint)]

/-- The comparisons of taco.cpp 559-577. -/
def unitTable : List (String × ParUnit) :=
  [("NotParallel", .notParallel), ("GPUBlock", .gpuBlock), ("GPUWarp", .gpuWarp), ("GPUThread", .gpuThread),
    ("CPUThread", .cpuThread), ("CPUVector", .cpuVector)]

/-- The comparisons of taco.cpp 580-593. -/
def raceTable : List (String × Race) :=
  [("IgnoreRaces", .ignoreRaces), ("NoRaces", .noRaces), ("Atomics", .atomics), ("Temporary", .temporary),
    ("ParallelReduction", .parallelReduction)]

/-- The comparisons of taco.cpp 620-627. -/
def asmTable : List (String × AsmStrategy) := [("Append", .append), ("Insert", .insert)]

/-- The comparisons of taco.cpp 630-638. -/
def boolTable : List (String × Bool) := [("true", true), ("false", false)]

/-- The loop over the argument accesses, taco.cpp 337-343: the first access of a tensor of that name. -/
def findAccess (tensor : Name) : List Name → Nat → Option Nat
  | [], _ => none
  | a :: as, k => if a = tensor then some k else findAccess tensor as (k + 1)

/-- What `pos` does once the access is known, lines 338-341; without one the directive has no effect, line 344. -/
def posAt (v : View) (i ipos : Name) : Option Nat → Res (Option Op)
  | none => .ok none
  | some k => (findVar v i).bind fun i => .ok (some (.pos i ipos k))

/-- `pos`, taco.cpp 330-344. -/
def decodePos (v : View) : List Name → Res (Option Op)
  | [i, ipos, tensor] => posAt v i ipos (findAccess tensor v.args 0)
  | _ => .error

/-- `fuse`, taco.cpp 345-353. -/
def decodeFuse (v : View) : List Name → Res (Option Op)
  | [i, j, f] => (findVar v i).bind fun i => (findVar v j).bind fun j => .ok (some (.fuse i j f))
  | _ => .error

/-- `split`, taco.cpp 355-368. -/
def decodeSplit (v : View) : List Name → Res (Option Op)
  | [i, i1, i2, p] => (scanZu p).bind fun n => (findVar v i).bind fun i => .ok (some (.split i i1 i2 n))
  | _ => .error

/-- `divide`, taco.cpp 369-383. -/
def decodeDivide (v : View) : List Name → Res (Option Op)
  | [i, i1, i2, p] => (scanZu p).bind fun n => (findVar v i).bind fun i => .ok (some (.divide i i1 i2 n))
  | _ => .error

/-- `exprStr.erase(remove(…, ' '), …)`, taco.cpp 423-426. -/
def eraseSpaces : Name → Name
  | [] => []
  | c :: cs => if c = ' ' then eraseSpaces cs else c :: eraseSpaces cs

mutual
/-- `GetExpr`, taco.cpp 417-465, with the visitor it extends (index_notation_visitor.cpp 34-101): accesses, unary and
binary nodes are compared, the operands of what does not match are visited. The text of a node is part of the model of
expressions. -/
def visit (text : Name) : Expr → Option Expr → Option Expr
  | .node k t ty as, acc =>
    if k ≠ .other ∧ t = text then some (.node k t ty as) else if k = .access then acc else visitAll text as acc
/-- Operands from left to right; assignments in the order of the statement. -/
def visitAll (text : Name) : List Expr → Option Expr → Option Expr
  | [], acc => acc
  | e :: es, acc => visitAll text es (visit text e acc)
end

/-- The dimension of a mode of the workspace, taco.cpp 471-480. -/
def dimOf (v : View) (x : Name) : Dim :=
  match v.domain x with
  | some n => .size n
  | none => .var x

/-- `varListParser` of a parameter, lines 396-397; an error when it does not return a list. -/
def varList (p : Name) : Res (List Name) :=
  match varListParser (p.length + 1) p with
  | some l => .ok l
  | none => .error

/-- `precompute` with a name for the workspace, taco.cpp 384-486. The variables `iw` are those of the statement with
these names or new variables with these names (lines 409-415), in either case they are their names. -/
def precomputeAs (v : View) (text p q name : Name) : Res (Option Op) :=
  (varList p).bind fun is => (varList q).bind fun iws => (findVars v is).bind fun origs =>
    .ok (some (.precompute (visitAll (eraseSpaces text) v.exprs none) origs iws name .float64 (origs.map (dimOf v))))

/-- The parameters of `precompute`, taco.cpp 388-402. -/
def decodePrecompute (v : View) : List Name → Res (Option Op)
  | [e, p, q] => precomputeAs v e p q "workspace".toList
  | [e, p, q, name] => precomputeAs v e p q name
  | _ => .error

/-- `reorder`, taco.cpp 488-496. -/
def decodeReorder (v : View) (ps : List Name) : Res (Option Op) :=
  if ps.length > 1 then (findVars v ps).bind fun vs => .ok (some (.reorder vs)) else .error

/-- `mergeby`, taco.cpp 498-514. -/
def decodeMergeby (v : View) : List Name → Res (Option Op)
  | [i, s] => (lookup mergeTable s).bind fun m => (findVar v i).bind fun i => .ok (some (.mergeby i m))
  | _ => .error

/-- `bound`, taco.cpp 516-540. -/
def decodeBound (v : View) : List Name → Res (Option Op)
  | [i, i1, p, t] => (scanZu p).bind fun n => (lookup boundTable t).bind fun t => (findVar v i).bind fun i => .ok (some (.bound i i1 n t))
  | _ => .error

/-- `unroll`, taco.cpp 542-549. -/
def decodeUnroll (v : View) : List Name → Res (Option Op)
  | [i, p] => (scanZu p).bind fun n => (findVar v i).bind fun i => .ok (some (.unroll i n))
  | _ => .error

/-- `parallelize`, taco.cpp 551-595. -/
def decodeParallelize (v : View) : List Name → Res (Option Op)
  | [i, u, r] => (lookup unitTable u).bind fun u => (lookup raceTable r).bind fun r => (findVar v i).bind fun i => .ok (some (.parallelize i u r))
  | _ => .error

/-- `assemble` with a third parameter, taco.cpp 597-641. -/
def assembleAs (v : View) (t s b : Name) : Res (Option Op) :=
  if t ∈ v.results then (lookup asmTable s).bind fun s => (lookup boolTable b).bind fun b => .ok (some (.assemble t s b)) else .error

/-- The parameters of `assemble`, taco.cpp 598-607. -/
def decodeAssemble (v : View) : List Name → Res (Option Op)
  | [t, s] => assembleAs v t s "false".toList
  | [t, s, b] => assembleAs v t s b
  | _ => .error

/-- The branches of the chain of comparisons, taco.cpp 330-644. -/
inductive Cmd where
  | pos | fuse | split | divide | precompute | reorder | mergeby | bound | unroll | parallelize | assemble
  deriving DecidableEq

/-- The comparisons of the command, taco.cpp 330-644. -/
def commands : List (String × Cmd) :=
  [("pos", .pos), ("fuse", .fuse), ("split", .split), ("divide", .divide), ("precompute", .precompute), ("reorder", .reorder),
    ("mergeby", .mergeby), ("bound", .bound), ("unroll", .unroll), ("parallelize", .parallelize), ("assemble", .assemble)]

/-- The bodies of the branches, taco.cpp 330-644. -/
def branch : Cmd → View → List Name → Res (Option Op)
  | .pos => decodePos
  | .fuse => decodeFuse
  | .split => decodeSplit
  | .divide => decodeDivide
  | .precompute => decodePrecompute
  | .reorder => decodeReorder
  | .mergeby => decodeMergeby
  | .bound => decodeBound
  | .unroll => decodeUnroll
  | .parallelize => decodeParallelize
  | .assemble => decodeAssemble

/-- One iteration of the loop of `setSchedulingCommands`, taco.cpp 326-646, up to the call of the transformation:
nothing when no transformation is called. `scheduleCommand[0]` of an empty directive is undefined. -/
def decode (v : View) : List Name → Res (Option Op)
  | [] => .undefined
  | command :: params => (lookup commands command).bind fun c => branch c v params

/-- When `isGPU` is set, taco.cpp 561-569. -/
def setsGpu : Op → Bool
  | .parallelize _ .gpuBlock _ => true
  | .parallelize _ .gpuWarp _ => true
  | .parallelize _ .gpuThread _ => true
  | _ => false

/-- `setSchedulingCommands`, taco.cpp 311-649: the statement after all directives, and whether code for a GPU is asked
for. -/
def run {σ : Type} (view : σ → View) (apply : σ → Op → Option σ) : σ → Bool → List (List Name) → Res (σ × Bool)
  | s, g, [] => .ok (s, g)
  | s, g, d :: ds => (decode (view s) d).bind fun o =>
    match o with
    | none => run view apply s g ds
    | some op =>
      match apply s op with
      | none => .error
      | some s' => run view apply s' (g || setsGpu op) ds

/-- The options `-s`, taco.cpp 1022-1029: the directives of all of them in order; an option without a directive is
an error. -/
def directives : List Name → Option (List (List Name))
  | [] => some []
  | t :: ts => (scheduleParser (t.length + 1) t).bind fun ds =>
    if ds = [] then none else (directives ts).bind fun rest => some (ds ++ rest)

/-- The options `-s` and lines 1157-1158. -/
def runOptions {σ : Type} (view : σ → View) (apply : σ → Op → Option σ) (s : σ) (texts : List Name) : Res (σ × Bool) :=
  match directives texts with
  | none => .error
  | some ds => run view apply s false ds

end Verif.Directive
