import Verif.GpuAcc.Spec
/-!
How additions to shared components are done on a GPU, src/codegen/codegen_cuda.cpp:

* `atomicAddWarp`, 142-158: the threads of a warp compare their addresses and, if all are equal, add up
  their values among themselves before one of them adds to memory;
* `CodeGen_CUDA::visit(const Store*)`, 1404-1490: which additions use it;
* the multiplication by `atomicCAS`, 1360-1376 and 1412-1437.

A warp is 32 threads that run a kernel together; at a condition or a loop that only some of them enter,
the others wait.  `__shfl_sync`, `__ballot_sync` and `__shfl_down_sync` with the mask -1 are defined only
if every thread of the warp that has not returned executes them together (CUDA C++ Programming Guide);
threads that have returned, or that the block does not have, do not take part: their bit of the ballot
is 0 and what is read from them is any value.

Simplifications: values of any commutative monoid (so sums of floating-point numbers are up to
rounding); what a thread adds does not depend on what others have added; a launch has blocks of one
dimension, as all launches of taco.
-/
namespace Verif.GpuAcc

/-- A thread of a warp at a call: it makes the call, it has returned, or it is somewhere else. -/
inductive Lane (V : Type)
  | here (addr : Nat) (val : V)
  | gone
  | elsewhere

def Lane.isElsewhere {V : Type} : Lane V → Bool
  | .elsewhere => true
  | _ => false

/-- `leader_index == index`, 146. -/
def Lane.agrees {V : Type} (leader : Nat) : Lane V → Bool
  | .here a _ => a == leader
  | _ => false

def Lane.addition {V : Type} : Lane V → Option (Nat × V)
  | .here a v => some (a, v)
  | _ => none

def Lane.val {V : Type} [Zero V] : Lane V → V
  | .here _ v => v
  | _ => 0

/-- `__shfl_down_sync(-1, val, d)`: the value of the thread `d` further on, or one's own. -/
def shflDown {V : Type} (v : Nat → V) (d l : Nat) : V := if l + d < 32 then v (l + d) else v l

/-- `val += __shfl_down_sync(-1, val, d)`, 148-152. -/
def shflAdd {V : Type} [AddCommMonoid V] (v : Nat → V) (d : Nat) : Nat → V := fun l => v l + shflDown v d l

/-- The five steps, 148-152. -/
def warpSum {V : Type} [AddCommMonoid V] (v : Nat → V) : Nat → V :=
  shflAdd (shflAdd (shflAdd (shflAdd (shflAdd v 16) 8) 4) 2) 1

/-- `__shfl_sync(-1, index, 0)`, 145; `u` is what a shuffle reads from a thread that has returned. -/
def leaderOf {V : Type} (u : Nat) : Lane V → Nat
  | .here a _ => a
  | _ => u

/-- `atomicAddWarp`, 142-158: the additions to memory; `none`: undefined. -/
def atomicAddWarp {V : Type} [AddCommMonoid V] (u : Nat) (lane : Nat → Lane V) : Option (Log V) :=
  if (List.range 32).any (fun l => (lane l).isElsewhere) then none
  else if (List.range 32).all (fun l => (lane l).agrees (leaderOf u (lane 0))) then
    some ((List.range 32).filterMap (fun l =>
      if l % 32 = 0 then some (leaderOf u (lane l), warpSum (fun l => (lane l).val) l) else none))
  else some ((List.range 32).filterMap (fun l => (lane l).addition))

/-- `deviceFunctionLoopDepth == 0 || op->atomic_parallel_unit == ParallelUnit::GPUWarp`, 1448. -/
def usesWarp (shared : Bool) (depth : Nat) : Bool := depth == 0 || shared

/-- `deviceFunctionLoopDepth` inside a loop: `for` loops count (`visit(const For*)`, 950-956), `while`
loops do not (`visit(const While*)`, 971-982). -/
def depthIn (counted : Bool) (depth : Nat) : Nat := if counted then depth + 1 else depth

/-- The largest number of iterations of the threads that enter a loop. -/
def maxIters (act : Nat → Bool) (n : Nat → Nat) : Nat :=
  (List.range 32).foldr (fun l m => if act l then max (n l) m else m) 0

/-- The iterations of a loop of a warp. -/
def warpLoop {V : Type} (f : Nat → (Nat → Bool) → Option ((Nat → Bool) × Log V)) :
    List Nat → (Nat → Bool) → Option ((Nat → Bool) × Log V)
  | [], ex => some (ex, [])
  | k :: ks, ex =>
    match f k ex with
    | none => none
    | some (ex', l) => (warpLoop f ks ex').map (fun r => (r.1, l ++ r.2))

/-- A warp runs a kernel: `act` are the threads that run this statement, `ex` those that have returned;
if no thread runs an addition, it is skipped;
`depth` is the counter of loops when the statement is printed. Thread `l` of the warp has the number
`base + l`. -/
def exec {V : Type} [AddCommMonoid V] (u base : Nat) : Prog V → Nat → List Nat → (Nat → Bool) → (Nat → Bool) →
    Option ((Nat → Bool) × Log V)
  | .skip, _, _, _, ex => some (ex, [])
  | .add shared addr val, depth, its, act, ex =>
    if (List.range 32).all (fun l => !act l) then some (ex, [])
    else if usesWarp shared depth then
      (atomicAddWarp u (fun l =>
        if act l then .here (addr (base + l) its) (val (base + l) its) else if ex l then .gone else .elsewhere)).map
        (fun l => (ex, l))
    else some (ex, ((List.range 32).filter act).map (fun l => (addr (base + l) its, val (base + l) its)))
  | .exit c, _, its, act, ex => some (fun l => ex l || (act l && c (base + l) its), [])
  | .seq p q, depth, its, act, ex =>
    match exec u base p depth its act ex with
    | none => none
    | some (ex', l) => (exec u base q depth its (fun l => act l && !ex' l) ex').map (fun r => (r.1, l ++ r.2))
  | .ite c p, depth, its, act, ex => exec u base p depth its (fun l => act l && c (base + l) its) ex
  | .loop counted n p, depth, its, act, ex =>
    warpLoop (fun k ex => exec u base p (depthIn counted depth) (k :: its)
        (fun l => act l && !ex l && decide (k < n (base + l) its)) ex)
      (List.range (maxIters act (fun l => n (base + l) its))) ex

/-- A warp of a block of `size` threads from thread `base` on runs a kernel. -/
def warp {V : Type} [AddCommMonoid V] (u : Nat) (p : Prog V) (size base : Nat) : Option (Log V) :=
  (exec u base p 0 [] (fun l => decide (base + l < size)) (fun l => !decide (base + l < size))).map (fun r => r.2)

/-- The warps of a block of `size` threads, one after another. -/
def warps {V : Type} [AddCommMonoid V] (u : Nat) (p : Prog V) (size : Nat) : List Nat → Option (Log V)
  | [] => some []
  | w :: ws =>
    match warp u p size (w * 32), warps u p size ws with
    | some l, some r => some (l ++ r)
    | _, _ => none

/-- A block of `size` threads: what it adds to memory. -/
def block {V : Type} [AddCommMonoid V] (u : Nat) (p : Prog V) (size : Nat) : Option (Log V) :=
  warps u p size (List.range ((size + 31) / 32))

/-- `atomicAdd(&array[index], val)` in the given order. -/
def addAll {V : Type} [AddCommMonoid V] : Log V → (Nat → V) → Nat → V
  | [], mem => mem
  | (a, v) :: l, mem => addAll l (fun k => if k = a then mem k + v else mem k)

/-! ### multiplication -/

/-- A thread that multiplies a component, 1360-1376 and 1412-1437: it reads the component
(`type atomicOld = ...;`), then calls `atomicCAS(&..., atomicOld, atomicOld * factor)` once. -/
inductive MulSt
  | start (factor : Int)
  | read (factor old : Int)
  | done
  deriving DecidableEq

/-- The next step of a thread. -/
def mulStep : MulSt → Int → MulSt × Int
  | .start f, v => (.read f v, v)
  | .read f old, v => (.done, if v = old then old * f else v)
  | .done, v => (.done, v)

/-- Threads that multiply the same component, run in the order of a schedule. -/
def mulRun : List Nat → List MulSt → Int → List MulSt × Int
  | [], ts, v => (ts, v)
  | i :: sched, ts, v =>
    match ts[i]? with
    | none => mulRun sched ts v
    | some t => mulRun sched (ts.set i (mulStep t v).1) (mulStep t v).2

end Verif.GpuAcc
