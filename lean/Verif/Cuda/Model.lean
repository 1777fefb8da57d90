import Verif.Cuda.Spec
/-
The CUDA backend: what `CodeGen_CUDA` makes of the loops of a function, and which threads a kernel
launch starts.
-/
namespace Verif.Cuda

variable {Ev : Type}

/-- `CodeGen_CUDA::visit(const For*)`, `visit(const While*)`, `visit(const Continue*)` and, by
inheritance, the rest of `IRPrinter` (src/codegen/codegen_cuda.cpp:861-984, 1160-1169,
src/ir/ir_printer.cpp:573-580).  `dev` says that a device function is printed (`!isHostFunction`) and
`d` is `deviceFunctionLoopDepth`: printed `for` loops of device functions count, `while` loops do not.
`continue` is printed as `return` at depth 0 of a device function and as `break` everywhere else.
Loops for warps and threads are not printed in device functions, and loops for reductions are run
where the variable, then the id of the thread, has its first value.  The
barriers before them, pragmas and indentation are left out.  Outside device functions every loop that
is not a kernel is printed as a loop. -/
def tr (dev : Bool) : Nat → Stmt Ev → Stmt Ev
  | _, .skip => .skip
  | d, .cont => if dev = true ∧ d = 0 then .ret else .brk
  | _, .brk => .brk
  | _, .ret => .ret
  | _, .emit rs fn => .emit rs fn
  | _, .set x e => .set x e
  | d, .seq a b => .seq (tr dev d a) (tr dev d b)
  | d, .ite c a b => .ite c (tr dev d a) (tr dev d b)
  | d, .wloop c b => .wloop c (tr dev d b)
  | d, .loop x lo hi step b => .loop x lo hi step (tr dev (d + 1) b)
  | d, .par u x lo hi step b =>
    if dev = true then tr dev d b else .par u x lo hi step (tr dev (d + 1) b)
  | d, .red x lo hi step b =>
    if dev = true then
      .ite ⟨[x], fun l => if l = [lo] then 1 else 0⟩
        (.loop x ⟨[], fun _ => lo⟩ ⟨[], fun _ => hi⟩ ⟨[], fun _ => step⟩ (tr dev (d + 1) b)) .skip
    else .red x lo hi step (tr dev (d + 1) b)

/-- `DeviceFunctionCollector::visit(const For*)` (codegen_cuda.cpp:325-377): the loops of one kind in
the order they are met. -/
def collect (u : PUnit) : Stmt Ev → List ParLoop
  | .seq a b => collect u a ++ collect u b
  | .ite _ a b => collect u a ++ collect u b
  | .wloop _ b => collect u b
  | .loop _ _ _ _ b => collect u b
  | .par u' x lo hi step b => (if u' = u then [⟨x, lo, hi, step⟩] else []) ++ collect u b
  | .red _ _ _ _ b => collect u b
  | _ => []

/-- `ir::Div::make(ir::Sub::make(op->end, op->start), op->increment)` (codegen_cuda.cpp:346, 363),
with the division of C. -/
def ParLoop.size (p : ParLoop) : Int := (p.hi - p.lo).tdiv p.step

/-- What a launch needs: the assertions of the collector hold when there is one loop for threads and
at most one for warps (codegen_cuda.cpp:329, 338-339, 350-351, 374). -/
structure Geometry where
  grid : Int
  threads : ParLoop
  warps : Option ParLoop

/-- `CodeGen_CUDA::printDeviceFunctions` (codegen_cuda.cpp:646-665): the number of blocks. -/
def gridSize (lo hi step : Int) : Int := ((hi - lo) + (step - 1)).tdiv step

def geometry (k : Kernel Ev) (s : Env) : Option Geometry :=
  match collect .thread k.body, collect .warp k.body with
  | [t], [] => some ⟨gridSize (k.lo.eval s) (k.hi.eval s) (k.step.eval s), t, none⟩
  | [t], [w] => some ⟨gridSize (k.lo.eval s) (k.hi.eval s) (k.step.eval s), t, some w⟩
  | _, _ => none

/-- The number of threads in a block (codegen_cuda.cpp:654-658). -/
def Geometry.blockSize (g : Geometry) : Int :=
  match g.warps with
  | none => g.threads.size
  | some w => g.threads.size * w.size

/-- `printThreadIDVariable`, `printWarpIDVariable`, `printBlockIDVariable`
(codegen_cuda.cpp:470-546): the variables a thread starts with, next to the arguments of the kernel. -/
def threadEnv (k : Kernel Ev) (g : Geometry) (s : Env) (block thread : Nat) : Env :=
  let s := upd s k.x (block * k.step.eval s + k.lo.eval s)
  let s := upd s g.threads.x (((thread : Int) % g.threads.size) * g.threads.step + g.threads.lo)
  match g.warps with
  | none => s
  | some w => upd s w.x (((thread : Int) / g.threads.size) * w.step + w.lo)

/-- `printThreadBoundCheck` (codegen_cuda.cpp:548-559) and the body of the kernel: what one thread
does. -/
def threadRun (n : Nat) (k : Kernel Ev) (g : Geometry) (s : Env) (block thread : Nat) : List Ev :=
  if (thread : Int) ≥ g.blockSize then [] else (run n (tr true 0 k.body) (threadEnv k g s block thread)).evs

/-- `printDeviceFuncCall` (codegen_cuda.cpp:561-609): the effects of all threads of a launch, block by
block.  Threads run in any order; only which effects there are matters to the theorems. -/
def launch (n : Nat) (k : Kernel Ev) (s : Env) : Option (List Ev) :=
  (geometry k s).map fun g =>
    (List.range g.grid.toNat).flatMap fun b =>
      (List.range g.blockSize.toNat).flatMap fun t => threadRun n k g s b t

end Verif.Cuda
