/-
What the loops of a kernel mean: the statements of the low-level language that matter for control
flow, run one iteration after another.  Nothing here knows about blocks, warps or threads of a GPU:
a loop marked for one of them runs like every other loop.
-/
namespace Verif.Cuda

/-- Variables, and the values they hold. -/
abbrev Var := Nat
abbrev Env := Var → Int

/-- Expressions: any function of the variables they mention. -/
structure Expr where
  reads : List Var
  fn : List Int → Int

def Expr.eval (e : Expr) (s : Env) : Int := e.fn (e.reads.map s)

/-- The two kinds of loops inside a kernel whose iterations may be given to threads. -/
inductive PUnit
  | warp
  | thread
  deriving DecidableEq

/-- A loop for warps or threads: its variable and its bounds. -/
structure ParLoop where
  x : Var
  lo : Int
  hi : Int
  step : Int
  deriving DecidableEq

/-- Statements.  `emit` is an effect on memory: a store or an addition to a component; what it does
depends on the variables it mentions.  `par` is a loop marked for warps or threads and `red` the
loop that adds up what the threads left; their bounds are literals. -/
inductive Stmt (Ev : Type)
  | skip
  | cont
  | brk
  | ret
  | emit (reads : List Var) (fn : List Int → Ev)
  | set (x : Var) (e : Expr)
  | seq (a b : Stmt Ev)
  | ite (c : Expr) (a b : Stmt Ev)
  | wloop (c : Expr) (b : Stmt Ev)
  | loop (x : Var) (lo hi step : Expr) (b : Stmt Ev)
  | par (u : PUnit) (x : Var) (lo hi step : Int) (b : Stmt Ev)
  | red (x : Var) (lo hi step : Int) (b : Stmt Ev)

/-- How a statement ends. -/
inductive Ctl
  | next
  | cont
  | brk
  | ret
  deriving DecidableEq

structure Out (Ev : Type) where
  evs : List Ev
  env : Env
  ctl : Ctl

def upd (s : Env) (x : Var) (v : Int) : Env := fun y => if y = x then v else s y

/-- The values of a loop variable that starts at `v`, grows by `step` and stays below `hi`. -/
def upTo (step hi : Int) : Nat → Int → List Int
  | 0, _ => []
  | n + 1, v => if v < hi then v :: upTo step hi n (v + step) else []

/-- The values `for (x = lo; x < hi; x += step)` goes through.  Steps are positive. -/
def iters (lo hi step : Int) : List Int :=
  if 0 < step then upTo step hi (hi - lo).toNat lo else []

def Out.after {Ev : Type} (pre : List Ev) (o : Out Ev) : Out Ev := ⟨pre ++ o.evs, o.env, o.ctl⟩

/-- A loop over the given values. -/
def iterate {Ev : Type} (f : Env → Out Ev) (x : Var) : List Int → Env → Out Ev
  | [], s => ⟨[], s, .next⟩
  | v :: vs, s =>
    let o := f (upd s x v)
    match o.ctl with
    | .next => (iterate f x vs o.env).after o.evs
    | .cont => (iterate f x vs o.env).after o.evs
    | .brk => ⟨o.evs, o.env, .next⟩
    | .ret => o

/-- The loop variable is declared by the loop: outside, the name keeps its meaning. -/
def forLoop {Ev : Type} (f : Env → Out Ev) (x : Var) (vs : List Int) (s : Env) : Out Ev :=
  let o := iterate f x vs s
  ⟨o.evs, upd o.env x (s x), o.ctl⟩

/-- A `while` loop, cut off after `n` iterations. -/
def whileLoop {Ev : Type} (c : Env → Bool) (f : Env → Out Ev) : Nat → Env → Out Ev
  | 0, s => ⟨[], s, .next⟩
  | n + 1, s =>
    if c s then
      let o := f s
      match o.ctl with
      | .next => (whileLoop c f n o.env).after o.evs
      | .cont => (whileLoop c f n o.env).after o.evs
      | .brk => ⟨o.evs, o.env, .next⟩
      | .ret => o
    else ⟨[], s, .next⟩

def andThen {Ev : Type} (o : Out Ev) (f : Env → Out Ev) : Out Ev :=
  match o.ctl with
  | .next => (f o.env).after o.evs
  | _ => o

/-- Running a statement, with `while` loops cut off after `n` iterations. -/
def run {Ev : Type} (n : Nat) : Stmt Ev → Env → Out Ev
  | .skip, s => ⟨[], s, .next⟩
  | .cont, s => ⟨[], s, .cont⟩
  | .brk, s => ⟨[], s, .brk⟩
  | .ret, s => ⟨[], s, .ret⟩
  | .emit rs fn, s => ⟨[fn (rs.map s)], s, .next⟩
  | .set x e, s => ⟨[], upd s x (e.eval s), .next⟩
  | .seq a b, s => andThen (run n a s) (run n b)
  | .ite c a b, s => if c.eval s ≠ 0 then run n a s else run n b s
  | .wloop c b, s => whileLoop (fun s => decide (c.eval s ≠ 0)) (run n b) n s
  | .loop x lo hi step b, s => forLoop (run n b) x (iters (lo.eval s) (hi.eval s) (step.eval s)) s
  | .par _ x lo hi step b, s => forLoop (run n b) x (iters lo hi step) s
  | .red x lo hi step b, s => forLoop (run n b) x (iters lo hi step) s

/-- A loop marked for the blocks of a GPU, and what it contains. -/
structure Kernel (Ev : Type) where
  x : Var
  lo : Expr
  hi : Expr
  step : Expr
  body : Stmt Ev

/-- The effects of the loop, run as it is written. -/
def Kernel.asLoop {Ev : Type} (n : Nat) (k : Kernel Ev) (s : Env) : List Ev :=
  (run n (.loop k.x k.lo k.hi k.step k.body) s).evs

end Verif.Cuda
