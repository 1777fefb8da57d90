import Verif.Concrete.Semantics
import Verif.Concrete.Reorder.Spec
/-
Specification: what compiled code with a parallel loop can do.  The iterations of a parallel
loop run at the same time: each is a sequence of steps, and the steps of different iterations
are interleaved in any way.  An assignment evaluates its right-hand side in one step and
stores it in another; one that accumulates loads the old value, in between, in a step of its
own, unless the update is atomic.  The temporaries of where statements inside a parallel loop
are private to each iteration, all else is shared.  One loop is parallel and none inside it.
-/
namespace Verif.Parallel

open Concrete

variable {R : Type}

/-- Statements with parallel loops and atomic assignments. -/
inductive Code (R : Type) where
  | assign (t : Nat) (is : List Nat) (plus atomic : Bool) (e : Expr R)
  | loop (i : Nat) (par : Bool) (s : Code R)
  | wher (c p : Code R)
  deriving DecidableEq

/-- The statement as it is executed serially. -/
def Code.erase : Code R → Stmt R
  | .assign t is plus _ e => .assign t is plus e
  | .loop i _ s => .loop i s.erase
  | .wher c p => .wher c.erase p.erase

/-- What an iteration has for itself: two registers, its temporaries, and the contents that
its temporaries had before. -/
structure Local (R : Type) where
  val : R
  old : R
  mem : Store R
  saved : List (Store R)

/-- Steps of an iteration; `priv` are the tensors that are private. -/
inductive Step (R : Type) where
  | eval (priv : List Nat) (ρ : Env) (e : Expr R)
  | load (priv : List Nat) (t : Nat) (c : List Nat)
  | store (priv : List Nat) (t : Nat) (c : List Nat) (plus : Bool)
  | add (priv : List Nat) (t : Nat) (c : List Nat)
  | enter (t : Nat)
  | leave (t : Nat)

/-- The steps of one iteration. -/
def steps (dim : Nat → Nat) : List Nat → Code R → Env → List (Step R)
  | priv, .assign t is plus atomic e, ρ =>
    if plus then
      if atomic then [.eval priv ρ e, .add priv t (is.map ρ)]
      else [.eval priv ρ e, .load priv t (is.map ρ), .store priv t (is.map ρ) true]
    else [.eval priv ρ e, .store priv t (is.map ρ) false]
  | priv, .loop i _ s, ρ => (List.range (dim i)).flatMap fun v => steps dim priv s (ρ.set i v)
  | priv, .wher c p, ρ =>
    .enter p.erase.target :: (steps dim (p.erase.target :: priv) p ρ ++
      steps dim (p.erase.target :: priv) c ρ ++ [.leave p.erase.target])

variable [CommRing R]

/-- What an iteration sees. -/
def view (priv : List Nat) (L : Local R) (σ : Store R) : Store R :=
  fun t => if t ∈ priv then L.mem t else σ t

/-- Writing a private or a shared component. -/
def write (priv : List Nat) (t : Nat) (c : List Nat) (r : R) (L : Local R) (σ : Store R) :
    Local R × Store R :=
  if t ∈ priv then ({ L with mem := put L.mem t c r }, σ) else (L, put σ t c r)

/-- Leaving a where statement. -/
def Local.pop (t : Nat) (L : Local R) : Local R :=
  match L.saved with
  | [] => L
  | old :: rest => { L with mem := restore [t] old L.mem, saved := rest }

/-- One step of an iteration on what it has for itself and the shared tensors. -/
def step (dim : Nat → Nat) : Step R → Local R × Store R → Local R × Store R
  | .eval priv ρ e, (L, σ) => ({ L with val := eval dim (view priv L σ) ρ e }, σ)
  | .load priv t c, (L, σ) => ({ L with old := view priv L σ t c }, σ)
  | .store priv t c plus, (L, σ) => write priv t c (if plus then L.old + L.val else L.val) L σ
  | .add priv t c, (L, σ) => write priv t c (view priv L σ t c + L.val) L σ
  | .enter t, (L, σ) => ({ L with mem := clear [t] L.mem, saved := L.mem :: L.saved }, σ)
  | .leave t, (L, σ) => (L.pop t, σ)

/-- Replacing what belongs to one iteration. -/
def upd {α : Type} (f : Nat → α) (v : Nat) (a : α) : Nat → α := fun w => if w = v then a else f w

/-- `Par n P L σ σ'`: `n` iterations with the steps `P` can end with the shared tensors `σ'`. -/
inductive Par (dim : Nat → Nat) (n : Nat) :
    (Nat → List (Step R)) → (Nat → Local R) → Store R → Store R → Prop
  | done {P L σ} : (∀ v < n, P v = []) → Par dim n P L σ σ
  | next {P L σ σ'} (v : Nat) (st : Step R) (rest : List (Step R)) : v < n → P v = st :: rest →
      Par dim n (upd P v rest) (upd L v (step dim st (L v, σ)).1) (step dim st (L v, σ)).2 σ' →
      Par dim n P L σ σ'

/-- One after the other. -/
def Chain {α : Type} (r : Nat → α → α → Prop) : List Nat → α → α → Prop
  | [], a, b => b = a
  | v :: l, a, b => ∃ a', r v a a' ∧ Chain r l a' b

/-- `Runs code ρ σ σ'`: executing the code can turn `σ` into `σ'`.  Registers and memory of
iterations can contain anything at first. -/
def Runs (dim : Nat → Nat) : Code R → Env → Store R → Store R → Prop
  | .assign t is plus atomic e, ρ, σ, σ' =>
    σ' = exec dim (Code.assign t is plus atomic e).erase ρ σ
  | .loop i par s, ρ, σ, σ' =>
    if par then ∃ L, Par dim (dim i) (fun v => steps dim [] s (ρ.set i v)) L σ σ'
    else Chain (fun v => Runs dim s (ρ.set i v)) (List.range (dim i)) σ σ'
  | .wher c p, ρ, σ, σ' => ∃ σ1 σ2, Runs dim p ρ (clear p.erase.results σ) σ1 ∧ Runs dim c ρ σ1 σ2 ∧
      σ' = restore p.erase.results σ σ2

end Verif.Parallel
