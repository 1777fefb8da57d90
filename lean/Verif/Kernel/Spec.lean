import Verif.Kernel.Syntax
/-
Specification: what index statements compute, for any meaning of literals and operators, and
what it is to compute the same up to renaming.
-/
namespace Verif.Kernel

/-- Meaning of literals, operators and so on, over any type of values. -/
structure Sem (V : Type) where
  lit : Nat → V
  /-- an index variable used as a value -/
  idx : Nat → V
  /-- what an access yields, by whether it is to the structure only -/
  view : Bool → V → V
  un : Nat → V → V
  bin : Nat → V → V → V
  /-- reduction of a list of values -/
  red : Nat → List V → V
  /-- old and new value to the value stored -/
  upd : Option Nat → V → V → V
  /-- a fill value -/
  fill : Nat → V

/-- Values of index variables. -/
abbrev Env := Nat → Nat

def Env.set (ρ : Env) (i v : Nat) : Env := fun j => if j = i then v else ρ j

/-- Contents of tensors. -/
abbrev Store (V : Type) := Nat → List Nat → V

/-- The coordinate for a value of the index variable. -/
def Mode.coord : Mode → Nat → Nat
  | .plain, v => v
  | .window lo _ stride, v => lo + stride * v
  | .indexSet s, v => s.getD v 0

/-- The number of values of the index variable for a dimension. -/
def Mode.extent : Mode → Nat → Nat
  | .plain, d => d
  | .window lo hi stride, _ => (hi - lo) / stride
  | .indexSet s, _ => s.length

/-- Coordinates of an access. -/
def coords (ρ : Env) (is : List Nat) (modes : List Mode) : List Nat :=
  List.zipWith (fun i m => m.coord (ρ i)) is modes

/-- Accesses of an expression: tensor, index variables, modes. -/
def Expr.accs : Expr → List (Nat × List Nat × List Mode)
  | .lit _ => []
  | .idx _ => []
  | .acc t _ is ms => [(t, is, ms)]
  | .un _ a => a.accs
  | .bin _ a b => a.accs ++ b.accs
  | .red _ _ a => a.accs

/-- Accesses of a statement. -/
def Stmt.accs : Stmt → List (Nat × List Nat × List Mode)
  | .assign t _ is ms _ e => (t, is, ms) :: e.accs
  | .loop _ _ s => s.accs
  | .wher a b => a.accs ++ b.accs
  | .seq a b => a.accs ++ b.accs
  | .multi a b => a.accs ++ b.accs

/-- The range of an index variable from an access that uses it. -/
def extentOf (i : Nat) : List Nat → List Mode → List Nat → Option Nat
  | j :: is, m :: ms, d :: ds => if j = i then some (m.extent d) else extentOf i is ms ds
  | _, _, _ => none

/-- The range of an index variable in a statement on tensors with dimensions `shape`. -/
def extent (shape : Nat → List Nat) (s : Stmt) (i : Nat) : Nat :=
  (s.accs.findSome? fun a => extentOf i a.2.1 a.2.2 (shape a.1)).getD 0

/-- The value of an expression. -/
def eval {V : Type} (S : Sem V) (dim : Nat → Nat) (σ : Store V) : Env → Expr → V
  | _, .lit c => S.lit c
  | ρ, .idx i => S.idx (ρ i)
  | ρ, .acc t s is ms => S.view s (σ t (coords ρ is ms))
  | ρ, .un o a => S.un o (eval S dim σ ρ a)
  | ρ, .bin o a b => S.bin o (eval S dim σ ρ a) (eval S dim σ ρ b)
  | ρ, .red o i a => S.red o ((List.range (dim i)).map fun v => eval S dim σ (ρ.set i v) a)

/-- Setting one component. -/
def put {V : Type} (σ : Store V) (t : Nat) (c : List Nat) (r : V) : Store V :=
  fun t' c' => if t' = t ∧ c' = c then r else σ t' c'

/-- Tensors computed by a statement, not counting temporaries. -/
def Stmt.results : Stmt → List Nat
  | .assign t _ _ _ _ _ => [t]
  | .loop _ _ s => s.results
  | .wher c _ => c.results
  | .seq d m => d.results ++ m.results
  | .multi s r => s.results ++ r.results

/-- Setting tensors to their fill values. -/
def clear {V : Type} (S : Sem V) (info : Nat → Info) (ts : List Nat) (σ : Store V) : Store V :=
  fun t => if t ∈ ts then fun _ => S.fill (info t).fill else σ t

/-- Giving tensors back the contents they had before. -/
def restore {V : Type} (ts : List Nat) (old new : Store V) : Store V :=
  fun t => if t ∈ ts then old t else new t

/-- The effect of a statement.  What a producer computes exists only for its consumer. -/
def exec {V : Type} (S : Sem V) (info : Nat → Info) (dim : Nat → Nat) :
    Stmt → Env → Store V → Store V
  | .assign t _ is ms o e, ρ, σ =>
    put σ t (coords ρ is ms) (S.upd o (σ t (coords ρ is ms)) (eval S dim σ ρ e))
  | .loop i _ s, ρ, σ =>
    (List.range (dim i)).foldl (fun σ v => exec S info dim s (ρ.set i v) σ) σ
  | .wher c p, ρ, σ =>
    restore p.results σ
      (exec S info dim c ρ (exec S info dim p ρ (clear S info p.results σ)))
  | .seq d m, ρ, σ => exec S info dim m ρ (exec S info dim d ρ σ)
  | .multi s r, ρ, σ => exec S info dim r ρ (exec S info dim s ρ σ)

/-- Running a kernel: results start with their fill values. -/
def run {V : Type} (S : Sem V) (info : Nat → Info) (shape : Nat → List Nat) (s : Stmt)
    (σ : Store V) : Store V :=
  exec S info (extent shape s) s (fun _ => 0) (clear S info s.results σ)

/-- A one-to-one correspondence. -/
def OneToOne (m : List (Nat × Nat)) : Prop := ∀ p ∈ m, ∀ q ∈ m, p.1 = q.1 ↔ p.2 = q.2

/-- Tensors of a statement. -/
def Stmt.tensors (s : Stmt) : List Nat := s.accs.map Prod.fst

/-- With tensors renamed as in `ts`, the statement `b` computes what `a` does: on tensors with
the same dimensions and contents all results, and all other tensors, are the same. -/
def ComputesSame {V : Type} (S : Sem V) (info : Nat → Info) (ts : List (Nat × Nat)) (a b : Stmt) :
    Prop :=
  ∀ (shape shape' : Nat → List Nat) (σ σ' : Store V),
    (∀ p ∈ ts, shape p.1 = shape' p.2) → (∀ p ∈ ts, σ p.1 = σ' p.2) →
    ∀ p ∈ ts, run S info shape a σ p.1 = run S info shape' b σ' p.2

/-- Is an index variable used as a value? -/
def Expr.usesIdx : Expr → Bool
  | .lit _ => false
  | .idx _ => true
  | .acc _ _ _ _ => false
  | .un _ a => a.usesIdx
  | .bin _ a b => a.usesIdx || b.usesIdx
  | .red _ _ a => a.usesIdx

def Stmt.usesIdx : Stmt → Bool
  | .assign _ _ _ _ _ e => e.usesIdx
  | .loop _ _ s => s.usesIdx
  | .wher a b => a.usesIdx || b.usesIdx
  | .seq a b => a.usesIdx || b.usesIdx
  | .multi a b => a.usesIdx || b.usesIdx

/-- Renaming tensors and index variables. -/
def Expr.rename (f g : Nat → Nat) : Expr → Expr
  | .lit c => .lit c
  | .idx i => .idx (g i)
  | .acc t s is ms => .acc (f t) s (is.map g) ms
  | .un o a => .un o (a.rename f g)
  | .bin o a b => .bin o (a.rename f g) (b.rename f g)
  | .red o i a => .red o (g i) (a.rename f g)

def Stmt.rename (f g : Nat → Nat) : Stmt → Stmt
  | .assign t s is ms o e => .assign (f t) s (is.map g) ms o (e.rename f g)
  | .loop i x s => .loop (g i) x (s.rename f g)
  | .wher a b => .wher (a.rename f g) (b.rename f g)
  | .seq a b => .seq (a.rename f g) (b.rename f g)
  | .multi a b => .multi (a.rename f g) (b.rename f g)

end Verif.Kernel
