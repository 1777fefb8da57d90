import Verif.Concrete.Syntax
/-
Model of precomputing an expression into a workspace (src/index_notation/transformations.cpp
391-682) for a statement that is a nest of loops around one assignment.

The expression to be precomputed is found by identity, so the right-hand side of the
assignment is given as an expression with holes: accesses to the marker `h`, in whose place
the expression stands.  Derived index variables other than those of this precompute are left
out.
-/
namespace Verif.Concrete

variable {R : Type}

/-- Putting an expression into the holes (`replace`, src/index_notation/
index_notation_rewriter.cpp 451-466). -/
def Expr.fill : Expr R → Nat → Expr R → Expr R
  | .lit r, _, _ => .lit r
  | .acc t is, h, x => if t = h then x else .acc t is
  | .neg a, h, x => .neg (a.fill h x)
  | .add a b, h, x => .add (a.fill h x) (b.fill h x)
  | .sub a b, h, x => .sub (a.fill h x) (b.fill h x)
  | .mul a b, h, x => .mul (a.fill h x) (b.fill h x)
  | .red i a, h, x => .red i (a.fill h x)

/-- Renaming index variables in accesses (index_notation_rewriter.cpp 370-420). -/
def Expr.rename (f : Nat → Nat) : Expr R → Expr R
  | .lit r => .lit r
  | .acc t is => .acc t (is.map f)
  | .neg a => .neg (a.rename f)
  | .add a b => .add (a.rename f) (b.rename f)
  | .sub a b => .sub (a.rename f) (b.rename f)
  | .mul a b => .mul (a.rename f) (b.rename f)
  | .red i a => .red i (a.rename f)

/-- `IndexSetRel` (include/taco/index_notation/index_notation.h 33). -/
inductive SetRel where
  | none
  | rcl
  | lcr
  | inter
  | equal
  deriving DecidableEq

/-- `Assignment::getIndexSetRel` (src/index_notation/index_notation.cpp 2131-2173) for the
index variables `l` of the left-hand side and `r` of the right-hand side. -/
def setRel (l r : List Nat) : SetRel :=
  let lnum := l.eraseDups.length
  let rnum := r.eraseDups.length
  let both := (r.eraseDups.filter l.contains).length
  if both = 0 then (if lnum = 0 then .rcl else .none)
  else if both < lnum ∧ both = rnum then .lcr
  else if both < lnum ∧ both < rnum then .inter
  else if both = lnum ∧ both = rnum then .equal
  else if both = lnum ∧ both < rnum then .rcl
  else (if lnum = 0 then .rcl else .none)

/-- The operator chosen from the relation (transformations.cpp 429-436, 449-455). -/
def relPlus : SetRel → Bool
  | .none => false
  | .rcl => true
  | .lcr => false
  | .inter => true
  | .equal => false

/-- `substitutions` (transformations.cpp 514-519); other variables are kept. -/
def substVar : List Nat → List Nat → Nat → Nat
  | i :: is, w :: ws, v => if v = i then w else substVar is ws v
  | _, _, v => v

/-- The loops of producer, consumer and around both. -/
structure Split where
  producer : List Nat
  consumer : List Nat
  outer : List Nat

/-- Distribution of the loops, given from the innermost (transformations.cpp 534-556).  `inC`
and `inP` say which variables the consumer and the producer use.  The results are from the
innermost too. -/
def distribute (is iws : List Nat) (inC inP : Nat → Bool) : List Nat → Split
  | [] => ⟨[], [], []⟩
  | i :: rest =>
    if is.contains i then
      let d := distribute is iws inC inP rest
      ⟨substVar is iws i :: d.producer, i :: d.consumer, d.outer⟩
    else if inC i && inP i then ⟨[], [], i :: rest⟩
    else if inC i then
      let d := distribute is iws inC inP rest
      ⟨d.producer, i :: d.consumer, d.outer⟩
    else if inP i then
      let d := distribute is iws inC inP rest
      ⟨i :: d.producer, d.consumer, d.outer⟩
    else distribute is iws inC inP rest

/-- The variable that a variable is derived from (`getUnderivedAncestors`). -/
def root (is iws : List Nat) (v : Nat) : Nat := substVar iws is v

/-- When `RedundantVisitor` turns an assignment into an accumulation (transformations.cpp
613-648).  `ctx` are the loops around the assignment, from the innermost. -/
def redundant (is iws ctx l r : List Nat) : Bool :=
  (decide (setRel l r = .equal) &&
    r.any fun var => ctx.any fun svar => decide (root is iws var = root is iws svar ∧ svar ≠ var)) ||
  (decide (setRel l r = .none) &&
    l.all fun var => ctx.all fun svar => decide (ctx.head? = some svar ∨ var = svar))

/-- A precompute: the expression, the index variables, those of the workspace, and the
workspace. -/
structure Pre (R : Type) where
  e : Expr R
  is : List Nat
  iws : List Nat
  ws : Nat

/-- The right-hand side of the consumer (transformations.cpp 522). -/
def Pre.consumerRhs (q : Pre R) (h : Nat) (c : Expr R) : Expr R := c.fill h (.acc q.ws q.is)

/-- The right-hand side of the producer (transformations.cpp 444-447). -/
def Pre.producerRhs (q : Pre R) : Expr R := q.e.rename (substVar q.is q.iws)

/-- The loops are distributed (transformations.cpp 525-556). -/
def Pre.split (q : Pre R) (L lhs : List Nat) (h : Nat) (c : Expr R) : Split :=
  distribute q.is q.iws
    (fun v => lhs.contains v || (q.consumerRhs h c).varsAll.contains v)
    (fun v => q.iws.contains v || q.producerRhs.varsAll.contains v) L.reverse

/-- Does the consumer accumulate? -/
def Pre.consumerPlus (q : Pre R) (L lhs : List Nat) (h : Nat) (c : Expr R) : Bool :=
  let r := (q.consumerRhs h c).varsAll
  let d := q.split L lhs h c
  relPlus (setRel lhs r) || redundant q.is q.iws (d.consumer ++ d.outer) lhs r

/-- Does the producer accumulate? -/
def Pre.producerPlus (q : Pre R) (L lhs : List Nat) (h : Nat) (c : Expr R) : Bool :=
  let r := q.producerRhs.varsAll
  let d := q.split L lhs h c
  relPlus (setRel q.iws r) || redundant q.is q.iws (d.producer ++ d.outer) q.iws r

/-- `Precompute::apply` (transformations.cpp 391-682) on the assignment of `c`, with the
expression in its holes, to the tensor `a` at `lhs` in loops `L`. -/
def precompute (q : Pre R) (L : List Nat) (a : Nat) (lhs : List Nat) (h : Nat) (c : Expr R) :
    Stmt R :=
  let d := q.split L lhs h c
  loops d.outer.reverse
    (.wher
      (loops d.consumer.reverse
        (.assign a lhs (q.consumerPlus L lhs h c) (q.consumerRhs h c)))
      (loops d.producer.reverse
        (.assign q.ws q.iws (q.producerPlus L lhs h c) q.producerRhs)))

end Verif.Concrete
