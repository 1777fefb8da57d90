import Verif.IR.StmtModel
import Verif.IR.Spec
/-! Programs for which statement simplification is meant to work. -/
namespace Verif.IR
open Verif.Types

variable {F : Type}

/-- The variables a statement declares in the scope it is in. -/
def Stmt.declares : Stmt F → List Nat
  | .decl _ _ x _ => [x]
  | .seq a b => a.declares ++ b.declares
  | _ => []

/-- Well-scoped: with the variables `V` visible, every variable is used inside the scope of its declaration and
no declaration hides a visible variable. -/
def WS : List Nat → Stmt F → Prop
  | _, .skip => True
  | V, .seq a b => WS V a ∧ WS (a.declares ++ V) b
  | V, .scope s => WS V s
  | V, .decl _ _ x e => x ∉ V ∧ ∀ y ∈ e.vars, y ∈ V
  | V, .assign _ x e => x ∈ V ∧ ∀ y ∈ e.vars, y ∈ V
  | V, .store _ _ loc e => (∀ y ∈ loc.vars, y ∈ V) ∧ ∀ y ∈ e.vars, y ∈ V
  | V, .ite c a b => (∀ y ∈ c.vars, y ∈ V) ∧ WS V a ∧ WS V b
  | V, .loop _ x s e i b => x ∉ V ∧ (∀ y ∈ s.vars ++ (e.vars ++ i.vars), y ∈ V) ∧ WS (x :: V) b
  | V, .while c b => (∀ y ∈ c.vars, y ∈ V) ∧ WS V b

/-- Well-typed: expressions are uniformly typed and have the type of what they are assigned to. -/
def WTS (vk ak : Nat → Kind) : Stmt F → Prop
  | .skip => True
  | .seq a b => WTS vk ak a ∧ WTS vk ak b
  | .scope s => WTS vk ak s
  | .decl _ k x e => k = vk x ∧ WT vk ak e k
  | .assign k x e => k = vk x ∧ WT vk ak e k
  | .store k arr loc e => k = ak arr ∧ (∃ kl, (isInt kl || isUInt kl) = true ∧ WT vk ak loc kl) ∧ WT vk ak e k
  | .ite c a b => WT vk ak c .bool ∧ WTS vk ak a ∧ WTS vk ak b
  | .loop k x s e i b => k = vk x ∧ (isInt k || isUInt k) = true ∧ WT vk ak s k ∧ WT vk ak e k ∧ WT vk ak i k ∧ WTS vk ak b
  | .while c b => WT vk ak c .bool ∧ WTS vk ak b

/-- The variables read in a statement. -/
def Stmt.used : Stmt F → List Nat
  | .skip => []
  | .seq a b => a.used ++ b.used
  | .scope s => s.used
  | .decl _ _ _ e => e.vars
  | .assign _ _ e => e.vars
  | .store _ _ loc e => loc.vars ++ e.vars
  | .ite c a b => c.vars ++ (a.used ++ b.used)
  | .loop _ _ s e i b => s.vars ++ (e.vars ++ (i.vars ++ b.used))
  | .while c b => c.vars ++ b.used

/-- The variables whose value an expression can be after dropping zeros and ones. -/
def Expr.mayCopy : Expr F → List Nat
  | .var _ x => [x]
  | .arith _ a b | .and a b | .or a b => a.mayCopy ++ b.mayCopy
  | _ => []

/-- The pairs (copy, source) a statement adds to those in `C`. -/
def Stmt.copies (C : List (Nat × Nat)) : Stmt F → List (Nat × Nat)
  | .decl _ _ x e => e.mayCopy.flatMap fun v => (x, v) :: (C.filter fun p => p.1 == v).map fun p => (x, p.2)
  | .seq a b => a.copies C ++ b.copies (a.copies C ++ C)
  | _ => []

/-- No stale copies: a loop does not read a variable declared before it as a copy of a variable that the loop
assigns. -/
def NoStale (C : List (Nat × Nat)) : Stmt F → Prop
  | .seq a b => NoStale C a ∧ NoStale (a.copies C ++ C) b
  | .scope s => NoStale C s
  | .ite _ a b => NoStale C a ∧ NoStale C b
  | .loop _ _ _ e i b => (∀ p ∈ C, p.1 ∈ e.vars ++ (i.vars ++ b.used) → p.2 ∉ b.assigned) ∧ NoStale C b
  | .while c b => (∀ p ∈ C, p.1 ∈ c.vars ++ b.used → p.2 ∉ b.assigned) ∧ NoStale C b
  | _ => True

/-- Every declaration of `x` is inside exactly `lv x` loops. -/
def Levels (lv : Nat → Nat) : Nat → Stmt F → Prop
  | n, .decl _ _ x _ => lv x = n
  | n, .seq a b => Levels lv n a ∧ Levels lv n b
  | n, .scope s => Levels lv n s
  | n, .ite _ a b => Levels lv n a ∧ Levels lv n b
  | n, .loop _ _ _ _ _ b => Levels lv (n + 1) b
  | n, .while _ b => Levels lv (n + 1) b
  | _, _ => True

/-- Only assignments and declarations. -/
def Stmt.straight : Stmt F → Prop
  | .skip | .assign .. | .decl .. => True
  | .seq a b => a.straight ∧ b.straight
  | .scope s => s.straight
  | _ => False

/-- Loops that only assign variables: a `for` has step one, every variable is assigned once, has the type of the
loop variable, and is neither the loop variable nor in the bounds, nor is the start a copy of it. -/
def LoopsOK (vk : Nat → Kind) (C : List (Nat × Nat)) : Stmt F → Prop
  | .seq a b => LoopsOK vk C a ∧ LoopsOK vk (a.copies C ++ C) b
  | .scope s => LoopsOK vk C s
  | .ite _ a b => LoopsOK vk C a ∧ LoopsOK vk C b
  | .loop k x s e i b => (b.straight → i = .lit k (.i 1) ∧ b.assigned.Nodup ∧
      ∀ y ∈ b.assigned, vk y = k ∧ y ≠ x ∧ y ∉ s.vars ∧ y ∉ e.vars ∧ ∀ p ∈ C, p.2 = y → p.1 ∉ s.vars) ∧ LoopsOK vk C b
  | .while _ b => (b.straight → b.assigned.Nodup ∧ ∀ y ∈ b.assigned, ∀ z ∈ b.assigned, vk y = vk z) ∧ LoopsOK vk C b
  | _ => True

end Verif.IR
