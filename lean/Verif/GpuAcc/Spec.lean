import Mathlib.Algebra.BigOperators.Group.List.Basic
/-!
What a thread of a GPU kernel adds to memory, one thread at a time.  Nothing here knows about warps.
-/
namespace Verif.GpuAcc

/-- Additions to memory: address and value. -/
abbrev Log (V : Type) := List (Nat × V)

/-- The control flow of a kernel around the atomic additions of a thread.  Addresses, values, conditions
and numbers of iterations depend on the number of the thread (`Nat`) and on the iterations of the loops
around (`List Nat`).  `exit`: the thread returns if the condition holds.  A loop is a `for` loop
(`true`) or a `while` loop.  An addition can be marked as shared by a warp (`true`). -/
inductive Prog (V : Type)
  | skip
  | add (shared : Bool) (addr : Nat → List Nat → Nat) (val : Nat → List Nat → V)
  | exit (c : Nat → List Nat → Bool)
  | seq (p q : Prog V)
  | ite (c : Nat → List Nat → Bool) (p : Prog V)
  | loop (counted : Bool) (n : Nat → List Nat → Nat) (p : Prog V)

/-- Run `f` for the iterations of a loop until the thread has returned. -/
def iterate {V : Type} (f : Nat → Bool × Log V) : List Nat → Bool × Log V
  | [] => (false, [])
  | k :: ks => if (f k).1 then f k else ((iterate f ks).1, (f k).2 ++ (iterate f ks).2)

/-- Has the thread returned, and what has it added. -/
def runThread {V : Type} (t : Nat) : Prog V → List Nat → Bool × Log V
  | .skip, _ => (false, [])
  | .add _ addr val, its => (false, [(addr t its, val t its)])
  | .exit c, its => (c t its, [])
  | .seq p q, its =>
    if (runThread t p its).1 then runThread t p its
    else ((runThread t q its).1, (runThread t p its).2 ++ (runThread t q its).2)
  | .ite c p, its => if c t its then runThread t p its else (false, [])
  | .loop _ n p, its => iterate (fun k => runThread t p (k :: its)) (List.range (n t its))

/-- The sum of what is added at an address. -/
def sumAt {V : Type} [AddCommMonoid V] (k : Nat) (l : Log V) : V := ((l.filter (fun x => x.1 = k)).map (fun x => x.2)).sum

end Verif.GpuAcc
