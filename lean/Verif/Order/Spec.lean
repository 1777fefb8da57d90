import Verif.Order.Model
/-!
What is expected of a comparison operator whose objects are keys of maps and sets.
-/
namespace Verif.Order.Spec

/-- The requirement of the C++ standard on the comparison of a `std::map`, for the keys with property `S`,
together with what the compiler relies on: keys of which none is smaller than the other are the same. -/
structure TotalOrder {α : Type} (S : α → Prop) (lt : α → α → Bool) : Prop where
  irrefl : ∀ a, S a → lt a a = false
  trans : ∀ a b c, S a → S b → S c → lt a b = true → lt b c = true → lt a c = true
  same : ∀ a b, S a → S b → lt a b = false → lt b a = false → a = b

/-- The map that results from insertions, the last first: after each insertion the tree may have been
re-balanced, that is, replaced by any tree with the same entries in the same order. -/
inductive Inserted {κ ν : Type} (lt : κ → κ → Bool) : List (κ × ν) → Tree κ ν → Prop
  | empty : Inserted lt [] .leaf
  | insert {log t k v} (t' : Tree κ ν) : Inserted lt log t →
      t'.entries = (Tree.insert lt k v t).entries → Inserted lt ((k, v) :: log) t'

/-- The value of a key in a map: the one inserted first (`insert` keeps existing entries).  The log has the
last insertion first. -/
def firstInserted {κ ν : Type} [DecidableEq κ] (log : List (κ × ν)) (k : κ) : Option ν :=
  (log.reverse.find? fun e => decide (e.1 = k)).map (·.2)

/-- Two accesses of the same tensor at the same index variables whose windows and index sets are ordered in
opposite ways. -/
def Opposed (a b : Access) : Prop :=
  a.tensor = b.tensor ∧ a.vars = b.vars ∧
    lexLess (pairLess windowLess) a.windows b.windows = true ∧
    lexLess (pairLess indexSetLess) b.sets a.sets = true

/-- Two index sets whose lists are ordered one way and whose tensors are at addresses in the other way. -/
def SetsOpposed (a b : IndexSet) : Prop :=
  lexLess intLess a.set b.set = true ∧ b.tensor < a.tensor

end Verif.Order.Spec
