/-!
Targets as texts: `arch-os` or `arch-os-features`, as the header says.
-/
namespace Verif.Target

inductive Arch
  | c99
  | x86
  deriving DecidableEq

inductive OS
  | unknown
  | linux
  | macos
  | windows
  deriving DecidableEq

/-- The name of an architecture. -/
def Arch.name : Arch → List Char
  | .c99 => ['c', '9', '9']
  | .x86 => ['x', '8', '6']

/-- The name of an operating system. -/
def OS.name : OS → List Char
  | .unknown => ['u', 'n', 'k', 'n', 'o', 'w', 'n']
  | .linux => ['l', 'i', 'n', 'u', 'x']
  | .macos => ['m', 'a', 'c', 'o', 's']
  | .windows => ['w', 'i', 'n', 'd', 'o', 'w', 's']

/-- A text that means a target. -/
inductive Means : List Char → Arch → OS → Prop
  | plain (a : Arch) (o : OS) : Means (a.name ++ '-' :: o.name) a o
  | features (a : Arch) (o : OS) (f : List Char) : Means (a.name ++ '-' :: (o.name ++ '-' :: f)) a o

/-- A word occurs in a text at a position. -/
def OccursAt (w s : List Char) (p : Nat) : Prop := ∃ u v, s = u ++ w ++ v ∧ u.length = p

/-- The first position of a word. -/
def First (w s : List Char) (p : Nat) : Prop := OccursAt w s p ∧ ∀ q, OccursAt w s q → p ≤ q

end Verif.Target
