import Verif.Target.Spec
/-! Targets: src/target.cpp and include/taco/target.h. `string::npos` is `none`. -/
namespace Verif.Target

/-- How the construction of a target ends: with a target, with fields that were not set, with an error message, with `std::out_of_range`, or not. -/
inductive Built
  | ok (a : Arch) (o : OS)
  | unset
  | rejected
  | outOfRange
  | endless
  deriving DecidableEq

/-- `string::find` of a character. -/
def findChar (c : Char) : List Char → Option Nat
  | [] => none
  | d :: s => if d = c then some 0 else (findChar c s).map (· + 1)

/-- `string::substr(n)`: throws behind the end. -/
def substr (s : List Char) (n : Nat) : Option (List Char) := if n ≤ s.length then some (s.drop n) else none

/-- The result of the loop. -/
inductive Cut
  | tokens (l : List (List Char))
  | outOfRange
  | endless
  deriving DecidableEq

/-- The loop of target.cpp 25-28, for at most `n` rounds: the position of the hyphen is not computed again. -/
def cut (pos : Option Nat) : Nat → List Char → List (List Char) → Cut
  | 0, _, _ => .endless
  | n + 1, rest, tokens =>
    match pos with
    | none => .tokens tokens
    | some p =>
      match substr rest (p + 1) with
      | some rest' => cut pos n rest' (tokens ++ [rest.take p])
      | none => .outOfRange

/-- `archMap`, target.cpp 12-13. -/
def archMap (t : List Char) : Option Arch := if t = Arch.c99.name then some .c99 else if t = Arch.x86.name then some .x86 else none

/-- `osMap`, target.cpp 15-18. -/
def osMap (t : List Char) : Option OS :=
  if t = OS.unknown.name then some .unknown else if t = OS.linux.name then some .linux else if t = OS.macos.name then some .macos
  else if t = OS.windows.name then some .windows else none

/-- The rest of `parseTargetString`, target.cpp 31-46; the constructor does not look at its result (target.cpp 51-53). -/
def fromTokens : List (List Char) → Built
  | a :: o :: _ =>
    match archMap a, osMap o with
    | some a, some o => .ok a o
    | _, _ => .unset
  | _ => .rejected

/-- `Target(s)`, target.cpp 20-53, with at most `n` rounds of the loop. -/
def construct (n : Nat) (s : List Char) : Built :=
  match cut (findChar '-' s) n s [] with
  | .tokens l => fromTokens l
  | .outOfRange => .outOfRange
  | .endless => .endless

/-- `string::find` of a word in a text that begins at position `i`. -/
def findFrom (w : List Char) : List Char → Nat → Option Nat
  | [], i => if w.isPrefixOf [] then some i else none
  | c :: s, i => if w.isPrefixOf (c :: s) then some i else findFrom w s (i + 1)

/-- `s.find(w, i)`. -/
def find (w s : List Char) (i : Nat) : Option Nat := if i ≤ s.length then findFrom w (s.drop i) i else none

/-- The loops of `validateTargetString`, target.cpp 62-66 and 69-73: the last word that occurs gives the position. -/
def locate (s : List Char) (i : Nat) : List (List Char) → Option Nat → Option Nat
  | [], r => r
  | w :: ws, r =>
    match find w s i with
    | some p => locate s i ws (some p)
    | none => locate s i ws r

/-- The position after another one; the one after `npos` is 0. -/
def after : Option Nat → Nat
  | some p => p + 1
  | none => 0

/-- `validateTargetString`, target.cpp 57-76; maps are in the order of their keys. -/
def validate (s : List Char) : Bool :=
  let archEnd := locate s 0 [Arch.c99.name, Arch.x86.name] none
  let osEnd := locate s (after archEnd) [OS.linux.name, OS.macos.name, OS.unknown.name, OS.windows.name] none
  archEnd.isSome && osEnd.isSome

/-- `Target(a, o)`, target.h 30-33. -/
def make (a : Arch) (o : OS) : Built := if a = .c99 ∧ o ≠ .windows ∧ o ≠ .unknown then .ok a o else .rejected

/-- `getTargetFromEnvironment`, target.cpp 78-80: the environment is not read. -/
def fromEnvironment (_env : List Char → Option (List Char)) : Built := make .c99 .macos

end Verif.Target
