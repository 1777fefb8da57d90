import Verif.Schedule.Model
/-! What parsing a schedule promises. -/
namespace Verif.Schedule
open Verif.IndexText

/-- `x1,x2,...` -/
def commas : List (List Char) → List Char
  | [] => []
  | [x] => x
  | x :: xs => x ++ ',' :: commas xs

/-- The text of a directive: its name, followed by its arguments in parentheses if there are any. -/
def itemText : List (List Char) → List Char
  | [] => []
  | [name] => name
  | name :: args => name ++ '(' :: commas args ++ [')']

/-- The text of a schedule. -/
def scheduleText (items : List (List (List Char))) : List Char := commas (items.map itemText)

/-- Parentheses and braces match, and every comma is inside some of them; `p`, `c`: how many are open. -/
def Balanced : Nat → Nat → List Char → Prop
  | p, c, [] => p = 0 ∧ c = 0
  | p, c, '(' :: cs => Balanced (p + 1) c cs
  | p, c, ')' :: cs => 0 < p ∧ Balanced (p - 1) c cs
  | p, c, '{' :: cs => Balanced p (c + 1) cs
  | p, c, '}' :: cs => 0 < c ∧ Balanced p (c - 1) cs
  | p, c, ',' :: cs => (0 < p ∨ 0 < c) ∧ Balanced p c cs
  | p, c, _ :: cs => Balanced p c cs

/-- Braces match; `c`: how many are open. -/
def Braces : Nat → List Char → Prop
  | c, [] => c = 0
  | c, x :: xs => if x = '{' then Braces (c + 1) xs else if x = '}' then 0 < c ∧ Braces (c - 1) xs else Braces c xs

/-- Without parentheses, braces and commas. -/
def Plain (w : List Char) : Prop := ∀ c ∈ w, c ∉ ['(', ')', '{', '}', ',']

/-- A directive: a name and arguments, none of them empty. -/
def ItemOK : List (List Char) → Prop
  | [] => False
  | name :: args => name ≠ [] ∧ Plain name ∧ ∀ a ∈ args, a ≠ [] ∧ Balanced 0 0 a

/-- Texts that the lexer reads without loss: letters, digits, white space and the characters with a token of their
own; no `u` directly after a digit; not the word `complex`. -/
def TextOK (s : List Char) : Prop :=
  (∀ c ∈ s, isSpace c = true ∨ isAlnum c = true ∨ c ∈ symbols) ∧ (∀ d, isDigit d = true → ¬ [d, 'u'] <:+: s) ∧
    ¬ "complex".toList <:+: s ∧ ¬ "Complex".toList <:+: s

end Verif.Schedule
