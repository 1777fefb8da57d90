import Verif.Foreign.Model
/-!
What a tensor file says, whichever program wrote it.

`.tns`: a line for every component: its coordinates, counted from one, and its value, separated by white space.
`.mtx`: a header, comments, a line with the dimensions and the number of entries, and a line for every entry.
-/
namespace Verif.Foreign
open Verif.FileIO
variable {V : Type}

/-- White space only. -/
def Blank (b : List Char) : Prop := ∀ c ∈ b, isSpace c = true

/-- Nothing, or something that starts with white space. -/
def Ends (t : List Char) : Prop := ∀ c ∈ t.head?, isSpace c = true

/-- A decimal number: digits, perhaps with leading zeros and a plus sign. -/
def Numeral (w : List Char) (n : Nat) : Prop :=
  ∃ sign ds, w = sign ++ ds ∧ (sign = [] ∨ sign = ['+']) ∧ ds ≠ [] ∧ (∀ c ∈ ds, isDigit c = true) ∧ decVal ds = n

/-- A word that is read as the value `v`, whatever comes after it and a blank. -/
def Value (N : Num V) (w : List Char) (v : V) : Prop :=
  w ≠ [] ∧ (∀ c ∈ w, isSpace c = false) ∧ ∀ t, Ends t → N.read (w ++ t) = v

/-- The line of a component: numbers one larger than its coordinates, its value, and a rest that `tail` allows, with
white space of kind `sp` before every word. -/
inductive Entry (N : Num V) (sp : Char → Prop) (tail : List Char → Prop) : List Nat → V → List Char → Prop where
  | value {b w t : List Char} {v : V} : (∀ c ∈ b, sp c) → Value N w v → tail t → Entry N sp tail [] v (b ++ (w ++ t))
  | coord {b w l : List Char} {k : Nat} {ks : List Nat} {v : V} : (∀ c ∈ b, sp c) → Numeral w (k + 1) → Ends l → l ≠ [] →
      Entry N sp tail ks v l → Entry N sp tail (k :: ks) v (b ++ (w ++ l))

/-- The first line of a `.tns` file, from which the order is found: blanks separate the words; nothing but blanks, or a
carriage return, ends it. -/
def FirstLine (N : Num V) (c : List Nat × V) (l : List Char) : Prop :=
  Entry N (· = ' ') (fun t => (∀ c ∈ t, c = ' ') ∨ t = ['\r']) c.1 c.2 l

/-- Any other line with a component: any white space, and any rest. -/
def Line (N : Num V) (c : List Nat × V) (l : List Char) : Prop := Entry N (fun c => isSpace c = true) Ends c.1 c.2 l

/-- The text of some lines; the last one may lack its newline. -/
inductive Text : List (List Char) → List Char → Prop where
  | nil : Text [] []
  | last {l : List Char} : '\n' ∉ l → l ≠ [] → Text [l] l
  | line {l s : List Char} {ls : List (List Char)} : '\n' ∉ l → Text ls s → Text (l :: ls) (l ++ '\n' :: s)

/-- Corresponding elements of two lists are related. -/
def Each {α β : Type} (R : α → β → Prop) : List α → List β → Prop
  | [], [] => True
  | a :: as, b :: bs => R a b ∧ Each R as bs
  | _, _ => False

/-- Words with white space before and between them, and after them. -/
inductive Words : List (List Char) → List Char → Prop where
  | nil {b : List Char} : Blank b → Words [] b
  | cons {b w l : List Char} {ws : List (List Char)} : Blank b → w ≠ [] → (∀ c ∈ w, isSpace c = false) → Ends l → Words ws l →
      Words (w :: ws) (b ++ (w ++ l))

/-- A comment: a line whose first character that is not white space is `%`. -/
def Comment (l : List Char) : Prop := ∃ b t, Blank b ∧ l = b ++ '%' :: t

/-- The components a symmetric file stands for: those off the diagonal a second time, mirrored. -/
def mirrored (symm : Bool) (comps : List (List Nat × V)) : List (List Nat × V) :=
  comps.flatMap fun c => match symm, c.1 with
    | true, [i, j] => if i = j then [c] else [c, ([j, i], c.2)]
    | _, _ => [c]

/-- Where the columns of a matrix start in its arrays, and where the last one ends; `a` is where the first starts. -/
def starts {α : Type} : Nat → List (List α) → List Nat
  | a, [] => [a]
  | a, c :: cs => a :: starts (a + c.length) cs

/-- The components of a matrix given by its columns, each a list of rows and values; `j` is the number of the first. -/
def columns : Nat → List (List (Nat × V)) → List (List Nat × V)
  | _, [] => []
  | j, c :: cs => (c.map fun x => ([x.1, j], x.2)) ++ columns (j + 1) cs

end Verif.Foreign
