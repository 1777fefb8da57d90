/-!
# What an einsum string means

Independent of the parser.  An einsum string is a comma separated list of subscripts, one for each operand,
optionally followed by an arrow and the subscript of the result.  A subscript is a sequence of letters with at
most one ellipsis in it.  The dimensions of an operand are labelled by the letters in front of the ellipsis,
the letters behind it, and — for the dimensions the ellipsis stands for — by their distance from the
right end of the ellipsis, so that the ellipses of several operands are aligned on the right.  Without an
arrow the result has the broadcast dimensions followed by the letters that appear exactly once, in
alphabetical order (upper case first).  The value of the result sums the product of the operands over all
labels that are not labels of the result.
-/

namespace Verif.Einsum

/-- A subscript: letters, perhaps an ellipsis, letters. -/
structure Sub where
  before : List Char
  ell : Bool
  after : List Char
  deriving Repr, DecidableEq

/-- An einsum expression: the subscripts of the operands and perhaps that of the result. -/
structure Ein where
  inputs : List Sub
  output : Option Sub
  deriving Repr, DecidableEq

def Sub.letters (s : Sub) : List Char := s.before ++ s.after

def Sub.text (s : Sub) : List Char :=
  s.before ++ ((if s.ell then ['.', '.', '.'] else []) ++ s.after)

def Ein.text (e : Ein) : List Char :=
  List.intercalate [','] (e.inputs.map Sub.text) ++
    match e.output with
    | none => []
    | some o => '-' :: '>' :: o.text

/-- All the letters of the operands, with repetitions. -/
def Ein.letters (e : Ein) : List Char := (e.inputs.map Sub.letters).flatten

/-- What names a dimension: a letter, or a dimension of the ellipsis counted from its right end. -/
inductive Label where
  | letter (c : Char)
  | bcast (k : Nat)
  deriving Repr, DecidableEq

/-- The labels of `n` broadcast dimensions, leftmost first. -/
def bcasts : Nat → List Label
  | 0 => []
  | n + 1 => .bcast n :: bcasts n

/-- The labels of a subscript whose ellipsis stands for `n` dimensions. -/
def Sub.labels (s : Sub) (n : Nat) : List Label :=
  s.before.map .letter ++ ((if s.ell then bcasts n else []) ++ s.after.map .letter)

/-- The number of dimensions the ellipsis of a subscript stands for, for an operand of some order. -/
def Sub.width (s : Sub) (order : Nat) : Nat := if s.ell then order - s.letters.length else 0

/-- A subscript fits an operand: every dimension has a letter, or an ellipsis takes what is left. -/
def Sub.Fits (s : Sub) (order : Nat) : Prop :=
  if s.ell then s.letters.length ≤ order else s.letters.length = order

/-- The number of broadcast dimensions of the expression: the most any operand has. -/
def width : List Sub → List Nat → Nat
  | s :: ss, r :: rs => max (s.width r) (width ss rs)
  | _, _ => 0

/-- The labels of the operands. -/
def inputLabels : List Sub → List Nat → List (List Label)
  | s :: ss, r :: rs => s.labels (s.width r) :: inputLabels ss rs
  | _, _ => []

/-- The letters in alphabetical order, upper case first. -/
def alphabet : List Char := "ABCDEFGHIJKLMNOPQRSTUVWXYZabcdefghijklmnopqrstuvwxyz".toList

/-- The labels of the result. -/
def Ein.outputLabels (e : Ein) (orders : List Nat) : List Label :=
  match e.output with
  | some o => o.labels (width e.inputs orders)
  | none =>
    bcasts (width e.inputs orders) ++ (alphabet.filter (fun c => e.letters.count c == 1)).map .letter

/-- A well-formed expression for operands of some orders. -/
structure Ein.WF (e : Ein) (orders : List Nat) : Prop where
  /-- subscripts consist of letters -/
  lettersIn : ∀ s ∈ e.inputs, ∀ c ∈ s.letters, c ∈ alphabet
  lettersOut : ∀ o, e.output = some o → ∀ c ∈ o.letters, c ∈ alphabet
  /-- there is an operand, and a subscript for each -/
  nonempty : e.inputs ≠ []
  count : e.inputs.length = orders.length
  /-- each subscript fits its operand -/
  fits : ∀ p ∈ e.inputs.zip orders, p.1.Fits p.2
  /-- letters of the result appear in some operand -/
  known : ∀ o, e.output = some o → ∀ c ∈ o.letters, c ∈ e.letters

/-- The distinct elements of a list. -/
def distinct {α : Type} [DecidableEq α] : List α → List α
  | [] => []
  | a :: l => if a ∈ l then distinct l else a :: distinct l

/-! ## The value of a contraction -/

/-- The extent of a label: the dimension at its first occurrence. -/
def extent {α : Type} [DecidableEq α] : List (α × Nat) → α → Nat
  | [], _ => 0
  | (b, n) :: rest, a => if b = a then n else extent rest a

/-- The labels of the operands paired with the dimensions. -/
def labelled {α : Type} (ins : List (List α)) (dims : List (List Nat)) : List (α × Nat) :=
  (List.zipWith List.zip ins dims).flatten

/-- `f 0 + ... + f (n - 1)`. -/
def total (f : Nat → Int) : Nat → Int
  | 0 => 0
  | n + 1 => total f n + f n

/-- An assignment of coordinates to labels, changed at one label. -/
def assign {α : Type} [DecidableEq α] (env : α → Nat) (a : α) (v : Nat) : α → Nat :=
  fun b => if b = a then v else env b

/-- The sum of `f` over all coordinates of the labels in the list. -/
def sumOver {α : Type} [DecidableEq α] (ext : α → Nat) : List α → (α → Nat) → ((α → Nat) → Int) → Int
  | [], env, f => f env
  | a :: as, env, f => total (fun v => sumOver ext as (assign env a v) f) (ext a)

/-- The coordinates of the result given to its labels. -/
def bindAll {α : Type} [DecidableEq α] : List α → List Nat → α → Nat
  | a :: as, x :: xs => assign (bindAll as xs) a x
  | _, _ => fun _ => 0

/-- The product of the operands at the coordinates of their labels. -/
def product {α : Type} (env : α → Nat) : List (List α) → List (List Nat → Int) → Int
  | ls :: lss, t :: ts => t (ls.map env) * product env lss ts
  | _, _ => 1

/-- The value of the result at the coordinates `x`. -/
def contract {α : Type} [DecidableEq α] (ins : List (List α)) (dims : List (List Nat)) (out : List α)
    (tensors : List (List Nat → Int)) (x : List Nat) : Int :=
  sumOver (extent (labelled ins dims)) ((distinct ins.flatten).filter (fun a => !decide (a ∈ out)))
    (bindAll out x) (fun env => product env ins tensors)

end Verif.Einsum
