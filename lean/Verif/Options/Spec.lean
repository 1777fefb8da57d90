import Verif.Decimal
/-!
What the help of the command line tool says about its options: how options for tensors are written and what they mean.
-/
namespace Verif.Options

abbrev Text := List Char

inductive Kind | dense | compressed | singleton
  deriving DecidableEq

/-- The format of a mode. -/
structure Level where
  kind : Kind
  unique : Bool
  zeroless : Bool
  padded : Bool
  deriving DecidableEq

/-- The letters of the help: "d (dense), s (sparse), u (sparse, not unique), q (singleton), c (singleton, not unique), or p
(singleton, padded)". Dense modes are always padded: they store every coordinate. -/
inductive Letter : Char → Level → Prop
  | d : Letter 'd' ⟨.dense, true, false, true⟩
  | s : Letter 's' ⟨.compressed, true, false, false⟩
  | u : Letter 'u' ⟨.compressed, false, false, false⟩
  | q : Letter 'q' ⟨.singleton, true, false, false⟩
  | c : Letter 'c' ⟨.singleton, false, false, false⟩
  | p : Letter 'p' ⟨.singleton, true, false, true⟩

/-- Letters for the modes of a tensor. -/
inductive Letters : Text → List Level → Prop
  | nil : Letters [] []
  | cons {c : Char} {l : Level} {cs : Text} {ls : List Level} : Letter c l → Letters cs ls → Letters (c :: cs) (l :: ls)

/-- Types of components, with their numbers of bits. -/
inductive DType | bool | uint (bits : Nat) | int (bits : Nat) | float (bits : Nat) | complex (bits : Nat)
  deriving DecidableEq

/-- The types of the help: those with a number of bits, and those of C on a machine with 64 bits. -/
inductive TypeName : String → DType → Prop
  | bool : TypeName "bool" .bool
  | uint8 : TypeName "uint8" (.uint 8)
  | uint16 : TypeName "uint16" (.uint 16)
  | uint32 : TypeName "uint32" (.uint 32)
  | uint64 : TypeName "uint64" (.uint 64)
  | uchar : TypeName "uchar" (.uint 8)
  | ushort : TypeName "ushort" (.uint 16)
  | uint : TypeName "uint" (.uint 32)
  | ulong : TypeName "ulong" (.uint 64)
  | ulonglong : TypeName "ulonglong" (.uint 64)
  | int8 : TypeName "int8" (.int 8)
  | int16 : TypeName "int16" (.int 16)
  | int32 : TypeName "int32" (.int 32)
  | int64 : TypeName "int64" (.int 64)
  | char : TypeName "char" (.int 8)
  | short : TypeName "short" (.int 16)
  | int : TypeName "int" (.int 32)
  | long : TypeName "long" (.int 64)
  | longlong : TypeName "longlong" (.int 64)
  | float : TypeName "float" (.float 32)
  | double : TypeName "double" (.float 64)
  | complexfloat : TypeName "complexfloat" (.complex 64)
  | complexdouble : TypeName "complexdouble" (.complex 128)

/-- Ways to fill a tensor. -/
inductive Fill | dense | uniform | random | sparse | hyperSparse | slicingV | slicingH | fem | blocked
  deriving DecidableEq

/-- The letters of the help: "d (dense sequence), r (dense random), s (sparse) or h (hypersparse) ... l (slicing), f (FEM), b
(Blocked)". -/
inductive FillLetter : Char → Fill → Prop
  | d : FillLetter 'd' .dense
  | r : FillLetter 'r' .random
  | s : FillLetter 's' .sparse
  | h : FillLetter 'h' .hyperSparse
  | l : FillLetter 'l' .slicingH
  | f : FillLetter 'f' .fem
  | b : FillLetter 'b' .blocked

/-- An option, or the expression. -/
inductive Opt
  | format (tensor : Text) (levels : List Level) (ordering : List Nat)
  | type (tensor : Text) (type : DType)
  | dims (name : Text) (sizes : List Nat)
  | fill (tensor : Text) (how : Fill)
  | input (tensor file : Text)
  | output (tensor file : Text)
  | flag (name : String)
  | expr (text : Text)

/-- Options that are switched on. -/
def flagNames : List String := ["c", "print-compute", "print-assembly", "print-evaluate", "print-concrete", "print-iteration-graph", "print-nocolor",
  "verify", "cuda", "print-kernels"]

/-- Words with commas between them. -/
def commas : List Text → Text
  | [] => []
  | [w] => w
  | w :: v :: ws => w ++ ',' :: commas (v :: ws)

/-- A name or a file name without the characters that separate parts of options. -/
def Plain (t : Text) : Prop := t ≠ [] ∧ ':' ∉ t ∧ '=' ∉ t

/-- How an option is written after the hyphen. -/
inductive Spells : Opt → Text → Prop
  | format {t cs : Text} {ls : List Level} : Plain t → ls ≠ [] → Letters cs ls →
      Spells (.format t ls (List.range ls.length)) ("f=".toList ++ t ++ ':' :: cs)
  | ordered {t cs : Text} {ls : List Level} {ord : List Nat} : Plain t → ls ≠ [] → Letters cs ls → ord.Perm (List.range ls.length) → ls.length < 2 ^ 31 →
      Spells (.format t ls ord) ("f=".toList ++ t ++ ':' :: cs ++ ':' :: commas (ord.map dec))
  | type {t : Text} {n : String} {ty : DType} : Plain t → TypeName n ty → Spells (.type t ty) ("t=".toList ++ t ++ ':' :: n.toList)
  | dims {t : Text} {ds : List Nat} : Plain t → ds ≠ [] → (∀ d ∈ ds, d < 2 ^ 31) → Spells (.dims t ds) ("d=".toList ++ t ++ ':' :: commas (ds.map dec))
  | fill {t : Text} {c : Char} {f : Fill} : Plain t → FillLetter c f → Spells (.fill t f) ("g=".toList ++ t ++ [':', c])
  | input {t f : Text} : Plain t → Plain f → Spells (.input t f) ("i=".toList ++ t ++ ':' :: f)
  | output {t f : Text} : Plain t → Plain f → Spells (.output t f) ("o=".toList ++ t ++ ':' :: f)
  | flag {n : String} : n ∈ flagNames → Spells (.flag n) n.toList

/-- How an option is written: with one hyphen or two. The expression has one equality sign and does not begin with a
hyphen. -/
inductive Written : Opt → Text → Prop
  | one {o : Opt} {t : Text} : Spells o t → Written o ('-' :: t)
  | two {o : Opt} {t : Text} : Spells o t → Written o ('-' :: '-' :: t)
  | expr {c : Char} {l r : Text} : c ≠ '-' → '=' ∉ c :: l → '=' ∉ r → Written (.expr (c :: l ++ '=' :: r)) (c :: l ++ '=' :: r)

/-- Options as they are written. -/
inductive AllWritten : List Opt → List Text → Prop
  | nil : AllWritten [] []
  | cons {o : Opt} {t : Text} {os : List Opt} {ts : List Text} : Written o t → AllWritten os ts → AllWritten (o :: os) (t :: ts)

/-- The first option of a kind for a name. -/
def first {α : Type} (pick : Opt → Option (Text × α)) (os : List Opt) (name : Text) : Option α :=
  match os with
  | [] => none
  | o :: os =>
    match pick o with
    | some (n, a) => if n = name then some a else first pick os name
    | none => first pick os name

def pickFormat : Opt → Option (Text × List Level × List Nat)
  | .format t ls ord => some (t, ls, ord)
  | _ => none
def pickType : Opt → Option (Text × DType)
  | .type t ty => some (t, ty)
  | _ => none
def pickDims : Opt → Option (Text × List Nat)
  | .dims t ds => some (t, ds)
  | _ => none
def pickFill : Opt → Option (Text × Fill)
  | .fill t f => some (t, f)
  | _ => none
def pickInput : Opt → Option (Text × Text)
  | .input t f => some (t, f)
  | _ => none
def pickOutput : Opt → Option (Text × Text)
  | .output t f => some (t, f)
  | _ => none
def pickFlag : Opt → Option String
  | .flag n => some n
  | _ => none
def pickExpr : Opt → Option Text
  | .expr e => some e
  | _ => none

end Verif.Options
