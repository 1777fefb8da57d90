import Verif.IndexText.Model
/-! What printing, lexing and parsing promise. -/
namespace Verif.IndexText

/-- The text of a token. -/
def Token.text : Token → List Char
  | .ident w | .int w | .float w | .complex w => w
  | .uint w => w ++ ['u']
  | .sym c | .error c => [c]
  | .eot => []

/-- A number system. -/
structure Alg (V : Type) where
  lit : Int → V
  other : List Char → V
  acc : List Char → List (List Char) → V
  neg : V → V
  bin : Op → V → V → V

/-- The value of an expression. -/
def eval {V : Type} (A : Alg V) : X → V
  | .lit n => A.lit n
  | .other w => A.other w
  | .acc n vs => A.acc n vs
  | .neg a => A.neg (eval A a)
  | .bin op a b => A.bin op (eval A a) (eval A b)

/-- The laws of exact arithmetic that regrouping uses. -/
structure Laws {V : Type} (A : Alg V) : Prop where
  neg_lit : ∀ n, A.neg (A.lit n) = A.lit (-n)
  add_add : ∀ a b c, A.bin .add a (A.bin .add b c) = A.bin .add (A.bin .add a b) c
  add_sub : ∀ a b c, A.bin .add a (A.bin .sub b c) = A.bin .sub (A.bin .add a b) c
  mul_mul : ∀ a b c, A.bin .mul a (A.bin .mul b c) = A.bin .mul (A.bin .mul a b) c
  mul_div : ∀ a b c, A.bin .mul a (A.bin .div b c) = A.bin .div (A.bin .mul a b) c

/-- A name that the lexer reads as one identifier. -/
def nameOK (w : List Char) : Prop :=
  (∃ c cs, w = c :: cs ∧ isAlpha c = true ∧ ∀ d ∈ cs, isAlnum d = true) ∧ w ≠ "complex".toList ∧ w ≠ "Complex".toList

def X.isAdd : X → Bool
  | .bin .add _ _ | .bin .sub _ _ => true
  | _ => false

def X.isMul : X → Bool
  | .bin .mul _ _ | .bin .div _ _ => true
  | _ => false

/-- Names are identifiers, literals are 64-bit integers, and no right operand of `-` is a sum or difference and no
right operand of `/` is a product or quotient. -/
def WF : X → Prop
  | .lit n => n.natAbs ≤ 2 ^ 63 - 1
  | .other _ => False
  | .acc n vs => nameOK n ∧ ∀ v ∈ vs, nameOK v
  | .neg a => WF a
  | .bin op a b => WF a ∧ WF b ∧ (op = .sub → b.isAdd = false) ∧ (op = .div → b.isMul = false)

end Verif.IndexText
