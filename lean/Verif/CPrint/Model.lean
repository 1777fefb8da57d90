/-!
`IRPrinter` on expressions and assignments (src/ir/ir_printer.cpp, include/taco/ir/ir_printer.h) as used by
`CodeGen_C` (src/codegen/codegen_c.cpp).

Simplifications
* No colours. Names are those in `varMap`/`varNames`; a `GetProperty` is a name (codegen_c.cpp 497-501).
* The text of the absolute value of a number is given (`Literal` does not say how digits are chosen): digits for
  integers, `util::toString` for floating point. The value of a floating-point text is not modelled.
* `Min`/`Max` with more than two operands are printed as nested calls with two (codegen_c.cpp 503-534) and with one
  operand as that operand, so two operands are enough here.
* Not modelled: `Sizeof`, `BinOp` (never built by the lowerer).
-/
namespace Verif.CPrint

/-- Binary operators, ir.h. -/
inductive BOp | add | sub | mul | div | rem | band | bor | eq | neq | gt | lt | gte | lte | land | lor
  deriving DecidableEq

/-- `Precedence`, ir_printer.h 80-102, for binary operators. -/
def BOp.prec : BOp → Nat
  | .mul | .div | .rem => 5
  | .add | .sub => 6
  | .gt | .lt | .gte | .lte => 9
  | .eq | .neq => 10
  | .band | .bor => 11
  | .land => 14
  | .lor => 15

/-- The operator strings, ir_printer.cpp 149-226. -/
def BOp.text : BOp → List Char
  | .add => ['+'] | .sub => ['-'] | .mul => ['*'] | .div => ['/'] | .rem => ['%']
  | .band => ['&'] | .bor => ['|'] | .eq => ['=', '='] | .neq => ['!', '=']
  | .gt => ['>'] | .lt => ['<'] | .gte => ['>', '='] | .lte => ['<', '=']
  | .land => ['&', '&'] | .lor => ['|', '|']

inductive Sort' | expr | args

/-- IR expressions (ir.h) and argument lists. -/
inductive E : Sort' → Type
  /-- `Literal` with its sign and the text of its absolute value. -/
  | lit (neg : Bool) (text : List Char) : E .expr
  /-- `Literal` of a complex type: real and imaginary part. -/
  | cplx (reNeg : Bool) (re : List Char) (imNeg : Bool) (im : List Char) : E .expr
  | var (name : List Char) : E .expr
  /-- `Neg`; `isBool` when its type is `Bool`. -/
  | neg (isBool : Bool) (a : E .expr) : E .expr
  | bin (op : BOp) (a b : E .expr) : E .expr
  /-- `Cast` to a type whose name has these words, e.g. `int32_t`, `double complex`. -/
  | cast (type : List (List Char)) (a : E .expr) : E .expr
  | call (f : List Char) (args : E .args) : E .expr
  | sqrt (a : E .expr) : E .expr
  /-- `Min`/`Max` of two operands: `TACO_MIN`, `TACO_MAX` or `fmin`. -/
  | minmax (f : List Char) (a b : E .expr) : E .expr
  | load (arr : List Char) (loc : E .expr) : E .expr
  | malloc (size : E .expr) : E .expr
  | nil : E .args
  | cons (a : E .expr) (rest : E .args) : E .args

/-- What is written to the stream: a name or number, an operator or punctuation, or a space. -/
inductive Piece
  | word (w : List Char)
  | sym (s : List Char)
  | sp
  deriving DecidableEq

def Piece.text : Piece → List Char
  | .word w => w
  | .sym s => s
  | .sp => [' ']

/-- The text of a stream of pieces. -/
def render (ps : List Piece) : List Char := ps.flatMap Piece.text

/-- `needsParentheses`, ir_printer.cpp 673-679. -/
def needsParens (prec parent : Nat) : Bool := decide (prec ≥ parent) || (prec == 14 && parent == 15)

/-- A number with its sign. -/
def signed (neg : Bool) (text : List Char) : List Piece := if neg then [.sym ['-'], .word text] else [.word text]

/-- The words of a type name. -/
def typeWords : List (List Char) → List Piece
  | [] => []
  | [w] => [.word w]
  | w :: ws => .word w :: .sp :: typeWords ws

/-- `IRPrinter::visit` on expressions: the text and the value of `parentPrecedence` afterwards. Arguments after the
first are preceded by `sep`.
`Literal` 61-124, `Var` 126-133, `Neg` 135-143, `Sqrt` 145-149, binary 151-226 with `printBinOp` 658-671, `Cast`
236-240, `Call` 242-247, `Load` 355-362, `Malloc` 364-369; `Min`, `Max` codegen_c.cpp 503-534. -/
def pr : {s : Sort'} → E s → Nat → List Piece × Nat
  | _, .lit n t, p => (signed n t, p)
  | _, .cplx rn r im i, p =>
    (signed rn r ++ [.sp, .sym ['+'], .sp, .word ['I'], .sym ['*']] ++ signed im i, p)
  | _, .var x, p => ([.word x], p)
  | _, .neg b a, _ => (.sym (if b then ['!'] else ['-']) :: (pr a 3).1, (pr a 3).2)
  | _, .bin op a b, p =>
    let body := (pr a op.prec).1 ++ [.sp, .sym op.text, .sp] ++ (pr b op.prec).1
    (if needsParens op.prec p then [.sym ['(']] ++ body ++ [.sym [')']] else body, (pr b op.prec).2)
  | _, .cast ty a, _ => ([.sym ['(']] ++ typeWords ty ++ [.sym [')']] ++ (pr a 3).1, (pr a 3).2)
  | _, .call f as, _ => ([.word f, .sym ['(']] ++ (pr as 2).1 ++ [.sym [')']], (pr as 2).2)
  | _, .sqrt a, p => ([.word ['s', 'q', 'r', 't'], .sym ['(']] ++ (pr a p).1 ++ [.sym [')']], (pr a p).2)
  | _, .minmax f a b, p =>
    ([.word f, .sym ['(']] ++ (pr a p).1 ++ [.sym [',']] ++ (pr b (pr a p).2).1 ++ [.sym [')']], (pr b (pr a p).2).2)
  | _, .load x a, _ => ([.word x, .sym ['[']] ++ (pr a 2).1 ++ [.sym [']']], (pr a 2).2)
  | _, .malloc a, _ => ([.word ['m', 'a', 'l', 'l', 'o', 'c'], .sym ['(']] ++ (pr a 20).1 ++ [.sym [')']], (pr a 20).2)
  | _, .nil, p => ([], p)
  | _, .cons a .nil, p => pr a p
  | _, .cons a (.cons b as), p =>
    ((pr a p).1 ++ [.sym [','], .sp] ++ (pr (.cons b as) (pr a p).2).1, (pr (.cons b as) (pr a p).2).2)

/-- `Expr == Expr` is pointer equality; here the operand is the variable itself. -/
def isVar (x : List Char) : E .expr → Bool
  | .var y => x == y
  | _ => false

/-- The integer literal one (`equalsScalar(1)` on an integer type). -/
def isLitOne : E .expr → Bool
  | .lit false ['1'] => true
  | _ => false

/-- `visit(const Assign*)`, ir_printer.cpp 477-522 (with `simplify`, as `CodeGen_C` prints), for a variable on the left,
without indentation and newline. -/
def prAssign (x : List Char) : E .expr → List Piece
  | .bin .add a b =>
    if isVar x a then
      if isLitOne b then [.word x, .sym ['+', '+'], .sym [';']]
      else [.word x, .sp, .sym ['+', '='], .sp] ++ (pr b 20).1 ++ [.sym [';']]
    else [.word x, .sp, .sym ['='], .sp] ++ (pr (.bin .add a b) 20).1 ++ [.sym [';']]
  | .bin .mul a b =>
    if isVar x a then [.word x, .sp, .sym ['*', '='], .sp] ++ (pr b 20).1 ++ [.sym [';']]
    else [.word x, .sp, .sym ['='], .sp] ++ (pr (.bin .mul a b) 20).1 ++ [.sym [';']]
  | .bin .bor a b =>
    if isVar x a then [.word x, .sp, .sym ['|', '='], .sp] ++ (pr b 20).1 ++ [.sym [';']]
    else [.word x, .sp, .sym ['='], .sp] ++ (pr (.bin .bor a b) 20).1 ++ [.sym [';']]
  | e => [.word x, .sp, .sym ['='], .sp] ++ (pr e 20).1 ++ [.sym [';']]

/-- The condition of a `For`, codegen_c.cpp 457-463: the end is printed with `parentPrecedence = BOTTOM`. -/
def prLoopCond (x : List Char) (stop : E .expr) : List Piece := [.word x, .sp, .sym ['<'], .sp] ++ (pr stop 0).1

end Verif.CPrint
