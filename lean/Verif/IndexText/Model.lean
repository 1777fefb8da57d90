import Verif.Decimal
/-!
The index notation lexer and parser (src/parser/lexer.cpp, src/parser/parser.cpp) and the printer of index expressions
(src/index_notation/index_notation_printer.cpp).

Simplifications
* Characters are ASCII, character classes are those of the C locale. (A byte outside ASCII is a negative `char`:
  `isspace`, `isalpha` on it are undefined, and 255 is the value of `EOF`.)
* Tokens are produced before parsing; the parser of the code asks for one token ahead. This differs only when the
  lexer does not return on text after the end of the assignment.
* The tensors, formats and dimensions that the parser looks up by name are not modelled: an access is a name and the
  names of its index variables.
* Literals that are printed are integers; `Sqrt`, `Cast`, `Call`, reductions and windows are not in the expression
  grammar of the parser and are not modelled.
-/
namespace Verif.IndexText

/-! ### Lexer -/

/-- `isspace`, `isalpha`, `isalnum` of the C locale, as called in lexer.cpp 12-30. -/
def isSpace (c : Char) : Bool := c == ' ' || (decide (9 ≤ c.toNat) && decide (c.toNat ≤ 13))
/-- See `isSpace`. -/
def isAlpha (c : Char) : Bool := (decide (97 ≤ c.toNat) && decide (c.toNat ≤ 122)) || (decide (65 ≤ c.toNat) && decide (c.toNat ≤ 90))
/-- See `isSpace`. -/
def isAlnum (c : Char) : Bool := isAlpha c || isDigit c

/-- `enum class Token`, lexer.h 9-28, with `getIdentifier()`. Single characters are `sym`. The offending character
of `error` is kept here; the code forgets it. -/
inductive Token
  | ident (w : List Char)
  | int (w : List Char)
  | uint (w : List Char)
  | float (w : List Char)
  | complex (w : List Char)
  | sym (c : Char)
  | error (c : Char)
  | eot
  deriving DecidableEq

/-- The characters with a token of their own, lexer.cpp 55-90. -/
def symbols : List Char := [',', '(', ')', '_', '{', '}', '+', '-', '*', '/', '=']

/-- What follows the first digits of a number, lexer.cpp 41-52. -/
def numToken (w : List Char) : List Char → Token × List Char
  | '.' :: ds => (.float (w ++ '.' :: ds.takeWhile isDigit), ds.dropWhile isDigit)
  | 'u' :: ds => (.uint w, ds)
  | rest => (.int w, rest)

/-- `Lexer::getToken`, lexer.cpp 11-95. The argument is `lastChar` and the characters after it; the end of the list
is `EOF`. `none`: the call does not return (the search for `)` runs past the end of the text). -/
def getToken (s : List Char) : Option (Token × List Char) :=
  match s.dropWhile isSpace with
  | [] => some (.eot, [])
  | c :: cs =>
    if isAlpha c then
      let w := c :: cs.takeWhile isAlnum
      let rest := cs.dropWhile isAlnum
      if w = ['c', 'o', 'm', 'p', 'l', 'e', 'x'] ∨ w = ['C', 'o', 'm', 'p', 'l', 'e', 'x'] then
        match rest with
        | [] => none
        | d :: ds =>
          match ds.dropWhile (· != ')') with
          | [] => none
          | _ :: rest => some (.complex (d :: (ds.takeWhile (· != ')')).filter (fun c => !isSpace c) ++ [')']), rest)
      else some (.ident w, rest)
    else if isDigit c then
      some (numToken (c :: cs.takeWhile isDigit) (cs.dropWhile isDigit))
    else if c ∈ symbols then some (.sym c, cs)
    else some (.error c, cs)

/-- The tokens that repeated calls of `getToken` (`Parser::nextToken`, parser.cpp) give until `eot`, at most `n` of them. -/
def lexAll : Nat → List Char → Option (List Token)
  | 0, _ => none
  | n + 1, s => match getToken s with
    | none => none
    | some (.eot, _) => some [.eot]
    | some (t, rest) => (lexAll n rest).map (t :: ·)

/-! ### Expressions -/

/-- The binary nodes that the parser builds, parser.cpp 185-210. -/
inductive Op | add | sub | mul | div
  deriving DecidableEq

/-- Index expressions: integer literals, other literals (text only), accesses, negation and binary operations. -/
inductive X
  | lit (n : Int)
  | other (w : List Char)
  | acc (name : List Char) (vars : List (List Char))
  | neg (a : X)
  | bin (op : Op) (a b : X)
  deriving DecidableEq

/-! ### Parser -/

/-- `parseVarList`, parser.cpp 350-358, and `parseVar` 360-367. -/
def varList : List Token → Option (List (List Char) × List Token)
  | .ident v :: .sym ',' :: ts => (varList ts).map fun r => (v :: r.1, r.2)
  | .ident v :: ts => some ([v], ts)
  | _ => none

/-- `parseAccess`, parser.cpp 277-301. -/
def parseAccess : List Token → Option ((List Char × List (List Char)) × List Token)
  | .ident w :: .sym '_' :: .sym '{' :: ts => (varList ts).bind fun r => match r.2 with
    | .sym '}' :: ts => some ((w, r.1), ts)
    | _ => none
  | .ident w :: .sym '_' :: .ident v :: ts => some ((w, [v]), ts)
  | .ident _ :: .sym '_' :: _ => none
  | .ident w :: .sym '(' :: ts => (varList ts).bind fun r => match r.2 with
    | .sym ')' :: ts => some ((w, r.1), ts)
    | _ => none
  | .ident w :: ts => some ((w, []), ts)
  | _ => none

/-- `value >> int_value` for a 64-bit integer: too large numbers give the largest. -/
def readInt (w : List Char) : Int := min (decVal w : Int) (2 ^ 63 - 1)

/-- `parseFinal`, parser.cpp 237-271. -/
def parseFinal : List Token → Option (X × List Token)
  | .complex w :: ts => some (.other w, ts)
  | .int w :: ts => some (.lit (readInt w), ts)
  | .uint w :: ts => some (.lit (decVal w), ts)
  | .float w :: ts => some (.other w, ts)
  | ts => (parseAccess ts).map fun r => (.acc r.1.1 r.1.2, r.2)

/-- Which function of the parser is running, parser.cpp 178-235. -/
inductive Mode
  | expr
  /-- The loop of `parseExpr` with its accumulator. -/
  | exprLoop (left : X)
  | term
  | termLoop (left : X)
  | factor

/-- `parseExpr`, `parseTerm` and `parseFactor`, parser.cpp 178-235. The first argument bounds the depth. -/
def parse : Nat → Mode → List Token → Option (X × List Token)
  | 0, _, _ => none
  | f + 1, .expr, ts => (parse f .term ts).bind fun r => parse f (.exprLoop r.1) r.2
  | f + 1, .exprLoop l, ts => match ts with
    | .sym '+' :: ts => (parse f .term ts).bind fun r => parse f (.exprLoop (.bin .add l r.1)) r.2
    | .sym '-' :: ts => (parse f .term ts).bind fun r => parse f (.exprLoop (.bin .sub l r.1)) r.2
    | ts => some (l, ts)
  | f + 1, .term, ts => (parse f .factor ts).bind fun r => parse f (.termLoop r.1) r.2
  | f + 1, .termLoop l, ts => match ts with
    | .sym '*' :: ts => (parse f .factor ts).bind fun r => parse f (.termLoop (.bin .mul l r.1)) r.2
    | .sym '/' :: ts => (parse f .factor ts).bind fun r => parse f (.termLoop (.bin .div l r.1)) r.2
    | ts => some (l, ts)
  | f + 1, .factor, ts => match ts with
    | .sym '(' :: ts => (parse f .expr ts).bind fun r => match r.2 with
      | .sym ')' :: ts => some (r.1, ts)
      | _ => none
    | .sym '-' :: ts => (parse f .factor ts).map fun r => (.neg r.1, r.2)
    | ts => parseFinal ts

/-- A parsed assignment: left-hand side, whether it is `+=`, right-hand side. -/
structure Assign where
  name : List Char
  vars : List (List Char)
  acc : Bool
  rhs : X
  deriving DecidableEq

/-- `parseAssign`, parser.cpp 68-82 and 170-174: what follows the expression is not looked at. -/
def parseAssign (f : Nat) (ts : List Token) : Option Assign :=
  (parseAccess ts).bind fun l => match l.2 with
    | .sym '+' :: .sym '=' :: ts => (parse f .expr ts).map fun r => ⟨l.1.1, l.1.2, true, r.1⟩
    | .sym '=' :: ts => (parse f .expr ts).map fun r => ⟨l.1.1, l.1.2, false, r.1⟩
    | _ => none

/-! ### Printer -/

/-- `Precedence`, index_notation_printer.h 46-57. -/
def Op.prec : Op → Nat
  | .add | .sub => 6
  | .mul | .div => 5

/-- `getOperatorString`, index_notation_nodes.h. -/
def Op.char : Op → Char
  | .add => '+' | .sub => '-' | .mul => '*' | .div => '/'

/-- `util::join(op->indexVars, ",")`, include/taco/util/strings.h. -/
def joinVars : List (List Char) → List Char
  | [] => []
  | [v] => v
  | v :: vs => v ++ ',' :: joinVars vs

/-- An integer on a stream, index_notation_printer.cpp 35-83 for the integer types of at least 16 bits. -/
def showInt (n : Int) : List Char := if n < 0 then '-' :: dec n.natAbs else dec n.natAbs

/-- The printer, index_notation_printer.cpp 21-145: `AccessNode`, `LiteralNode`, `NegNode`, `visitBinary`. The second argument is `parentPrecedence`, which is set before every operand is printed. -/
def pr : X → Nat → List Char
  | .lit n, _ => showInt n
  | .other w, _ => w
  | .acc name vars, _ => if vars = [] then name else name ++ '(' :: joinVars vars ++ [')']
  | .neg a, p => if 3 > p then '-' :: '(' :: pr a 3 ++ [')'] else '-' :: pr a 3
  | .bin op a b, p =>
    let body := pr a op.prec ++ ' ' :: op.char :: ' ' :: pr b op.prec
    if op.prec > p then '(' :: body ++ [')'] else body

/-- `AssignmentNode`, lines 211-233, from `print(IndexStmt)`: `A(i) = e` or `A(i) += e`. -/
def prAssign (s : Assign) : List Char :=
  pr (.acc s.name s.vars) 20 ++ (if s.acc then [' ', '+', '=', ' '] else [' ', '=', ' ']) ++ pr s.rhs 20

/-- Reading a whole expression from text. -/
def readExpr (f : Nat) (s : List Char) : Option X := (lexAll f s).bind fun ts => (parse f .expr ts).map (·.1)

/-- Reading an assignment: the constructor of `Parser` and `Parser::parse`, parser.cpp 45-62. -/
def readAssign (f : Nat) (s : List Char) : Option Assign := (lexAll f s).bind (parseAssign f)

end Verif.IndexText
