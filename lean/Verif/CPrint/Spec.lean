import Verif.CPrint.Model
/-!
Specification: how C reads an expression. A lexer with the longest-match rule and a parser with the precedence and
associativity of C (C11 6.4, 6.5), for the operators the generated code uses.
-/
namespace Verif.CPrint

/-! ### Lexer -/

def isDigit (c : Char) : Bool := decide ('0' ≤ c) && decide (c ≤ '9')
def isWordChar (c : Char) : Bool :=
  isDigit c || (decide ('a' ≤ c) && decide (c ≤ 'z')) || (decide ('A' ≤ c) && decide (c ≤ 'Z')) || c == '_' || c == '.'

/-- Does a character continue the name or number `acc`? In a number a sign may follow `e` (a preprocessing number,
C11 6.4.8). -/
def continues (acc : List Char) (c : Char) : Bool :=
  isWordChar c || ((c == '-' || c == '+') && (match acc.head? with | some d => isDigit d | none => false) &&
    acc.getLast? == some 'e')

inductive Tok
  | word (w : List Char)
  | sym (s : List Char)
  deriving DecidableEq

/-- The symbols with two characters. -/
def twoChars : List (Char × Char) :=
  [('+', '+'), ('-', '-'), ('=', '='), ('!', '='), ('<', '='), ('>', '='), ('&', '&'), ('|', '|'), ('<', '<'), ('>', '>'),
   ('-', '>'), ('+', '='), ('-', '='), ('*', '='), ('/', '='), ('%', '='), ('&', '='), ('|', '=')]

def flush (acc : List Char) : List Tok := if acc = [] then [] else [.word acc]

/-- What has been read and not yet delivered. -/
inductive Pending
  /-- A name or number, possibly empty. -/
  | word (acc : List Char)
  /-- The first character of a symbol. -/
  | sym (c : Char)

/-- One character after a complete token. -/
def begin (c : Char) : Pending := if isWordChar c then .word [c] else if c == ' ' then .word [] else .sym c

/-- The tokens of a text: longest match. -/
def lex : Pending → List Char → List Tok
  | .word acc, [] => flush acc
  | .sym c, [] => [.sym [c]]
  | .word acc, c :: cs => if continues acc c then lex (.word (acc ++ [c])) cs else flush acc ++ lex (begin c) cs
  | .sym d, c :: cs => if (d, c) ∈ twoChars then .sym [d, c] :: lex (.word []) cs else .sym [d] :: lex (begin c) cs

def tokens (s : List Char) : List Tok := lex (.word []) s

/-! ### Parser -/

/-- C expressions. -/
inductive C
  | num (w : List Char)
  | id (w : List Char)
  | un (op : List Char) (a : C)
  | bin (op : BOp) (a b : C)
  | cast (ty : List (List Char)) (a : C)
  | call (f : C) (args : List C)
  | index (a i : C)

/-- The words that begin or continue a type name. -/
def typeNames : List String :=
  ["bool", "int8_t", "int16_t", "int32_t", "int64_t", "int128_t", "uint8_t", "uint16_t", "uint32_t", "uint64_t", "uint128_t",
   "float", "double", "complex"]

def isType (w : List Char) : Bool := typeNames.any fun t => t.toList == w

/-- The other keywords of C. -/
def keywords : List String :=
  ["auto", "break", "case", "char", "const", "continue", "default", "do", "else", "enum", "extern", "for", "goto", "if", "inline",
   "int", "long", "register", "restrict", "return", "short", "signed", "sizeof", "static", "struct", "switch", "typedef", "union",
   "unsigned", "void", "volatile", "while"]

def isKeyword (w : List Char) : Bool := keywords.any fun t => t.toList == w

/-- Levels of binary operators in the C grammar: multiplicative, additive, relational, equality, bitwise and,
bitwise or, logical and, logical or. (Shift and exclusive or do not occur.) -/
def BOp.level : BOp → Nat
  | .mul | .div | .rem => 2
  | .add | .sub => 3
  | .lt | .gt | .lte | .gte => 4
  | .eq | .neq => 5
  | .band => 6
  | .bor => 7
  | .land => 8
  | .lor => 9

def allOps : List BOp := [.add, .sub, .mul, .div, .rem, .band, .bor, .eq, .neq, .gt, .lt, .gte, .lte, .land, .lor]

/-- The binary operator of level `n` that the tokens begin with. -/
def opAt (n : Nat) : List Tok → Option (BOp × List Tok)
  | .sym s :: ts => (allOps.find? fun op => op.text == s && op.level == n).map fun op => (op, ts)
  | _ => none

/-- The words of a type name. -/
def typeWordsOf : List Tok → List (List Char) × List Tok
  | .word w :: ts => if isType w then let r := typeWordsOf ts; (w :: r.1, r.2) else ([], .word w :: ts)
  | ts => ([], ts)

/-- What is parsed: an expression of a level (0 postfix, 1 unary and cast, 2-9 binary), the rest of a chain of
binary operators of a level after its left operand, the rest of a postfix expression, or the remaining arguments of
a call. -/
inductive Mode
  | level (n : Nat)
  | chain (n : Nat) (left : C)
  | post (left : C)
  | args (f : C) (done : List C)

def prefixOps : List (List Char) := [['-'], ['!'], ['-', '-'], ['+', '+']]

/-- The parser: the expression and the remaining tokens. The first argument bounds the depth. -/
def parse : Nat → Mode → List Tok → Option (C × List Tok)
  | 0, _, _ => none
  | f + 1, .level 0, ts => match ts with
    | .word w :: ts => if isType w || isKeyword w then none
      else match w with
        | [] => none
        | c :: _ => parse f (.post (if isDigit c then .num w else .id w)) ts
    | .sym s :: ts => if s = ['('] then
        (parse f (.level 9) ts).bind fun r => match r.2 with
          | .sym s :: ts => if s = [')'] then parse f (.post r.1) ts else none
          | _ => none
      else none
    | [] => none
  | f + 1, .post e, ts => match ts with
    | .sym s :: ts => if s = ['['] then
        (parse f (.level 9) ts).bind fun r => match r.2 with
          | .sym s :: ts => if s = [']'] then parse f (.post (.index e r.1)) ts else none
          | _ => none
      else if s = ['('] then
        if ts.head? = some (.sym [')']) then parse f (.post (.call e [])) ts.tail else parse f (.args e []) ts
      else if s = ['+', '+'] ∨ s = ['-', '-'] then parse f (.post (.un (s ++ [' ']) e)) ts
      else some (e, .sym s :: ts)
    | ts => some (e, ts)
  | f + 1, .args g done, ts => (parse f (.level 9) ts).bind fun r => match r.2 with
      | .sym s :: ts => if s = [')'] then parse f (.post (.call g (done ++ [r.1]))) ts
        else if s = [','] then parse f (.args g (done ++ [r.1])) ts else none
      | _ => none
  | f + 1, .level 1, ts => match ts with
    | .sym s :: ts =>
      if s ∈ prefixOps then (parse f (.level 1) ts).map fun r => (.un s r.1, r.2)
      else if s = ['('] ∧ (typeWordsOf ts).1 ≠ [] then match (typeWordsOf ts).2 with
        | .sym s :: rest => if s = [')'] then (parse f (.level 1) rest).map fun r => (.cast (typeWordsOf ts).1 r.1, r.2) else none
        | _ => none
      else parse f (.level 0) (.sym s :: ts)
    | ts => parse f (.level 0) ts
  | f + 1, .level (n + 2), ts => (parse f (.level (n + 1)) ts).bind fun r => parse f (.chain (n + 2) r.1) r.2
  | f + 1, .chain n a, ts => match opAt n ts with
    | some (op, ts) => (parse f (.level (n - 1)) ts).bind fun r => parse f (.chain n (.bin op a r.1)) r.2
    | none => some (a, ts)

/-- C reads the text as the expression: the parser succeeds with it, with any sufficient bound. -/
def Reads (text : List Char) (e : C) : Prop := ∃ n, ∀ m, n ≤ m → parse m (.level 9) (tokens text) = some (e, [])

/-- An assignment statement: the variable and the value it gets. `x op= e` is `x = x op e` and `x++` is `x = x + 1`. -/
def parseAssign (f : Nat) : List Tok → Option (List Char × C)
  | [.word x, .sym ['+', '+'], .sym [';']] => some (x, .bin .add (.id x) (.num ['1']))
  | .word x :: .sym s :: ts => match parse f (.level 9) ts with
    | some (e, [.sym [';']]) =>
      if s = ['='] then some (x, e)
      else if s = ['+', '='] then some (x, .bin .add (.id x) e)
      else if s = ['*', '='] then some (x, .bin .mul (.id x) e)
      else if s = ['|', '='] then some (x, .bin .bor (.id x) e)
      else none
    | _ => none
  | _ => none

/-- C reads the text as the assignment of the value of `e` to `x`. -/
def ReadsAssign (text : List Char) (x : List Char) (e : C) : Prop := ∃ n, ∀ m, n ≤ m → parseAssign m (tokens text) = some (x, e)

/-! ### What an IR expression means in C -/

/-- A literal is a number, or a name such as `INFINITY`. -/
def literal (neg : Bool) (w : List Char) : C :=
  let a := match w with | c :: _ => if isDigit c then .num w else .id w | [] => .id w
  if neg then .un ['-'] a else a

def Den : Sort' → Type
  | .expr => C
  | .args => List C

/-- The C expression with the structure of the IR expression. -/
def denotes : {s : Sort'} → E s → Den s
  | _, .lit n t => literal n t
  | _, .cplx rn r im i => C.bin .add (literal rn r) (.bin .mul (.id ['I']) (literal im i))
  | _, .var x => C.id x
  | _, .neg b a => C.un (if b then ['!'] else ['-']) (denotes a)
  | _, .bin op a b => C.bin op (denotes a) (denotes b)
  | _, .cast ty a => C.cast ty (denotes a)
  | _, .call f as => C.call (.id f) (denotes as)
  | _, .sqrt a => C.call (.id ['s', 'q', 'r', 't']) [denotes a]
  | _, .minmax f a b => C.call (.id f) [denotes a, denotes b]
  | _, .load x a => C.index (.id x) (denotes a)
  | _, .malloc a => C.call (.id ['m', 'a', 'l', 'l', 'o', 'c']) [denotes a]
  | _, .nil => ([] : List C)
  | _, .cons a as => ((denotes a : C) :: (denotes as : List C) : List C)

/-! ### Well-formed expressions -/

/-- A C identifier that is not a type name or another keyword. -/
def nameOK : List Char → Bool
  | [] => false
  | c :: cs => !isDigit c && (c :: cs).all (fun d => isWordChar d && d != '.') && !isType (c :: cs) && !isKeyword (c :: cs)

/-- A preprocessing number. -/
def numOK (w : List Char) : Bool := match w with
  | [] => false
  | c :: cs => isDigit c && go [c] cs
where go : List Char → List Char → Bool
  | _, [] => true
  | acc, d :: ds => continues acc d && go (acc ++ [d]) ds

/-- The text begins with a minus sign. -/
def minus : E s → Bool
  | .lit n _ => n
  | .neg b _ => !b
  | _ => false

/-- Names and numbers are those of C, there is no complex literal, and a minus sign is not applied to a negative
number or a negation. -/
def WF : {s : Sort'} → E s → Prop
  | _, .lit _ t => (numOK t || nameOK t) = true
  | _, .cplx .. => False
  | _, .var x => nameOK x = true
  | _, .neg b a => WF a ∧ (b = false → minus a = false)
  | _, .bin _ a b => WF a ∧ WF b
  | _, .cast ty a => ty ≠ [] ∧ (∀ w ∈ ty, isType w = true) ∧ WF a
  | _, .call f as => nameOK f = true ∧ WF as
  | _, .sqrt a => WF a
  | _, .minmax f a b => nameOK f = true ∧ WF a ∧ WF b
  | _, .load x a => nameOK x = true ∧ WF a
  | _, .malloc a => WF a
  | _, .nil => True
  | _, .cons a as => WF a ∧ WF as

end Verif.CPrint
