import Verif.CStmt.Model
import Verif.CPrint.Spec

/-!
Specification: how C reads statements (C11 6.7, 6.8, with pragmas as in OpenMP), for the statements the generated code
uses, and the statements that an IR statement stands for.
-/

namespace Verif.CStmt

open Verif.CPrint (C Tok tokens parse typeWordsOf isType nameOK)

/-! ### Lines -/

/-- The lines of a text. -/
def splitLines : List Char → List (List Char)
  | [] => [[]]
  | c :: cs => if c = '\n' then [] :: splitLines cs else
    match splitLines cs with
    | l :: ls => (c :: l) :: ls
    | [] => [[c]]

/-- The tokens of a line.  A line whose first character other than a space is `#` is a directive: one token. -/
def lineToks (l : List Char) : List Tok :=
  match l.dropWhile (· == ' ') with
  | '#' :: d => [.sym ('#' :: d)]
  | _ => tokens l

/-- The tokens of a text. -/
def tokensOf (text : List Char) : List Tok := (splitLines text).flatMap lineToks

/-! ### Statements of C -/

inductive Stm
  /-- `ty x = e;`, `ty* restrict x = e;` -/
  | decl (ty : List (List Char)) (ptr : Bool) (x : List Char) (e : C)
  /-- An assignment; `l op= e` is `l = l op e` and `l++` is `l = l + 1`. -/
  | set (l e : C)
  /-- `x = (ty*)f(args);`. -/
  | alloc (x : C) (ty : List (List Char)) (f : List Char) (args : List C)
  | expr (e : C)
  /-- Without `else` the second branch is empty. -/
  | ite (c : C) (th el : List Stm)
  | loop (c : C) (body : List Stm)
  /-- `for (ty x = start; cond; x += step)`. -/
  | for (ty : List (List Char)) (x : List Char) (start cond step : C) (body : List Stm)
  | switch (c : C) (cases : List (C × List Stm))
  | cont
  | brk
  /-- A pragma and the statement it applies to. -/
  | pragma (d : List Char) (s : Stm)

/-- `sizeof(ty)`. -/
def sizeOf (ty : List (List Char)) : C := .call (.id "sizeof".toList) (ty.map .id)

/-- The token that must come next. -/
def expect (s : List Char) : List Tok → Option (List Tok)
  | .sym t :: ts => if t = s then some ts else none
  | _ => none

/-- A word that must come next. -/
def expectWord (w : List Char) : List Tok → Option (List Tok)
  | .word t :: ts => if t = w then some ts else none
  | _ => none

/-- An expression and the token after it. -/
def exprThen (f : Nat) (s : List Char) (ts : List Tok) : Option (C × List Tok) :=
  (parse f (.level 9) ts).bind fun r => (expect s r.2).map fun ts => (r.1, ts)

/-- `(` expression `)`. -/
def parens (f : Nat) (ts : List Tok) : Option (C × List Tok) := (expect ['('] ts).bind (exprThen f [')'])

/-- An identifier. -/
def ident : List Tok → Option (List Char × List Tok)
  | .word w :: ts => if nameOK w then some (w, ts) else none
  | _ => none

/-- A declaration with an initial value. -/
def declaration (f : Nat) (ts : List Tok) : Option (Stm × List Tok) :=
  let ty := typeWordsOf ts
  let star := (expect ['*'] ty.2).bind (expectWord "restrict".toList)
  (ident (star.getD ty.2)).bind fun x => (expect ['='] x.2).bind fun ts =>
    (exprThen f [';'] ts).map fun r => (.decl ty.1 star.isSome x.1 r.1, r.2)

/-- A pointer type in parentheses. -/
def pointerCast (ts : List Tok) : Option (List (List Char) × List Tok) :=
  (expect ['('] ts).bind fun ts => if (typeWordsOf ts).1 = [] then none
    else (expect ['*'] (typeWordsOf ts).2).bind fun r => (expect [')'] r).map fun r => ((typeWordsOf ts).1, r)

/-- `sizeof(ty)` times an operand, and a closing parenthesis. -/
def sizeArg (f : Nat) (ts : List Tok) : Option (C × List Tok) :=
  (expectWord "sizeof".toList ts).bind fun ts => (expect ['('] ts).bind fun ts => (expect [')'] (typeWordsOf ts).2).bind fun r =>
    (parse f (.chain 2 (sizeOf (typeWordsOf ts).1)) r).bind fun r => (expect [')'] r.2).map fun ts => (r.1, ts)

/-- The call of an allocation function: the function and its arguments, the last of which is a product with
`sizeof`. -/
def allocation (f : Nat) (ts : List Tok) : Option ((List Char × List C) × List Tok) :=
  (ident ts).bind fun g => (expect ['('] g.2).bind fun ts =>
    match sizeArg f ts with
    | some r => (expect [';'] r.2).map fun ts => ((g.1, [r.1]), ts)
    | none => (exprThen f [','] ts).bind fun a => (sizeArg f a.2).bind fun r =>
        (expect [';'] r.2).map fun ts => ((g.1, [a.1, r.1]), ts)

/-- The operators of compound assignments. -/
def compound (s : List Char) : Option CPrint.BOp :=
  if s = ['+', '='] then some .add else if s = ['*', '='] then some .mul else if s = ['|', '='] then some .bor else none

/-- An expression statement or an assignment. -/
def simple (f : Nat) (ts : List Tok) : Option (Stm × List Tok) :=
  (parse f (.level 0) ts).bind fun l => match l.2 with
    | .sym s :: ts =>
      if s = [';'] then match l.1 with
        | .un ['+', '+', ' '] x => some (.set x (.bin .add x (.num ['1'])), ts)
        | e => some (.expr e, ts)
      else if s = ['='] then match pointerCast ts with
        | some t => (allocation f t.2).map fun r => (.alloc l.1 t.1 r.1.1 r.1.2, r.2)
        | none => (exprThen f [';'] ts).map fun r => (.set l.1 r.1, r.2)
      else (compound s).bind fun op => (exprThen f [';'] ts).map fun r => (.set l.1 (.bin op l.1 r.1), r.2)
    | _ => none

/-- `(ty x = start; cond; x += step)`, or with `x++`. -/
structure ForHead where
  ty : List (List Char)
  x : List Char
  start : C
  cond : C
  step : C

/-- What follows the second semicolon of a `for` with the variable `x`. -/
def forStep (f : Nat) (x : List Char) (ts : List Tok) : Option (C × List Tok) :=
  (expectWord x ts).bind fun ts => match expect ['+', '+'] ts with
    | some ts => (expect [')'] ts).map fun ts => (.num ['1'], ts)
    | none => (expect ['+', '='] ts).bind (exprThen f [')'])

def forHead (f : Nat) (ts : List Tok) : Option (ForHead × List Tok) :=
  (expect ['('] ts).bind fun ts =>
    if (typeWordsOf ts).1 = [] then none else
    (ident (typeWordsOf ts).2).bind fun x => (expect ['='] x.2).bind fun r => (exprThen f [';'] r).bind fun a =>
      (exprThen f [';'] a.2).bind fun b => (forStep f x.1 b.2).map fun c => (⟨(typeWordsOf ts).1, x.1, a.1, b.1, c.1⟩, c.2)

inductive Kind | kif | kwhile | kfor | kswitch | kcont | kbrk | other
  deriving DecidableEq

/-- How a statement begins. -/
def kind (w : List Char) : Kind :=
  if w = "if".toList then .kif else if w = "while".toList then .kwhile else if w = "for".toList then .kfor
  else if w = "switch".toList then .kswitch else if w = "continue".toList then .kcont else if w = "break".toList then .kbrk else .other

/-- What is parsed: statements and declarations up to a closing brace or the end; one statement; the body of a
conditional or loop, in braces or not; the cases of a `switch` after those read. -/
inductive SMode
  | items
  | one
  | body
  | cases (c : C) (done : List (C × List Stm))

/-- The end of a sequence of statements. -/
def atEnd : List Tok → Bool
  | [] => true
  | .sym s :: _ => s == ['}']
  | .word _ :: _ => false

/-- A declaration begins with a type. -/
def isDecl (ts : List Tok) : Bool := !(typeWordsOf ts).1.isEmpty

def one (r : Stm × List Tok) : List Stm × List Tok := ([r.1], r.2)

/-- The parser of statements.  The first argument bounds the depth. -/
def stmts : Nat → SMode → List Tok → Option (List Stm × List Tok)
  | 0, _, _ => none
  | f + 1, .items, ts =>
    if atEnd ts then some ([], ts)
    else (if isDecl ts then (declaration f ts).map one else stmts f .one ts).bind fun a =>
      (stmts f .items a.2).map fun r => (a.1 ++ r.1, r.2)
  | f + 1, .body, ts => match expect ['{'] ts with
    | some ts => (stmts f .items ts).bind fun r => (expect ['}'] r.2).map fun ts => (r.1, ts)
    | none => stmts f .one ts
  | f + 1, .cases c done, ts => match expect ['}'] ts with
    | some ts => some ([.switch c done], ts)
    | none => (expectWord "case".toList ts).bind fun ts => (exprThen f [':'] ts).bind fun v => (expect ['{'] v.2).bind fun ts =>
        (stmts f .items ts).bind fun b => (expect ['}'] b.2).bind fun ts => stmts f (.cases c (done ++ [(v.1, b.1)])) ts
  | f + 1, .one, ts => match ts with
    | [] => none
    | .sym s :: r => if s.head? = some '#' ∧ s ≠ ['#'] then (stmts f .one r).map fun a => (a.1.map (.pragma s), a.2) else none
    | .word w :: r => match kind w with
      | .kif => (parens f r).bind fun c => (stmts f .body c.2).bind fun th =>
          match expectWord "else".toList th.2 with
          | some ts => (stmts f .body ts).map fun el => ([.ite c.1 th.1 el.1], el.2)
          | none => some ([.ite c.1 th.1 []], th.2)
      | .kwhile => (parens f r).bind fun c => (stmts f .body c.2).map fun b => ([.loop c.1 b.1], b.2)
      | .kfor => (forHead f r).bind fun h => (stmts f .body h.2).map fun b =>
          ([.for h.1.ty h.1.x h.1.start h.1.cond h.1.step b.1], b.2)
      | .kswitch => (parens f r).bind fun c => (expect ['{'] c.2).bind fun ts => stmts f (.cases c.1 []) ts
      | .kcont => (expect [';'] r).map fun ts => ([.cont], ts)
      | .kbrk => (expect [';'] r).map fun ts => ([.brk], ts)
      | .other => (simple f ts).map one

/-- C reads the text as these statements: the parser succeeds with them, with any sufficient bound. -/
def ReadsStms (text : List Char) (l : List Stm) : Prop := ∃ n, ∀ m, n ≤ m → stmts m .items (tokensOf text) = some (l, [])

/-- C does not accept the text: the parser fails, whatever the bound. -/
def Rejects (text : List Char) : Prop := ∀ m, ∀ r, stmts m .items (tokensOf text) = some r → r.2 ≠ []

/-! ### What an IR statement stands for -/

open Verif.CPrint (denotes)

/-- A statement under a pragma. -/
def under (d : Option (List Char)) (s : Stm) : Stm := match d with
  | none => s
  | some d => .pragma d s

/-- Statements stand for statements; clauses for those of a conditional (is this the first, does one always match)
and those of a `switch`. -/
def DenS : K → Type
  | .clauses => (Bool → Bool → List Stm) × List (C × List Stm)
  | _ => List Stm

/-- The statements with the structure of the IR statement: blocks and scopes are sequences, blank lines are nothing,
the clauses of a `Case` are tried in order, of which the last needs no test if one of them always matches and there
is another; each case of a `Switch` leaves it. -/
def den : {k : K} → S k → DenS k
  | _, .block l => (den l : List Stm)
  | _, .scope s => (den s : List Stm)
  | _, .ifThen c th => [Stm.ite (denotes c) (den th) []]
  | _, .ifElse c th el => [Stm.ite (denotes c) (den th) (den el)]
  | _, .case cl always => (den cl).1 true always
  | _, .switch e cs => [Stm.switch (denotes e) (den cs).2]
  | _, .store a i e atomic =>
    [under (if atomic then some "#pragma omp atomic".toList else none) (.set (.index (.id a) (denotes i)) (denotes e))]
  | _, .assign x e atomic => [under (if atomic then some "#pragma omp atomic".toList else none) (.set (.id x) (denotes e))]
  | _, .decl ty ptr x e => [Stm.decl ty ptr x (denotes e)]
  | _, .loop w c body => [under (w.bind fun w => (Pragma.vectorize w).text) (.loop (denotes c) (den body))]
  | _, .for pg ty x a b i body =>
    [under pg.text (.for ty x (denotes a) (.bin .lt (.id x) (denotes b)) (denotes i) (den body))]
  | _, .alloc k ty x n =>
    let size := C.bin .mul (sizeOf ty) (denotes n)
    match k with
    | .malloc => [Stm.alloc (.id x) ty "malloc".toList [size]]
    | .calloc => [Stm.alloc (.id x) ty "calloc".toList [.num ['1'], size]]
    | .realloc => [Stm.alloc (.id x) ty "realloc".toList [.id x, size]]
  | _, .free x => [Stm.expr (.call (.id "free".toList) [.id x])]
  | _, .sort args => [Stm.expr (.call (.id "qsort".toList) (List.append (α := C) (denotes args) [.id "cmp".toList]))]
  | _, .cont => [Stm.cont]
  | _, .brk => [Stm.brk]
  | _, .blank => ([] : List Stm)
  | _, .nil => ([] : List Stm)
  | _, .cons a l => List.append (α := Stm) (den a) (den l)
  | _, .noClause => (fun _ _ => [], [])
  | _, .clause c body rest =>
    (fun first always => match rest with
      | .noClause => if always && !first then den body else [.ite (denotes c) (den body) []]
      | _ => [.ite (denotes c) (den body) ((den rest).1 false always)],
     (denotes c, List.append (α := Stm) (den body) [.brk]) :: (den rest).2)

/-! ### Well-formed statements -/

/-- A type. -/
def typeOK (ty : List (List Char)) : Prop := ty ≠ [] ∧ ∀ w ∈ ty, isType w = true

/-- A statement that is one statement of C (not a declaration, not nothing, not several). -/
def single : S .stmt → Bool
  | .block _ | .scope _ | .decl .. | .blank => false
  | .case .noClause _ => false
  | _ => true

/-- The first branch of a conditional: a block, or one statement, but not an atomic assignment. -/
def thenOK : S .stmt → Bool
  | .block _ => true
  | .assign _ _ atomic => !atomic
  | s => single s

/-- The text of the statement ends in a conditional without `else`, outside braces. -/
def openIf : S .stmt → Bool
  | .ifThen .. => true
  | .case (.clause _ _ .noClause) _ => true
  | .case _ always => !always
  | _ => false

/-- Expressions are well formed, names and types are those of C, the first branch of a conditional is a block or one
statement, and before an `else` it does not end in a conditional without `else`. -/
def WFS : {k : K} → S k → Prop
  | _, .block l => WFS l
  | _, .scope s => WFS s
  | _, .ifThen c th => CPrint.WF c ∧ WFS th ∧ thenOK th = true
  | _, .ifElse c th el => CPrint.WF c ∧ WFS th ∧ thenOK th = true ∧ openIf th = false ∧ WFS el
  | _, .case cl _ => WFS cl
  | _, .switch e cs => CPrint.WF e ∧ WFS cs
  | _, .store a i e _ => nameOK a = true ∧ CPrint.WF i ∧ CPrint.WF e
  | _, .assign x e _ => nameOK x = true ∧ CPrint.WF e
  | _, .decl ty _ x e => typeOK ty ∧ nameOK x = true ∧ CPrint.WF e
  | _, .loop _ c body => CPrint.WF c ∧ WFS body
  | _, .for _ ty x a b i body =>
    typeOK ty ∧ nameOK x = true ∧ CPrint.WF a ∧ CPrint.WF b ∧ CPrint.WF i ∧ WFS body
  | _, .alloc _ ty x n => typeOK ty ∧ nameOK x = true ∧ CPrint.WF n
  | _, .free x => nameOK x = true
  | _, .sort args => CPrint.WF args ∧ (∃ a as, args = .cons a as)
  | _, .cont => True
  | _, .brk => True
  | _, .blank => True
  | _, .nil => True
  | _, .cons a l => WFS a ∧ WFS l
  | _, .noClause => True
  | _, .clause c body rest => CPrint.WF c ∧ WFS body ∧ WFS rest

end Verif.CStmt
