import Verif.CPrint.Model

/-!
# Model of the printer of statements

`IRPrinter` (src/ir/ir_printer.cpp) on statements, as overridden by `CodeGen_C` (src/codegen/codegen_c.cpp): control
flow, stores, assignments, declarations, allocations, with indentation, newlines and pragmas.  The body of a
generated function is the text of a statement (codegen_c.cpp:326).

Simplifications
* Names are those of `varMap`; expressions are those of `Verif.CPrint`.
* Not modelled: comments, `printf` statements, coroutines (`Yield`, and variables declared in the context), the
  declarations before and the stores after the body (`printDecls`, `printPack`), CUDA.
-/

namespace Verif.CStmt

open Verif.CPrint (E Piece pr prAssign)

/-- Pragmas of loops: `LoopKind` and unroll factor, include/taco/ir/ir.h:618-640. -/
inductive Pragma
  | plain
  | vectorize (width : Nat)
  | static | dynamic | runtime | chunked
  | unroll (factor : Nat)

/-- The text of a pragma: `genVectorizePragma`, `getParallelizePragma`, `getUnrollPragma`,
src/codegen/codegen_c.cpp:374-416. -/
def Pragma.text : Pragma → Option (List Char)
  | .plain => none
  | .vectorize 0 => some "#pragma clang loop interleave(enable) vectorize(enable)".toList
  | .vectorize w => some ("#pragma clang loop interleave(enable) vectorize_width(".toList ++ (Nat.repr w).toList ++ [')'])
  | .static => some "#pragma omp parallel for schedule(static, 1)".toList
  | .dynamic => some "#pragma omp parallel for schedule(dynamic, 1)".toList
  | .runtime => some "#pragma omp parallel for schedule(runtime)".toList
  | .chunked => some "#pragma omp parallel for schedule(static)".toList
  | .unroll n => some ("#pragma unroll ".toList ++ (Nat.repr n).toList)

/-- `getAtomicPragma`, codegen_c.cpp:411-413. -/
def atomicPragma : List Char := "#pragma omp atomic".toList

/-- `malloc`, `calloc` or `realloc`: the flags of `Allocate`, include/taco/ir/ir.h. -/
inductive Alloc | malloc | calloc | realloc

inductive K | stmt | list | clauses

/-- IR statements (include/taco/ir/ir.h).  The branches of conditionals and the bodies of loops are the statements
inside their `Scope` (src/ir/ir.cpp:591-690). -/
inductive S : K → Type
  | block (l : S .list) : S .stmt
  | scope (s : S .stmt) : S .stmt
  | ifThen (c : E .expr) (th : S .stmt) : S .stmt
  | ifElse (c : E .expr) (th el : S .stmt) : S .stmt
  | case (cl : S .clauses) (always : Bool) : S .stmt
  | switch (e : E .expr) (cs : S .clauses) : S .stmt
  | store (arr : List Char) (loc data : E .expr) (atomic : Bool) : S .stmt
  | assign (x : List Char) (e : E .expr) (atomic : Bool) : S .stmt
  | decl (ty : List (List Char)) (ptr : Bool) (x : List Char) (e : E .expr) : S .stmt
  | loop (width : Option Nat) (c : E .expr) (body : S .stmt) : S .stmt
  | for (pr : Pragma) (ty : List (List Char)) (x : List Char) (start stop inc : E .expr) (body : S .stmt) : S .stmt
  | alloc (kind : Alloc) (ty : List (List Char)) (x : List Char) (n : E .expr) : S .stmt
  | free (x : List Char) : S .stmt
  | sort (args : E .args) : S .stmt
  | cont : S .stmt
  | brk : S .stmt
  | blank : S .stmt
  | nil : S .list
  | cons (a : S .stmt) (l : S .list) : S .list
  | noClause : S .clauses
  | clause (c : E .expr) (body : S .stmt) (rest : S .clauses) : S .clauses

/-- What is written: a piece of a line, a newline, or a pragma. -/
inductive P
  | tok (p : Piece)
  | nl
  | dir (d : List Char)

def P.text : P → List Char
  | .tok p => p.text
  | .nl => ['\n']
  | .dir d => d

/-- The characters written. -/
def renderP (ps : List P) : List Char := ps.flatMap P.text

/-- `doIndent`, ir_printer.cpp:653-656. -/
def indent (n : Nat) : List Piece := List.replicate (2 * n) .sp

def word (w : String) : Piece := .word w.toList

/-- Pieces on a line. -/
def on (ps : List Piece) : List P := ps.map .tok

/-- A whole line. -/
def line (n : Nat) (ps : List Piece) : List P := on (indent n ++ ps) ++ [.nl]

/-- A pragma line. -/
def dirLine (n : Nat) (d : List Char) : List P := on (indent n) ++ [.dir d, .nl]

/-- The pragma of an atomic update, codegen_c.cpp:586-600. -/
def atomicLine (n : Nat) (atomic : Bool) : List P := if atomic then dirLine n atomicPragma else []

/-- The precedence left by an assignment, ir_printer.cpp:477-522. -/
def assignPrec (x : List Char) : E .expr → Nat
  | .bin .add a b =>
    if CPrint.isVar x a then (if CPrint.isLitOne b then 20 else (pr b 20).2) else (pr (.bin .add a b) 20).2
  | .bin .mul a b => if CPrint.isVar x a then (pr b 20).2 else (pr (.bin .mul a b) 20).2
  | .bin .bor a b => if CPrint.isVar x a then (pr b 20).2 else (pr (.bin .bor a b) 20).2
  | e => (pr e 20).2

/-- The increment of a loop, codegen_c.cpp:466-475. -/
def prStep (x : List Char) (inc : E .expr) (p : Nat) : List Piece × Nat :=
  if CPrint.isLitOne inc then ([.word x, .sym ['+', '+']], p)
  else ([.word x, .sp, .sym ['+', '='], .sp] ++ (pr inc p).1, (pr inc p).2)

/-- The head of a `for` loop, codegen_c.cpp:451-477: the start is printed with the precedence left by what was
printed before, the end with `BOTTOM`, the increment with the precedence left by the end. -/
def prFor (ty : List (List Char)) (x : List Char) (start stop inc : E .expr) (p : Nat) : List Piece × Nat :=
  ([word "for", .sp, .sym ['(']] ++ CPrint.typeWords ty ++ [.sp, .word x, .sp, .sym ['='], .sp] ++ (pr start p).1 ++
    [.sym [';'], .sp] ++ CPrint.prLoopCond x stop ++ [.sym [';'], .sp] ++ (prStep x inc (pr stop 0).2).1 ++
    [.sym [')'], .sp, .sym ['{']], (prStep x inc (pr stop 0).2).2)

/-- `Allocate`, codegen_c.cpp:541-572. -/
def prAlloc (kind : Alloc) (ty : List (List Char)) (x : List Char) (n : E .expr) : List Piece :=
  [.word x, .sp, .sym ['='], .sp, .sym ['(']] ++ CPrint.typeWords ty ++ [.sym ['*'], .sym [')']] ++
  (match kind with
   | .malloc => [word "malloc", .sym ['(']]
   | .calloc => [word "calloc", .sym ['('], word "1", .sym [','], .sp]
   | .realloc => [word "realloc", .sym ['('], .word x, .sym [','], .sp]) ++
  [word "sizeof", .sym ['(']] ++ CPrint.typeWords ty ++ [.sym [')'], .sp, .sym ['*'], .sp] ++ (pr n 5).1 ++
  [.sym [')'], .sym [';']]

/-- `VarDecl`, ir_printer.cpp:459-475. -/
def prDecl (ty : List (List Char)) (ptr : Bool) (x : List Char) (e : E .expr) : List Piece :=
  CPrint.typeWords ty ++ (if ptr then [.sym ['*'], .sp, word "restrict"] else []) ++ [.sp, .word x, .sp, .sym ['='], .sp] ++
    (pr e 20).1 ++ [.sym [';']]

/-- `if (c)` or `else if (c)` and the like. -/
def prHead (k : List Piece) (c : E .expr) : List Piece := k ++ [.sp, .sym ['(']] ++ (pr c 20).1 ++ [.sym [')']]

/-- The kinds of branches that `visit(const IfThenElse*)` distinguishes, ir_printer.cpp:258-276. -/
inductive Branch | block | assign | other

def branch : S .stmt → Branch
  | .block _ => .block
  | .assign .. => .assign
  | _ => .other

/-- The first branch of a conditional, ir_printer.cpp:251-276: the head of the conditional, then a block in braces, an
assignment on the same line (without indentation), or another statement on the next lines.  `t0` is the text of
the branch without, `t1` with one more level of indentation. -/
def prThen (b : Branch) (n : Nat) (c : E .expr) (t0 t1 : List P) : List P :=
  match b with
  | .block => line n (prHead [word "if"] c ++ [.sp, .sym ['{']]) ++ t1 ++ on (indent n ++ [.sym ['}']])
  | .assign => on (indent n ++ prHead [word "if"] c ++ [.sp]) ++ t0
  | .other => line n (prHead [word "if"] c) ++ t1

/-- How a clause of a `Case` begins, ir_printer.cpp:291-315. -/
def prClauseHead (n : Nat) (c : E .expr) (first last always : Bool) : List P :=
  (if first then [] else [.nl]) ++
  line n ((if first then prHead [word "if"] c
           else if last && always then [word "else"]
           else prHead [word "else", .sp, word "if"] c) ++ [.sp, .sym ['{']])

/-- The precedence after the head of a clause. -/
def clausePrec (c : E .expr) (first last always : Bool) (p : Nat) : Nat :=
  if !first && last && always then p else (pr c 20).2

/-- How clauses are printed: as those of a `Case` (is this the first, does one always match) or of a `Switch`. -/
inductive Clauses
  | case (first always : Bool)
  | switch

/-- Printing needs the indentation and the precedence left by what was printed before, and for clauses of what they
are; it gives the text and the precedence afterwards. -/
def Out : K → Type
  | .clauses => Clauses → Nat → Nat → List P × Nat
  | _ => Nat → Nat → List P × Nat

/-- No more clauses. -/
def isLast : S .clauses → Bool
  | .noClause => true
  | _ => false

/-- A clause of a `Case`, ir_printer.cpp:290-316. -/
def prClause (c : E .expr) (first last always : Bool) (body : Nat → Nat → List P × Nat) (rest : Nat → Nat → List P × Nat) (n p : Nat) : List P × Nat :=
  let b := body (n + 1) (clausePrec c first last always p)
  (prClauseHead n c first last always ++ b.1 ++ on (indent n ++ [.sym ['}']]) ++ (rest n b.2).1, (rest n b.2).2)

/-- A case of a `Switch`, ir_printer.cpp:327-342. -/
def prSwitchCase (c : E .expr) (body : Nat → Nat → List P × Nat) (rest : Nat → Nat → List P × Nat) (n : Nat) : List P × Nat :=
  let b := body (n + 1) (pr c 20).2
  (line n ([word "case", .sp] ++ (pr c 20).1 ++ [.sym [':'], .sp, .sym ['{']]) ++ b.1 ++ [.nl] ++
    line (n + 1) [word "break", .sym [';']] ++ line n [.sym ['}']] ++ (rest n b.2).1, (rest n b.2).2)

/-- A pragma, if any, on a line of its own. -/
def pragmaLine (n : Nat) : Option (List Char) → List P
  | none => []
  | some d => dirLine n d

/-- `visit` on statements: the text, and the value of `parentPrecedence` afterwards.  `prS s n p`: with indentation `n`
and precedence `p` left by what was printed before.
ir_printer.cpp: `IfThenElse` 249-287, `Case` 289-319, `Switch` 321-347, `Store` 379-390, `While` 427-439, `Block`
441-443, `Scope` 445-451, `VarDecl` 459-475, `Assign` 477-522, `Free` 551-558, `BlankLine` 566-568, `Continue`
570-573, `Break` 575-578, `Sort` 595-602; codegen_c.cpp: `For` 423-482, `While` 484-494, `Allocate` 541-572,
`Assign` and `Store` 586-600. -/
def prS : {k : K} → S k → Out k
  | _, .block l => fun n p => prS l n p
  | _, .scope s => fun n p => prS s (n + 1) p
  | _, .ifThen c th => fun n _ =>
    (prThen (branch th) n c (prS th 0 (pr c 20).2).1 (prS th (n + 1) (pr c 20).2).1 ++ [.nl],
      (prS th (n + 1) (pr c 20).2).2)
  | _, .ifElse c th el => fun n _ =>
    (prThen (branch th) n c (prS th 0 (pr c 20).2).1 (prS th (n + 1) (pr c 20).2).1 ++ [.nl] ++
      line n [word "else", .sp, .sym ['{']] ++ (prS el (n + 1) (prS th (n + 1) (pr c 20).2).2).1 ++
      line n [.sym ['}']],
      (prS el (n + 1) (prS th (n + 1) (pr c 20).2).2).2)
  | _, .case cl always => fun n p => prS cl (.case true always) n p
  | _, .switch e cs => fun n p =>
    (line n ([word "switch", .sp, .sym ['(']] ++ (pr e p).1 ++ [.sym [')'], .sp, .sym ['{']]) ++
      (prS cs .switch (n + 1) (pr e p).2).1 ++ line n [.sym ['}']], (prS cs .switch (n + 1) (pr e p).2).2)
  | _, .store a i e atomic => fun n _ =>
    (atomicLine n atomic ++ line n ([.word a, .sym ['[']] ++ (pr i 20).1 ++ [.sym [']'], .sp, .sym ['='], .sp] ++ (pr e 20).1 ++
      [.sym [';']]), (pr e 20).2)
  | _, .assign x e atomic => fun n _ => (atomicLine n atomic ++ line n (prAssign x e), assignPrec x e)
  | _, .decl ty ptr x e => fun n _ => (line n (prDecl ty ptr x e), (pr e 20).2)
  | _, .loop w c body => fun n _ =>
    (pragmaLine n (w.bind fun w => (Pragma.vectorize w).text) ++
      line n (prHead [word "while"] c ++ [.sp, .sym ['{']]) ++ (prS body (n + 1) (pr c 20).2).1 ++ line n [.sym ['}']],
      (prS body (n + 1) (pr c 20).2).2)
  | _, .for pg ty x a b i body => fun n p =>
    (pragmaLine n pg.text ++ line n (prFor ty x a b i p).1 ++
      (prS body (n + 1) (prFor ty x a b i p).2).1 ++ line n [.sym ['}']], (prS body (n + 1) (prFor ty x a b i p).2).2)
  | _, .alloc k ty x e => fun n _ => (line n (prAlloc k ty x e), 20)
  | _, .free x => fun n _ => (line n [word "free", .sym ['('], .word x, .sym [')'], .sym [';']], 20)
  | _, .sort args => fun n _ =>
    (line n ([word "qsort", .sym ['(']] ++ (pr args 2).1 ++ [.sym [','], .sp, word "cmp", .sym [')'], .sym [';']]), (pr args 2).2)
  | _, .cont => fun n p => (line n [word "continue", .sym [';']], p)
  | _, .brk => fun n p => (line n [word "break", .sym [';']], p)
  | _, .blank => fun _ p => ([.nl], p)
  | _, .nil => fun _ p => ([], p)
  | _, .cons a l => fun n p => ((prS a n p).1 ++ (prS l n (prS a n p).2).1, (prS l n (prS a n p).2).2)
  | _, .noClause => fun m _ p => match m with
    | .case .. => ([.nl], p)
    | .switch => ([], p)
  | _, .clause c body rest => fun m n p => match m with
    | .case first always => prClause c first (isLast rest) always (prS body) (prS rest (.case false always)) n p
    | .switch => prSwitchCase c (prS body) (prS rest .switch) n

end Verif.CStmt
