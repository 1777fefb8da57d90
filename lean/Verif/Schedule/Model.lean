import Verif.IndexText.Model
/-!
The parser of scheduling directives given on the command line (src/parser/schedule_parser.cpp). It uses the lexer of
`Verif.IndexText`; the simplifications of that model apply.
-/
namespace Verif.Schedule
open Verif.IndexText

/-- `lexer.tokenString(tok)`, lexer.cpp 109-164, and `lexer.getIdentifier()` for names and numbers: what a token adds
to `current_element`, schedule_parser.cpp 88-98. The suffix `u` of an unsigned number is not part of the identifier. -/
def tokenString : Token → List Char
  | .ident w | .int w | .uint w | .float w | .complex w => w
  | .sym c => [c]
  | .error _ => ['e', 'r', 'r', 'o', 'r']
  | .eot => []

/-- The local variables of `ScheduleParser`, lines 24-32. -/
structure St where
  paren : Nat
  curly : Nat
  elem : List Char
  sched : List (List Char)
  parsed : List (List (List Char))
  deriving DecidableEq

/-- One iteration of the loop of `ScheduleParser`, lines 34-99; `none`: a `taco_uassert` fails. -/
def stepTok (s : St) (t : Token) : Option St :=
  match t with
  | .sym '(' =>
    if s.paren = 0 then some { s with sched := s.sched ++ [s.elem], elem := [], paren := 1 }
    else some { s with elem := s.elem ++ tokenString t, paren := s.paren + 1 }
  | .sym ')' =>
    if s.paren = 0 then none
    else some { s with elem := if s.paren > 1 then s.elem ++ tokenString t else s.elem, paren := s.paren - 1 }
  | .sym ',' =>
    if s.curly > 0 then some { s with elem := s.elem ++ tokenString t }
    else if s.paren = 0 then some { s with parsed := s.parsed ++ [s.sched ++ [s.elem]], sched := [], elem := [] }
    else if s.paren = 1 then some { s with sched := s.sched ++ [s.elem], elem := [] }
    else some { s with elem := s.elem ++ tokenString t }
  | .sym '{' => some { s with elem := s.elem ++ tokenString t, curly := s.curly + 1 }
  | .sym '}' =>
    if s.curly = 0 then none else some { s with elem := s.elem ++ tokenString t, curly := s.curly - 1 }
  | t => some { s with elem := s.elem ++ tokenString t }

/-- What `ScheduleParser` does after the loop, lines 100-106. -/
def finish (s : St) : Option (List (List (List Char))) :=
  if s.paren ≠ 0 then none else
  let sched := if s.elem.length > 0 then s.sched ++ [s.elem] else s.sched
  some (if sched.length > 0 then s.parsed ++ [sched] else s.parsed)

/-- `ScheduleParser`, schedule_parser.cpp 23-107. The first argument bounds the number of tokens. `none`: the call
does not return, or ends with an error. -/
def scheduleParser (f : Nat) (text : List Char) : Option (List (List (List Char))) :=
  (lexAll f text).bind fun ts => (ts.dropLast.foldlM stepTok ⟨0, 0, [], [], []⟩).bind finish

/-- The local variables of `varListParser`, lines 113-118. -/
structure VSt where
  curly : Nat
  elem : List Char
  parsed : List (List Char)
  deriving DecidableEq

/-- One iteration of the loop of `varListParser`, lines 120-166. -/
def stepVar (s : VSt) (t : Token) : Option VSt :=
  match t with
  | .sym ',' =>
    if s.curly > 0 then some { s with parsed := s.parsed ++ [s.elem], elem := [] }
    else some { s with elem := s.elem ++ tokenString t }
  | .sym '{' => some { s with elem := [], curly := s.curly + 1 }
  | .sym '}' =>
    if s.curly = 0 then none
    else if s.curly = 1 then some { s with parsed := s.parsed ++ [s.elem], elem := [], curly := 0 }
    else some { s with curly := s.curly - 1 }
  | .sym '(' => some s
  | .sym ')' => some s
  | t => some { s with elem := s.elem ++ tokenString t }

/-- `varListParser`, schedule_parser.cpp 112-172. -/
def varListParser (f : Nat) (text : List Char) : Option (List (List Char)) :=
  (lexAll f text).bind fun ts => (ts.dropLast.foldlM stepVar ⟨0, [], []⟩).bind fun s =>
    if s.curly ≠ 0 then none else some (if s.elem.length > 0 then s.parsed ++ [s.elem] else s.parsed)

/-- One element of `serializeParsedSchedule`, lines 181-183. -/
def serElem (e : List Char) : List Char := '\'' :: e ++ ['\'', ',', ' ']

/-- One directive of `serializeParsedSchedule`, lines 179-185. -/
def serItem (s : List (List Char)) : List Char := '[' :: ' ' :: s.flatMap serElem ++ [']', ',', ' ']

/-- `serializeParsedSchedule`, lines 176-189. -/
def serialize (p : List (List (List Char))) : List Char := '[' :: ' ' :: p.flatMap serItem ++ [']']

end Verif.Schedule
