/-!
# Model of the einsum string parser

`src/parser/einsum_parser.cpp` and the helper `util::split` of `src/util/strings.cpp`, character by
character.  A string is a list of characters; a tensor operand is the list of its dimensions (its order is
the length of that list).  The outcome of a parse is what `EinsumParser::parse` does: it builds a result
(`ok`), throws a `ParseError` (`parseError`), lets another exception out (`uncaught`: `std::map::at` on a
missing key), or runs into undefined behaviour (`ub`: `operator[]` behind the end of a vector, iterators
in front of the beginning of a string).
-/

namespace Verif.Einsum

/-- What running a piece of the parser leads to. -/
inductive Out (α : Type) where
  | ok (a : α)
  | parseError
  | uncaught
  | ub
  deriving Repr, DecidableEq

/-- Sequencing: anything but `ok` ends the run. -/
def Out.bind {α β : Type} : Out α → (α → Out β) → Out β
  | .ok a, f => f a
  | .parseError, _ => .parseError
  | .uncaught, _ => .uncaught
  | .ub, _ => .ub

instance : Monad Out where
  pure := Out.ok
  bind := Out.bind

/-- `einsumSymbols`: src/parser/einsum_parser.cpp:17. -/
def symbols : List Char := "abcdefghijklmnopqrstuvwxyzABCDEFGHIJKLMNOPQRSTUVWXYZ".toList

/-- `einsumPunctuation`: src/parser/einsum_parser.cpp:19. -/
def punctuation : List Char := ".,->".toList

/-- The constructor: an empty expression is an error, spaces are removed, every remaining character must be a
symbol or punctuation.  src/parser/einsum_parser.cpp:12-36. -/
def construct (expression : List Char) : Out (List Char) :=
  if expression = [] then .parseError
  else
    let subscripts := expression.filter (fun c => c != ' ')
    if subscripts.all (fun c => decide (c ∈ symbols) || decide (c ∈ punctuation)) then .ok subscripts
    else .parseError

/-- Insertion into a sorted list, a step of `std::sort` on characters (the order of equal characters is not
observable).  Simplification: the sorting algorithm is insertion sort.
src/parser/einsum_parser.cpp:44, 270. -/
def insertChar (c : Char) : List Char → List Char
  | [] => [c]
  | d :: rest => if c.toNat ≤ d.toNat then c :: d :: rest else d :: insertChar c rest

/-- `std::sort` on a string: src/parser/einsum_parser.cpp:44, 270. -/
def sortChars : List Char → List Char
  | [] => []
  | c :: rest => insertChar c (sortChars rest)

/-- `EinsumParser::findUniqueIndices`: without dots and commas, sorted, the characters that appear once.
src/parser/einsum_parser.cpp:38-65. -/
def findUniqueIndices (subscripts : List Char) : List Char :=
  let temp := sortChars (subscripts.filter (fun c => !(c == '.' || c == ',')))
  temp.filter (fun c => temp.count c == 1)

/-- The check inside the loop of `exprHasOutput`: some `-` is followed by a character other than `>`.
src/parser/einsum_parser.cpp:70-77. -/
def badDash : List Char → Bool
  | [] => false
  | [_] => false
  | c :: d :: rest => (c == '-' && d != '>') || badDash (d :: rest)

/-- `EinsumParser::exprHasOutput`: src/parser/einsum_parser.cpp:67-84. -/
def exprHasOutput (subscripts : List Char) : Out Bool :=
  if badDash subscripts then .parseError
  else
    let dashes := subscripts.count '-'
    let gts := subscripts.count '>'
    if dashes ≠ gts ∨ dashes > 1 then .parseError else .ok (dashes == 1)

/-- `str.find("->")`: the text in front of the first arrow and the text behind it.
src/util/strings.cpp:15, src/parser/einsum_parser.cpp:276. -/
def breakArrow : List Char → Option (List Char × List Char)
  | [] => none
  | c :: rest =>
    if c = '-' ∧ rest.head? = some '>' then some ([], rest.tail)
    else (breakArrow rest).map (fun p => (c :: p.1, p.2))

/-- A piece is only pushed when it is not empty: src/util/strings.cpp:16-20, 24-27. -/
def pushPiece (piece : List Char) : List (List Char) := if piece = [] then [] else [piece]

/-- `util::split(str, "->")` with `keepDelim = false`; the fuel is the length of the text.
src/util/strings.cpp:10-30. -/
def splitArrowFuel : Nat → List Char → List (List Char)
  | 0, s => pushPiece s
  | fuel + 1, s =>
    match breakArrow s with
    | none => pushPiece s
    | some (a, b) => pushPiece a ++ splitArrowFuel fuel b

/-- `util::split(str, "->")`: src/util/strings.cpp:10-30. -/
def splitArrow (s : List Char) : List (List Char) := splitArrowFuel s.length s

/-- `EinsumParser::splitSubscriptInput`: pieces between commas, empty ones included; `between` is
`betweenDelim`.  src/parser/einsum_parser.cpp:100-114. -/
def splitCommaFrom (between : List Char) : List Char → List (List Char)
  | [] => [between]
  | c :: rest => if c = ',' then between :: splitCommaFrom [] rest else splitCommaFrom (between ++ [c]) rest

/-- `EinsumParser::splitSubscriptInput`: src/parser/einsum_parser.cpp:100-114. -/
def splitComma (input : List Char) : List (List Char) := splitCommaFrom [] input

/-- `inp.find("...")`: the text in front of the first three dots and the text behind them.
src/parser/einsum_parser.cpp:89-96, 231. -/
def breakEllipse : List Char → Option (List Char × List Char)
  | [] => none
  | c :: rest =>
    if c = '.' ∧ rest.head? = some '.' ∧ rest.tail.head? = some '.' then some ([], rest.tail.tail)
    else (breakEllipse rest).map (fun p => (c :: p.1, p.2))

/-- `EinsumParser::replaceEllipse`: src/parser/einsum_parser.cpp:87-98. -/
def replaceEllipse (inp new : List Char) : List Char :=
  match breakEllipse inp with
  | none => inp
  | some (a, b) => a ++ new ++ b

/-- `util::join(begin, end, ",")`: include/taco/util/strings.h:34-60, src/parser/einsum_parser.cpp:256. -/
def joinComma : List (List Char) → List Char
  | [] => []
  | [p] => p
  | p :: q :: rest => p ++ ',' :: joinComma (q :: rest)

/-- `std::string(s.end() - n, s.end())`: undefined if the string is shorter.
src/parser/einsum_parser.cpp:250, 259. -/
def lastChars (s : List Char) (n : Nat) : Out (List Char) :=
  if n ≤ s.length then .ok (s.drop (s.length - n)) else .ub

/-- `ellipseCount`: a scalar has none, otherwise the order minus the letters of the subscript.
src/parser/einsum_parser.cpp:235-239. -/
def ellipseCount (order : Nat) (subscript : List Char) : Int :=
  if order > 0 then (max order 1 : Nat) - ((subscript.length : Int) - 3) else 0

/-- The body of the loop over the inputs: the new subscript and the new value of `longest`.
src/parser/einsum_parser.cpp:228-253. -/
def expandOne (unused : List Char) (order : Nat) (longest : Int) (subscript : List Char) :
    Out (List Char × Int) :=
  if '.' ∈ subscript then
    if subscript.count '.' ≠ 3 ∨ breakEllipse subscript = none then .parseError
    else
      let count := ellipseCount order subscript
      let longest := max longest count
      if count < 0 then .parseError
      else if count = 0 then .ok (subscript.filter (fun c => c != '.'), longest)
      else (lastChars unused count.toNat).bind fun new => .ok (replaceEllipse subscript new, longest)
  else .ok (subscript, longest)

/-- The loop over the inputs: src/parser/einsum_parser.cpp:225-254. -/
def expandAll (unused : List Char) : List Nat → Int → List (List Char) → Out (List (List Char) × Int)
  | order :: orders, longest, sub :: subs =>
    (expandOne unused order longest sub).bind fun r =>
      (expandAll unused orders r.2 subs).bind fun rs => .ok (r.1 :: rs.1, rs.2)
  | _, longest, _ => .ok ([], longest)

/-- `unusedSymbols`: src/parser/einsum_parser.cpp:211-223. -/
def unusedSymbols (subscripts : List Char) : List Char :=
  let used := subscripts.filter (fun c => !decide (c ∈ punctuation))
  symbols.filter (fun c => !decide (c ∈ used))

/-- The rewriting of `subscripts` when it contains a dot: src/parser/einsum_parser.cpp:210-273. -/
def expandEllipses (orders : List Nat) (subscripts : List Char) (hasOutput : Bool)
    (inputs : List (List Char)) (output : List Char) : Out (List Char) :=
  if '.' ∈ subscripts then
    let unused := unusedSymbols subscripts
    (expandAll unused orders 0 inputs).bind fun r =>
      let joined := joinComma r.1
      (if r.2 > 0 then lastChars unused r.2.toNat else .ok []).bind fun outEllipse =>
        if hasOutput then .ok (joined ++ '-' :: '>' :: replaceEllipse output outEllipse)
        else
          let normal := (findUniqueIndices joined).filter (fun c => !decide (c ∈ outEllipse))
          .ok (joined ++ '-' :: '>' :: (outEllipse ++ sortChars normal))
  else .ok subscripts

/-- `temp = util::split(subscripts, "->"); output = temp.size() == 2 ? temp[1] : output; input = temp[0]`:
undefined when there is no piece.  src/parser/einsum_parser.cpp:199-201, 277-279. -/
def takeArrow (subscripts oldOutput : List Char) : Out (List Char × List Char) :=
  match splitArrow subscripts with
  | [] => .ub
  | [a] => .ok (a, oldOutput)
  | [a, b] => .ok (a, b)
  | a :: _ => .ok (a, oldOutput)

/-- The maps `subscriptToIndex` and `subscriptToShape`.  The two always have the same keys, so one map from
characters to dimensions stands for both; the index variable of a character is the character.
src/parser/einsum_parser.cpp:125-126. -/
abbrev Dims := List (Char × Nat)

/-- `map.at(c)`. -/
def Dims.at? : Dims → Char → Option Nat
  | [], _ => none
  | (d, n) :: rest, c => if d = c then some n else Dims.at? rest c

/-- `subscriptToIndex.count(i)`: the position `i`, converted to a character, is looked up — not the subscript
at that position.  src/parser/einsum_parser.cpp:139, 144. -/
def countPosition (m : Dims) (i : Nat) : Bool := (Dims.at? m (Char.ofNat (i % 256))).isSome

/-- `map.insert({c, n})`: does nothing when the key is present.  src/parser/einsum_parser.cpp:140, 145. -/
def insertDim (m : Dims) (c : Char) (n : Nat) : Dims :=
  if (Dims.at? m c).isSome then m else m ++ [(c, n)]

/-- The loop over the positions of one subscript: src/parser/einsum_parser.cpp:138-149. -/
def mapOne : Nat → Dims → List Char → List Nat → Out Dims
  | i, m, c :: cs, n :: ns =>
    if countPosition m i then
      match Dims.at? m c with
      | none => .uncaught
      | some n' => if n' ≠ n then .parseError else mapOne (i + 1) m cs ns
    else mapOne (i + 1) (insertDim m c n) cs ns
  | _, m, _, _ => .ok m

/-- The loop over the inputs of `buildResult`: src/parser/einsum_parser.cpp:129-150. -/
def mapAll : Dims → List (List Char) → List (List Nat) → Out Dims
  | m, sub :: subs, dims :: ds =>
    if sub.length ≠ dims.length then .parseError
    else (mapOne 0 m sub dims).bind fun m => mapAll m subs ds
  | m, _, _ => .ok m

/-- `.at` for every character of a string: src/parser/einsum_parser.cpp:153-155, 161-163, 170-173. -/
def lookupAll (m : Dims) : List Char → Out (List Nat)
  | [] => .ok []
  | c :: rest =>
    match Dims.at? m c with
    | none => .uncaught
    | some n => (lookupAll m rest).bind fun ns => .ok (n :: ns)

/-- `.at` for every character of every input: src/parser/einsum_parser.cpp:152-166. -/
def lookupInputs (m : Dims) : List (List Char) → Out Unit
  | [] => .ok ()
  | s :: rest => (lookupAll m s).bind fun _ => lookupInputs m rest

/-- What the parser builds: the result tensor with these dimensions, assigned the product of the operands, each
accessed with the index variables of its subscript, at the index variables of the output.
src/parser/einsum_parser.cpp:157-187. -/
structure Result where
  inputs : List (List Char)
  output : List Char
  shape : List Nat
  deriving Repr, DecidableEq

/-- `EinsumParser::buildResult`; `formatOrder` is the order of the requested output format, 0 when none was
given.  Not modelled: the type of the result, the formats, and the dimension check of the assignment at
the end (property C30).  src/parser/einsum_parser.cpp:120-188. -/
def buildResult (formatOrder : Nat) (tensors : List (List Nat)) (input output : List Char) : Out Result :=
  let inputs := splitComma input
  (mapAll [] inputs tensors).bind fun m =>
    (lookupInputs m inputs).bind fun _ =>
      (lookupAll m output).bind fun shape =>
        if formatOrder ≠ 0 ∧ formatOrder ≠ shape.length then .parseError
        else .ok ⟨inputs, output, shape⟩

/-- The second half of `parse`: src/parser/einsum_parser.cpp:275-300. -/
def finish (formatOrder : Nat) (tensors : List (List Nat)) (subscripts oldOutput : List Char) : Out Result :=
  (if breakArrow subscripts ≠ none then takeArrow subscripts oldOutput
    else .ok (subscripts, findUniqueIndices subscripts)).bind fun p =>
    if p.2.all (fun c => decide (c ∈ p.1)) then
      if (splitComma p.1).length ≠ tensors.length then .parseError
      else buildResult formatOrder tensors p.1 p.2
    else .parseError

/-- `EinsumParser::parse`: src/parser/einsum_parser.cpp:191-301. -/
def parseSubscripts (formatOrder : Nat) (tensors : List (List Nat)) (subscripts : List Char) : Out Result :=
  (exprHasOutput subscripts).bind fun hasOutput =>
    (if hasOutput then takeArrow subscripts [] else .ok (subscripts, [])).bind fun p =>
      let inputs := splitComma p.1
      if inputs.length ≠ tensors.length then .parseError
      else
        (expandEllipses (tensors.map List.length) subscripts hasOutput inputs p.2).bind fun subscripts =>
          finish formatOrder tensors subscripts p.2

/-- Constructing the parser and parsing, as `einsum(expression, tensors...)` does:
src/parser/einsum_parser.cpp:12-36, 191-301, python_bindings/src/pyParsers.cpp:85-101. -/
def einsum (formatOrder : Nat) (tensors : List (List Nat)) (expression : List Char) : Out Result :=
  (construct expression).bind (parseSubscripts formatOrder tensors)

end Verif.Einsum
