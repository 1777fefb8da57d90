import Verif.Decimal
/-!
Tensor files: `.tns` (src/storage/file_io_tns.cpp), `.mtx` (src/storage/file_io_mtx.cpp), `.rb`
(src/storage/file_io_rb.cpp), at the level of characters.

Simplifications
* A stream is the list of lines that `std::getline` gives.
* Printing and reading of component values (`<<` and `strtod`/`stod`) are parameters; theorems ask that the value
  printed is the value read.
* Coordinates and dimensions are natural numbers without an upper bound; `taco_uassert`s on `INT_MAX` are left out,
  except that a negative number read from a file is kept as it is.
* The tensor that is read is its dimensions and the list of components in the order in which they are inserted.
  (What `insert` and `pack` make of that list is modelled in `Verif.Assembly` and `Verif.Pack`.)
-/
namespace Verif.FileIO

/-- `isspace` of the C locale, which `strtol`, `strtod` and `>>` skip in the readers, e.g. file_io_tns.cpp 58. -/
def isSpace (c : Char) : Bool := c == ' ' || (decide (9 ≤ c.toNat) && decide (c.toNat ≤ 13))

/-- The lines that `std::getline` gives, `cur` being the characters of the current line. -/
def linesAux : List Char → List Char → List (List Char)
  | cur, [] => if cur = [] then [] else [cur]
  | cur, '\n' :: cs => cur :: linesAux [] cs
  | cur, c :: cs => linesAux (cur ++ [c]) cs

/-- The lines of a stream: the loops over `std::getline`, e.g. file_io_tns.cpp 43 and 67. -/
def lines (s : List Char) : List (List Char) := linesAux [] s

/-- The maximal runs without separators: `util::split` (src/util/strings.cpp 10-30) with one character, and repeated
`iss >> word` with `isspace`. -/
def fieldsAux (sep : Char → Bool) : List Char → List Char → List (List Char)
  | cur, [] => if cur = [] then [] else [cur]
  | cur, c :: cs =>
    if sep c then (if cur = [] then fieldsAux sep [] cs else cur :: fieldsAux sep [] cs)
    else fieldsAux sep (cur ++ [c]) cs

/-- See `fieldsAux`. -/
def fields (sep : Char → Bool) (s : List Char) : List (List Char) := fieldsAux sep [] s

/-- The sign before a number: see `strtol`. -/
def isMinus : List Char → Bool
  | '-' :: _ => true
  | _ => false

/-- What follows the sign: see `strtol`. -/
def afterSign : List Char → List Char
  | '-' :: u => u
  | '+' :: u => u
  | u => u

/-- `strtol(s, &s, 10)` (called in file_io_tns.cpp 58, file_io_mtx.cpp 103, 120) and `strtoul` (for which a sign is
not modelled otherwise): value and the rest of the text. -/
def strtol (s : List Char) : Int × List Char :=
  let t := s.dropWhile isSpace
  let d := (afterSign t).takeWhile isDigit
  if d = [] then (0, s) else ((if isMinus t then -(decVal d : Int) else decVal d), (afterSign t).dropWhile isDigit)

/-- `n` numbers from a line: the inner loops of the readers, file_io_tns.cpp 57-62, file_io_mtx.cpp 119-123. -/
def strtols : Nat → List Char → List Int × List Char
  | 0, s => ([], s)
  | n + 1, s => let r := strtol s
    let q := strtols n r.2
    (r.1 :: q.1, q.2)

/-- Printing and reading of values: file_io_tns.cpp 64 and 110. -/
structure Num (V : Type) where
  /-- `stream << value` -/
  print : V → List Char
  /-- `strtod` after white space -/
  read : List Char → V

variable {V : Type}

/-- `strtod(linePtr, &linePtr)`, file_io_tns.cpp 64, file_io_mtx.cpp 124, 193. -/
def strtod (N : Num V) (s : List Char) : V := N.read (s.dropWhile isSpace)

/-! ### TNS -/

/-- The line of a component: `writeTypedTNS`, file_io_tns.cpp 106-110, and `writeSparseTyped`, file_io_mtx.cpp 256-260. -/
def compLine (N : Num V) (c : List Nat × V) : List Char := (c.1.flatMap fun k => dec (k + 1) ++ [' ']) ++ N.print c.2

/-- `writeTypedTNS`, file_io_tns.cpp 104-112. -/
def writeTNS (N : Num V) (comps : List (List Nat × V)) : List Char := comps.flatMap fun c => compLine N c ++ ['\n']

/-- `std::max(dimensions[i], (int)idx)`, file_io_tns.cpp 61. -/
def maxDims : List Int → List Int → List Int
  | d :: ds, i :: is => max d i :: maxDims ds is
  | ds, _ => ds

/-- The loop over the lines, file_io_tns.cpp 55-67. -/
def tnsLines (N : Num V) (order : Nat) : List (List Char) → List Int → List Int × List (List Int × V)
  | [], dims => (dims, [])
  | l :: ls, dims =>
    let r := strtols order l
    let q := tnsLines N order ls (maxDims dims r.1)
    (q.1, (r.1.map (· - 1), strtod N r.2) :: q.2)

/-- `dispatchReadTNS`, file_io_tns.cpp 39-86: dimensions and components. An empty file gives the default tensor;
`none`: the first line has no field, and a vector of `SIZE_MAX` elements is requested. -/
def readTNS (N : Num V) (text : List Char) : Option (List Int × List (List Int × V)) :=
  match lines text with
  | [] => some ([], [])
  | l :: ls =>
    match fields (· == ' ') l with
    | [] => none
    | _ :: fs => some (tnsLines N fs.length (l :: ls) (List.replicate fs.length 0))

/-! ### MTX -/

/-- `util::join(tensor.getDimensions(), " ")`, file_io_mtx.cpp 254. -/
def joinDims : List Nat → List Char
  | [] => []
  | [d] => dec d
  | d :: ds => dec d ++ ' ' :: joinDims ds

/-- The first line of a file, file_io_mtx.cpp 249-252 and 307-310. -/
def header (order : Nat) (fmt sym : List Char) : List Char :=
  "%%MatrixMarket ".toList ++ (if order = 2 then "matrix".toList else "tensor".toList) ++ ' ' :: fmt ++ " real ".toList ++ sym

/-- `writeSparseTyped`, file_io_mtx.cpp 247-261. `getSize()` is the number of components (C05). -/
def writeSparse (N : Num V) (dims : List Nat) (comps : List (List Nat × V)) : List Char :=
  header dims.length "coordinate".toList "general".toList ++ '\n' :: '%' :: '\n' ::
    joinDims dims ++ ' ' :: dec comps.length ++ '\n' :: comps.flatMap fun c => compLine N c ++ ['\n']

/-- `writeDenseTyped`, file_io_mtx.cpp 305-315: the values in the order of iteration. -/
def writeDense (N : Num V) (dims : List Nat) (vals : List V) : List Char :=
  header dims.length "array".toList "general".toList ++ '\n' :: '%' :: '\n' ::
    joinDims dims ++ ' ' :: '\n' :: vals.flatMap fun v => N.print v ++ ['\n']

/-- `iss >> token`: the first word of a line; the old token when there is none. -/
def firstToken (token line : List Char) : List Char := (fields isSpace line).headD token

/-- The loop that skips comments, file_io_mtx.cpp 90-98 and 166-174. `token` keeps its value when a line has no word.
The result is the line after the comments (the last line, if all are comments) and the lines after it. -/
def skipComments (token line : List Char) : List (List Char) → List Char × List (List Char)
  | [] => (line, [])
  | l :: ls => if (firstToken token line).head? ≠ some '%' then (line, l :: ls) else skipComments (firstToken token line) l ls

/-- `while (size_t dimension = strtoul(linePtr, &linePtr, 10))`, file_io_mtx.cpp 103-106. The first argument bounds
the iterations: every one consumes a character. -/
def readDims : Nat → List Char → List Int
  | 0, _ => []
  | f + 1, s => let r := strtol s
    if r.1 = 0 then [] else r.1 :: readDims f r.2

/-- Insertion of component number `i`, file_io_mtx.cpp 137-148, from arrays that have been filled: reading behind
their end is undefined. -/
def insertSparse (order : Nat) (symm : Bool) (coords : List Int) (vals : List V) (i : Nat) : Option (List (List Int × V)) :=
  if (coords.drop (i * order)).length < order then none else
  match vals[i]? with
  | none => none
  | some v =>
    let coord := ((coords.drop (i * order)).take order).map (· - 1)
    if symm ∧ coord.head? ≠ coord.getLast? then some [(coord, v), (coord.reverse, v)] else some [(coord, v)]

/-- `dispatchReadSparse`, file_io_mtx.cpp 84-151, from the lines after the first. `none`: undefined behaviour or a
`taco_uassert`. -/
def readSparse (N : Num V) (symm : Bool) (ls : List (List Char)) : Option (List Int × List (List Int × V)) :=
  let r := skipComments [] (ls.headD []) ls.tail
  let all := readDims (r.1.length + 1) r.1
  match all.getLast? with
  | none => none
  | some nnz =>
    let dims := all.dropLast
    if symm ∧ dims.length ≠ 2 then none else
    let coords := r.2.flatMap fun l => (strtols dims.length l).1
    let vals := r.2.map fun l => strtod N (strtols dims.length l).2
    ((List.range nnz.toNat).mapM (insertSparse dims.length symm coords vals)).map fun cs => (dims, cs.flatten)

/-- The coordinate of value number `n`, file_io_mtx.cpp 207-213. -/
def denseCoord : List Nat → Nat → List Nat
  | [], _ => []
  | [_], n => [n]
  | d :: ds, n => n % d :: denseCoord ds (n / d)

/-- Insertion of value number `n`, file_io_mtx.cpp 206-219. -/
def insertDense (dims : List Nat) (symm : Bool) (vals : List V) (n : Nat) : Option (List (List Nat × V)) :=
  match vals[n]? with
  | none => none
  | some v =>
    let coord := denseCoord dims n
    if symm ∧ coord.head? ≠ coord.getLast? then some [(coord, v), (coord.reverse, v)] else some [(coord, v)]

/-- `dispatchReadDense`, file_io_mtx.cpp 161-222, from the lines after the first. -/
def readDense (N : Num V) (symm : Bool) (ls : List (List Char)) : Option (List Nat × List (List Nat × V)) :=
  let r := skipComments [] (ls.headD []) ls.tail
  let dims := (readDims (r.1.length + 1) r.1).map Int.toNat
  if symm ∧ dims.length ≠ 2 then none else
  let vals := r.2.map (strtod N)
  ((List.range (dims.foldl (· * ·) 1)).mapM (insertDense dims symm vals)).map fun cs => (dims, cs.flatten)

/-- Which reader `dispatchReadMTX` calls and whether the file is symmetric, file_io_mtx.cpp 43-67; `none`: an error. -/
def mtxKind (line : List Char) : Option (Bool × Bool) :=
  match fields isSpace line with
  | head :: type :: formats :: field :: symmetry :: _ =>
    if head = "%%MatrixMarket".toList ∧ (type = "matrix".toList ∨ type = "tensor".toList) ∧ field = "real".toList ∧
        (symmetry = "general".toList ∨ symmetry = "symmetric".toList) then
      if formats = "coordinate".toList then some (true, decide (symmetry = "symmetric".toList))
      else if formats = "array".toList then some (false, decide (symmetry = "symmetric".toList))
      else none
    else none
  | _ => none

/-- `dispatchReadMTX`, file_io_mtx.cpp 37-73. -/
def readMTX (N : Num V) (text : List Char) : Option (List Int × List (List Int × V)) :=
  match lines text with
  | [] => some ([], [])
  | l :: ls =>
    match mtxKind l with
    | none => none
    | some (true, symm) => readSparse N symm ls
    | some (false, symm) => (readDense N symm ls).map fun r => (r.1.map Int.ofNat, r.2.map fun c => (c.1.map Int.ofNat, c.2))

/-! ### Harwell-Boeing -/

/-- `writeIndices` and `writeValues`, file_io_rb.cpp 260-269, 285-299: every entry and a blank, a newline after every
`per` entries and at the end of an incomplete line; `i` is the loop counter. -/
def rbWrite (per : Nat) : Nat → List (List Char) → List Char
  | i, [] => if (i - 1) % per ≠ 0 then ['\n'] else []
  | i, e :: es => e ++ ' ' :: (if i % per = 0 then '\n' :: rbWrite per (i + 1) es else rbWrite per (i + 1) es)

/-- `ptrsize/16 + (ptrsize%16!=0)`, file_io_rb.cpp 121-123. -/
def rbLines (size per : Nat) : Nat := size / per + (if size % per ≠ 0 then 1 else 0)

/-- `readIndices` and `readValues`, file_io_rb.cpp 246-258, 271-283: the words of so many lines. -/
def rbRead (n : Nat) (ls : List (List Char)) : List (List Char) × List (List Char) :=
  ((ls.take n).flatMap (fields isSpace), ls.drop n)

/-- `std::stoi(ptr)`, file_io_rb.cpp 254. -/
def stoi (w : List Char) : Int := (strtol w).1

/-- The text of a value, file_io_rb.cpp 289-293: a whole number is printed with `.0` after it. -/
def rbValue (N : Num V) (isWhole : V → Bool) (v : V) : List Char := if isWhole v then N.print v ++ ['.', '0'] else N.print v

/-- `writeFile` and `writeHeader`, file_io_rb.cpp 89-140, 230-244. -/
def writeRB (N : Num V) (isWhole : V → Bool) (key : List Char) (nrow ncol : Nat) (colptr rowind : List Nat) (vals : List V) : List Char :=
  let valcrd := rbLines vals.length 10
  let ptrcrd := rbLines colptr.length 16
  let indcrd := rbLines rowind.length 16
  "CSC Matrix written by taco ".toList ++ key ++ '\n' ::
    (dec (ptrcrd + indcrd + valcrd) ++ ' ' :: (dec ptrcrd ++ ' ' :: (dec indcrd ++ ' ' :: (dec valcrd ++ ' ' :: (dec 0 ++ '\n' ::
    ("RUA".toList ++ ' ' :: (dec nrow ++ ' ' :: (dec ncol ++ ' ' :: (dec vals.length ++ ' ' :: (dec 0 ++ '\n' ::
    ("(16I5) (16I5) (10F7.1) ".toList ++ '\n' ::
    (rbWrite 16 1 (colptr.map fun i => dec (i + 1)) ++ (rbWrite 16 1 (rowind.map fun i => dec (i + 1)) ++
      rbWrite 10 1 (vals.map (rbValue N isWhole)))))))))))))))

/-- What is read from an array that is written entry by entry (file_io_rb.cpp 254, 279) after `malloc` for `cap` entries (lines 52, 67, 81): writing behind its end is undefined. -/
def fill {α : Type} (cap : Nat) (xs : List α) : Option (List α) := if xs.length ≤ cap then some xs else none

/-- `readHeader` and `readFile`, file_io_rb.cpp 22-87, 142-229: rows, columns, and the three arrays. `none`: an
assertion fails or the file has another shape, or an array overflows. -/
def readRB (N : Num V) (text : List Char) : Option (Int × Int × List Int × List Int × List V) :=
  match lines text with
  | _ :: l2 :: l3 :: _ :: ls =>
    match fields isSpace l2, fields isSpace l3 with
    | [_, ptrcrd, indcrd, valcrd, rhscrd], [mxtype, nrow, ncol, nnz, _] =>
      if mxtype ≠ "RUA".toList then none
      else if stoi rhscrd > 0 then none
      else
        let r1 := rbRead (stoi ptrcrd).toNat ls
        let r2 := rbRead (stoi indcrd).toNat r1.2
        let r3 := rbRead (stoi valcrd).toNat r2.2
        (fill ((stoi ncol).toNat + 1) r1.1).bind fun colptr => (fill (stoi nnz).toNat r2.1).bind fun rowind =>
          (fill (stoi nnz).toNat r3.1).map fun vals =>
            (stoi nrow, stoi ncol, colptr.map (stoi · - 1), rowind.map (stoi · - 1), vals.map N.read)
    | _, _ => none
  | _ => none

end Verif.FileIO
