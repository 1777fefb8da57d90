import Verif.Options.Spec
import Verif.FileIO.Model
/-!
How the command line tool reads its arguments: the loop of `main`, tools/taco.cpp 713-1040. Texts are lists of
characters. Values of options that only go to output, timing and threads are recorded as they are; `-s` is recorded
as its text (`Verif.Schedule` and `Verif.Directive` are about it).
-/
namespace Verif.Options
open Verif.FileIO (fields strtol)

/-- How a step ends: with a value; with the end of the program after the help or the version is printed; with an error that
is reported; with an exception that nobody catches; or with undefined behaviour. -/
inductive Res (α : Type) where
  | ok (a : α)
  | exit
  | error
  | crash
  | undefined
  deriving DecidableEq

/-- What comes after a step that ends with a value. -/
def Res.bind {α β : Type} : Res α → (α → Res β) → Res β
  | .ok a, f => f a
  | .exit, _ => .exit
  | .error, _ => .error
  | .crash, _ => .crash
  | .undefined, _ => .undefined

/-- `util::split` with one character, src/util/strings.cpp 10-30: empty parts are left out. -/
def split (c : Char) (t : Text) : List Text := fields (fun x => x == c) t

/-- `std::stoi`: white space, a sign and digits; what follows is not looked at. No digits and numbers that are not `int`
throw. -/
def stoi (t : Text) : Res Int :=
  if (strtol t).2 = t then .crash
  else if -(2 ^ 31 : Int) ≤ (strtol t).1 ∧ (strtol t).1 < 2 ^ 31 then .ok (strtol t).1 else .crash

/-- `stoi` of several texts, taco.cpp 782-784, 789-791 and 849-851. -/
def stois : List Text → Res (List Int)
  | [] => .ok []
  | t :: ts => (stoi t).bind fun n => (stois ts).bind fun ns => .ok (n :: ns)

/-- `ModeFormat::Dense`, `Sparse` and `Singleton`, format.cpp 383-386 (mode_format_dense.cpp 8-15, mode_format_compressed.cpp 12-23,
mode_format_singleton.cpp 12-23). -/
def denseLevel : Level := ⟨.dense, true, false, true⟩
/-- See `denseLevel`. -/
def sparseLevel : Level := ⟨.compressed, true, false, false⟩
/-- See `denseLevel`. -/
def singletonLevel : Level := ⟨.singleton, true, false, false⟩

/-- The letters of a format, taco.cpp 751-776; a property is changed by `copy` (mode_format_compressed.cpp 25-65,
mode_format_singleton.cpp 25-70). -/
def levelOf (c : Char) : Res Level :=
  if c = 'd' then .ok denseLevel
  else if c = 's' then .ok sparseLevel
  else if c = 'u' then .ok { sparseLevel with unique := false }
  else if c = 'z' then .ok { sparseLevel with zeroless := true }
  else if c = 'c' then .ok { singletonLevel with unique := false }
  else if c = 'q' then .ok singletonLevel
  else if c = 'p' then .ok { singletonLevel with padded := true }
  else .error

/-- The loop over the letters, taco.cpp 750-778. -/
def levelsOf : Text → Res (List Level)
  | [] => .ok []
  | c :: cs => (levelOf c).bind fun l => (levelsOf cs).bind fun ls => .ok (l :: ls)

/-- `Format`: packs of modes and the ordering. -/
structure Fmt where
  packs : List (List Level)
  ordering : List Int
  deriving DecidableEq

/-- The third part, taco.cpp 779-785; without it modes are in their order (line 777). -/
def orderingOf (n : Nat) : List Text → Res (List Int)
  | _ :: _ :: o :: _ => stois (split ',' o)
  | _ => .ok ((List.range n).map Int.ofNat)

/-- The loop that makes packs, taco.cpp 792-801; `bounds` are those from `packBounds[pack]` on, and reading behind them is
undefined. -/
def packLoop : List Int → List Level → List Level → Int → Res (List (List Level))
  | _, [], cur, _ => .ok [cur]
  | [], _ :: _, _, _ => .undefined
  | b :: bs, l :: ls, cur, i =>
    if i = b then (packLoop bs ls [l] (i + 1)).bind fun ps => .ok (cur :: ps) else packLoop (b :: bs) ls (cur ++ [l]) (i + 1)

/-- The fourth part, taco.cpp 786-807. -/
def packsOf (levels : List Level) : List Text → Res (List (List Level))
  | _ :: _ :: _ :: b :: _ => (stois (split ',' b)).bind fun bs => packLoop bs levels [] 0
  | _ => .ok (levels.map fun l => [l])

/-- The constructor of `Format`, format.cpp 49-55. -/
def makeFormat (packs : List (List Level)) (ordering : List Int) : Res Fmt :=
  if packs.flatten.length = ordering.length then .ok ⟨packs, ordering⟩ else .error

/-- The value of `-f`, taco.cpp 740-809. -/
def readFormat (value : Text) : Res (Text × Fmt) :=
  let parts := split ':' value
  match parts with
  | t :: cs :: _ =>
    if parts.length > 4 then .error else
    (levelsOf cs).bind fun levels => (orderingOf levels.length parts).bind fun ordering =>
      (packsOf levels parts).bind fun packs => (makeFormat packs ordering).bind fun f => .ok (t, f)
  | _ => .error

/-- The comparisons of taco.cpp 818-841; the types of C are those of type.h 98-160 on a machine where `long` has 64 bits. -/
def typeTable : List (String × DType) :=
  [("bool", .bool), ("uint8", .uint 8), ("uint16", .uint 16), ("uint32", .uint 32), ("uint64", .uint 64), ("uchar", .uint 8), ("ushort", .uint 16),
    ("uint", .uint 32), ("ulong", .uint 64), ("ulonglong", .uint 64), ("int8", .int 8), ("int16", .int 16), ("int32", .int 32), ("int64", .int 64),
    ("char", .int 8), ("short", .int 16), ("int", .int 32), ("long", .int 64), ("longlong", .int 64), ("float", .float 32), ("double", .float 64),
    ("complexfloat", .complex 64), ("complexdouble", .complex 128)]

/-- The value of a name in a chain of comparisons. -/
def lookup {α : Type} (table : List (String × α)) (name : Text) : Res α :=
  match table with
  | [] => .error
  | (s, a) :: rest => if name = s.toList then .ok a else lookup rest name

/-- The value of `-t`, taco.cpp 810-843. -/
def readType (value : Text) : Res (Text × DType) :=
  match split ':' value with
  | [t, ty] => (lookup typeTable ty).bind fun d => .ok (t, d)
  | _ => .error

/-- The value of `-d`, taco.cpp 844-854: the number of parts is not checked. -/
def readDims (value : Text) : Res (Text × List Int) :=
  match split ':' value with
  | t :: ds :: _ => (stois (split ',' ds)).bind fun ns => .ok (t, ns)
  | _ => .undefined

/-- The letters of `-g`, taco.cpp 866-907. -/
def fillOf (c : Char) : Res Fill :=
  if c = 'd' then .ok .dense
  else if c = 'u' then .ok .uniform
  else if c = 'r' then .ok .random
  else if c = 's' then .ok .sparse
  else if c = 'h' then .ok .hyperSparse
  else if c = 'v' then .ok .slicingV
  else if c = 'l' then .ok .slicingH
  else if c = 'f' then .ok .fem
  else if c = 'b' then .ok .blocked
  else .error

/-- The value of `-g`, taco.cpp 858-909: `fillString[0]`; parts are not empty. -/
def readFill (value : Text) : Res (Text × Fill) :=
  let parts := split ':' value
  match parts with
  | t :: (c :: _) :: _ => if parts.length > 3 then .error else (fillOf c).bind fun f => .ok (t, f)
  | _ => .error

/-- The values of `-i` and `-o`, taco.cpp 910-928. -/
def readFile (value : Text) : Res (Text × Text) :=
  match split ':' value with
  | [t, f] => .ok (t, f)
  | _ => .error

/-- The variables that `main` collects. `values` are the options with a text or a number, in their order. -/
structure Settings where
  formats : List (Text × Fmt)
  types : List (Text × DType)
  dims : List (Text × List Int)
  fills : List (Text × Fill)
  inputs : List (Text × Text)
  outputs : List (Text × Text)
  flags : List String
  values : List (String × Text)
  expr : Text
  deriving DecidableEq

/-- Before the loop, taco.cpp 659-711. -/
def Settings.empty : Settings := ⟨[], [], [], [], [], [], [], [], []⟩

/-- `map::insert`: an entry that is there stays. -/
def insert {α : Type} (m : List (Text × α)) (k : Text) (a : α) : List (Text × α) :=
  match m.lookup k with
  | some _ => m
  | none => m ++ [(k, a)]

/-- Options without a value, taco.cpp 855-857, 935-952, 968-970, 987-989 and 1019-1021; a value is not looked at. -/
def flagTable : List (String × String) :=
  [("-c", "c"), ("-print-compute", "print-compute"), ("-print-assembly", "print-assembly"), ("-print-evaluate", "print-evaluate"),
    ("-print-concrete", "print-concrete"), ("-print-iteration-graph", "print-iteration-graph"), ("-print-nocolor", "print-nocolor"),
    ("-verify", "verify"), ("-cuda", "cuda"), ("-print-kernels", "print-kernels")]

/-- Options whose value is taken as it is, taco.cpp 964-967, 971-986, 1022-1032. -/
def valueTable : List (String × String) :=
  [("-write-time", "write-time"), ("-write-compute", "write-compute"), ("-write-assembly", "write-assembly"), ("-write-source", "write-source"),
    ("-read-source", "read-source"), ("-s", "s"), ("-prefix", "prefix")]

/-- `-time` and `-nthreads`, taco.cpp 953-963 and 1011-1018: exceptions are caught. -/
def readNumber (value : Text) : Res Int :=
  match stoi value with
  | .ok n => .ok n
  | _ => .error

/-- `-schedule`, taco.cpp 990-1010. -/
def checkSchedule (value : Text) : Res Unit :=
  match split ',' value with
  | [s] => if s = "static".toList ∨ s = "dynamic".toList then .ok () else .error
  | [s, n] => if s = "static".toList ∨ s = "dynamic".toList then (readNumber n).bind fun _ => .ok () else .error
  | _ => .error

/-- The last branches: options without a value, options with one, and everything else, which is the expression (taco.cpp
1033-1039). -/
def stepOther (s : Settings) (raw name value : Text) : Res Settings :=
  match lookup flagTable name with
  | .ok f => .ok { s with flags := s.flags ++ [f] }
  | _ =>
    match lookup valueTable name with
    | .ok v => .ok { s with values := s.values ++ [(v, value)] }
    | _ => if s.expr ≠ [] then .error else .ok { s with expr := raw }

/-- The body of the loop for an argument with this name and value, taco.cpp 727-1039. `raw` is the argument itself. -/
def stepNamed (s : Settings) (raw name value : Text) : Res Settings :=
  if name = "-help".toList then .exit
  else if name = "-version".toList then .exit
  else if name = "-f".toList then (readFormat value).bind fun p => .ok { s with formats := insert s.formats p.1 p.2 }
  else if name = "-t".toList then (readType value).bind fun p => .ok { s with types := insert s.types p.1 p.2 }
  else if name = "-d".toList then (readDims value).bind fun p => .ok { s with dims := insert s.dims p.1 p.2 }
  else if name = "-g".toList then (readFill value).bind fun p => .ok { s with fills := insert s.fills p.1 p.2 }
  else if name = "-i".toList then (readFile value).bind fun p => .ok { s with inputs := insert s.inputs p.1 p.2 }
  else if name = "-o".toList then (readFile value).bind fun p => .ok { s with outputs := insert s.outputs p.1 p.2 }
  else if name = "-O".toList then (if (split ':' value).length > 1 then .error else .ok { s with values := s.values ++ [("O", value)] })
  else if name = "-time".toList then
    (if value = [] then .ok { s with values := s.values ++ [("time", value)] } else (readNumber value).bind fun _ => .ok { s with values := s.values ++ [("time", value)] })
  else if name = "-nthreads".toList then (readNumber value).bind fun _ => .ok { s with values := s.values ++ [("nthreads", value)] }
  else if name = "-schedule".toList then (checkSchedule value).bind fun _ => .ok { s with values := s.values ++ [("schedule", value)] }
  else stepOther s raw name value

/-- The argument without the first of two hyphens, taco.cpp 714-718. -/
def strip : Text → Text
  | '-' :: '-' :: t => '-' :: t
  | t => t

/-- The body of the loop, taco.cpp 713-1040; `argparts[0]` of an empty list is undefined. -/
def step (s : Settings) (arg : Text) : Res Settings :=
  match split '=' (strip arg) with
  | [] => .undefined
  | [name] => stepNamed s arg name []
  | [name, value] => stepNamed s arg name value
  | _ => .error

/-- The loop over the arguments. -/
def run : Settings → List Text → Res Settings
  | s, [] => .ok s
  | s, a :: as => (step s a).bind fun s' => run s' as

end Verif.Options
