import Verif.Paths.Spec
/-! C99: paths of files, the temporary directory and the command that compiles generated code. The file system is the
list of the paths that exist; contents, permissions other than the one that is asked for, and links are not modelled. -/
namespace Verif.Paths

/-- files.cpp 14-20: `home` is `getenv("HOME")`; `string::replace` with a null pointer is undefined. -/
def sanitizePath (home : Option Text) : Text → Outcome Text
  | '~' :: r =>
    match home with
    | some h => .ok (h ++ r)
    | none => .undefined
  | p => .ok p

/-- The path that is opened for a tensor (options `-i`, `-o`, functions `read` and `write`) and for `-read-source`:
files.cpp 22-25 with file_io_tns.cpp 24, 99, file_io_mtx.cpp 23, 235, file_io_rb.cpp 312, 358, taco.cpp 1216. -/
def openedForTensor (home : Option Text) (p : Text) : Outcome Text := sanitizePath home p

/-- The path that is opened for `-write-time`, `-write-compute`, `-write-assembly` and `-write-source`: taco.cpp 1410,
1418, 1430, 1442 call `ofstream::open` on the argument. -/
def openedForSource (_home : Option Text) (p : Text) : Outcome Text := .ok p

/-- env.h 32-34 and 53-55: a slash is added if there is none at the end. -/
def addSlash (t : Text) : Text := if t.getLast? = some '/' then t else t ++ ['/']

/-- The fixed part of the template, env.h 44. -/
def template : Text := "taco_tmp_".toList

/-- env.h 27-67: `cached` is `cachedtmpdir`, `env` is the variable `TMPDIR`, `writable` the answer of `access` and
`made` the six letters that `mkdtemp` chooses (nothing if it fails). `back` of the empty text is undefined. -/
def getTmpdir (env : Option Text) (writable : Bool) (made : Option Text) (cached : Text) : Outcome Text :=
  if cached = [] then
    match env.getD "/tmp/".toList with
    | [] => .undefined
    | c :: t =>
      if c = '/' then
        if writable then
          match made with
          | none => .reported
          | some s => .ok (addSlash (addSlash (c :: t) ++ template ++ s))
        else .reported
      else .reported
  else .ok cached

/-- A process that uses the library: its number and its `cachedtmpdir` (env.cpp 9). -/
structure Proc where
  pid : Nat
  cached : Text
deriving DecidableEq, Repr

/-- The processes that run and the paths that exist. -/
structure State where
  procs : List Proc
  paths : List Text
deriving DecidableEq, Repr

/-- What processes do: start, ask for the temporary directory, write a file, duplicate themselves, end. -/
inductive Event where
  | start (pid : Nat)
  | tmpdir (pid : Nat) (env : Option Text) (writable : Bool) (made : Option Text)
  | write (pid : Nat) (path : Text)
  | fork (pid new : Nat)
  | exit (pid : Nat)
deriving DecidableEq, Repr

/-- The `cachedtmpdir` of a process; empty if there is none. -/
def dirOf (pid : Nat) : List Proc → Text
  | [] => []
  | p :: ps => if p.pid = pid then p.cached else dirOf pid ps

/-- Assignment of `cachedtmpdir`, env.h 60. -/
def setDir (pid : Nat) (d : Text) : List Proc → List Proc
  | [] => []
  | p :: ps => if p.pid = pid then { p with cached := d } :: ps else p :: setDir pid d ps

/-- env.cpp 19-25 with `nftw` and 11-17: everything in the directory is removed, then the directory. Nothing if there
is no directory. -/
def cleanup (d : Text) (paths : List Text) : List Text :=
  if d = [] then paths else paths.filter fun p => !(d.isPrefixOf p)

/-- One event. `debug` is `TACO_DEBUG`, with which `atexit` is not called (env.h 62-65). A duplicate has the variables
and the `atexit` functions of the original (fork(2), atexit(3)). Errors that are reported leave everything as it is. -/
def step (debug : Bool) (s : State) : Event → Outcome State
  | .start pid => .ok { s with procs := s.procs ++ [⟨pid, []⟩] }
  | .tmpdir pid env writable made =>
    match getTmpdir env writable made (dirOf pid s.procs) with
    | .ok d =>
      if dirOf pid s.procs = [] then .ok ⟨setDir pid d s.procs, s.paths ++ [d]⟩ else .ok s
    | .reported => .ok s
    | .undefined => .undefined
  | .write _ path => .ok { s with paths := s.paths ++ [path] }
  | .fork pid new => .ok { s with procs := s.procs ++ [⟨new, dirOf pid s.procs⟩] }
  | .exit pid =>
    .ok ⟨s.procs.filter fun p => p.pid ≠ pid, if debug then s.paths else cleanup (dirOf pid s.procs) s.paths⟩

/-- A history. -/
def run (debug : Bool) (s : State) : List Event → Outcome State
  | [] => .ok s
  | e :: es =>
    match step debug s e with
    | .ok s' => run debug s' es
    | .reported => .reported
    | .undefined => .undefined

/-- taco.cpp 933: the directory of `-O`. -/
def outputDirectory (arg : Text) (env : Option Text) (writable : Bool) (made : Option Text) (cached : Text) :
    Outcome Text :=
  if arg ≠ [] then .ok arg else getTmpdir env writable made cached

/-- taco.cpp 1493-1502: the files that are written (`write` replaces `~` by the home directory). -/
def outputFiles (home : Option Text) (dir : Text) : List Text → Outcome (List Text)
  | [] => .ok []
  | name :: names =>
    match sanitizePath home (dir ++ '/' :: name ++ ".tns".toList), outputFiles home dir names with
    | .ok f, .ok fs => .ok (f :: fs)
    | .undefined, _ => .undefined
    | _, .undefined => .undefined
    | _, _ => .reported

/-- module.cpp 111-146 for C: the command. `cc` and `cflags` are texts from the environment or defaults. -/
def command (cc cflags tmpdir libname : Text) : Text :=
  cc ++ ' ' :: (cflags ++ ' ' :: (tmpdir ++ libname ++ ".c".toList ++ ' ' :: ([] ++ ' ' ::
    ("-o ".toList ++ (tmpdir ++ libname ++ ".so".toList) ++ " -lm".toList))))

end Verif.Paths
