import Verif.Library.Spec
/-!
Modules of generated code: src/codegen/module.cpp, with the compiler, the files and the dynamic loader as far as they matter. A C file is a
list of functions; the runtime functions at its beginning, the header and the flags of compilers are left out.
-/
namespace Verif.Library

/-- `CodeGen_C::generateShim`, codegen_c.cpp 591-628: a function that unpacks arguments and calls `f`. -/
def shimOf (f : Def) : Def := ⟨shimName f.name, [f.name], .forward f.name⟩

/-- A module, module.h 15-85: `path` is `tmpdir+libname`, `handle` is `lib_handle`. -/
structure Mod where
  path : Nat
  handle : Option Nat
  funcs : List Def
  source : List Def
  user : Bool

/-- The process: modules, C files by their path, and the libraries the loader holds, with their number of users. Libraries on disk are not
kept: one is read right after it is written. -/
structure Proc where
  mods : List Mod
  files : Nat → Option (List Def)
  loaded : Nat → Option (List Def × Nat)

/-- A process that begins. -/
def Proc.start : Proc := ⟨[], fun _ => none, fun _ => none⟩

/-- A table with a new entry. -/
def put {α : Type} (t : Nat → Option α) (k : Nat) (a : Option α) : Nat → Option α := fun x => if x = k then a else t x

/-- `compileToSource`, module.cpp 43-79: code is generated anew, unless it is the user's. -/
def generate (m : Mod) : Mod := if m.user then m else { m with source := m.funcs }

/-- `compileToSource` and `writeShims`, module.cpp 69-77 and 87-108: what the C file has in the end. -/
def text (m : Mod) : List Def := (generate m).source ++ m.funcs.map shimOf

/-- No name twice: the C compiler rejects redefinitions. -/
def once (ds : List Def) : Bool := decide (ds.map Def.name).Nodup

/-- Every function that is called is there: with `RTLD_NOW` the loader rejects the library otherwise (calls of functions that are not
declared are accepted by the compiler). -/
def closed (ds : List Def) : Bool := ds.all fun d => d.calls.all fun n => (ds.map Def.name).contains n

/-- The libraries the loader holds. -/
abbrev Held := Nat → Option (List Def × Nat)

/-- `dlclose`: the library goes when its last user goes. -/
def dlclose (t : Held) (path : Nat) : Held :=
  match t path with
  | some (l, c + 2) => put t path (some (l, c + 1))
  | _ => put t path none

/-- `dlopen` of a library with the text `l`: one that is there under the same path is used again; otherwise it is read. -/
def dlopen (t : Held) (path : Nat) (l : List Def) : Held × Option Nat :=
  match t path with
  | some (l', c) => (put t path (some (l', c + 1)), some path)
  | none => if closed l then (put t path (some (l, 1)), some path) else (t, none)

/-- How a call of the user ends. -/
inductive Outcome
  | done
  | failed
  | undefined
  deriving DecidableEq

/-- A module is changed. -/
def setMod (p : Proc) (i : Nat) (m : Mod) : Proc := { p with mods := p.mods.set i m }

/-- The call of `dlclose`, module.cpp 158-160. -/
def close (t : Held) : Option Nat → Held
  | some q => dlclose t q
  | none => t

/-- `compile`, module.cpp 112-165: the C file is written; the compiler makes a library, or fails and the module keeps the library it has; the
library is loaded in place of that one, or loading fails and the module has none. -/
def compileMod (p : Proc) (i : Nat) (m : Mod) : Proc × Outcome :=
  if once (text m) then
    let r := dlopen (close p.loaded m.handle) m.path (text m)
    (⟨p.mods.set i { generate m with handle := r.2 }, put p.files m.path (some (text m)), r.1⟩, if r.2.isSome then .done else .failed)
  else (⟨p.mods.set i (generate m), put p.files m.path (some (text m)), p.loaded⟩, .failed)

/-- A call of the user; `paths` are the names of the modules that are made, module.cpp 29-37. -/
def step (paths : Nat → Nat) (p : Proc) : Op → Proc × Outcome
  | .new => ({ p with mods := p.mods ++ [⟨paths p.mods.length, none, [], [], false⟩] }, .done)
  | .add i f =>
    match p.mods[i]? with
    | some m => (setMod p i { m with funcs := m.funcs ++ [f] }, .done)
    | none => (p, .undefined)
  | .source i t =>
    match p.mods[i]? with
    | some m => (setMod p i { m with source := m.source ++ t, user := true }, .done)
    | none => (p, .undefined)
  | .compile i =>
    match p.mods[i]? with
    | some m => compileMod p i m
    | none => (p, .undefined)

/-- A history of calls. -/
def run (paths : Nat → Nat) : Proc → List Op → Proc
  | p, [] => p
  | p, o :: h => run paths (step paths p o).1 h

/-- What a call of a compiled function runs. -/
inductive Ran
  | code (k : Nat)
  | undefined
  deriving DecidableEq

/-- `dlsym` in a library. -/
def find (l : List Def) (n : Name) : Option Def := l.find? fun d => d.name == n

/-- A function in a library: its own code, or that of the one it calls. Functions that forward to functions that forward are left out. -/
def exec (l : List Def) (d : Def) : Ran :=
  match d.code with
  | .own k => .code k
  | .forward g =>
    match find l g with
    | some ⟨_, _, .own k⟩ => .code k
    | _ => .undefined

/-- `callFuncPacked`, module.h 57-65 and module.cpp 180-216: without a library `dlsym` looks elsewhere, and a function that is not there is a
null pointer. -/
def call (p : Proc) (i : Nat) (n : Name) : Ran :=
  match p.mods[i]? with
  | some ⟨_, some q, _, _, _⟩ =>
    match p.loaded q with
    | some (l, _) =>
      match find l (shimName n) with
      | some d => exec l d
      | none => .undefined
    | none => .undefined
  | _ => .undefined

/-- `TensorBase::compileSource`, tensor.cpp 905-930, for a tensor whose module is `m`: shims for `assemble` and `compute` are added to the
text. -/
def compileSource (m : Nat) (t : List Def) : List Op :=
  [.source m (t ++ [shimOf ⟨"assemble".toList, [], .own 0⟩, shimOf ⟨"compute".toList, [], .own 0⟩]), .compile m]

end Verif.Library
