/-!
Modules of generated code as their users see them: histories of calls, and what a call should run.
-/
namespace Verif.Library

abbrev Name := List Char

/-- What a function does: something of its own, or to call another one with the arguments it unpacks. -/
inductive Code
  | own (k : Nat)
  | forward (n : Name)
  deriving DecidableEq

/-- A function in C: its name, the functions it calls and what it does. -/
structure Def where
  name : Name
  calls : List Name
  code : Code
  deriving DecidableEq

/-- The name under which a function is called with packed arguments. -/
def shimName (n : Name) : Name := ['_', 's', 'h', 'i', 'm', '_'] ++ n

/-- Calls of users. Modules have the numbers 0, 1, ... in the order in which they are made. -/
inductive Op
  | new
  | add (m : Nat) (f : Def)
  | source (m : Nat) (text : List Def)
  | compile (m : Nat)
  deriving DecidableEq

/-- How many modules a history makes. -/
def made : List Op → Nat
  | [] => 0
  | .new :: h => made h + 1
  | _ :: h => made h

/-- The functions that a history adds to a module. -/
def added (m : Nat) : List Op → List Def
  | [] => []
  | .add i f :: h => if i = m then f :: added m h else added m h
  | _ :: h => added m h

/-- The texts that a history gives to a module. -/
def sources (m : Nat) : List Op → List (List Def)
  | [] => []
  | .source i t :: h => if i = m then t :: sources m h else sources m h
  | _ :: h => sources m h

/-- A C program that can be compiled and loaded: no function is defined twice, and every function that is called is there. -/
structure Fits (ds : List Def) : Prop where
  once : (ds.map Def.name).Nodup
  closed : ∀ d ∈ ds, ∀ n ∈ d.calls, n ∈ ds.map Def.name

/-- Modules are used after they are made. -/
def Made : Nat → List Op → Prop
  | _, [] => True
  | n, .new :: h => Made (n + 1) h
  | n, .add m _ :: h => m < n ∧ Made n h
  | n, .source m _ :: h => m < n ∧ Made n h
  | n, .compile m :: h => m < n ∧ Made n h

end Verif.Library
