/-!
`util::ScopedMap` (include/taco/util/scopedmap.h 14-84); `util::ScopedSet` (scopedset.h) is the case
of values of type `Unit`.

A `std::map` is a function from keys to optional values; `std::list` of scopes is a list, innermost
first. Operations that raise an internal error, or that the code leaves undefined (`unscope` on no
scope), are `none`.
-/
namespace Verif.Scoped

variable {K V : Type} [DecidableEq K]

abbrev Scope (K V : Type) := K → Option V
abbrev SMap (K V : Type) := List (Scope K V)

/-- `std::map::insert`: keeps an existing binding. -/
def insertScope (m : Scope K V) (k : K) (v : V) : Scope K V :=
  fun k' => if k' = k then (match m k with | some v' => some v' | none => some v) else m k'

def eraseScope (m : Scope K V) (k : K) : Scope K V := fun k' => if k' = k then none else m k'

/-- Constructor, lines 17-19. -/
def initial : SMap K V := [fun _ => none]

/-- Operations on the map. -/
inductive Op (K V : Type) where
  | scope
  | unscope
  | insert (k : K) (v : V)
  | remove (k : K)

/-- `remove`, lines 39-48. -/
def remove : SMap K V → K → Option (SMap K V)
  | [], _ => none
  | m :: ms, k =>
    match m k with
    | some _ => some (eraseScope m k :: ms)
    | none => (remove ms k).map (m :: ·)

/-- `scope` 26-28, `unscope` 31-33, `insert` 35-37, `remove` 39-48. -/
def step (s : SMap K V) : Op K V → Option (SMap K V)
  | .scope => some ((fun _ => none) :: s)
  | .unscope => match s with | [] => none | _ :: ms => some ms
  | .insert k v => match s with | [] => none | m :: ms => some (insertScope m k v :: ms)
  | .remove k => remove s k

def run (s : SMap K V) : List (Op K V) → Option (SMap K V)
  | [] => some s
  | o :: os => (step s o).bind (run · os)

/-- `get`, lines 50-58. -/
def get : SMap K V → K → Option V
  | [], _ => none
  | m :: ms, k => match m k with | some v => some v | none => get ms k

/-- `contains`, lines 60-67. -/
def contains : SMap K V → K → Bool
  | [], _ => false
  | m :: ms, k => match m k with | some _ => true | none => contains ms k

end Verif.Scoped
