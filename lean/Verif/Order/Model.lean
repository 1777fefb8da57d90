import Verif.Decimal
/-!
How the compiler tells apart index variables, accesses and iterators: their comparison operators, the
search trees (`std::map`, `std::set`) in which they are keys, and the names given to unnamed index
variables.

* Objects compared by address (`TensorVar`, `TensorBase`, IR tensors, contents of iterators) carry a
  number; nothing is assumed about the order of addresses.
* A `std::map` is a search tree; re-balancing is not modelled but allowed in the theorems
  (`Spec.Inserted`).
-/
namespace Verif.Order

/-! ### Comparison of lists, pairs and maps by the standard library -/

/-- `std::lexicographical_compare`, used by `operator<` of `std::vector`, `std::map` and `std::string`. -/
def lexLess {α : Type} (lt : α → α → Bool) : List α → List α → Bool
  | [], [] => false
  | [], _ :: _ => true
  | _ :: _, [] => false
  | a :: as, b :: bs => if lt a b then true else if lt b a then false else lexLess lt as bs

/-- `operator<` of `std::pair` with an integer as first component. -/
def pairLess {α : Type} (lt : α → α → Bool) (a b : Int × α) : Bool :=
  decide (a.1 < b.1) || (!decide (b.1 < a.1) && lt a.2 b.2)

/-- `operator<` of `int`. -/
def intLess (a b : Int) : Bool := decide (a < b)

/-- `operator<` of characters and of addresses. -/
def natLess (a b : Nat) : Bool := decide (a < b)

/-! ### Index variables -/

/-- The name of an index variable. -/
abbrev Name := List Char

/-- `operator<` of `std::string`. -/
def charLess (a b : Char) : Bool := decide (a.toNat < b.toNat)

/-- `operator==` of index variables, src/index_notation/index_notation.cpp 2453-2455 and
index_notation_nodes.cpp 74-76: by name. -/
def varEq (a b : Name) : Bool := decide (a = b)

/-- `operator<` of index variables, index_notation.cpp 2457-2459 and index_notation_nodes.cpp 78-80. -/
def varLess (a b : Name) : Bool := lexLess charLess a b

/-- `uniqueName('i')`, src/util/name_generator.cpp 17-19, for the value `n` of the counter. -/
def generated (n : Nat) : Name := 'i' :: dec n

/-- How an index variable is made: `IndexVar()` or `IndexVar(name)`. -/
inductive Made
  | unnamed
  | named (n : Name)
  deriving DecidableEq, Repr

/-- The names of index variables made one after the other; `IndexVar()` takes the next value of the
counter, index_notation.cpp 2420, `IndexVar(name)` takes the name as it is, 2422-2424. -/
def names (counter : Nat) : List Made → List Name
  | [] => []
  | .unnamed :: ms => generated counter :: names (counter + 1) ms
  | .named n :: ms => n :: names counter ms

/-! ### Accesses -/

/-- `AccessWindow`, include/taco/index_notation/index_notation_nodes.h 56-62. -/
structure Window where
  lo : Int
  hi : Int
  stride : Int
  deriving DecidableEq, Repr

/-- `operator<` of windows, index_notation_nodes.h 65-73. -/
def windowLess (a b : Window) : Bool :=
  if a.lo ≠ b.lo then intLess a.lo b.lo
  else if a.hi ≠ b.hi then intLess a.hi b.hi
  else intLess a.stride b.stride

/-- `IndexSet`, index_notation_nodes.h 79-83: the list of indices and the address of the tensor that holds
it. -/
structure IndexSet where
  set : List Int
  tensor : Nat
  deriving DecidableEq, Repr

/-- `operator<` of index sets, index_notation_nodes.h 87-92; `operator<` of tensors compares addresses,
src/tensor.cpp 1159-1161. -/
def indexSetLess (a b : IndexSet) : Bool :=
  if lexLess intLess a.set b.set then lexLess intLess a.set b.set else natLess a.tensor b.tensor

/-- `AccessNode`, index_notation_nodes.h 95-140: the address of the tensor variable, the index variables,
and the maps from modes to windows and to index sets (lists sorted by mode).  The flag of accesses to the
structure is not compared by the operators and left out. -/
structure Access where
  tensor : Nat
  vars : List Name
  windows : List (Int × Window)
  sets : List (Int × IndexSet)
  deriving DecidableEq, Repr

/-- `operator==` of accesses, index_notation.cpp 1083-1101.  (Accesses with the same node are equal in all
parts.) -/
def accessEq (a b : Access) : Bool :=
  decide (a.tensor = b.tensor) && decide (a.vars = b.vars) && decide (a.windows = b.windows)
    && decide (a.sets = b.sets)

/-- `operator<` of accesses, index_notation.cpp 1103-1121. -/
def accessLess (a b : Access) : Bool :=
  if a.tensor ≠ b.tensor then natLess a.tensor b.tensor
  else if a.vars ≠ b.vars then lexLess varLess a.vars b.vars
  else if lexLess (pairLess windowLess) a.windows b.windows then
    lexLess (pairLess windowLess) a.windows b.windows
  else lexLess (pairLess indexSetLess) a.sets b.sets

/-- `ModeAccess`, src/lower/mode_access.h: an access and a level number. -/
structure ModeAccess where
  access : Access
  mode : Nat
  deriving DecidableEq, Repr

/-- `operator<` of mode accesses, src/lower/mode_access.cpp 20-28. -/
def modeAccessLess (a b : ModeAccess) : Bool :=
  if a.mode ≠ b.mode then natLess a.mode b.mode else accessLess a.access b.access

/-! ### Search trees -/

/-- `std::map` as a binary search tree. -/
inductive Tree (κ ν : Type)
  | leaf
  | node (l : Tree κ ν) (k : κ) (v : ν) (r : Tree κ ν)
  deriving Repr

namespace Tree
variable {κ ν : Type}

/-- The entries in the order of iteration. -/
def entries : Tree κ ν → List (κ × ν)
  | leaf => []
  | node l k v r => l.entries ++ (k, v) :: r.entries

/-- `lower_bound`: the first entry that is not smaller than the key; descent of the standard library, with
the last such entry seen. -/
def lowerBound (lt : κ → κ → Bool) (key : κ) : Tree κ ν → Option (κ × ν) → Option (κ × ν)
  | leaf, best => best
  | node l k v r, best => if lt k key then lowerBound lt key r best else lowerBound lt key l (some (k, v))

/-- `find`, and `at`: the lower bound unless the key is smaller than it; `none` stands for the end. -/
def find (lt : κ → κ → Bool) (t : Tree κ ν) (key : κ) : Option ν :=
  match lowerBound lt key t none with
  | none => none
  | some (k, v) => if lt key k then none else some v

/-- The entry before the place where a key is inserted. -/
def before (lt : κ → κ → Bool) (key : κ) : Tree κ ν → Option κ → Option κ
  | leaf, best => best
  | node l k _ r, best => if lt key k then before lt key l best else before lt key r (some k)

/-- The new leaf at the place found by the descent. -/
def place (lt : κ → κ → Bool) (key : κ) (v : ν) : Tree κ ν → Tree κ ν
  | leaf => node leaf key v leaf
  | node l k w r => if lt key k then node (place lt key v l) k w r else node l k w (place lt key v r)

/-- `insert`: nothing happens unless the key is greater than the entry before its place. -/
def insert (lt : κ → κ → Bool) (key : κ) (v : ν) (t : Tree κ ν) : Tree κ ν :=
  match before lt key t none with
  | none => place lt key v t
  | some k => if lt k key then place lt key v t else t

end Tree

/-! ### Iterators -/

/-- `Iterator::Content`, src/lower/iterator.cpp 18-48: a dimension iterator, the root iterator of an access
and a level iterator.  The number is the address of the content. -/
inductive Iter
  | dim (addr : Nat) (var : Name)
  | root (addr : Nat) (var : Name) (tensor : Nat)
  | level (addr : Nat) (var : Name) (tensor : Nat) (parent : Iter)
  deriving DecidableEq, Repr

namespace Iter

def addr : Iter → Nat
  | dim a _ => a
  | root a _ _ => a
  | level a _ _ _ => a

/-- `operator==` of iterators, iterator.cpp 468-478.  Comparing the undefined parent of a root iterator is
undefined behaviour (`none`): `isDimensionIterator` reads through the null pointer (iterator.cpp 174-176).
A dimension iterator has no tensor and differs from the others in that. -/
def eq : Iter → Iter → Option Bool
  | dim _ v, dim _ w => some (varEq v w)
  | dim _ _, _ => some false
  | _, dim _ _ => some false
  | root a v t, root b w u => if a = b then some true else if varEq v w && decide (t = u) then none else some false
  | root _ v t, level _ w u _ => if varEq v w && decide (t = u) then none else some false
  | level _ v t _, root _ w u => if varEq v w && decide (t = u) then none else some false
  | level a v t p, level b w u q =>
    if a = b then some true else if varEq v w && decide (t = u) then eq p q else some false

/-- `operator<` of iterators, iterator.cpp 480-483. -/
def less (a b : Iter) : Option Bool :=
  (eq a b).map fun e => if e then false else decide (a.addr < b.addr)

end Iter

/-- The level iterators of an access below `parent`, `createAccessIterators`, iterator.cpp 585-641: one for
each level, with the index variable of its mode.  Contents are numbered in the order in which they are
made. -/
def levelsFrom (addr : Nat → Nat) (tensor : Nat) : Nat → Iter → List Name → List Iter
  | _, _, [] => []
  | k, parent, v :: vs =>
    Iter.level (addr k) v tensor parent ::
      levelsFrom addr tensor (k + 1) (Iter.level (addr k) v tensor parent) vs

/-- The iterators of an access: the root, iterator.cpp 576, whose index variable is the one made by the
default constructor of the content (16-20), and the levels. -/
def accessIters (addr tick : Nat → Nat) (k : Nat) (tensor : Nat) (vars : List Name) : List Iter :=
  Iter.root (addr k) (generated (tick k)) tensor ::
    levelsFrom addr tensor (k + 1) (Iter.root (addr k) (generated (tick k)) tensor) vars

/-- The iterators of all accesses of a statement, iterator.cpp 551-563; an access is its tensor and the
index variables of its levels.  `addr k` is the address of the `k`-th content made and `tick k` the value
of the name counter at that time. -/
def statementIters (addr tick : Nat → Nat) : Nat → List (Nat × List Name) → List Iter
  | _, [] => []
  | k, (t, vars) :: rest =>
    accessIters addr tick k t vars ++ statementIters addr tick (k + 1 + vars.length) rest

/-- The dimension iterators of a statement, iterator.cpp 523-548: one for each index variable. -/
def dimIters (addr : Nat → Nat) : Nat → List Name → List Iter
  | _, [] => []
  | k, v :: vs => Iter.dim (addr k) v :: dimIters addr (k + 1) vs

/-- All iterators of a statement: first the dimension iterators, then those of the accesses. -/
def allIters (addr tick : Nat → Nat) (vars : List Name) (accs : List (Nat × List Name)) : List Iter :=
  dimIters addr 0 vars ++ statementIters addr tick vars.length accs

end Verif.Order
