/-!
Reference-counted handles: `util::IntrusivePtr` and `util::Manageable`
(include/taco/util/intrusive_ptr.h 27-143), through which index expressions and statements, lowered IR,
tensor variables and mode formats are shared.

A node is an address with a counter and the handles stored in it (for example the operands of an
addition). Nodes are immutable after their construction, as expression nodes are. Deleting a node runs
the destructors of the handles in it, which may delete further nodes. Touching the counter of a
deleted node, or reading a handle inside one, is undefined behaviour in C++ and `none` here.
-/
namespace Verif.Refs

structure Node where
  ref : Nat
  fields : List (Option Nat)
  alive : Bool

/-- Heap (addresses are indices), handle variables (`none` is the null pointer; a destroyed handle is
null) and the log of deletions. -/
structure St where
  heap : List Node
  vars : List (Option Nat)
  log : List Nat

def initial : St := ⟨[], [], []⟩

/-- `acquire`, line 138. -/
def acquire (s : St) (p : Nat) : Option St :=
  match s.heap[p]? with
  | none => none
  | some n => if n.alive then some { s with heap := s.heap.set p { n with ref := n.ref + 1 } } else none

/-- `release`, line 139: decrement and delete at zero. The list holds the releases still to do, so that
the destructors of the fields (in reverse order of declaration) run before the rest. The fuel only
makes the recursion structural. -/
def releaseAll : Nat → St → List Nat → Option St
  | _, s, [] => some s
  | 0, _, _ :: _ => none
  | fuel + 1, s, p :: ps =>
    match s.heap[p]? with
    | none => none
    | some n =>
      if n.alive then
        if n.ref = 1 then
          releaseAll fuel
            { s with heap := s.heap.set p { n with ref := 0, alive := false }, log := s.log ++ [p] }
            (n.fields.reverse.filterMap id ++ ps)
        else releaseAll fuel { s with heap := s.heap.set p { n with ref := n.ref - 1 } } ps
      else none

def totalRefs (s : St) : Nat := (s.heap.map (fun n => if n.alive then n.ref else 0)).sum

def release (s : St) (p : Option Nat) : Option St :=
  match p with
  | none => some s
  | some p => releaseAll (totalRefs s) s [p]

def acquireOpt (s : St) (p : Option Nat) : Option St :=
  match p with
  | none => some s
  | some p => acquire s p

/-- Where a copied handle is: a variable or a field of a node. -/
inductive Loc where
  | var (v : Nat)
  | field (o i : Nat)

def readVar (s : St) (v : Nat) : Option Nat := (s.vars[v]?).join

/-- Read the pointer of a handle. -/
def readLoc (s : St) : Loc → Option (Option Nat)
  | .var v => some (readVar s v)
  | .field o i =>
    match s.heap[o]? with
    | none => none
    | some n => if n.alive then some (n.fields[i]?).join else none

inductive Op where
  | create (args : List Nat)
  | copyConstruct (src : Loc)
  | moveConstruct (src : Nat)
  | copyAssign (dst : Nat) (src : Loc)
  | rawAssign (dst : Nat) (src : Loc)
  | moveAssign (dst src : Nat)
  | destroy (v : Nat)

def acquireList (s : St) : List (Option Nat) → Option St
  | [] => some s
  | p :: ps => (acquireOpt s p).bind (acquireList · ps)

/-- One operation on handles. Constructors make a new handle variable. -/
def step (s : St) : Op → Option St
  -- `new Node(args...)` and `IntrusivePtr(T*)`, 35-40
  | .create args =>
    let fs := args.map (readVar s)
    (acquireList s fs).map fun s1 =>
      { s1 with heap := s1.heap ++ [⟨1, fs, true⟩], vars := s1.vars ++ [some s1.heap.length] }
  -- copy constructor, 43-47
  | .copyConstruct src =>
    (readLoc s src).bind fun p => acquireOpt { s with vars := s.vars ++ [p] } p
  -- move constructor, 50-52
  | .moveConstruct src =>
    some { s with vars := (s.vars.set src none) ++ [readVar s src] }
  -- copy assignment, 55-64: release, then read the other handle, then acquire
  | .copyAssign dst src =>
    if dst < s.vars.length then
      (release s (readVar s dst)).bind fun s1 =>
        (readLoc s1 src).bind fun p => acquireOpt { s1 with vars := s1.vars.set dst p } p
    else some s
  -- assignment from a raw pointer, 72-81: the pointer is read before the release
  | .rawAssign dst src =>
    if dst < s.vars.length then
      (readLoc s src).bind fun p =>
        (release s (readVar s dst)).bind fun s1 => acquireOpt { s1 with vars := s1.vars.set dst p } p
    else some s
  -- move assignment, 84-91
  | .moveAssign dst src =>
    if dst < s.vars.length ∧ src < s.vars.length then
      (release s (readVar s dst)).map fun s1 =>
        { s1 with vars := (s1.vars.set dst (readVar s1 src)).set src none }
    else some s
  -- destructor, 94-98
  | .destroy v => (release s (readVar s v)).map fun s1 => { s1 with vars := s1.vars.set v none }

def run (s : St) : List Op → Option St
  | [] => some s
  | o :: os => (step s o).bind (run · os)

end Verif.Refs
