import Verif.Forest.Spec
/-!
Iteration graphs: src/lower/iteration_forest.cpp, as made by `IterationGraph::make` from the paths of the result and the operands
(iteration_graph.cpp 98-100). Variables are numbers, in the order in which sets hold them; `std::sort` is a parameter.
-/
namespace Verif.Forest

/-- Insertion into a set, which is held in ascending order. -/
def ins (x : Nat) : List Nat → List Nat
  | [] => [x]
  | y :: s => if x < y then x :: y :: s else if x = y then y :: s else y :: ins x s

/-- A set of elements. -/
def asc : List Nat → List Nat
  | [] => []
  | x :: l => ins x (asc l)

/-- `vertices`, iteration_forest.cpp 24-30: variables in the order of their first occurrence. -/
def addNew (l : List Nat) (v : Nat) : List Nat := if v ∈ l then l else l ++ [v]
def vertices (ps : List Path) : List Nat := ps.flatten.foldl addNew []

/-- `sources`, iteration_forest.cpp 31-40. -/
def sources (ps : List Path) : List Nat := (asc (vertices ps)).filter fun v => ! (ps.flatMap List.tail).contains v

/-- Pairs of neighbours in a path, iteration_forest.cpp 51-57. -/
def pairs (p : Path) : List (Nat × Nat) := p.zip p.tail
def edges (ps : List Path) : List (Nat × Nat) := ps.flatMap pairs

/-- `successors` and `predecessors`. -/
def succs (ps : List Path) (u : Nat) : List Nat := asc (((edges ps).filter fun e => e.1 == u).map Prod.snd)
def preds (ps : List Path) (v : Nat) : List Nat := asc (((edges ps).filter fun e => e.2 == v).map Prod.fst)

/-- `levels`: a map. -/
abbrev Levels := Nat → Option Nat
def Levels.get (lv : Levels) (v : Nat) : Nat := (lv v).getD 0
def put (lv : Levels) (v n : Nat) : Levels := fun x => if x = v then some n else lv x

/-- The loop over the successors of a variable, iteration_forest.cpp 90-95. -/
def visit (lv : Levels) (u : Nat) : List Nat → Levels
  | [] => lv
  | s :: ss => visit (put lv s (lv.get u + 1)) u ss

/-- The loop of iteration_forest.cpp 86-96, for at most `n` rounds. Variables are put into the queue again whenever they are reached. -/
def bfs (succ : Nat → List Nat) : Nat → Levels → List Nat → Option Levels
  | _, lv, [] => some lv
  | 0, _, _ :: _ => none
  | n + 1, lv, u :: q => bfs succ n (visit lv u (succ u)) (q ++ succ u)

/-- Levels before the loop, iteration_forest.cpp 80-85. -/
def init (ss : List Nat) : Levels := fun v => if v ∈ ss then some 0 else none

/-- The predecessor with the highest level, the first of them in the set, iteration_forest.cpp 122-131. -/
def pick (lv : Nat → Nat) : List Nat → Option Nat → Option Nat
  | [], best => best
  | p :: ps, none => pick lv ps (some p)
  | p :: ps, some b => if lv b < lv p then pick lv ps (some p) else pick lv ps (some b)

/-- What the second loop changes. -/
structure State where
  preds : Nat → List Nat
  parent : Nat → Option Nat

/-- Predecessors that are not the parent become predecessors of the parent, iteration_forest.cpp 134-141. -/
def hand (parent : Nat) : List Nat → List Nat → List Nat
  | [], s => s
  | p :: ps, s => hand parent ps (if p = parent then s else ins p s)

/-- A round of the second loop, iteration_forest.cpp 117-143. -/
def place (lv : Nat → Nat) (st : State) (x : Nat) : State :=
  match pick lv (st.preds x) none with
  | none => st
  | some q => ⟨fun y => if y = q then hand q (st.preds x) (st.preds q) else st.preds y, fun y => if y = x then some q else st.parent y⟩

/-- The forest. -/
structure Forest where
  roots : List Nat
  nodes : List Nat
  parent : Nat → Option Nat

/-- `getChildren`, in the order of vertices, iteration_forest.cpp 146-166. -/
def Forest.children (f : Forest) (v : Nat) : List Nat := f.nodes.filter fun c => f.parent c == some v

/-- How the construction ends. -/
inductive Built
  | forest (f : Forest)
  | assertion
  | endless

/-- The constructor after the levels are known, iteration_forest.cpp 97-166. -/
def finish (ps : List Path) (sort : (Nat → Nat) → List Nat → List Nat) (lv : Levels) : Built :=
  if (vertices ps).all fun v => (lv v).isSome then
    .forest ⟨sources ps, vertices ps, ((sort lv.get (asc (vertices ps))).foldl (place lv.get) ⟨preds ps, fun _ => none⟩).parent⟩
  else .assertion

/-- `IterationForest`, iteration_forest.cpp 66-167, with at most `n` rounds of the first loop. -/
def build (ps : List Path) (sort : (Nat → Nat) → List Nat → List Nat) (n : Nat) : Built :=
  match bfs (succs ps) n (init (sources ps)) (sources ps) with
  | none => .endless
  | some lv => finish ps sort lv

end Verif.Forest
