import Verif.IndexSet.Model
/-!
What `A(i({s0, s1, ...}))` means: at loop coordinate `k`, the component of `A` at `sk`.
-/
namespace Verif.IndexSet

/-- The operand stores the component that the user asks for at loop coordinate `c`, at position `p`: the
coordinate `c` itself, or the `c`-th element of the index set. -/
def Stores (o : Operand) (c : Int) (p : Nat) : Prop :=
  o.s ≤ p ∧ p < o.e ∧
    match o.set with
    | none => o.crd[p]? = some c
    | some s => 0 ≤ c ∧ ∃ v, s[c.toNat]? = some v ∧ o.crd[p]? = some v

/-- All operands store a component at `c`. -/
def AllStore (c : Int) : List Operand → List Nat → Prop
  | [], [] => True
  | o :: os, p :: ps => Stores o c p ∧ AllStore c os ps
  | _, _ => False

/-- The body is executed once for each loop coordinate at which all operands store a component, in
increasing order, with the positions of these components. -/
def Visits (os : List Operand) (evs : List Event) : Prop :=
  evs.Pairwise (fun a b => a.1 < b.1) ∧ ∀ c ps, (c, ps) ∈ evs ↔ AllStore c os ps

/-- The segment of a compressed level: inside the array, increasing coordinates, less than `2^30`
positions. -/
structure Segment (o : Operand) : Prop where
  bounds : o.s ≤ o.e
  inside : o.e ≤ o.crd.length
  small : o.e < 1073741824
  sorted : ∀ i j x y, o.s ≤ i → i < j → j < o.e → o.crd[i]? = some x → o.crd[j]? = some y → x < y

/-- The index set is not longer than the mode, and shorter than `2^30`. -/
def Accepted (o : Operand) : Prop :=
  ∀ s, o.set = some s → s.length ≤ o.dim ∧ s.length < 1073741824

/-- The index set is given in increasing order without repetition. -/
def Increasing (s : List Int) : Prop := s.Pairwise (· < ·)

/-- `t` lists the members of `s` in increasing order, each once. -/
def SortedVersion (s t : List Int) : Prop := Increasing t ∧ ∀ x, x ∈ t ↔ x ∈ s

/-- `o'` is `o` with its index set sorted and without repetition. -/
def Sorted1 (o o' : Operand) : Prop :=
  o'.crd = o.crd ∧ o'.s = o.s ∧ o'.e = o.e ∧
    match o.set, o'.set with
    | none, none => True
    | some s, some t => SortedVersion s t
    | _, _ => False

/-- The same for all operands. -/
def SortedAll : List Operand → List Operand → Prop
  | [], [] => True
  | o :: os, o' :: os' => Sorted1 o o' ∧ SortedAll os os'
  | _, _ => False

/-- Number of entries of the segments and of the index sets. -/
def entries (os : List Operand) : Nat :=
  (os.map (fun o => (o.e - o.s) + (match o.set with | none => 0 | some s => s.length))).sum

end Verif.IndexSet
