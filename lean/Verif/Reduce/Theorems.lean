import Verif.Reduce.Model
import Verif.Init.Theorems
/-!
C69: a reduction combines all values with its operator, starting from the identity of the operator. True for
one operator when the loops start from the identity; several operators are confused, and what the generated
code starts from is the number zero or the fill value of the result, not the identity.
-/
namespace Verif.Reduce
open Verif.Merge
open Verif.Pack (Kind Row permute unpermute inRange QsortSpec sortRows)
open Verif.EndToEnd (Operand Result OperandOK RepeatsAreFactors AddLaws meaning)
open Verif.Init (compute Holds)

variable {V : Type}

/-! ### Lemmas -/

theorem removeTop_eq : ∀ (rs : List (Op V × Nat)) (vars : List Nat) (op : Option (Op V)),
    removeTop rs vars op = (vars ++ rs.map Prod.snd, (rs.getLast?.map Prod.fst).or op) := by
  intro rs
  induction rs with
  | nil => intro vars op; simp [removeTop]
  | cons r rs ih =>
    obtain ⟨p, i⟩ := r
    intro vars op
    simp only [removeTop, ih, List.append_assoc, List.map_cons, List.singleton_append, Prod.mk.injEq, true_and]
    cases rs with
    | nil => rfl
    | cons r' rs' =>
      rw [List.getLast?_cons_cons]
      have : ∃ y, (r' :: rs').getLast? = some y := ⟨_, List.getLast?_eq_some_getLast (by simp)⟩
      obtain ⟨y, hy⟩ := this
      rw [hy]; rfl

theorem runLoops_eq (size : Nat → Nat) (op : Op V) (hop : op.Laws) (e : Env → V) : ∀ (rs : List (Op V × Nat)),
    (∀ r ∈ rs, r.1 = op) → ∀ (ρ : Env) (a : V), runLoops size (some op) e (rs.map Prod.snd) ρ a = op.f a (nested size e rs ρ) := by
  intro rs
  induction rs with
  | nil => intro _ ρ a; rfl
  | cons r rs ih =>
    obtain ⟨p, i⟩ := r
    intro h ρ a
    have hp : p = op := h (p, i) List.mem_cons_self
    subst hp
    simp only [List.map_cons, runLoops, nested]
    have hl : ∀ (l : List Nat) (a b : V), l.foldl (fun a x => runLoops size (some p) e (rs.map Prod.snd) (ρ.set i x) a) (p.f a b) =
        p.f a (l.foldl (fun a x => p.f a (nested size e rs (ρ.set i x))) b) := by
      intro l
      induction l with
      | nil => intro a b; rfl
      | cons x l ihl =>
        intro a b
        rw [List.foldl_cons, List.foldl_cons, ih (fun r hr => h r (List.mem_cons_of_mem _ hr)), hop.assoc, ihl]
    have := hl (List.range (size i)) a p.ident
    rwa [hop.ident_right] at this

/-! ### Theorems -/

/-- Reductions with one operator: the loops compute them, if they start from the identity. -/
theorem reductions_preserved_partial (op : Op V) (hop : op.Laws) (size : Nat → Nat) (e : Env → V) (rs : List (Op V × Nat))
    (hrs : rs ≠ []) (hsame : ∀ r ∈ rs, r.1 = op) (ρ : Env) :
    concrete size e rs ρ op.ident = nested size e rs ρ := by
  unfold concrete
  rw [removeTop_eq]
  have hl : rs.getLast?.map Prod.fst = some op := by
    rw [List.getLast?_eq_some_getLast hrs, Option.map_some, hsame _ (List.getLast_mem hrs)]
  simp only [List.nil_append, hl, Option.some_or]
  rw [runLoops_eq size op hop e rs hsame, hop.ident_left]

/-- Without reductions the value is assigned. -/
theorem no_reduction (size : Nat → Nat) (e : Env → V) (ρ : Env) (start : V) : concrete size e [] ρ start = nested size e [] ρ := rfl

def addOp : Op Nat := ⟨(· + ·), 0⟩
def maxOp : Op Nat := ⟨max, 0⟩

theorem addOp_laws : addOp.Laws := ⟨Nat.add_assoc, Nat.zero_add, Nat.add_zero⟩
theorem maxOp_laws : maxOp.Laws := ⟨Nat.max_assoc, Nat.zero_max, Nat.max_zero⟩

/-- `sum(i, sum(j, i + 10 j))`. -/
example : concrete (fun _ => 2) (fun ρ => ρ 0 + 10 * ρ 1) [(addOp, 0), (addOp, 1)] (fun _ => 0) 0 =
    nested (fun _ => 2) (fun ρ => ρ 0 + 10 * ρ 1) [(addOp, 0), (addOp, 1)] (fun _ => 0) :=
  reductions_preserved_partial addOp addOp_laws _ _ _ (by simp) (by intro r h; simp only [List.mem_cons, List.not_mem_nil, or_false] at h; rcases h with rfl | rfl <;> rfl) _

/-- The sum over `i` of the maxima over `j` becomes the maximum over `i` and `j`: only the operator of the
innermost reduction is kept. -/
theorem mixed_operators_fails :
    nested (fun _ => 2) (fun ρ => ρ 0 + 10 * ρ 1) [(addOp, 0), (maxOp, 1)] (fun _ => 0) = 21 ∧
    concrete (fun _ => 2) (fun ρ => ρ 0 + 10 * ρ 1) [(addOp, 0), (maxOp, 1)] (fun _ => 0) 0 = 11 ∧
    ∀ (p : Op V) (i : Nat) (rs : List (Op V × Nat)), rs ≠ [] → ∀ (p' : Op V) (size : Nat → Nat) (e : Env → V) (ρ : Env) (a : V),
      concrete size e ((p, i) :: rs) ρ a = concrete size e ((p', i) :: rs) ρ a := by
  refine ⟨by decide, by decide, ?_⟩
  intro p i rs hrs p' size e ρ a
  unfold concrete
  rw [removeTop_eq, removeTop_eq]
  obtain ⟨r, rs', rfl⟩ := List.exists_cons_of_ne_nil hrs
  simp only [List.map_cons, List.getLast?_cons_cons]

/-! ### What the loops start from -/

/-- A reduction with any associative and commutative operator (`o.bin .add`, with the identity `o.zero`): the
component of the result is right whatever memory held before and whatever the number zero is for the
operator, if the innermost loop is not over a reduction variable, the last level of the result is dense and
the fill value of the result is the identity. -/
theorem other_operators_partial (o : Ops V) (ho : ZeroLaws o) (ha : AddLaws o) {srt : List Point → List Point}
    (hs : SortSpec srt) {qs : List (Row V) → List (Row V)} (hq : ∀ n, QsortSpec n qs) (cap : Nat) (hcap : 0 < cap)
    (lit : V) (size : Nat → Nat) (ops : List (Operand V)) (e : Expr V) (r : Result) (red vs : List Nat)
    (hnd : (r.vars ++ red).Nodup) (hvs : vs.Perm (r.vars ++ red)) (hp : r.perm.Perm (List.range r.vars.length))
    (hops : ∀ a ∈ ops, OperandOK size vs a) (hrep : RepeatsAreFactors ops e) (hlt : ∀ k ∈ e.leaves, k < ops.length)
    (hk : r.kinds.length = r.vars.length) (hi : List Kind) (n : Nat) (hkinds : r.kinds = hi ++ List.replicate (n + 1) .dense)
    (hlast : hi.getLast? ≠ some .dense) (hup : vs.take hi.length = (permute r.perm r.vars).take hi.length)
    (hinner : ∀ v, vs.getLast? = some v → v ∈ r.vars) :
    ∃ out, Holds o.zero (r.vars.map size) (meaning o size ops e r red) out ∧
      ∀ mem, compute false false qs srt cap o lit o.zero size ops e r vs mem = some out :=
  Init.memory_does_not_matter_partial o ho ha hs hq cap hcap lit o.zero size ops e r red vs false false hnd hvs hp hops hrep hlt hk hi
    (n + 1) hkinds hlast hup (fun h => by cases h)
    (fun _ h => by
      rcases h with h | ⟨v, h1, h2⟩
      · cases h
      · exact absurd (hinner v h1) h2)
    (fun _ => rfl)

/-- Minimum and addition of distances; `none` is infinity. -/
def minOps : Ops (Option Nat) := ⟨none, fun _ x => x, fun b x y => match b with
  | .add | .sub => (match x, y with | none, y => y | x, none => x | some a, some b => some (min a b))
  | .mul | .div => (match x, y with | some a, some b => some (a + b) | _, _ => none)⟩

theorem minOps_laws : ZeroLaws minOps := by
  constructor
  · intro u; rfl
  all_goals intro x; cases x <;> rfl

theorem minOps_add : AddLaws minOps := by
  constructor
  · intro a b; cases a <;> cases b <;> simp [minOps, Nat.min_comm]
  · intro a b c; cases a <;> cases b <;> cases c <;> simp [minOps, Nat.min_assoc]

/-- `A(i) = min over j of B(i,j)`. -/
def minB : List (Operand (Option Nat)) :=
  [⟨[0, 1], [.dense, .dense], [0, 1], [([0, 0], some 3), ([0, 1], some 5), ([1, 0], some 9), ([1, 1], some 4)]⟩]

/-- The same matrix, stored by columns. -/
def minBt : List (Operand (Option Nat)) := [{ (minB.headD ⟨[], [], [], []⟩) with perm := [1, 0] }]

def minA (k : Kind) : Result := ⟨[0], [k], [0]⟩

theorem minBt_ok : ∀ a ∈ minBt, OperandOK Init.two [1, 0] a := by
  have hr : ∀ (d c : List Nat), c ∈ box d → inRange d c := fun d c h => Pack.mem_box.1 h
  intro a ha
  simp only [minBt, List.mem_singleton] at ha
  subst ha
  refine ⟨rfl, by decide, by decide, ?_⟩
  intro r h
  simp only [minB, List.headD_cons, List.mem_cons, List.not_mem_nil, or_false] at h
  rcases h with rfl | rfl | rfl | rfl <;> exact hr _ _ (by decide)

/-- With the loop over `j` outermost and a result whose fill value is infinity the minima are right. -/
example : ∃ out, Holds none [2] (meaning minOps Init.two minBt (.acc 0) (minA .dense) [1]) out ∧
    ∀ mem, compute false false sortRows isort 4 minOps (some 0) none Init.two minBt (.acc 0) (minA .dense) [1, 0] mem = some out :=
  other_operators_partial minOps minOps_laws minOps_add isort_spec (fun n => Pack.sortRows_spec n) 4 (by decide) (some 0) Init.two
    minBt (.acc 0) (minA .dense) [1] [1, 0] (by decide) (by decide) (by decide) minBt_ok
    (EndToEnd.repeats_of_nodup _ (by decide)) (by decide) rfl [] 0 rfl (by decide) rfl (by decide)

example : compute false false sortRows isort 4 minOps (some 0) none Init.two minBt (.acc 0) (minA .dense) [1, 0] (fun _ => some 1) =
    some [([0], some 3), ([1], some 4)] := by decide +kernel

/-- With the loop over `j` innermost the minima are accumulated in a scalar that starts from the number zero:
all are zero, whatever the fill value of the result. -/
theorem innermost_reduction_fails : ∀ fill,
    compute false false sortRows isort 4 minOps (some 0) fill Init.two minB (.acc 0) (minA .dense) [0, 1] (fun _ => some 1) =
      some [([0], some 0), ([1], some 0)] ∧
    meaning minOps Init.two minB (.acc 0) (minA .dense) [1] [0] = some 3 ∧
    meaning minOps Init.two minB (.acc 0) (minA .dense) [1] [1] = some 4 := by
  intro fill
  have h : ∀ fill, compute false false sortRows isort 4 minOps (some 0) fill Init.two minB (.acc 0) (minA .dense) [0, 1] (fun _ => some 1) =
      compute false false sortRows isort 4 minOps (some 0) none Init.two minB (.acc 0) (minA .dense) [0, 1] (fun _ => some 1) := by
    intro fill; rfl
  refine ⟨?_, by decide +kernel, by decide +kernel⟩
  rw [h]
  decide +kernel

/-- With the loop over `j` outermost and a result with the default fill value the minima start from that. -/
theorem default_fill_fails :
    compute false false sortRows isort 4 minOps (some 0) (some 0) Init.two minBt (.acc 0) (minA .dense) [1, 0] (fun _ => some 1) =
      some [([0], some 0), ([1], some 0)] ∧
    meaning minOps Init.two minBt (.acc 0) (minA .dense) [1] [0] = some 3 := by
  constructor <;> decide +kernel

/-- A compressed result, and a scalar result: they start from the number zero. -/
theorem scalar_reduction_fails :
    compute true false sortRows isort 4 minOps (some 0) none Init.two minB (.acc 0) (minA .sparse) [0, 1] (fun _ => some 1) =
      some [([0], some 0), ([1], some 0)] ∧
    compute true false sortRows isort 4 minOps (some 0) none Init.two minB (.acc 0) ⟨[], [], []⟩ [0, 1] (fun _ => some 1) =
      some [([], some 0)] ∧
    meaning minOps Init.two minB (.acc 0) ⟨[], [], []⟩ [0, 1] [] = some 3 := by
  refine ⟨?_, ?_, ?_⟩ <;> decide +kernel

end Verif.Reduce
