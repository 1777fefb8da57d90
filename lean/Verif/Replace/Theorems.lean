import Verif.Replace.Keep
import Verif.Replace.Tree
/-!
Property C81: replacing expressions, statements, index variables or tensors changes what
was asked for and nothing else.
-/
namespace Verif.Replace

variable {V : Type}

/-! ### Expressions and statements -/

/-- Replacing nodes by others gives the tree in which exactly these nodes are the others.
Missing for the full property: casts (see `replace_cast_fails`). -/
theorem replace_nodes_partial (h : Addr → Expr) (hs : Nat → Stmt) (m : List (Addr × Expr))
    (ms : List (Nat × Stmt)) (hm : ∀ a x, (a, x) ∈ m → x.on h) (hms : ∀ a x, (a, x) ∈ ms → x.on h hs)
    (hc : NoCast h m) (s : Stmt) (H : s.on h hs) :
    (replaceS m ms s).erase = (s.subst (fun a => m.lookup a) (fun a => ms.lookup a)).erase :=
  replaceS_subst hm hc hms s H

/-- The same for expressions. -/
theorem replace_expr_nodes_partial (h : Addr → Expr) (m : List (Addr × Expr))
    (hm : ∀ a x, (a, x) ∈ m → x.on h) (hc : NoCast h m) (e : Expr) (H : e.on h) :
    (replaceE m e).erase = (e.subst (fun a => m.lookup a)).erase :=
  replaceE_subst hm hc e H

/-- If every node is replaced by one that has the same value in all states, or the same
effect and the same results, then the statement has the same effect as before.
Missing for the full property: nothing is assumed to be gained from replacing a cast, which
does not happen. -/
theorem replace_equals_partial (M : Sem V) (z : V → Bool) (dim : Nat → Nat) (h : Addr → Expr)
    (hs : Nat → Stmt) (m : List (Addr × Expr)) (ms : List (Nat × Stmt))
    (hm : ∀ a x, (a, x) ∈ m → x.on h) (hms : ∀ a x, (a, x) ∈ ms → x.on h hs) (hc : NoCast h m)
    (heq : ∀ a x, (a, x) ∈ m → ∀ rels σ ρ, eval M dim rels σ ρ x = eval M dim rels σ ρ (h a))
    (hst : ∀ a x, (a, x) ∈ ms → x.assigned = (hs a).assigned ∧
      ∀ rels ρ σ, exec M z dim x rels ρ σ = exec M z dim (hs a) rels ρ σ)
    (s : Stmt) (H : s.on h hs) (rels : List Rel) (ρ : Env) (σ : St V) :
    exec M z dim (replaceS m ms s) rels ρ σ = exec M z dim s rels ρ σ := by
  rw [← exec_erase, replaceS_subst hm hc hms s H, exec_erase]
  exact exec_subst M z dim (fun a x hx => heq a x (lookup_mem hx))
    (fun a x hx => (hst a x (lookup_mem hx)).1) (fun a x hx => (hst a x (lookup_mem hx)).2) s H rels ρ σ

/-- If there is nothing to replace, the result is the very same statement: `replace(s, m)`
compares equal to `s`, which is how scheduling commands find out that an expression does
not occur. -/
theorem replace_nothing (m : List (Addr × Expr)) (ms : List (Nat × Stmt)) (s : Stmt)
    (he : Without m s.exprNodes) (hs : Without ms s.stmtNodes) :
    replaceS m ms s = s ∧ sameS (replaceS m ms s) s = true := by
  have h := replaceS_keep m ms s he hs
  exact ⟨h, by rw [h]; exact sameS_self (stmtNodes_addr hs)⟩

/-! ### Index variables -/

/-- Renaming index variables does not change the effect of a statement, if the new names are
distinct from each other and from the names that stay, and have the same dimensions.
Missing for the full property: reductions, yields, relations and accesses of structure that
use a renamed variable (see the counterexamples below). -/
theorem rename_indices_partial (M : Sem V) (z : V → Bool) (dim : Nat → Nat) (m : List (Nat × Nat))
    (s : Stmt) (hinj : InjOn (renamed m) s.ivars) (hdim : ∀ i ∈ s.ivars, dim (renamed m i) = dim i)
    (hfree : s.freeOf (renames m)) (ρ ρ' : Env) (hρ : ∀ i ∈ s.ivars, ρ' (renamed m i) = ρ i)
    (σ : St V) : exec M z dim (replaceIS m s) [] ρ' σ = exec M z dim s [] ρ σ :=
  exec_rename M z ⟨hinj, hdim, fun _ h => renamed_of_not h⟩ s (fun _ h => h) hfree []
    (fun _ h => nomatch h) ρ ρ' σ hρ

/-- The same for expressions. -/
theorem rename_indices_expr_partial (M : Sem V) (dim : Nat → Nat) (m : List (Nat × Nat)) (e : Expr)
    (hinj : InjOn (renamed m) e.ivars) (hdim : ∀ i ∈ e.ivars, dim (renamed m i) = dim i)
    (hfree : e.freeOf (renames m)) (ρ ρ' : Env) (hρ : ∀ i ∈ e.ivars, ρ' (renamed m i) = ρ i)
    (σ : St V) : eval M dim [] σ ρ' (replaceIE m e) = eval M dim [] σ ρ e :=
  eval_rename M ⟨hinj, hdim, fun _ h => renamed_of_not h⟩ [] (fun _ h => nomatch h) σ e
    (fun _ h => h) hfree ρ ρ' hρ

/-- Renaming index variables gives the tree with all occurrences renamed and everything
else, such as the attributes of loops, kept.  Missing: as in `rename_indices_partial`. -/
theorem rename_indices_tree_partial (m : List (Nat × Nat)) (s : Stmt)
    (hfree : s.freeOf (renames m)) :
    (replaceIS m s).erase = (s.rename (renamed m) (fun t => t)).erase :=
  replaceIS_tree m s hfree

/-! ### Tensors -/

/-- Replacing tensors gives the tree with all occurrences replaced and everything else kept.
Missing: as in `replace_tensors_partial`. -/
theorem replace_tensors_tree_partial (m : List (Nat × Nat)) (s : Stmt)
    (hplain : s.plainOn (renames m)) :
    (replaceTS m s).erase = (s.rename (fun i => i) (renamed m)).erase :=
  replaceTS_tree m s hplain

/-- Replacing tensors by tensors that hold the same gives the same results in the
replacements, if the new tensors are distinct from each other and from those that stay.
Missing for the full property: accesses with windows, index sets or structure, and
assembled tensors. -/
theorem replace_tensors_partial (M : Sem V) (z : V → Bool) (dim : Nat → Nat) (m : List (Nat × Nat))
    (s : Stmt) (hinj : InjOn (renamed m) s.tensors) (hplain : s.plainOn (renames m)) (ρ : Env)
    (σ τ : St V) (hS : Same (renamed m) s.tensors σ τ) :
    Same (renamed m) s.tensors (exec M z dim s [] ρ σ) (exec M z dim (replaceTS m s) [] ρ τ) :=
  exec_tensors M z hinj s (fun _ h => h) hplain [] ρ σ τ hS

/-! ### The hypotheses are satisfiable -/

/-- Integers, with the operation 0 being the product and reductions being sums. -/
def ints : Sem Int where
  lit v := v
  num n := n
  flag b := if b then 1 else 0
  un _ v := -v
  bin op a b := if op = 0 then a * b else a + b
  cast _ v := v % 256
  call _ vs := vs.foldl (· + ·) 0
  red _ vs := vs.foldl (· + ·) 0
  upd op old new := match op with
    | none => new
    | some _ => old + new
  zero := 0

/-- All variables have dimension 3. -/
def three : Nat → Nat := fun _ => 3

/-- Tensor `t` holds `10 * t` plus the sum of the coordinates, and stores all components. -/
def full : St Int := ⟨fun t c => 10 * t + (c.foldl (· + ·) 0 : Nat), fun _ _ => true, []⟩

/-- `forall(i, forall(j, A(i) += B(i,j) * c(j)))`: tensors 0, 1, 2; variables 0, 1. -/
def mv : Stmt :=
  .loop (some 0) 0 0 (.loop (some 1) 1 0 (.assign (some 2) ⟨some 9, 0, [0], []⟩ (some 0)
    (.bin (some 3) 0 (.acc (some 4) 1 [0, 1] [] false) (.acc (some 5) 2 [1] [] false))))

/-- Replacing the product `B(i,j) * c(j)` by an access to a workspace. -/
def toWs : List (Addr × Expr) := [(.node 3, .acc (some 6) 3 [0, 1] [] false)]

/-- Where the nodes are. -/
def mvHeap : Addr → Expr
  | .var i => .ivar i
  | .node 3 => .bin (some 3) 0 (.acc (some 4) 1 [0, 1] [] false) (.acc (some 5) 2 [1] [] false)
  | .node 4 => .acc (some 4) 1 [0, 1] [] false
  | .node 5 => .acc (some 5) 2 [1] [] false
  | .node n => .acc (some n) 3 [0, 1] [] false

/-- Where the statements are. -/
def mvStmts : Nat → Stmt
  | 0 => mv
  | 1 => .loop (some 1) 1 0 (.assign (some 2) ⟨some 9, 0, [0], []⟩ (some 0)
    (.bin (some 3) 0 (.acc (some 4) 1 [0, 1] [] false) (.acc (some 5) 2 [1] [] false)))
  | _ => .assign (some 2) ⟨some 9, 0, [0], []⟩ (some 0)
    (.bin (some 3) 0 (.acc (some 4) 1 [0, 1] [] false) (.acc (some 5) 2 [1] [] false))

example : (∀ a x, (a, x) ∈ toWs → x.on mvHeap) ∧ NoCast mvHeap toWs ∧ mv.on mvHeap mvStmts ∧
    (replaceS toWs [] mv).erase = .loop none 0 0 (.loop none 1 0 (.assign none ⟨none, 0, [0], []⟩
      (some 0) (.acc none 3 [0, 1] [] false))) := by
  refine ⟨?_, ?_, ?_, rfl⟩
  · intro a x h
    simp only [toWs, List.mem_singleton, Prod.mk.injEq] at h
    obtain ⟨rfl, rfl⟩ := h
    exact ⟨fun a h => by simp only [Expr.addr, Option.map_some, Option.some.injEq] at h; subst h; rfl, trivial⟩
  · intro a x h b ty e
    simp only [toWs, List.mem_singleton, Prod.mk.injEq] at h
    obtain ⟨rfl, rfl⟩ := h
    exact fun h => nomatch h
  · have key : ∀ (e : Expr) (n : Nat), e.addr = some (.node n) → mvHeap (.node n) = e →
        ∀ a, e.addr = some a → mvHeap a = e := by
      intro e n h1 h2 a ha
      rw [h1] at ha; injection ha with ha; rw [← ha]; exact h2
    have keyS : ∀ (s : Stmt) (n : Nat), s.addr = some n → mvStmts n = s →
        ∀ a, s.addr = some a → mvStmts a = s := by
      intro e n h1 h2 a ha
      rw [h1] at ha; injection ha with ha; rw [← ha]; exact h2
    exact ⟨keyS _ 0 rfl rfl, keyS _ 1 rfl rfl, keyS _ 2 rfl rfl, key _ 3 rfl rfl,
      ⟨key _ 4 rfl rfl, trivial⟩, ⟨key _ 5 rfl rfl, trivial⟩⟩

/-- Replacing a product by the product with its operands the other way round. -/
example : ∀ rels σ ρ, eval ints three rels σ ρ
      (.bin (some 7) 0 (.acc (some 5) 2 [1] [] false) (.acc (some 4) 1 [0, 1] [] false)) =
    eval ints three rels σ ρ (mvHeap (.node 3)) := by
  intro rels σ ρ
  exact Int.mul_comm _ _

example : Without ([(.node 17, .lit (some 18) 0)] : List (Addr × Expr)) mv.exprNodes ∧
    Without ([] : List (Nat × Stmt)) mv.stmtNodes := by
  constructor
  · intro n hn
    have hm : mv.exprNodes = [some (.node 3), some (.node 4), some (.node 5)] := rfl
    rw [hm] at hn
    simp only [List.mem_cons, List.not_mem_nil, or_false] at hn
    rcases hn with rfl | rfl | rfl
    · exact ⟨_, rfl, rfl⟩
    · exact ⟨_, rfl, rfl⟩
    · exact ⟨_, rfl, rfl⟩
  · intro n hn
    have hm : mv.stmtNodes = [some 0, some 1, some 2] := rfl
    rw [hm] at hn
    simp only [List.mem_cons, List.not_mem_nil, or_false] at hn
    rcases hn with rfl | rfl | rfl <;> exact ⟨_, rfl, rfl⟩

/-- Swapping two names at once, and a fresh one. -/
example : InjOn (renamed [(0, 1), (1, 0)]) mv.ivars ∧ mv.freeOf (renames [(0, 1), (1, 0)]) ∧
    InjOn (renamed [(0, 7)]) mv.ivars ∧ mv.freeOf (renames [(0, 7)]) ∧
    InjOn (renamed [(1, 8), (0, 1)]) mv.tensors ∧ mv.plainOn (renames [(1, 8), (0, 1)]) := by
  refine ⟨?_, ?_, ?_, ?_, ?_, ?_⟩
  · unfold InjOn; decide
  · exact ⟨(fun h => nomatch h), (fun h => nomatch h)⟩
  · unfold InjOn; decide
  · exact ⟨(fun h => nomatch h), (fun h => nomatch h)⟩
  · unfold InjOn; decide
  · exact ⟨fun _ => rfl, fun _ => ⟨rfl, rfl⟩, fun _ => ⟨rfl, rfl⟩⟩

/-! ### Where the full property fails -/

/-- A cast is not replaced, although it is the node that was asked for. -/
theorem replace_cast_fails : ∃ (h : Addr → Expr) (m : List (Addr × Expr)) (e x : Expr),
    e.on h ∧ x.on h ∧ m = [(.node 0, x)] ∧ e.addr = some (.node 0) ∧
    replaceE m e = e ∧ ∀ σ ρ, eval ints three [] σ ρ (replaceE m e) ≠ eval ints three [] σ ρ x := by
  refine ⟨fun a => match a with
      | .node 0 => .cast (some 0) 1 (.lit (some 1) 300)
      | .node 1 => .lit (some 1) 300
      | _ => .lit (some 2) 7, _, .cast (some 0) 1 (.lit (some 1) 300), .lit (some 2) 7, ?_, ?_, rfl, rfl, rfl, ?_⟩
  · refine ⟨fun a ha => ?_, fun a ha => ?_, trivial⟩ <;>
      (simp only [Expr.addr, Option.map_some, Option.some.injEq] at ha; subst ha; rfl)
  · refine ⟨fun a ha => ?_, trivial⟩
    simp only [Expr.addr, Option.map_some, Option.some.injEq] at ha; subst ha; rfl
  · intro σ ρ h; exact absurd (show (300 : Int) % 256 = 7 from h) (by decide)

/-- Renaming the variable of a reduction renames it where it is used, but not in the
reduction: `sum(i, B(i))` becomes `sum(i, B(k))`. -/
theorem rename_reduction_fails : ∃ (e : Expr) (m : List (Nat × Nat)),
    InjOn (renamed m) e.ivars ∧
    replaceIE m e = .red none 0 0 (.acc none 1 [5] [] false) ∧
    eval ints three [] full (fun _ => 0) (replaceIE m e) ≠ eval ints three [] full (fun _ => 0) e :=
  ⟨.red (some 0) 0 0 (.acc (some 1) 1 [0] [] false), [(0, 5)], by unfold InjOn; decide, rfl,
    by decide +kernel⟩

/-- A statement under a split: `suchthat(forall(io, forall(ii, A(i) = B(i))), split(i, io, ii, 2))`
with variables `i, io, ii` = 0, 1, 2. -/
def splitCopy : Stmt :=
  .such (some 0) (.loop (some 1) 1 0 (.loop (some 2) 2 0 (.assign (some 3) ⟨some 4, 0, [0], []⟩ none
    (.acc (some 5) 1 [0] [] false)))) [⟨0, 1, 2, 2⟩]

/-- The inner variable of the split has dimension 2. -/
def byTwo : Nat → Nat := fun i => if i = 2 then 2 else 3

/-- Renaming a loop variable does not rename it in the relations, so the split variable no
longer follows the loop. -/
theorem rename_relation_fails : ∃ (m : List (Nat × Nat)),
    InjOn (renamed m) splitCopy.ivars ∧ (∀ i ∈ splitCopy.ivars, byTwo (renamed m i) = byTwo i) ∧
    (exec ints (fun v => v = 0) byTwo (replaceIS m splitCopy) [] (fun _ => 0) full).val 0 [2] ≠
      (exec ints (fun v => v = 0) byTwo splitCopy [] (fun _ => 0) full).val 0 [2] :=
  ⟨[(1, 6)], by unfold InjOn; decide, by decide, by decide +kernel⟩

/-- Renaming a variable does not rename it in a yield statement: the coordinates that are
handed out are wrong. -/
theorem rename_yield_fails : ∃ (m : List (Nat × Nat)) (s : Stmt), InjOn (renamed m) s.ivars ∧
    (exec ints (fun v => v = 0) three (replaceIS m s) [] (fun _ => 0) full).out = [([0], 10), ([0], 11), ([0], 12)] ∧
      (exec ints (fun v => v = 0) three s [] (fun _ => 0) full).out = [([0], 10), ([1], 11), ([2], 12)] :=
  ⟨[(0, 6)], .loop (some 0) 0 0 (.yield (some 1) [0] (.acc (some 2) 1 [0] [] false)),
    by unfold InjOn; decide, by decide +kernel, by decide +kernel⟩

/-- Renaming the variables of an access of structure turns it into an access of values. -/
theorem rename_structure_fails : ∃ (m : List (Nat × Nat)) (e : Expr) (ρ ρ' : Env),
    InjOn (renamed m) e.ivars ∧ (∀ i ∈ e.ivars, ρ' (renamed m i) = ρ i) ∧
    eval ints three [] full ρ e = 1 ∧ eval ints three [] full ρ' (replaceIE m e) = 12 :=
  ⟨[(0, 6)], .acc (some 0) 1 [0] [] true, fun _ => 2, fun _ => 2, by unfold InjOn; decide,
    fun _ _ => rfl, by decide +kernel, by decide +kernel⟩

/-- A variable that is renamed to one that is in use is captured. -/
theorem rename_capture_fails : ∃ (m : List (Nat × Nat)),
    mv.freeOf (renames m) ∧ (∀ i ∈ mv.ivars, three (renamed m i) = three i) ∧
    (exec ints (fun v => v = 0) three (replaceIS m mv) [] (fun _ => 0) full).val 0 [0] ≠
      (exec ints (fun v => v = 0) three mv [] (fun _ => 0) full).val 0 [0] :=
  ⟨[(0, 1)], ⟨(fun h => nomatch h), (fun h => nomatch h)⟩, fun _ _ => rfl, by decide +kernel⟩

/-- The state in which tensor `t'` holds what tensor `t` holds. -/
def copyTo (t t' : Nat) (σ : St Int) : St Int :=
  { σ with val := fun u => if u = t' then σ.val t else σ.val u
           stored := fun u => if u = t' then σ.stored t else σ.stored u }

/-- Replacing a tensor forgets the windows of its accesses: `A(i) = B(i(1,3))` becomes
`A(i) = C(i)`. -/
theorem replace_tensor_window_fails : ∃ (m : List (Nat × Nat)) (s : Stmt) (τ : St Int),
    InjOn (renamed m) s.tensors ∧ Same (renamed m) s.tensors full τ ∧
    (exec ints (fun v => v = 0) three s [] (fun _ => 0) full).val 0 [0] = 11 ∧
    (exec ints (fun v => v = 0) three (replaceTS m s) [] (fun _ => 0) τ).val 0 [0] = 10 := by
  refine ⟨[(1, 5)], .loop (some 0) 0 0 (.assign (some 1) ⟨some 2, 0, [0], []⟩ none
    (.acc (some 3) 1 [0] [(0, .window 1 1)] false)), copyTo 1 5 full, by unfold InjOn; decide, ?_,
    by decide +kernel, by decide +kernel⟩
  refine ⟨?_, rfl⟩
  intro t ht
  simp only [Stmt.tensors, Expr.tensors, List.mem_cons, List.not_mem_nil, or_false] at ht
  rcases ht with rfl | rfl <;> exact ⟨rfl, rfl⟩

/-- Replacing a tensor forgets the window it is assigned through: `A(i(1,3)) = B(i)` becomes
`C(i) = B(i)`, which overwrites other components. -/
theorem replace_result_window_fails : ∃ (m : List (Nat × Nat)) (s : Stmt) (τ : St Int),
    InjOn (renamed m) s.tensors ∧ Same (renamed m) s.tensors full τ ∧
    (exec ints (fun v => v = 0) three s [] (fun _ => 0) full).val 0 [0] = 0 ∧
    (exec ints (fun v => v = 0) three (replaceTS m s) [] (fun _ => 0) τ).val 5 [0] = 10 := by
  refine ⟨[(0, 5)], .loop (some 0) 0 0 (.assign (some 1) ⟨some 2, 0, [0], [(0, .window 1 1)]⟩ none
    (.acc (some 3) 1 [0] [] false)), copyTo 0 5 full, by unfold InjOn; decide, ?_,
    by decide +kernel, by decide +kernel⟩
  refine ⟨?_, rfl⟩
  intro t ht
  simp only [Stmt.tensors, Expr.tensors, List.mem_cons, List.not_mem_nil, or_false] at ht
  rcases ht with rfl | rfl <;> exact ⟨rfl, rfl⟩

/-- Replacing an assembled tensor does not replace it among the results of the assemble
statement: the new tensor is not set up. -/
theorem replace_assembled_fails : ∃ (m : List (Nat × Nat)) (s : Stmt) (τ : St Int),
    InjOn (renamed m) s.tensors ∧ Same (renamed m) s.tensors full τ ∧
    (exec ints (fun v => v = 0) three s [] (fun _ => 0) full).val 0 [0] = 10 ∧
    (exec ints (fun v => v = 0) three (replaceTS m s) [] (fun _ => 0) τ).val 5 [0] = 30 := by
  refine ⟨[(2, 5)], .assemble (some 0)
    (.loop (some 1) 0 0 (.assign (some 2) ⟨some 3, 3, [0], []⟩ none (.acc (some 4) 1 [0] [] false)))
    (.loop (some 5) 0 0 (.multi (some 6)
      (.assign (some 7) ⟨some 8, 2, [0], []⟩ (some 0) (.acc (some 9) 1 [0] [] false))
      (.assign (some 10) ⟨some 11, 0, [0], []⟩ none (.acc (some 12) 2 [0] [] false))))
    [(2, 3)], copyTo 2 5 full, by unfold InjOn; decide, ?_, by decide +kernel, by decide +kernel⟩
  refine ⟨?_, rfl⟩
  intro t ht
  have hm : t ∈ [2, 3, 3, 1, 2, 1, 0, 2] := ht
  simp only [List.mem_cons, List.not_mem_nil, or_false] at hm
  rcases hm with rfl | rfl | rfl | rfl | rfl | rfl | rfl | rfl <;> exact ⟨rfl, rfl⟩

end Verif.Replace
