import Verif.Omit.Run
import Verif.Merge.Sort
/-! C67: the call of a user-defined operator is evaluated at exactly the coordinates of its iteration
space, once each and in order, with the values of its operands there. -/
namespace Verif.Omit
open Verif.Algebra (Alg)
open Verif.Merge (SortSpec isort isort_spec Point)

/-- For every iteration space of the supported class, every operator, every number of operands and all
operands, the generated loops execute the call at exactly the coordinates of the iteration space, in
increasing order, with the value of the declared function (or of the special definition for exactly the
stored operands) at the values of the operands.

Missing from the full statement (every description): the iteration spaces for which `supported` is false,
descriptions with complements on operands that store explicit zeros, special definitions of operators
with three and more operands or of operators that are evaluated where no operand is stored.  The
theorems ending in `_fails` show that the statement is false there. -/
theorem operator_loop_partial {V : Type} [DecidableEq V] (srt : List Point → List Point) (hs : SortSpec srt)
    (op : Op V) (X : Operands V) (hX : WF X)
    (hargs : ∀ i, i ∈ regions op.alg ↔ i < op.arity)
    (hsup : supported op.alg = true)
    (hzero : NoZeros X ∨ hasCompl op.alg = false)
    (hspecial : op.special = [] ∨ op.arity ≤ 1 ∨ (op.arity = 2 ∧ holds (fun _ => false) op.alg = false))
    (fuel : Nat) (hfuel : X.n + ((regions op.alg).map (fun k => (X.crd k).length)).sum ≤ fuel) :
    run srt op X fuel = some (expected op X) :=
  run_spec hs hX hsup hargs hzero hspecial hfuel

/-- Without complements, an operator over the union of all its operands is evaluated at every coordinate
stored by one of them. -/
theorem union_of_all (op : Nat → Alg) (h0 : op 0 = .region 0) (hs : ∀ n, op (n + 1) = .union (op n) (.region (n + 1)))
    (n : Nat) : supported (op n) = true ∧ (∀ i, i ∈ regions (op n) ↔ i < n + 1) ∧ hasCompl (op n) = false ∧
      ∀ S, holds S (op n) = true ↔ ∃ k, k < n + 1 ∧ S k = true := by
  have hreg : ∀ n i, i ∈ regions (op n) ↔ i < n + 1 := by
    intro n
    induction n with
    | zero => intro i; rw [h0]; simp [regions]
    | succ n ih =>
      intro i; rw [hs]; simp only [regions, List.mem_append, ih, List.mem_singleton]; omega
  have hno : ∀ n, hasCompl (op n) = false := by
    intro n
    induction n with
    | zero => rw [h0]; rfl
    | succ n ih => rw [hs]; simp [hasCompl, ih]
  have hh : ∀ n S, holds S (op n) = true ↔ ∃ k, k < n + 1 ∧ S k = true := by
    intro n S
    induction n with
    | zero =>
      rw [h0]
      exact ⟨fun h => ⟨0, by omega, h⟩, fun ⟨k, hk, h⟩ => by
        have : k = 0 := by omega
        subst this; exact h⟩
    | succ n ih =>
      rw [hs]
      simp only [holds, Bool.or_eq_true, ih]
      constructor
      · rintro (⟨k, hk, h⟩ | h)
        · exact ⟨k, by omega, h⟩
        · exact ⟨n + 1, by omega, h⟩
      · rintro ⟨k, hk, h⟩
        by_cases hkn : k = n + 1
        · subst hkn; exact Or.inr h
        · exact Or.inl ⟨k, by omega, h⟩
  have halone : ∀ n, alone false (op n) = true := by
    intro n
    unfold alone
    rw [List.all_eq_true]
    intro k hk
    rw [reach_eq_holds _ (hno n), hh]
    exact ⟨k, (hreg n k).1 hk, by simp⟩
  have hcov : ∀ n, covered false (op n) = true := by
    intro n
    induction n with
    | zero => rw [h0]; rfl
    | succ n ih =>
      rw [hs]
      simp only [covered, ih, halone, Bool.false_or, Bool.true_and, Bool.and_true]
      simp [alone, regions, reach]
  refine ⟨?_, hreg n, hno n, hh n⟩
  unfold supported
  rw [hcov n, Bool.true_and, Bool.or_eq_true, List.all_eq_true]
  right
  intro k hk
  rw [Bool.or_eq_true]
  right
  rw [hh]
  exact ⟨k, (hreg n k).1 hk, by simp⟩

/-! ### the hypotheses are met -/

private def A : Alg := .region 0
private def B : Alg := .region 1
private def C : Alg := .region 2

/-- Three sparse vectors of dimension 8. -/
private def X3 : Operands Nat where
  n := 8
  zero := 0
  crd k := if k = 0 then [0, 3, 4, 5] else if k = 1 then [1, 3, 5] else if k = 2 then [2, 4, 5] else []
  vals k := if k = 0 then [1, 2, 3, 4] else if k = 1 then [10, 20, 30] else if k = 2 then [100, 200, 300] else []

private theorem X3_wf : WF X3 := by
  intro k
  simp only [X3]
  by_cases h0 : k = 0
  · subst h0; decide
  · by_cases h1 : k = 1
    · subst h1; decide
    · by_cases h2 : k = 2
      · subst h2; decide
      · simp [h0, h1, h2]

private theorem X3_nz : NoZeros X3 := by
  intro k
  simp only [X3]
  by_cases h0 : k = 0
  · subst h0; decide
  · by_cases h1 : k = 1
    · subst h1; decide
    · by_cases h2 : k = 2
      · subst h2; decide
      · simp [h0, h1, h2]

private def op2 (a : Alg) (special : List (List Nat × (List Nat → Nat))) : Op Nat :=
  ⟨2, a, fun l => l.foldl (fun x y => x * 1000 + y) 0, special⟩
private def op3 (a : Alg) : Op Nat := ⟨3, a, fun l => l.foldl (fun x y => x * 1000 + y) 0, []⟩

/-- Exclusive or, with a special definition where only the second operand is stored. -/
private def xor2 : Op Nat := op2 (.inter (.union A B) (.compl (.inter A B))) [([1], fun l => l.sum + 7)]

example : (∀ i, i ∈ regions xor2.alg ↔ i < xor2.arity) ∧ supported xor2.alg = true ∧
    xor2.arity = 2 ∧ holds (fun _ => false) xor2.alg = false ∧
    run isort xor2 X3 100 = some (expected xor2 X3) ∧
    expected xor2 X3 = [(0, 1000), (1, 17), (4, 3000)] := by
  refine ⟨?_, by decide, rfl, by decide, ?_, by decide⟩
  · intro i
    simp only [xor2, op2, A, B, regions, List.mem_append, List.mem_singleton]
    omega
  · exact operator_loop_partial isort isort_spec xor2 X3 X3_wf (by
      intro i
      simp only [xor2, op2, A, B, regions, List.mem_append, List.mem_singleton]
      omega) (by decide) (Or.inl X3_nz) (Or.inr (Or.inr ⟨rfl, by decide⟩)) 100 (by decide)

/-- An operator of three operands that is evaluated outside the intersection of the first and third. -/
example : supported (.inter (.union A B) (.compl (.inter A C))) = true ∧
    run isort (op3 (.inter (.union A B) (.compl (.inter A C)))) X3 100 =
      some [(0, 1000000), (1, 10000), (3, 2020000)] := by
  refine ⟨by decide, ?_⟩
  rw [operator_loop_partial isort isort_spec _ X3 X3_wf (by
    intro i
    simp only [op3, A, B, C, regions, List.mem_append, List.mem_singleton]
    omega) (by decide) (Or.inl X3_nz) (Or.inl rfl) 100 (by decide)]
  decide

/-- The default iteration space, every coordinate. -/
example : supported (.union (.union A B) (.compl (.union A B))) = true ∧
    (expected (op2 (.union (.union A B) (.compl (.union A B))) []) X3).length = 8 := by
  decide

example : ∃ f : Nat → Alg, f 0 = .region 0 ∧ ∀ n, f (n + 1) = .union (f n) (.region (n + 1)) :=
  ⟨fun n => Nat.rec (.region 0) (fun n a => .union a (.region (n + 1))) n, rfl, fun _ => rfl⟩

/-! ### where it fails -/

/-- Operands given as lists of coordinates and values. -/
private def mk (n : Nat) (a b c : List (Nat × Nat)) : Operands Nat where
  n := n
  zero := 0
  crd k := if k = 0 then a.map (·.1) else if k = 1 then b.map (·.1) else if k = 2 then c.map (·.1) else []
  vals k := if k = 0 then a.map (·.2) else if k = 1 then b.map (·.2) else if k = 2 then c.map (·.2) else []

private def okList (n : Nat) (l : List (Nat × Nat)) : Bool :=
  decide ((l.map (·.1)).Pairwise (· < ·)) && l.all (fun x => decide (x.1 < n))

private theorem mk_wf {n : Nat} {a b c : List (Nat × Nat)} (h : (okList n a && okList n b && okList n c) = true) :
    WF (mk n a b c) := by
  simp only [Bool.and_eq_true] at h
  have hl : ∀ l, okList n l = true → (l.map (·.1)).Pairwise (· < ·) ∧ (∀ x ∈ l.map (·.1), x < n) ∧
      (l.map (·.2)).length = (l.map (·.1)).length := by
    intro l hl
    simp only [okList, Bool.and_eq_true, decide_eq_true_eq, List.all_eq_true] at hl
    refine ⟨hl.1, ?_, by simp⟩
    intro x hx
    obtain ⟨y, hy, rfl⟩ := List.mem_map.1 hx
    exact hl.2 y hy
  intro k
  simp only [mk]
  split
  · exact hl a h.1.1
  · split
    · exact hl b h.1.2
    · split
      · exact hl c h.2
      · simp

private theorem mk_nz {n : Nat} {a b c : List (Nat × Nat)} (h : ((a ++ b ++ c).all (fun x => x.2 != 0)) = true) :
    NoZeros (mk n a b c) := by
  rw [List.all_eq_true] at h
  have hl : ∀ l : List (Nat × Nat), (∀ x ∈ l, x ∈ a ++ b ++ c) → 0 ∉ l.map (·.2) := by
    intro l hl hx
    obtain ⟨y, hy, he⟩ := List.mem_map.1 hx
    have := h y (hl y hy)
    rw [he] at this; simp at this
  intro k
  simp only [mk]
  split
  · exact hl a (fun x hx => by simp [hx])
  · split
    · exact hl b (fun x hx => by simp [hx])
    · split
      · exact hl c (fun x hx => by simp [hx])
      · simp

/-- The list of assigned coordinates and values differs from the one required, for well formed operands
without explicit zeros and a description that mentions exactly the arguments. -/
def WrongResult (op : Op Nat) : Prop :=
  (∀ i, i ∈ regions op.alg ↔ i < op.arity) ∧
  ∃ X : Operands Nat, WF X ∧ NoZeros X ∧ ∃ evs, run isort op X 100 = some evs ∧ evs ≠ expected op X

private theorem regs2 {a : Alg} (h : regions a = [0, 0, 1] ∨ regions a = [0, 1, 0, 1]) :
    ∀ i, i ∈ regions a ↔ i < 2 := by
  intro i; rcases h with h | h <;> rw [h] <;> simp only [List.mem_cons, List.not_mem_nil, or_false] <;> omega

private theorem regs3 {a : Alg} (h : regions a = [0, 1, 2]) : ∀ i, i ∈ regions a ↔ i < 3 := by
  intro i; rw [h]; simp only [List.mem_cons, List.not_mem_nil, or_false]; omega

/-- `¬A ∪ (A ∩ B)`: where only `B` is stored its value is replaced by zero. -/
theorem uncovered_complement_fails : WrongResult (op2 (.union (.compl A) (.inter A B)) []) ∧
    run isort (op2 (.union (.compl A) (.inter A B)) []) (mk 3 [] [(1, 30)] []) 100 = some [(0, 0), (1, 0), (2, 0)] ∧
    expected (op2 (.union (.compl A) (.inter A B)) []) (mk 3 [] [(1, 30)] []) = [(0, 0), (1, 30), (2, 0)] := by
  refine ⟨⟨regs2 (Or.inl rfl), mk 3 [] [(1, 30)] [], mk_wf (by decide), mk_nz (by decide), _, rfl, ?_⟩, ?_, ?_⟩ <;>
    decide +kernel

/-- `A ∪ (B ∩ C)`, without complements: where `A` and `C` are stored the value of `C` is replaced by zero. -/
theorem uncovered_union_fails : hasCompl (.union A (.inter B C)) = false ∧
    WrongResult (op3 (.union A (.inter B C))) ∧
    run isort (op3 (.union A (.inter B C))) (mk 3 [(1, 3)] [(2, 5)] [(1, 200)]) 100 = some [(1, 3000000)] ∧
    expected (op3 (.union A (.inter B C))) (mk 3 [(1, 3)] [(2, 5)] [(1, 200)]) = [(1, 3000200)] := by
  refine ⟨rfl, ⟨regs3 rfl, mk 3 [(1, 3)] [(2, 5)] [(1, 200)], mk_wf (by decide), mk_nz (by decide), _, rfl, ?_⟩,
    ?_, ?_⟩ <;> decide +kernel

/-- `A ∪ (B ∩ ¬C)`: a coordinate of the iteration space is skipped. -/
theorem uncovered_skip_fails : WrongResult (op3 (.union A (.inter B (.compl C)))) ∧
    run isort (op3 (.union A (.inter B (.compl C)))) (mk 6 [(4, 1)] [(5, 1)] [(4, 5)]) 100 = some [(5, 1000)] ∧
    expected (op3 (.union A (.inter B (.compl C)))) (mk 6 [(4, 1)] [(5, 1)] [(4, 5)]) =
      [(4, 1000005), (5, 1000)] := by
  refine ⟨⟨regs3 rfl, mk 6 [(4, 1)] [(5, 1)] [(4, 5)], mk_wf (by decide), mk_nz (by decide), _, rfl, ?_⟩,
    ?_, ?_⟩ <;> decide +kernel

/-- When unions are covered, the second condition of `supported` is necessary: if a region alone reaches the
space without being in it, and the space does not contain the coordinates stored by no operand, an
assertion of the lowering fails, for all operands. -/
theorem region_not_in_space_fails {V : Type} [DecidableEq V] (srt : List Point → List Point) (hs : SortSpec srt)
    (op : Op V) (hc : covered false op.alg = true) (hn : holds (fun _ => false) op.alg = false) (k j : Nat)
    (hk : k ∈ regions op.alg) (hj : j ∈ regions op.alg) (hkj : k ≠ j)
    (hr : reach false (fun i => i == k) op.alg = true) (hh : holds (fun i => i == k) op.alg = false)
    (X : Operands V) (fuel : Nat) : run srt op X fuel = none :=
  run_none hs hc hn hk hj hkj hr hh X fuel

/-- `¬A ∩ (A ∪ B)`, which is `B` without `A`, can not be compiled, and `B ∩ ¬A` can. -/
example (X : Operands Nat) (fuel : Nat) :
    run isort (op2 (.inter (.compl A) (.union A B)) []) X fuel = none ∧ supported (.inter B (.compl A)) = true ∧
    ∀ S, holds S (.inter (.compl A) (.union A B)) = holds S (.inter B (.compl A)) := by
  refine ⟨region_not_in_space_fails isort isort_spec _ (by decide) (by decide) 0 1 (by decide) (by decide)
    (by decide) (by decide) (by decide) X fuel, by decide, ?_⟩
  intro S
  simp only [holds, A, B]
  cases S 0 <;> cases S 1 <;> rfl

/-- `A ∩ ¬A` is empty, but the operator is evaluated at every coordinate of `A`. -/
theorem empty_space_fails : (∀ S, holds S (.inter A (.compl A)) = false) ∧
    run isort ⟨1, .inter A (.compl A), fun l => l.sum + 1, []⟩ (mk 6 [(4, 1)] [] []) 100 = some [(4, 2)] := by
  refine ⟨fun S => by simp [holds], by decide +kernel⟩

/-- The operands without their explicit zeros. -/
def dropZeros (X : Operands Nat) : Operands Nat where
  n := X.n
  zero := X.zero
  crd k := (((X.crd k).zip (X.vals k)).filter (fun x => x.2 != X.zero)).map (·.1)
  vals k := (((X.crd k).zip (X.vals k)).filter (fun x => x.2 != X.zero)).map (·.2)

/-- Explicit zeros: `A ∩ ¬B` treats a stored zero of `A` as not stored while `B` is not exhausted and as
stored afterwards, so the result is neither that of the stored coordinates nor that of the nonzero
ones. -/
theorem explicit_zero_fails : supported (.inter A (.compl B)) = true ∧ ∃ X : Operands Nat, WF X ∧
    run isort (op2 (.inter A (.compl B)) []) X 100 = some [(4, 0)] ∧
    expected (op2 (.inter A (.compl B)) []) X = [(1, 0), (4, 0)] ∧
    expected (op2 (.inter A (.compl B)) []) (dropZeros X) = [] := by
  refine ⟨by decide, mk 6 [(1, 0), (4, 0)] [(2, 1)] [], mk_wf (by decide), ?_, ?_, ?_⟩ <;> decide +kernel

/-- Special definitions of an operator that is evaluated everywhere: the one for the coordinates at which
only `B` is stored is used where nothing is stored, once `B` is exhausted. -/
theorem special_everywhere_fails :
    supported (.union (.union A B) (.compl (.union A B))) = true ∧
    WrongResult ⟨2, .union (.union A B) (.compl (.union A B)), fun _ => 7, [([1], fun _ => 9)]⟩ ∧
    run isort ⟨2, .union (.union A B) (.compl (.union A B)), fun _ => 7, [([1], fun _ => 9)]⟩
      (mk 4 [(3, 1)] [(0, 1)] []) 100 = some [(0, 9), (1, 9), (2, 9), (3, 7)] ∧
    expected ⟨2, .union (.union A B) (.compl (.union A B)), fun _ => 7, [([1], fun _ => 9)]⟩
      (mk 4 [(3, 1)] [(0, 1)] []) = [(0, 9), (1, 7), (2, 7), (3, 7)] := by
  refine ⟨by decide, ⟨regs2 (Or.inr rfl), mk 4 [(3, 1)] [(0, 1)] [], mk_wf (by decide), mk_nz (by decide), _,
    rfl, ?_⟩, ?_, ?_⟩ <;> decide +kernel

/-- Special definitions of an operator of three operands: the one for the coordinates at which only `A` is
stored is not used once another operand is exhausted. -/
theorem special_three_fails :
    supported (.union (.union A B) C) = true ∧
    WrongResult ⟨3, .union (.union A B) C, fun _ => 7, [([0], fun _ => 9)]⟩ ∧
    run isort ⟨3, .union (.union A B) C, fun _ => 7, [([0], fun _ => 9)]⟩
      (mk 4 [(2, 1)] [(0, 1)] [(3, 1)]) 100 = some [(0, 7), (2, 7), (3, 7)] ∧
    expected ⟨3, .union (.union A B) C, fun _ => 7, [([0], fun _ => 9)]⟩
      (mk 4 [(2, 1)] [(0, 1)] [(3, 1)]) = [(0, 7), (2, 9), (3, 7)] := by
  refine ⟨by decide, ⟨regs3 rfl, mk 4 [(2, 1)] [(0, 1)] [(3, 1)], mk_wf (by decide), mk_nz (by decide), _,
    rfl, ?_⟩, ?_, ?_⟩ <;> decide +kernel

end Verif.Omit
