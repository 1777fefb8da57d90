import Verif.Concrete.Reorder.Lemmas
/-
Property C19: reordering loops does not change what is computed.
-/
namespace Verif.Concrete

variable {R : Type} [CommRing R]

/-- A reordered statement is the statement with nested loops over the given variables, in
whatever order they were, exchanged for nested loops in the given order. -/
theorem reorder_structure {pat : List Nat} {s s' : Stmt R} (h : reorder pat s = .ok s')
    (hn : s.noShadow []) : ∃ old, old.Perm pat ∧ Replaced old pat s s' :=
  reorder_replaced h hn

/-- A reordered statement computes the same tensors.  Missing: that a statement is always
returned or an error reported, see `reorder_broken_fails`; derived variables. -/
theorem reorder_preserves_partial {pat : List Nat} {s s' : Stmt R} (h : reorder pat s = .ok s')
    (hw : s.wellFormed) (hn : s.noShadow []) (hr : s.reorderable pat) (dim : Nat → Nat) (ρ : Env)
    (σ : Store R) : exec dim s' ρ σ = exec dim s ρ σ := by
  obtain ⟨old, hp, hrep⟩ := reorder_replaced h hn
  refine (exec_replaced hp hrep [] hw hn ?_).2 ρ σ
  have : ∀ s : Stmt R, s.reorderable pat → s.reorderable old := by
    intro s
    induction s with
    | assign t is plus e => intro _; trivial
    | loop i s ih =>
      intro hs
      refine ⟨fun hi => ?_, ih hs.2⟩
      rcases hs.1 (hp.mem_iff.mp hi) with h | h
      · exact Or.inl h
      · exact Or.inr fun j hj => h j (hp.mem_iff.mp hj)
    | wher c p ihc ihp => intro hs; exact ⟨ihc hs.1, ihp hs.2⟩
  exact this s hr

/-- Swapping two loops, likewise. -/
theorem reorder2_preserves_partial {i j : Nat} {s s' : Stmt R} (h : reorder2 i j s = .ok s')
    (hw : s.wellFormed) (hn : s.noShadow []) (hr : s.reorderable [i, j]) (dim : Nat → Nat) (ρ : Env)
    (σ : Store R) : exec dim s' ρ σ = exec dim s ρ σ := by
  unfold reorder2 at h
  split at h
  · refine reorder_preserves_partial h hw hn ?_ dim ρ σ
    have hm : ∀ k, k ∈ [j, i] ↔ k ∈ [i, j] := by intro k; simp [or_comm]
    have : ∀ s : Stmt R, s.reorderable [i, j] → s.reorderable [j, i] := by
      intro s
      induction s with
      | assign t is plus e => intro _; trivial
      | loop k s ih =>
        intro hs
        refine ⟨fun hi => ?_, ih hs.2⟩
        rcases hs.1 ((hm k).mp hi) with h | h
        · exact Or.inl h
        · exact Or.inr fun l hl => h l ((hm l).mp hl)
      | wher c p ihc ihp => intro hs; exact ⟨ihc hs.1, ihp hs.2⟩
    exact this s hr
  · exact reorder_preserves_partial h hw hn hr dim ρ σ

/-- Directly nested loops can be brought into any order. -/
theorem reorder_accepts {pre cur pat : List Nat} {b : Stmt R}
    (hc : isConcrete [] false (loops pre (loops cur b)) = true) (hp : cur.Perm pat) (hne : pat ≠ [])
    (hpre : ∀ i ∈ pre, i ∉ pat) (hb : ∀ i ∈ loopVars b, i ∉ pat) :
    reorder pat (loops pre (loops cur b)) = .ok (loops pre (loops pat b)) :=
  reorder_ok hc hp hne hpre hb

/-- Two directly nested loops are swapped, however the two variables are given. -/
theorem reorder2_swaps {pre : List Nat} {i j : Nat} {b : Stmt R} (hij : i ≠ j)
    (hc : isConcrete [] false (loops pre (loops [i, j] b)) = true)
    (hpre : ∀ k ∈ pre, k ≠ i ∧ k ≠ j) (hb : ∀ k ∈ loopVars b, k ≠ i ∧ k ≠ j) :
    reorder2 i j (loops pre (loops [i, j] b)) = .ok (loops pre (loops [j, i] b)) ∧
    reorder2 j i (loops pre (loops [i, j] b)) = .ok (loops pre (loops [j, i] b)) := by
  have hcur : ∀ pat, (∀ k, k ∈ pat ↔ k = i ∨ k = j) →
      currentOrdering pat (loops pre (loops [i, j] b)) = [i, j] := by
    intro pat hpat
    unfold currentOrdering
    rw [loopVars_loops, loopVars_loops, List.filter_append, List.filter_append]
    rw [List.filter_eq_nil_iff.mpr (by
        intro k hk; simp only [List.contains_iff_mem, hpat, not_or]; exact hpre k hk),
      (List.filter_eq_nil_iff (l := loopVars b)).mpr (by
        intro k hk; simp only [List.contains_iff_mem, hpat, not_or]; exact hb k hk),
      List.filter_eq_self.mpr (by intro k hk; simpa [hpat] using hk)]
    simp
  have hs : reorder [j, i] (loops pre (loops [i, j] b)) = .ok (loops pre (loops [j, i] b)) :=
    reorder_ok hc (List.Perm.swap _ _ _) (by simp)
      (fun k hk => by simpa using ⟨(hpre k hk).2, (hpre k hk).1⟩)
      (fun k hk => by simpa using ⟨(hb k hk).2, (hb k hk).1⟩)
  refine ⟨?_, ?_⟩
  · unfold reorder2
    rw [hcur [i, j] (by intro k; simp), if_pos rfl]
    exact hs
  · unfold reorder2
    rw [hcur [j, i] (by intro k; simp [or_comm]), if_neg (by simp [hij])]
    exact hs

/-- Replacing nested loops gives the statement with other loops in their place; this is how
splits, divisions and fusions introduce their loops too. -/
theorem forAllReplace_structure {pat rep : List Nat} {s s' : Stmt R}
    (h : forAllReplace pat rep s = .ok s') : Replaced pat rep s s' :=
  forAllReplace_replaced h

/-- `A(i,j) += B(i,k) * C(k,j)` in loops `i, j, k`, with `A, B, C = 0, 1, 2`. -/
def matmul : Stmt Int :=
  loops [0, 1, 2] (.assign 0 [0, 1] true (.mul (.acc 1 [0, 2]) (.acc 2 [2, 1])))

example : reorder [0, 2, 1] matmul =
    .ok (loops [0, 2, 1] (.assign 0 [0, 1] true (.mul (.acc 1 [0, 2]) (.acc 2 [2, 1])))) ∧
    matmul.wellFormed ∧ matmul.noShadow [] ∧ matmul.reorderable [0, 2, 1] := by
  refine ⟨by decide, ?_, ?_, ?_⟩
  · simp [matmul, loops, Stmt.wellFormed, Expr.tensors]
  · simp [matmul, loops, Stmt.noShadow]
  · simp [matmul, loops, Stmt.reorderable, Stmt.accumulates]

/-- `A(i,j) = w(j) where w(j) += B(i,k) * C(k,j)`: the loops `k, j` of the producer are
swapped, and those are below the loop `i`. -/
def rowwise : Stmt Int :=
  .loop 0 (.wher (.loop 1 (.assign 0 [0, 1] false (.acc 3 [1])))
    (.loop 2 (.loop 4 (.assign 3 [4] true (.mul (.acc 1 [0, 2]) (.acc 2 [2, 4]))))))

example : reorder2 2 4 rowwise =
    .ok (.loop 0 (.wher (.loop 1 (.assign 0 [0, 1] false (.acc 3 [1])))
      (.loop 4 (.loop 2 (.assign 3 [4] true (.mul (.acc 1 [0, 2]) (.acc 2 [2, 4]))))))) ∧
    rowwise.wellFormed ∧ rowwise.noShadow [] ∧ rowwise.reorderable [2, 4] := by
  refine ⟨by decide, ?_, ?_, ?_⟩
  · simp [rowwise, Stmt.wellFormed, Expr.tensors, Stmt.target, Stmt.reads]
  · simp [rowwise, Stmt.noShadow]
  · simp [rowwise, Stmt.reorderable, Stmt.accumulates]

/-- Loops `i, j`, and `k` in a consumer below them: `A(i,j,k) = w * B(k) where w = C(i,j)`. -/
def notNested : Stmt Int :=
  loops [0, 1] (.wher (.loop 2 (.assign 0 [0, 1, 2] false (.mul (.acc 3 []) (.acc 1 [2]))))
    (.assign 3 [] false (.acc 2 [0, 1])))

/-- Reordering `k` before `i` and `j` returns a statement with an undefined statement in it,
and no error: the third loop is not directly nested, but the failure is forgotten when the
first loop is left. -/
theorem reorder_broken_fails : isConcrete [] false notNested = true ∧
    reorder [2, 0, 1] notNested = .broken := by decide

/-- With only two loops, the failure is reported. -/
example : reorder [2, 1] notNested = .error := by decide

end Verif.Concrete
