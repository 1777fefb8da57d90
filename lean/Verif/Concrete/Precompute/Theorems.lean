import Verif.Concrete.Precompute.Lemmas
/-
Property C20: precomputing an expression into a workspace does not change what is computed.
-/
namespace Verif.Concrete

variable {R : Type} [CommRing R]

/-- A nest of loops `L` around the assignment of `c`, with the expression in its holes, to the
tensor `a`, which is zero at first, computes the same after the expression has been
precomputed.  What is assumed:

* the workspace and its index variables are new, and have the dimensions of the variables
  they stand for;
* the assignment accumulates, or every loop variable is on its left-hand side;
* none of the variables of the workspace is left to a loop around producer and consumer;
* every loop variable is used, and those of loops around both are used by the consumer;
* if there are loops for the producer only, the right-hand side is linear in the expression,
  and the expression uses a variable of the workspace (unless it has none);
* the consumer reads with a variable of its left-hand side (unless it has none).

Missing: statements with where statements in them and derived variables.  For what happens
without the other assumptions see the theorems below. -/
theorem precompute_partial {dim : Nat → Nat} {q : Pre R} {L lhs : List Nat} {a h : Nat}
    {plus : Bool} {c : Expr R} {σ : Store R} (hL : L.Nodup) (hni : q.is.Nodup) (hnw : q.iws.Nodup)
    (hl : q.is.length = q.iws.length) (hdim : q.iws.map dim = q.is.map dim)
    (hfresh : ∀ w ∈ q.iws, w ∈ q.is ∨ (w ∉ L ∧ w ∉ q.e.varsAll))
    (hin : ∀ i ∈ q.is, i ∈ L ∧ i ∉ (q.split L lhs h c).outer)
    (huse : ∀ v ∈ L, v ∈ lhs ∨ v ∈ (q.consumerRhs h c).varsAll ∨ v ∈ q.e.varsAll)
    (hlin : (∃ v ∈ L, v ∉ lhs ∧ v ∉ (q.consumerRhs h c).varsAll) →
      c.linearIn h ∧ (q.is = [] ∨ ∃ i ∈ q.is, i ∈ q.e.varsAll))
    (hout : ∀ v ∈ (q.split L lhs h c).outer, v ∈ lhs ∨ v ∈ (q.consumerRhs h c).varsAll)
    (hlhs : lhs = [] ∨ ∃ v ∈ (q.consumerRhs h c).varsAll, v ∈ lhs)
    (hwe : q.ws ∉ q.e.tensors) (hwa : q.ws ≠ a) (hwc : q.ws ∉ c.tensors)
    (hae : a ∉ q.e.tensors) (hac : a ∉ c.tensors) (he : q.e.sumFree) (hc : c.sumFree)
    (hh : h ∈ c.tensors) (hplus : plus = true ∨ ∀ v ∈ L, v ∈ lhs) (hz : ∀ x, σ a x = 0) (ρ : Env) :
    exec dim (precompute q L a lhs h c) ρ σ =
      exec dim (loops L (.assign a lhs plus (c.fill h q.e))) ρ σ := by
  have hiw : ∀ v ∈ L, v ∉ q.is → v ∉ q.iws := by
    intro v hv hvi hw
    rcases hfresh v hw with g | g
    · exact hvi g
    · exact g.1 hv
  have hisr : ∀ i ∈ q.is, i ∈ (q.consumerRhs h c).varsAll := by
    intro i hi
    exact fill_vars (by simpa [Expr.varsAll] using hi) c hh
  refine precompute_ok hL hni hnw hl hdim hfresh hin huse (fun g => (hlin g).1) ?_ ?_ hwe hwa hwc hae
    hac he hc hh hplus hz ρ
  · -- the consumer
    by_cases hall : ∀ v ∈ (q.split L lhs h c).consumer ++ (q.split L lhs h c).outer, v ∈ lhs
    · exact Or.inr hall
    · left
      push Not at hall
      obtain ⟨v, hv, hvl⟩ := hall
      have hr : v ∈ (q.consumerRhs h c).varsAll := by
        rcases List.mem_append.mp hv with g | g
        · obtain ⟨_, _, _, _, h4⟩ := distribute_spec (is := q.is) (iws := q.iws)
            (inC := fun v => lhs.contains v || (q.consumerRhs h c).varsAll.contains v)
            (inP := fun v => q.iws.contains v || q.producerRhs.varsAll.contains v) L.reverse (by
              intro v hv
              have hv' : v ∈ L := by simpa using hv
              by_cases hvi : v ∈ q.is
              · exact Or.inl hvi
              rcases huse v hv' with h | h | h
              · right; left; simp [h]
              · right; left; simp [h]
              · right; right
                have : v ∈ q.producerRhs.varsAll := by
                  rw [Pre.producerRhs, varsAll_rename]
                  refine List.mem_map.mpr ⟨v, h, substVar_notMem _ _ _ hvi⟩
                simp [this])
          rcases h4 v g with g | ⟨g, _⟩
          · exact hisr v g
          · simpa [hvl] using g
        · rcases hout v g with g | g
          · exact absurd g hvl
          · exact g
      unfold Pre.consumerPlus
      simp only [Bool.or_eq_true]
      exact Or.inl (setRel_plus ⟨v, hr, hvl⟩ hlhs)
  · -- the producer
    by_cases hall : ∀ v ∈ L, v ∈ lhs ∨ v ∈ (q.consumerRhs h c).varsAll
    · exact Or.inr hall
    · left
      push Not at hall
      obtain ⟨v, hv, hvl, hvr⟩ := hall
      have hvi : v ∉ q.is := fun g => hvr (hisr v g)
      have hve : v ∈ q.e.varsAll := by
        rcases huse v hv with g | g | g
        · exact absurd g hvl
        · exact absurd g hvr
        · exact g
      unfold Pre.producerPlus
      simp only [Bool.or_eq_true]
      refine Or.inl (setRel_plus ⟨v, ?_, hiw v hv hvi⟩ ?_)
      · rw [Pre.producerRhs, varsAll_rename]
        exact List.mem_map.mpr ⟨v, hve, substVar_notMem _ _ _ hvi⟩
      · rcases (hlin ⟨v, hv, hvl, hvr⟩).2 with g | ⟨i, g1, g2⟩
        · left
          rw [g] at hl
          exact List.length_eq_zero_iff.mp (by simpa using hl.symm)
        · right
          refine ⟨substVar q.is q.iws i, ?_, substVar_mem _ _ hni hl g1⟩
          rw [Pre.producerRhs, varsAll_rename]
          exact List.mem_map_of_mem g2

/-- Whatever is precomputed, no tensor other than the result is changed. -/
theorem precompute_changes_result_only {dim : Nat → Nat} (q : Pre R) (L lhs : List Nat) (a h : Nat)
    (c : Expr R) (σ : Store R) (ρ : Env) {u : Nat} (hu : u ≠ a) :
    exec dim (precompute q L a lhs h c) ρ σ u = σ u := by
  refine exec_other _ _ _ _ ?_
  unfold precompute
  simp only [target_loops, Stmt.target]
  exact hu

/-- Row-wise matrix product: `A(i,j) += B(i,k) * C(k,j)` in loops `i, k, j`, precomputing
`B(i,k) * C(k,j)` into `w(j)` with the variable `jw`.  Here `A, B, C, w = 0, 1, 2, 3`,
`i, j, k, jw = 0, 1, 2, 3`, and the marker is 9. -/
def rowProduct : Pre Int where
  e := .mul (.acc 1 [0, 2]) (.acc 2 [2, 1])
  is := [1]
  iws := [3]
  ws := 3

/-- `A(i,j) = w(j) where w(jw) += B(i,k) * C(k,jw)`. -/
example : precompute rowProduct [0, 2, 1] 0 [0, 1] 9 (.acc 9 []) =
    .loop 0 (.wher (.loop 1 (.assign 0 [0, 1] false (.acc 3 [1])))
      (.loop 2 (.loop 3 (.assign 3 [3] true (.mul (.acc 1 [0, 2]) (.acc 2 [2, 3])))))) := by
  decide

example (σ : Store Int) (hz : ∀ x, σ 0 x = 0) (ρ : Env) :
    exec (fun _ => 5) (precompute rowProduct [0, 2, 1] 0 [0, 1] 9 (.acc 9 [])) ρ σ =
    exec (fun _ => 5) (loops [0, 2, 1] (.assign 0 [0, 1] true rowProduct.e)) ρ σ := by
  refine precompute_partial (c := .acc 9 []) (h := 9) (by decide) (by decide) (by decide) rfl rfl
    (by decide) (by decide) (by decide) ?_ (by decide) (by decide) (by decide) (by decide) (by decide)
    (by decide) (by decide) ?_ trivial (by decide) (Or.inl rfl) hz ρ
  · intro _
    exact ⟨rfl, Or.inr ⟨1, by decide, by decide⟩⟩
  · exact ⟨trivial, trivial⟩

/-- `A(i,j) += D(i,j) * B(i,j,k)` in loops `k, i, j`, precomputing `B(i,j,k)` over `j`. -/
def outerPre : Pre Int where
  e := .acc 2 [0, 1, 2]
  is := [1]
  iws := [3]
  ws := 3

/-- The loop `k` stays around the consumer, which does not use it and is turned from an
accumulation into an assignment: only the last `k` counts. -/
theorem precompute_outer_fails :
    precompute outerPre [2, 0, 1] 0 [0, 1] 9 (.mul (.acc 1 [0, 1]) (.acc 9 [])) =
      loops [2, 0] (.wher (.loop 1 (.assign 0 [0, 1] false (.mul (.acc 1 [0, 1]) (.acc 3 [1]))))
        (.loop 3 (.assign 3 [3] true (.acc 2 [0, 3, 2])))) ∧
    ∃ (dim : Nat → Nat) (σ : Store Int) (ρ : Env), (∀ x, σ 0 x = 0) ∧
      exec dim (precompute outerPre [2, 0, 1] 0 [0, 1] 9 (.mul (.acc 1 [0, 1]) (.acc 9 []))) ρ σ
        0 [0, 0] = 1 ∧
      exec dim (loops [2, 0, 1] (.assign 0 [0, 1] true (.mul (.acc 1 [0, 1]) (.acc 2 [0, 1, 2])))) ρ σ
        0 [0, 0] = 2 := by
  refine ⟨by decide, fun i => if i = 2 then 2 else 1, fun t _ => if t = 0 then 0 else 1, fun _ => 0,
    fun _ => rfl, ?_, ?_⟩
  · decide +kernel
  · decide +kernel

/-- `A(i) += D(i) + B(i,k)` in loops `i, k`, precomputing `B(i,k)` over `i`. -/
def sumPre : Pre Int where
  e := .acc 2 [0, 2]
  is := [0]
  iws := [3]
  ws := 3

/-- `D(i)` is then added once, not once for every `k`. -/
theorem precompute_nonlinear_fails :
    precompute sumPre [0, 2] 0 [0] 9 (.add (.acc 1 [0]) (.acc 9 [])) =
      .wher (.loop 0 (.assign 0 [0] false (.add (.acc 1 [0]) (.acc 3 [0]))))
        (.loop 3 (.loop 2 (.assign 3 [3] true (.acc 2 [3, 2])))) ∧
    ∃ (dim : Nat → Nat) (σ : Store Int) (ρ : Env), (∀ x, σ 0 x = 0) ∧
      exec dim (precompute sumPre [0, 2] 0 [0] 9 (.add (.acc 1 [0]) (.acc 9 []))) ρ σ 0 [0] = 3 ∧
      exec dim (loops [0, 2] (.assign 0 [0] true (.add (.acc 1 [0]) (.acc 2 [0, 2])))) ρ σ 0 [0] = 4 := by
  refine ⟨by decide, fun i => if i = 2 then 2 else 1, fun t _ => if t = 0 then 0 else 1, fun _ => 0,
    fun _ => rfl, ?_, ?_⟩
  · decide +kernel
  · decide +kernel

/-- `A(i,j) += B(i,j) * C(i,j)` in loops `i, j`, precomputing `B(i,j)` over `i`. -/
def unboundPre : Pre Int where
  e := .acc 1 [0, 1]
  is := [0]
  iws := [3]
  ws := 3

/-- The loop `j` stops the distribution, so that no loop over the variable `iw` of the
workspace is made: in the result it is not bound. -/
theorem precompute_unbound_fails :
    precompute unboundPre [0, 1] 0 [0, 1] 9 (.mul (.acc 9 []) (.acc 2 [0, 1])) =
      loops [0, 1] (.wher (.assign 0 [0, 1] false (.mul (.acc 3 [0]) (.acc 2 [0, 1])))
        (.assign 3 [3] true (.acc 1 [3, 1]))) ∧
    isConcrete [] false (loops [0, 1] (.assign 0 [0, 1] true
      (.mul (.acc 1 [0, 1]) (.acc 2 [0, 1])) : Stmt Int)) = true ∧
    isConcrete [] false
      (precompute unboundPre [0, 1] 0 [0, 1] 9 (.mul (.acc 9 []) (.acc 2 [0, 1]))) = false := by
  decide

/-- `A(i) += b(k) * c(i)` in loops `k, i`, precomputing `b(k)` over `i`. -/
def constPre : Pre Int where
  e := .acc 1 [2]
  is := [0]
  iws := [3]
  ws := 3

/-- The producer `w(iw) = b(k)` in loops `k, iw` does not accumulate: only the last `k`
counts.  In loops `i, k` it does. -/
theorem precompute_disjoint_fails :
    precompute constPre [2, 0] 0 [0] 9 (.mul (.acc 9 []) (.acc 2 [0])) =
      .wher (.loop 0 (.assign 0 [0] false (.mul (.acc 3 [0]) (.acc 2 [0]))))
        (.loop 2 (.loop 3 (.assign 3 [3] false (.acc 1 [2])))) ∧
    precompute constPre [0, 2] 0 [0] 9 (.mul (.acc 9 []) (.acc 2 [0])) =
      .wher (.loop 0 (.assign 0 [0] false (.mul (.acc 3 [0]) (.acc 2 [0]))))
        (.loop 3 (.loop 2 (.assign 3 [3] true (.acc 1 [2])))) ∧
    ∃ (dim : Nat → Nat) (σ : Store Int) (ρ : Env), (∀ x, σ 0 x = 0) ∧
      exec dim (precompute constPre [2, 0] 0 [0] 9 (.mul (.acc 9 []) (.acc 2 [0]))) ρ σ 0 [0] = 1 ∧
      exec dim (loops [2, 0] (.assign 0 [0] true (.mul (.acc 1 [2]) (.acc 2 [0])))) ρ σ 0 [0] = 2 := by
  refine ⟨by decide, by decide, fun i => if i = 2 then 2 else 1, fun t _ => if t = 0 then 0 else 1,
    fun _ => 0, fun _ => rfl, ?_, ?_⟩
  · decide +kernel
  · decide +kernel

/-- `A(i) += B(i)` in loops `i, k`, precomputing `B(i)` over `i`. -/
def unusedPre : Pre Int where
  e := .acc 1 [0]
  is := [0]
  iws := [3]
  ws := 3

/-- The loop `k`, which nothing uses, is dropped. -/
theorem precompute_dropped_fails :
    precompute unusedPre [0, 2] 0 [0] 9 (.acc 9 []) =
      .wher (.loop 0 (.assign 0 [0] false (.acc 3 [0]))) (.loop 3 (.assign 3 [3] false (.acc 1 [3]))) ∧
    ∃ (dim : Nat → Nat) (σ : Store Int) (ρ : Env), (∀ x, σ 0 x = 0) ∧
      exec dim (precompute unusedPre [0, 2] 0 [0] 9 (.acc 9 [])) ρ σ 0 [0] = 1 ∧
      exec dim (loops [0, 2] (.assign 0 [0] true (.acc 1 [0]))) ρ σ 0 [0] = 2 := by
  refine ⟨by decide, fun i => if i = 2 then 2 else 1, fun t _ => if t = 0 then 0 else 1,
    fun _ => 0, fun _ => rfl, ?_, ?_⟩
  · decide +kernel
  · decide +kernel

end Verif.Concrete
