import Verif.Concrete.Einsum.Lemmas
/-
Property C21: what the loops compute that an assignment in einsum notation is turned into.
-/
namespace Verif.Concrete

variable {R : Type} [CommRing R]

/-- Einsum notation is turned into reduction notation: every index variable is then on the
left-hand side or bound by a sum. -/
theorem einsum_becomes_reduction {free : List Nat} {e : Expr R} (h : isEinsum false e = true) :
    isReduction free (makeReduction free e) = true := by
  unfold makeReduction
  rw [if_pos h]
  cases hr : (einsumRewrite free e).2 with
  | true => rw [(einsumRewrite_one h hr).1]; exact isReduction_addReductions free e
  | false => exact isReduction_rewrite h hr

/-- The reduction notation has the value of the einsum notation, if the terms of each operand
of the outermost addition or subtraction are summed over the same variables.  Missing: any
other sum of three terms or more, see `three_terms_fails`. -/
theorem einsum_reduction_partial {dim : Nat → Nat} {σ : Store R} {free : List Nat} {e : Expr R}
    (h : isEinsum false e = true) (hu : ∀ x ∈ topOperands e, Uniform free x) (ρ : Env) :
    eval dim σ ρ (makeReduction free e) = einsum dim σ free e ρ :=
  makeReduction_ok h hu ρ

/-- In particular up to two terms are always summed as meant. -/
theorem two_terms {dim : Nat → Nat} {σ : Store R} {free : List Nat} {e : Expr R}
    (h : isEinsum false e = true) (h2 : ∀ x ∈ topOperands e, (terms x).length = 1 ∧ isEinsum true x = true)
    (ρ : Env) : eval dim σ ρ (makeReduction free e) = einsum dim σ free e ρ := by
  refine makeReduction_ok h (fun x hx y hy i hi => ?_) ρ
  obtain ⟨_, _, z, hz, hv⟩ := isEinsum_mul (free := free) (h2 x hx).2
  rw [hz] at hy
  simp only [List.mem_singleton] at hy
  subst hy
  exact Or.inr (hv ▸ hi)

/-- Concrete notation computes reduction notation: for every coordinate of the result the
value of the right-hand side, added to what was there (which is zero, unless the assignment
is an accumulation).  Nothing else is changed. -/
theorem concrete_computes {dim : Nat → Nat} {σ : Store R} {ρ : Env} {n a : Nat} {lhs : List Nat}
    {plus : Bool} {e : Expr R} (hn : lhs.Nodup) (hr : a ∉ e.tensors) (ha : a < n)
    (he : ∀ u ∈ e.tensors, u < n) (hd : ∀ i ∈ topVars e, i ∉ lhs)
    (hz : plus = false → ∀ x, σ a x = 0) :
    (∀ x, InBox dim lhs x → exec dim (makeConcrete n a lhs plus e) ρ σ a x =
      σ a x + eval dim σ (bind lhs x ρ) e) ∧
    (∀ x, ¬ InBox dim lhs x → exec dim (makeConcrete n a lhs plus e) ρ σ a x = σ a x) ∧
    (∀ u, u ≠ a → exec dim (makeConcrete n a lhs plus e) ρ σ u = σ u) := by
  rw [exec_makeConcrete ha he]
  obtain ⟨h1, h2, h3⟩ := exec_nest (dim := dim) (ρ := ρ) (plus := plus) hn (tensors_top e ▸ hr) hd hz
  refine ⟨fun x hx => ?_, h2, h3⟩
  rw [h1 x hx, ← eval_top]

/-- Concrete notation contains no reductions. -/
theorem concrete_no_reductions {n a : Nat} {lhs : List Nat} {plus : Bool} {e : Expr R}
    (ha : a < n) (he : ∀ u ∈ e.tensors, u < n) : (makeConcrete n a lhs plus e).sumFree := by
  have key : ∀ (is : List Nat) (s : Stmt R), s.sumFree → (loops is s).sumFree := by
    intro is s h
    induction is with
    | nil => exact h
    | cons i is ih => exact ih
  refine key _ _ (key _ _ ?_)
  exact (wheres_ok (fun _ => 0) _ _ _ _ _ _ (reds_top e) ha (tensors_top e ▸ he)).2.2.1

/-- What an assignment in einsum notation computes: for every coordinate of the result, each
term summed over the variables of the term that are not on the left-hand side. -/
theorem einsum_computes_partial {dim : Nat → Nat} {σ : Store R} {ρ : Env} {n a : Nat}
    {lhs : List Nat} {plus : Bool} {e : Expr R} (h : isEinsum false e = true)
    (hu : ∀ x ∈ topOperands e, Uniform lhs x) (hn : lhs.Nodup) (hr : a ∉ e.tensors) (ha : a < n)
    (he : ∀ u ∈ e.tensors, u < n) (hz : plus = false → ∀ x, σ a x = 0) :
    (∀ x, InBox dim lhs x → exec dim (makeConcrete n a lhs plus (makeReduction lhs e)) ρ σ a x =
      σ a x + einsum dim σ lhs e (bind lhs x ρ)) ∧
    (∀ u, u ≠ a → exec dim (makeConcrete n a lhs plus (makeReduction lhs e)) ρ σ u = σ u) := by
  obtain ⟨h1, _, h3⟩ := concrete_computes (dim := dim) (σ := σ) (ρ := ρ) (plus := plus)
    (e := makeReduction lhs e) hn (by rwa [tensors_makeReduction]) ha
    (by rwa [tensors_makeReduction]) (topVars_makeReduction h) hz
  refine ⟨fun x hx => ?_, h3⟩
  rw [h1 x hx, makeReduction_ok h hu]

/-- `A(i) = B(i,j) * C(j) - D(i)`, with `A, B, C, D = 0, 1, 2, 3` and `i, j = 0, 1`. -/
def exampleEinsum : Expr Int :=
  .sub (.mul (.acc 1 [0, 1]) (.acc 2 [1])) (.acc 3 [0])

example : isEinsum false exampleEinsum = true ∧
    (∀ x ∈ topOperands exampleEinsum, Uniform [0] x) ∧ 0 ∉ exampleEinsum.tensors ∧
    (∀ u ∈ exampleEinsum.tensors, u < 4) ∧
    (∀ x ∈ topOperands exampleEinsum, (terms x).length = 1 ∧ isEinsum true x = true) := by
  refine ⟨rfl, ?_, by decide, by decide, ?_⟩
  · simp [exampleEinsum, topOperands, Uniform, terms, Expr.varsAll]
  · simp [exampleEinsum, topOperands, terms, isEinsum]

example : makeConcrete 4 0 [0] false (makeReduction [0] exampleEinsum) =
    .loop 0 (.wher (.assign 0 [0] false (.sub (.acc 4 []) (.acc 3 [0])))
      (.loop 1 (.assign 4 [] true (.mul (.acc 1 [0, 1]) (.acc 2 [1]))))) := rfl

/-- `A(i) = D(i,j) + B(i) + C(i)`, which is `(D(i,j) + B(i)) + C(i)`. -/
def threeTerms : Expr Int := .add (.add (.acc 1 [0, 1]) (.acc 2 [0])) (.acc 3 [0])

/-- With three terms, `B(i)` is added once for every `j`: the sum over `j` is put around the
whole left operand. -/
theorem three_terms_fails :
    isEinsum false threeTerms = true ∧
    makeReduction [0] threeTerms =
      .add (.red 1 (.add (.acc 1 [0, 1]) (.acc 2 [0]))) (.acc 3 [0]) ∧
    ∃ (dim : Nat → Nat) (σ : Store Int) (ρ : Env),
      eval dim σ ρ (makeReduction [0] threeTerms) = 2 ∧ einsum dim σ [0] threeTerms ρ = 1 := by
  refine ⟨rfl, rfl, fun _ => 2, fun t _ => if t = 2 then 1 else 0, fun _ => 0, ?_, ?_⟩
  · rfl
  · rfl

/-- `A(i) = sum(i, B(i))` is accepted as reduction notation, but the loops compute `n * B(i)`. -/
theorem shadowed_fails :
    isReduction [0] (.red 0 (.acc 1 [0]) : Expr Int) = true ∧
    makeConcrete 2 0 [0] false (.red 0 (.acc 1 [0]) : Expr Int) =
      .loop 0 (.loop 0 (.assign 0 [0] true (.acc 1 [0]))) ∧
    ∃ (dim : Nat → Nat) (σ : Store Int) (ρ : Env), (∀ x, σ 0 x = 0) ∧
      exec dim (makeConcrete 2 0 [0] false (.red 0 (.acc 1 [0]))) ρ σ 0 [1] = 2 ∧
      eval dim σ (bind [0] [1] ρ) (.red 0 (.acc 1 [0])) = 1 := by
  refine ⟨rfl, rfl, fun _ => 2, fun t x => if t = 1 ∧ x = [1] then 1 else 0, fun _ => 0, ?_, ?_, ?_⟩
  · intro x; simp
  · rfl
  · rfl

end Verif.Concrete
