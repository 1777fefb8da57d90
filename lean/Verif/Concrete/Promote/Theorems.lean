import Verif.Concrete.Promote.Lemmas
/-
Property C60: accumulating into scalars does not change what is computed.
-/
namespace Verif.Concrete

variable {R : Type} [CommRing R]

/-- The statement that is compiled computes what the statement before promotion computes, if
the result starts out as zero. -/
theorem scalar_promotion_preserves {n : Nat} {s : Stmt R} (hb : s.tensorsBelow n)
    (hw : s.wellFormed) (hn : s.noShadow []) (hd : s.distinct) (hs : s.singleWrite)
    (dim : Nat → Nat) (ρ : Env) (σ : Store R) (h0 : ∀ c, σ s.target c = 0) :
    exec dim (scalarPromote n s) ρ σ = exec dim s ρ σ :=
  exec_promote s [] false n hb hw hn hd hs ρ σ (fun _ _ _ _ _ => h0 _)

/-- Promotion inside a loop over other variables, as for parallel loops with atomic updates;
the result need not start out as zero. -/
theorem scalar_promotion_inside {n : Nat} {s : Stmt R} {above : List Nat} {scalars : Bool}
    (hb : s.tensorsBelow n) (hw : s.wellFormed) (hn : s.noShadow above) (hd : s.distinct)
    (hs : s.singleWrite) (dim : Nat → Nat) (ρ : Env) (σ : Store R) :
    exec dim (promote false scalars above false n s).1 ρ σ = exec dim s ρ σ :=
  exec_promote s above false n hb hw hn hd hs ρ σ (by simp)

/-- Afterwards no loop writes again and again to one component of a tensor, only to scalars. -/
theorem scalar_promotion_complete {n : Nat} {s : Stmt R} (hb : s.tensorsBelow n)
    (hw : s.wellFormed) (hn : s.noShadow []) (hd : s.distinct) : (scalarPromote n s).promoted [] :=
  (promote_promoted s [] n hb hw hn hd).1

/-- `A(i,j) += B(i,k) * C(k,j)` in loops `i, j, k` becomes
`A(i,j) = t where t += B(i,k) * C(k,j)`. -/
example : scalarPromote 3
    (loops [0, 1, 2] (.assign 0 [0, 1] true (.mul (.acc 1 [0, 2]) (.acc 2 [2, 1]))) : Stmt Int) =
    loops [0, 1] (.wher (.assign 0 [0, 1] false (.acc 3 []))
      (.loop 2 (.assign 3 [] true (.mul (.acc 1 [0, 2]) (.acc 2 [2, 1]))))) := by decide

/-- A row-wise product with a workspace, of which only the innermost accumulation is
promoted: `∀i (∀j A(i,j) = w(j) where ∀j ∀k w(j) += B(i,k) * C(k,j))`. -/
def rowwiseInner : Stmt Int :=
  .loop 0 (.wher (.loop 1 (.assign 0 [0, 1] false (.acc 3 [1])))
    (.loop 1 (.loop 2 (.assign 3 [1] true (.mul (.acc 1 [0, 2]) (.acc 2 [2, 1]))))))

example : scalarPromote 4 rowwiseInner =
    .loop 0 (.wher (.loop 1 (.assign 0 [0, 1] false (.acc 3 [1])))
      (.loop 1 (.wher (.assign 3 [1] true (.acc 4 []))
        (.loop 2 (.assign 4 [] true (.mul (.acc 1 [0, 2]) (.acc 2 [2, 1])))))) ) ∧
    rowwiseInner.tensorsBelow 4 ∧ rowwiseInner.wellFormed ∧ rowwiseInner.noShadow [] ∧
    rowwiseInner.distinct ∧ rowwiseInner.singleWrite := by
  refine ⟨by decide, ?_, ?_, ?_, ?_, ?_⟩
  · simp [rowwiseInner, Stmt.tensorsBelow, Expr.tensors]
  · simp [rowwiseInner, Stmt.wellFormed, Expr.tensors, Stmt.target, Stmt.reads]
  · simp [rowwiseInner, Stmt.noShadow]
  · simp [rowwiseInner, Stmt.distinct, Stmt.target, Stmt.computed]
  · simp [rowwiseInner, Stmt.singleWrite, Stmt.accumulates, Stmt.targetVars]

/-- If the result does not start out as zero, its old contents are lost: `a(i) += b(i,k)` with
`a(0) = 1` and `b(0,0) = 1`. -/
theorem scalar_promotion_old_contents :
    let s : Stmt Int := loops [0, 1] (.assign 0 [0] true (.acc 1 [0, 1]))
    exec (fun _ => 1) s (fun _ => 0) (fun _ _ => 1) 0 [0] = 2 ∧
    exec (fun _ => 1) (scalarPromote 2 s) (fun _ => 0) (fun _ _ => 1) 0 [0] = 1 := by
  refine ⟨?_, ?_⟩ <;> decide +kernel

end Verif.Concrete
