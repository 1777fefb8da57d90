import Verif.Parallel.Rewrite
/-
Property C24: parallel loops compute what serial loops compute, however the iterations are
interleaved.
-/
namespace Verif.Parallel

open Concrete

variable {R : Type} [CommRing R]

/-- With the strategy `NoRaces`, a loop that is accepted has exactly the serial result, for all
interleavings.  Missing: loops over a variable that no access uses (`no_races_unused_fails`) and
statements that read the result they compute (`no_races_reads_result_fails`). -/
theorem no_races_partial {i i' n : Nat} {s : Stmt R} {code : Code R}
    (h : compileParallel .noRaces i i' n s = some code) (hi : i' ≠ i) (hb : s.tensorsBelow n)
    (hw : s.wellFormed) (hn : s.noShadow []) (hd : s.distinct) (hs : s.singleWrite) (hu : Used i s)
    (dim : Nat → Nat) (ρ : Env) (σ σ' : Store R) (h0 : ∀ c, σ s.target c = 0) :
    Runs dim code ρ σ σ' ↔ σ' = exec dim s ρ σ := by
  simp only [compileParallel, Option.map_eq_some_iff] at h
  obtain ⟨r, hr, rfl⟩ := h
  have hk := rewrite_kept (dim := dim) s n [] r hr ⟨hb, hw, hn, hd, hs⟩ (by simp)
  exact compiled_runs hk (Or.inr (rewrite_exclusive (Or.inl rfl) hi s n [] r hr hn (by simp)
    (fun hred => isReduction_exclusive hred hn hu))) ρ σ σ' h0

/-- Loops in which different iterations could write the same component are rejected. -/
theorem no_races_rejects {i i' n : Nat} {s : Stmt R} (hn : s.noShadow []) (hu : Used i s) (hi : i' ≠ i)
    (he : ¬ Exclusive i s) : compileParallel .noRaces i i' n s = none := by
  by_contra hne
  obtain ⟨code, hc⟩ := Option.ne_none_iff_exists'.mp hne
  simp only [compileParallel, Option.map_eq_some_iff] at hc
  obtain ⟨r, hr, _⟩ := hc
  have hsame : ∀ (s : Stmt R) (red : Bool) (n : Nat) (r : Stmt R × Nat),
      rewriteParallel .noRaces red i i' n s = some r → r.1 = s := by
    intro s red
    induction s with
    | assign t is plus e => intro n r h; simp only [rewriteParallel, Option.some.injEq] at h; exact h ▸ rfl
    | loop j s ih =>
      intro n r h
      simp only [rewriteParallel] at h
      split at h
      · rename_i hj
        simp only [parallelLoop] at h
        split at h
        · simp at h
        · simp only [Option.some.injEq] at h; rw [← h, hj]
      · simp only [Option.map_eq_some_iff] at h
        obtain ⟨q, hq, rfl⟩ := h
        rw [ih n q hq]
    | wher c p ihc ihp =>
      intro n r h
      simp only [rewriteParallel, Option.bind_eq_some_iff, Option.map_eq_some_iff] at h
      obtain ⟨p', hp', c', hc', rfl⟩ := h
      rw [ihp n p' hp', ihc _ c' hc']
  have := rewrite_exclusive (Or.inl rfl) hi s n [] r hr hn (by simp)
    (fun hred => isReduction_exclusive hred hn hu)
  rw [hsame _ _ _ _ hr] at this
  exact he this

/-- Loops in which different iterations write different components are accepted. -/
theorem no_races_accepts {i i' n : Nat} {s : Stmt R} (he : Exclusive i s) (hb : Bound i s) :
    ∃ code, compileParallel .noRaces i i' n s = some code := by
  have hred : isReduction s i = false := by
    have := exclusive_accepted s [] [] [] (by simp) (by simp) he hb
    simp [isReduction, this]
  have key : ∀ (s : Stmt R) (n : Nat), ∃ r, rewriteParallel .noRaces false i i' n s = some r := by
    intro s
    induction s with
    | assign t is plus e => intro n; exact ⟨_, rfl⟩
    | loop j s ih =>
      intro n
      simp only [rewriteParallel]
      split
      · exact ⟨_, rfl⟩
      · obtain ⟨r, hr⟩ := ih n
        exact ⟨_, by rw [hr]; rfl⟩
    | wher c p ihc ihp =>
      intro n
      obtain ⟨p', hp'⟩ := ihp n
      obtain ⟨c', hc'⟩ := ihc p'.2
      exact ⟨_, by simp only [rewriteParallel, hp', Option.bind_some, hc', Option.map_some]; rfl⟩
  obtain ⟨r, hr⟩ := key s n
  exact ⟨_, by simp only [compileParallel, parallelize, hred, hr, Option.map_some]; rfl⟩

/-- With the strategy `Atomics`, all interleavings have the serial result, if each loop stores at
its variable, or accumulates into components not all of whose coordinates are fixed outside, or
into a scalar that is no temporary.  Missing: reductions of one component inside other loops, which
are not atomic when compiled (`atomics_inner_loop_fails`). -/
theorem atomics_partial {i i' n : Nat} {s : Stmt R} {code : Code R}
    (h : compileParallel .atomics i i' n s = some code) (hb : s.tensorsBelow n)
    (hw : s.wellFormed) (hn : s.noShadow []) (hd : s.distinct) (hs : s.singleWrite)
    (ha : Accumulating i [] [] s)
    (dim : Nat → Nat) (ρ : Env) (σ σ' : Store R) (h0 : ∀ c, σ s.target c = 0) :
    Runs dim code ρ σ σ' ↔ σ' = exec dim s ρ σ := by
  simp only [compileParallel, Option.map_eq_some_iff] at h
  obtain ⟨r, hr, rfl⟩ := h
  have hk := rewrite_kept (dim := dim) s n [] r hr ⟨hb, hw, hn, hd, hs⟩ (by simp)
  exact compiled_runs hk (Or.inl ⟨rfl, rewrite_accumulating (dim := dim) s n [] [] r hr
    ⟨hb, hw, hn, hd, hs⟩ ha⟩) ρ σ σ' h0

/-- That is always so for the outermost loop of a statement. -/
theorem atomics_outermost {i i' n : Nat} {s : Stmt R} {code : Code R}
    (h : compileParallel .atomics i i' n (.loop i s) = some code) (hb : s.tensorsBelow n)
    (hw : s.wellFormed) (hn : (Stmt.loop i s).noShadow []) (hd : s.distinct)
    (hs : (Stmt.loop i s).singleWrite)
    (dim : Nat → Nat) (ρ : Env) (σ σ' : Store R) (h0 : ∀ c, σ s.target c = 0) :
    Runs dim code ρ σ σ' ↔ σ' = exec dim (.loop i s) ρ σ := by
  refine atomics_partial (s := .loop i s) h hb hw hn hd hs ⟨fun _ => ?_, ?_⟩ dim ρ σ σ' h0
  · rcases hs.1 with h | h
    · right
      refine ⟨h, ?_⟩
      cases htv : s.targetVars with
      | nil => exact Or.inr ⟨rfl, by simp⟩
      | cons k l => exact Or.inl ⟨k, by simp, by simp⟩
    · exact Or.inl h
  · exact exclusive_accumulating _ _ _ (noShadow_exclusive _ [i] hn.2 List.mem_cons_self)

/-- With the strategy `Temporary`, all interleavings have the serial result, if the loops
accumulate into one component.  Missing: loops whose results are stored at variables of loops
inside (`temporary_inner_variable_fails`), and where statements with temporaries that are not
stored at the variable (`temporary_where_fails`). -/
theorem temporary_partial {i i' n : Nat} {s : Stmt R} {code : Code R}
    (h : compileParallel .temporary i i' n s = some code) (hi : i' ≠ i) (hf : Fresh i' s)
    (hb : s.tensorsBelow n)
    (hw : s.wellFormed) (hn : s.noShadow []) (hd : s.distinct) (hs : s.singleWrite) (hu : Used i s)
    (ho : OneComponent i [] s ∨ Exclusive i s ∧ Bound i s)
    (dim : Nat → Nat) (hdim : dim i' = dim i) (ρ : Env) (σ σ' : Store R) (h0 : ∀ c, σ s.target c = 0) :
    Runs dim code ρ σ σ' ↔ σ' = exec dim s ρ σ := by
  simp only [compileParallel, Option.map_eq_some_iff] at h
  obtain ⟨r, hr, rfl⟩ := h
  have ho' : isReduction s i = true → OneComponent i [] s := by
    intro h1
    rcases ho with ho | ⟨h2, h3⟩
    · exact ho
    · have := exclusive_accepted s [] [] [] (by simp) (by simp) h2 h3
      simp [isReduction, this] at h1
  have hk := rewrite_kept (dim := dim) s n [] r hr ⟨hb, hw, hn, hd, hs⟩
    (fun _ h1 => ⟨ho' h1, hf, by simp, hdim⟩)
  exact compiled_runs hk (Or.inr (rewrite_exclusive (Or.inr rfl) hi s n [] r hr hn (fun _ => ho')
    (fun hred => isReduction_exclusive hred hn hu))) ρ σ σ' h0

/-- With the strategy `IgnoreRaces`, all interleavings have the serial result if each loop stores at
its variable. -/
theorem ignore_races_exclusive {i i' n : Nat} {s : Stmt R} {code : Code R}
    (h : compileParallel .ignoreRaces i i' n s = some code) (hb : s.tensorsBelow n)
    (hw : s.wellFormed) (hn : s.noShadow []) (hd : s.distinct) (hs : s.singleWrite) (he : Exclusive i s)
    (dim : Nat → Nat) (ρ : Env) (σ σ' : Store R) (h0 : ∀ c, σ s.target c = 0) :
    Runs dim code ρ σ σ' ↔ σ' = exec dim s ρ σ := by
  simp only [compileParallel, Option.map_eq_some_iff] at h
  obtain ⟨r, hr, rfl⟩ := h
  have hk := rewrite_kept (dim := dim) s n [] r hr ⟨hb, hw, hn, hd, hs⟩ (by simp)
  have hsame : ∀ (s : Stmt R) (red : Bool) (n : Nat) (r : Stmt R × Nat),
      rewriteParallel .ignoreRaces red i i' n s = some r → r.1 = s := by
    intro s red
    induction s with
    | assign t is plus e => intro n r h; simp only [rewriteParallel, Option.some.injEq] at h; exact h ▸ rfl
    | loop j s ih =>
      intro n r h
      simp only [rewriteParallel] at h
      split at h
      · rename_i hj
        simp only [parallelLoop, Option.some.injEq] at h; rw [← h, hj]
      · simp only [Option.map_eq_some_iff] at h
        obtain ⟨q, hq, rfl⟩ := h
        rw [ih n q hq]
    | wher c p ihc ihp =>
      intro n r h
      simp only [rewriteParallel, Option.bind_eq_some_iff, Option.map_eq_some_iff] at h
      obtain ⟨p', hp', c', hc', rfl⟩ := h
      rw [ihp n p' hp', ihc _ c' hc']
  exact compiled_runs hk (Or.inr (by rw [hsame _ _ _ _ hr]; exact he)) ρ σ σ' h0

/-! ### Cases that meet the hypotheses -/

/-- `∀i∀j y(i) += A(i,j) * x(j)`: tensors `y, A, x` are 0, 1, 2, and variables `i, j` are 0, 1. -/
def matVec : Stmt Int := loops [0, 1] (.assign 0 [0] true (.mul (.acc 1 [0, 1]) (.acc 2 [1])))

/-- `∀j∀i y(i) += A(i,j) * x(j)`. -/
def vecMat : Stmt Int := loops [1, 0] (.assign 0 [0] true (.mul (.acc 1 [0, 1]) (.acc 2 [1])))

example : matVec.tensorsBelow 3 ∧ matVec.wellFormed ∧ matVec.noShadow [] ∧ matVec.distinct ∧
    matVec.singleWrite ∧ Used 0 matVec ∧ Used 1 matVec ∧ Fresh 2 matVec := by
  simp [matVec, loops, Stmt.tensorsBelow, Expr.tensors, Stmt.wellFormed, Stmt.noShadow, Stmt.distinct,
    Stmt.singleWrite, Stmt.accumulates, Used, Used.Mentions, Fresh, Expr.varsAll]

example : Exclusive 0 matVec ∧ Bound 0 matVec ∧ ¬ Exclusive 1 matVec ∧ Bound 1 matVec := by
  simp [matVec, loops, Exclusive, Bound, Stmt.targetVars]

/-- The rows in parallel: promoted to a scalar, without races. -/
example : compileParallel .noRaces 0 2 3 matVec =
    some (.loop 0 true (.wher (.assign 0 [0] false false (.acc 3 []))
      (.loop 1 false (.assign 3 [] true false (.mul (.acc 1 [0, 1]) (.acc 2 [1])))))) := by decide

/-- The columns in parallel are rejected without a strategy. -/
example : compileParallel .noRaces 1 2 3 matVec = none ∧ compileParallel .noRaces 1 2 3 vecMat = none := by
  decide

/-- The columns outermost, with atomic updates. -/
example : compileParallel .atomics 1 2 3 vecMat =
    some (.loop 1 true (.loop 0 false (.assign 0 [0] true true (.mul (.acc 1 [0, 1]) (.acc 2 [1]))))) := by
  decide

example : vecMat.tensorsBelow 3 ∧ vecMat.wellFormed ∧ vecMat.noShadow [] ∧ vecMat.distinct ∧
    vecMat.singleWrite ∧ Accumulating 1 [] [] vecMat := by
  simp [vecMat, loops, Stmt.tensorsBelow, Expr.tensors, Stmt.wellFormed, Stmt.noShadow, Stmt.distinct,
    Stmt.singleWrite, Stmt.accumulates, Accumulating, Stmt.targetVars]

/-- The columns innermost, with a temporary: `∀i (∀j' y(i) += w(j') where ∀j w(j) += …)`. -/
example : compileParallel .temporary 1 2 3 matVec =
    some (.loop 0 false (.wher
      (.wher (.assign 0 [0] false false (.acc 4 [])) (.loop 2 false (.assign 4 [] true false (.acc 3 [2]))))
      (.loop 1 true (.assign 3 [1] true false (.mul (.acc 1 [0, 1]) (.acc 2 [1])))))) ∧
    OneComponent 1 [] matVec := by
  refine ⟨by decide, ?_⟩
  simp [matVec, loops, OneComponent, OneComponent.Temps, Stmt.accumulates, Stmt.targetVars]

/-! ### Where it fails -/

/-- Running a schedule: the iterations that take the steps. -/
def sched (dim : Nat → Nat) (n : Nat) : List Nat → (Nat → List (Step R)) → (Nat → Local R) → Store R →
    Option (Store R)
  | [], P, _, σ => if (List.range n).all (fun v => (P v).isEmpty) then some σ else none
  | v :: l, P, L, σ =>
    match P v with
    | [] => none
    | st :: rest =>
      if v < n then
        sched dim n l (upd P v rest) (upd L v (step dim st (L v, σ)).1) (step dim st (L v, σ)).2
      else none

theorem sched_par {dim : Nat → Nat} {n : Nat} : ∀ (l : List Nat) (P : Nat → List (Step R))
    (L : Nat → Local R) (σ σ' : Store R), sched dim n l P L σ = some σ' → Par dim n P L σ σ'
  | [], P, L, σ, σ', h => by
    simp only [sched] at h
    split at h
    · rename_i hh
      simp only [Option.some.injEq] at h
      subst h
      refine Par.done fun v hv => ?_
      simp only [List.all_eq_true, List.mem_range, List.isEmpty_iff] at hh
      exact hh v hv
    · simp at h
  | v :: l, P, L, σ, σ', h => by
    simp only [sched] at h
    split at h
    · simp at h
    · rename_i st rest hP
      split at h
      · rename_i hv
        exact Par.next v st rest hv hP (sched_par l _ _ _ _ h)
      · simp at h

/-- All tensors are one everywhere, except the result, which is zero. -/
def ones : Store Int := fun t _ => if t = 0 then 0 else 1

/-- A loop over a variable that is not used is accepted without races, and loses updates:
`∀j∀i a(i) += b(i)`, parallel over `j`. -/
theorem no_races_unused_fails :
    let s : Stmt Int := loops [1, 0] (.assign 0 [0] true (.acc 1 [0]))
    ∃ code, compileParallel .noRaces 1 2 2 s = some code ∧
    ∃ σ', Runs (fun i => if i = 1 then 2 else 1) code (fun _ => 0) ones σ' ∧
    σ' 0 [0] = 1 ∧ exec (fun i => if i = 1 then 2 else 1) s (fun _ => 0) ones 0 [0] = 2 := by
  intro s
  refine ⟨.loop 1 true (.loop 0 false (.assign 0 [0] true false (.acc 1 [0]))), by decide, ?_⟩
  have h : ((sched (fun i => if i = 1 then 2 else 1) 2 [0, 0, 1, 1, 0, 1]
      (fun v => steps (fun i => if i = 1 then 2 else 1) []
        (.loop 0 false (.assign 0 [0] true false (.acc 1 [0])) : Code Int)
        (Env.set (fun _ => 0) 1 v))
      (fun _ => ⟨0, 0, ones, []⟩) ones).map fun σ => σ 0 [0]) = some 1 := by decide +kernel
  obtain ⟨σ', h1, h2⟩ := Option.map_eq_some_iff.mp h
  refine ⟨σ', ?_, h2, by decide +kernel⟩
  simp only [Runs, if_true]
  exact ⟨_, sched_par _ _ _ _ _ h1⟩

/-- Statements that read the result they compute are accepted, and the order of iterations
matters: `∀i∀j A(i,j) = A(j,i)`, parallel over `i`. -/
theorem no_races_reads_result_fails :
    let s : Stmt Int := loops [0, 1] (.assign 0 [0, 1] false (.acc 0 [1, 0]))
    let σ : Store Int := fun _ c => if c = [0, 1] then 5 else 7
    ∃ code, compileParallel .noRaces 0 2 1 s = some code ∧
    ∃ σ', Runs (fun _ => 2) code (fun _ => 0) σ σ' ∧
    σ' 0 [0, 1] = 5 ∧ exec (fun _ => 2) s (fun _ => 0) σ 0 [0, 1] = 7 := by
  intro s σ
  refine ⟨.loop 0 true (.loop 1 false (.assign 0 [0, 1] false false (.acc 0 [1, 0]))), by decide, ?_⟩
  have h : ((sched (fun _ => 2) 2 [1, 1, 1, 1, 0, 0, 0, 0]
      (fun v => steps (fun _ => 2) []
        (.loop 1 false (.assign 0 [0, 1] false false (.acc 0 [1, 0])) : Code Int)
        (Env.set (fun _ => 0) 0 v))
      (fun _ => ⟨0, 0, ones, []⟩) σ).map fun σ => σ 0 [0, 1]) = some 5 := by decide +kernel
  obtain ⟨σ', h1, h2⟩ := Option.map_eq_some_iff.mp h
  refine ⟨σ', ?_, h2, by decide +kernel⟩
  simp only [Runs, if_true]
  exact ⟨_, sched_par _ _ _ _ _ h1⟩

/-- With the strategy `Atomics`, a reduction inside another loop loses updates:
`∀i∀j y(i) += A(i,j) * x(j)`, parallel over `j`.  Promotion makes it accumulate into a scalar
temporary, and scalar temporaries are never updated atomically. -/
theorem atomics_inner_loop_fails :
    ∃ code, compileParallel .atomics 1 2 3 matVec = some code ∧
    ∃ σ', Runs (fun i => if i = 1 then 2 else 1) code (fun _ => 0) ones σ' ∧
    σ' 0 [0] = 1 ∧ exec (fun i => if i = 1 then 2 else 1) matVec (fun _ => 0) ones 0 [0] = 2 := by
  refine ⟨.loop 0 false (.wher (.assign 0 [0] false false (.acc 3 []))
      (.loop 1 true (.assign 3 [] true false (.mul (.acc 1 [0, 1]) (.acc 2 [1]))))), by decide, ?_⟩
  have h : ((sched (fun i => if i = 1 then 2 else 1) 2 [0, 0, 1, 1, 0, 1]
      (fun v => steps (fun i => if i = 1 then 2 else 1) []
        (.assign 3 [] true false (.mul (.acc 1 [0, 1]) (.acc 2 [1])) : Code Int)
        (Env.set (Env.set (fun _ => 0) 0 0) 1 v))
      (fun _ => ⟨0, 0, ones, []⟩) (clear [3] ones)).map fun σ => σ 3 []) = some 1 := by decide +kernel
  obtain ⟨σ', h1, h2⟩ := Option.map_eq_some_iff.mp h
  refine ⟨restore [3] ones (exec (fun i => if i = 1 then 2 else 1) (.assign 0 [0] false (.acc 3 []))
    (Env.set (fun _ => 0) 0 0) σ'), ?_, ?_, by decide +kernel⟩
  · simp only [Runs, Bool.false_eq_true, if_false]
    refine ⟨_, ⟨σ', _, ?_, rfl, rfl⟩, rfl⟩
    simp only [if_true]
    exact ⟨_, sched_par _ _ _ _ _ h1⟩
  · simp [restore, exec, put, eval, Env.set, h2]

/-- With the strategy `Temporary`, a result stored at the variable of a loop inside is reduced
outside of that loop: `∀i∀j A(j) += B(i,j)`, parallel over `i`, becomes
`∀i' A(j) += w(i') where ∀i∀j w(i) += B(i,j)`. -/
theorem temporary_inner_variable_fails :
    let s : Stmt Int := loops [0, 1] (.assign 0 [1] true (.acc 1 [0, 1]))
    ∃ s', parallelize .temporary 0 2 2 s =
      some (.wher (.loop 2 (.assign 0 [1] true (.acc 2 [2]))) (.loop 0 (.loop 1 (.assign 2 [0] true (.acc 1 [0, 1])))), s') ∧
    exec (fun _ => 2) s (fun _ => 0) ones 0 [1] = 2 ∧
    exec (fun _ => 2) (.wher (.loop 2 (.assign 0 [1] true (.acc 2 [2])))
      (.loop 0 (.loop 1 (.assign 2 [0] true (.acc 1 [0, 1]))))) (fun _ => 0) ones 0 [1] = 0 := by
  exact ⟨3, by decide, by decide +kernel, by decide +kernel⟩

/-- With the strategy `Temporary`, the temporary of a where statement is taken for the result:
`∀i (a += t where t = b(i))`, parallel over `i`, becomes
`∀i' t = w(i') where ∀i (a += t where w(i) = b(i))`, which does not change `a`. -/
theorem temporary_where_fails :
    let s : Stmt Int := .loop 0 (.wher (.assign 0 [] true (.acc 2 [])) (.assign 2 [] false (.acc 1 [0])))
    ∃ s' n, parallelize .temporary 0 1 3 s = some (s', n) ∧
    exec (fun _ => 2) s (fun _ => 0) ones 0 [] = 2 ∧
    exec (fun _ => 2) s' (fun _ => 0) ones 0 [] = 0 := by
  refine ⟨_, _, rfl, by decide +kernel, by decide +kernel⟩

end Verif.Parallel
