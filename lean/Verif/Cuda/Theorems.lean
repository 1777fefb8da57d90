import Verif.Cuda.Launch
/-
C83: the kernels of the CUDA backend do the work of the loops they were made from.
-/
namespace Verif.Cuda

variable {Ev : Type}

/-- **C83.**  A launch of a kernel has exactly the effects of the loop for blocks it was made from, each
as often: every block, warp and thread does one iteration of its loops, skipped iterations are skipped,
and what follows the threads of a warp or block is done once.  For all contents, bounds and values of
the variables that satisfy `Kernel.Fits`.
Partial: the order of effects of different threads is left open (they must commute or be
synchronised); kernels that do not fit lose or repeat effects, as shown below. -/
theorem launch_runs_loop_partial {n : Nat} {k : Kernel Ev} {t : ParLoop} {w : Option ParLoop} {D : List Var}
    {s : Env} (h : k.Fits n t w D s) : ∃ evs, launch n k s = some evs ∧ evs.Perm (k.asLoop n s) := by
  obtain ⟨evs, h1, h2⟩ := launch_fits h
  exact ⟨evs, h1, h2.symm⟩

/-- **C83.**  Code of the host keeps the effects of its loops, in their order, when iterations are only
skipped up to the end of a loop.
Partial: `host_filter_fails`. -/
theorem host_runs_loops_partial {n d : Nat} {l : Bool} {D : List Var} {b : Stmt Ev} (h : Plain n l D b)
    (s : Env) : (run n (tr false d b) s).evs = (run n b s).evs :=
  (plain_same (dev := false) b d l D h s s (fun _ _ => rfl)).evs.symm

/- The guard of a split loop. -/

/-- `outer * size + inner` (src/index_notation/provenance_graph.cpp:228-235). -/
def splitExpr (outer inner : Var) (size : Int) : Expr :=
  ⟨[outer, inner], fun l => match l with | [a, b] => a * size + b | _ => 0⟩

def geExpr (x bound : Var) : Expr :=
  ⟨[x, bound], fun l => match l with | [a, b] => if a ≥ b then 1 else 0 | _ => 0⟩

/-- The inner loop of a split: the variable is recovered, the last chunk is cut off
(src/lower/lowerer_impl_imperative.cpp:681-731). -/
def splitBody (i outer inner bound : Var) (size : Int) (rest : Stmt Ev) : Stmt Ev :=
  .seq (.set i (splitExpr outer inner size)) (.seq (.ite (geExpr i bound) .cont .skip) rest)

/-- **C83.**  The guard of a split loop skips to the end of the loop, so the theorems above apply. -/
theorem split_guard {n : Nat} {D : List Var} {i outer inner bound : Var} {size : Int} {rest : Stmt Ev}
    (hr : noCont rest) (h1 : i ≠ inner) (h2 : outer ≠ inner) (h3 : bound ≠ inner) (h4 : i ≠ outer)
    (h5 : i ≠ bound) (hD : i ∉ D) : Sticky n D inner (splitBody i outer inner bound size rest) := by
  have key : ∀ (s : Env), s outer * size + s inner ≥ s bound →
      run n (splitBody i outer inner bound size rest) s =
        ⟨[], upd s i (s outer * size + s inner), .cont⟩ := by
    intro s hs
    have hb : (geExpr i bound).eval (upd s i (s outer * size + s inner)) ≠ 0 := by
      simp only [Expr.eval, geExpr, List.map, upd_same, upd_other (Ne.symm h5)]
      rw [if_pos hs]; decide
    have : (run n (.seq (.ite (geExpr i bound) .cont .skip) rest)
        (upd s i (s outer * size + s inner)) : Out Ev) = ⟨[], upd s i (s outer * size + s inner), .cont⟩ := by
      show andThen (if _ then _ else _) _ = _
      rw [if_pos hb]; rfl
    show (run n (.seq (.ite (geExpr i bound) .cont .skip) rest) (upd s i _) : Out Ev).after [] = _
    have e : (splitExpr outer inner size).eval s = s outer * size + s inner := rfl
    rw [e, this]; rfl
  have back : ∀ (s : Env), (run n (splitBody i outer inner bound size rest) s).ctl = .cont →
      s outer * size + s inner ≥ s bound := by
    intro s hc
    refine Int.not_lt.1 fun hlt => ?_
    have hb : ¬ (geExpr i bound).eval (upd s i (s outer * size + s inner)) ≠ 0 := by
      simp only [Expr.eval, geExpr, List.map, upd_same, upd_other (Ne.symm h5)]
      rw [if_neg (by omega)]; decide
    have : (run n (.seq (.ite (geExpr i bound) .cont .skip) rest)
        (upd s i (s outer * size + s inner)) : Out Ev).ctl = .cont := hc
    have e : (run n (.seq (.ite (geExpr i bound) .cont .skip) rest)
        (upd s i (s outer * size + s inner)) : Out Ev) = run n rest (upd s i (s outer * size + s inner)) := by
      show andThen (if _ then _ else _) _ = _
      rw [if_neg hb]; rfl
    rw [e] at this
    exact noCont_ctl rest _ hr this
  intro s v v' hv hc
  have hge := back _ hc
  rw [upd_same, upd_other h2, upd_other h3] at hge
  have hfst := key (upd s inner v) (by rw [upd_same, upd_other h2, upd_other h3]; exact hge)
  have henv : (run n (splitBody i outer inner bound size rest) (upd s inner v)).env =
      upd (upd s inner v) i (s outer * size + v) := by
    rw [hfst, upd_same, upd_other h2]
  dsimp only
  rw [henv]
  have hsnd := key (upd (upd (upd s inner v) i (s outer * size + v)) inner v') (by
    rw [upd_same, upd_other h2, upd_other h3, upd_other (Ne.symm h4), upd_other (Ne.symm h5), upd_other h2,
      upd_other h3]
    omega)
  rw [hsnd]
  refine ⟨rfl, rfl, fun y hy hx => ?_⟩
  have hyi : y ≠ i := fun e => hD (e ▸ hy)
  show upd _ i _ y = _
  rw [upd_other hyi, upd_other hx]

/- A kernel that fits: ten rows in blocks of eight, two warps of four threads; each thread walks over
six columns in chunks of four and the last chunk is cut off. -/

def lit (v : Int) : Expr := ⟨[], fun _ => v⟩

def rowExpr : Expr := ⟨[0, 2, 1], fun l => match l with | [b, w, t] => b * 8 + w * 4 + t | _ => 0⟩

/-- Variables: 0 block, 1 thread, 2 warp, 3 rows, 4 row, 5 columns, 6 chunk, 7 inside, 8 column. -/
def rowsKernel : Kernel (List Int) where
  x := 0
  lo := lit 0
  hi := ⟨[3], fun l => match l with | [r] => (r + 7) / 8 | _ => 0⟩
  step := lit 1
  body := .par .warp 2 0 2 1 (.par .thread 1 0 4 1
    (.seq (.set 4 rowExpr) (.seq (.ite (geExpr 4 3) .cont .skip)
      (.loop 6 (lit 0) (lit 2) (lit 1) (.loop 7 (lit 0) (lit 4) (lit 1)
        (splitBody 8 6 7 5 4 (.emit [4, 8] id)))))))

def rowsEnv : Env := fun x => if x = 3 then 10 else if x = 5 then 6 else 0

theorem rowsKernel_fits (n : Nat) :
    rowsKernel.Fits n ⟨1, 0, 4, 1⟩ (some ⟨2, 0, 2, 1⟩) [3, 5] rowsEnv where
  contents := by
    refine ⟨rfl, rfl, ⟨rfl, rfl, ?_, Or.inl rfl, by decide⟩, by decide⟩
    refine ⟨by show [0, 2, 1] ⊆ [1, 2, 0, 3, 5]; decide, ⟨by decide, trivial, trivial⟩, by decide, by decide,
      by decide, ?_, Or.inl trivial⟩
    refine ⟨by decide, by decide, by decide, ?_, Or.inr (split_guard (by trivial) (by decide) (by decide)
      (by decide) (by decide) (by decide) (by decide))⟩
    exact ⟨by show [6, 7] ⊆ [7, 6, 4, 1, 2, 0, 3, 5]; decide, ⟨by decide, trivial, trivial⟩,
      by show [4, 8] ⊆ [8, 7, 6, 4, 1, 2, 0, 3, 5]; decide⟩
  own := by decide
  threadVar := by decide
  warpVar := by decide
  threads := by decide
  warps := by decide
  step := by decide

example : (launch 0 rowsKernel rowsEnv).map List.length = some 60 ∧ [9, 5] ∈ (launch 0 rowsKernel rowsEnv).getD [] := by
  decide +kernel

/- And one with a reduction: each thread leaves its part, the first one adds them up. -/

/-- Variables: 0 block, 1 thread, 3 rows. -/
def sumKernel : Kernel (List Int) where
  x := 0
  lo := lit 0
  hi := ⟨[3], fun l => l.sum⟩
  step := lit 1
  body := .seq (.par .thread 1 0 4 1 (.emit [0, 1] id)) (.red 1 0 4 1 (.emit [0, 1] (fun l => 100 :: l)))

theorem sumKernel_fits (n : Nat) : sumKernel.Fits n ⟨1, 0, 4, 1⟩ none [3] rowsEnv where
  contents := Or.inr ⟨rfl, ⟨rfl, rfl, by show [0, 1] ⊆ [1, 0, 3]; decide, Or.inl rfl, by decide⟩, trivial,
    rfl, rfl, by show [0, 1] ⊆ [1, 0, 3]; decide, by decide, Or.inl trivial⟩
  own := by decide
  threadVar := by decide
  warpVar := by decide
  threads := by decide
  warps := by decide
  step := by decide

example : (launch 0 sumKernel rowsEnv).map List.length = some 80 := by decide +kernel

/- What goes wrong. -/

/-- Threads and warps are counted with a division that rounds down: a loop for threads over ten
iterations in steps of four loses its last one. -/
theorem rounding_fails : ∃ (k : Kernel (List Int)) (evs : List (List Int)),
    launch 0 k rowsEnv = some evs ∧ evs = [[0], [4]] ∧ k.asLoop 0 rowsEnv = [[0], [4], [8]] := by
  exact ⟨⟨0, lit 0, lit 1, lit 1, .par .thread 1 0 10 4 (.emit [1] id)⟩, _, rfl, by decide +kernel,
    by decide +kernel⟩

/-- The coordinate stored at a position. -/
def crdExpr (x : Var) (crd : List Int) : Expr :=
  ⟨[x], fun l => match l with | [p] => crd.getD p.toNat 0 | _ => 0⟩

/-- The loop over a strided window of a compressed level: coordinates off the stride are skipped with
`continue` (src/lower/lowerer_impl_imperative.cpp:1321-1328, 4063-4079). -/
def stridedLoop (p c : Var) (crd : List Int) : Stmt (List Int) :=
  .loop p (lit 0) (lit crd.length) (lit 1)
    (.seq (.ite ⟨[p], fun l => match l with | [q] => crd.getD q.toNat 0 % 2 | _ => 0⟩ .cont .skip)
      (.seq (.set c (crdExpr p crd)) (.emit [c] id)))

/-- `continue` is printed as `break`: in code of the host, a strided window loses everything after the
first coordinate off the stride. -/
theorem host_filter_fails : (run 0 (tr false 0 (stridedLoop 1 2 [0, 1, 2, 4])) rowsEnv).evs = [[0]] ∧
    (run 0 (stridedLoop 1 2 [0, 1, 2, 4]) rowsEnv).evs = [[0], [2], [4]] := by
  decide +kernel

/-- The same inside a kernel. -/
theorem kernel_filter_fails : ∃ (k : Kernel (List Int)) (evs : List (List Int)),
    launch 0 k rowsEnv = some evs ∧ evs = [[0]] ∧ k.asLoop 0 rowsEnv = [[0], [2], [4]] :=
  ⟨⟨0, lit 0, lit 1, lit 1, .par .thread 3 0 1 1 (stridedLoop 1 2 [0, 1, 2, 4])⟩, _, rfl,
    by decide +kernel, by decide +kernel⟩

/-- A row's positions, three to nine, in chunks of four that threads share.  Positions before the row
are skipped with `continue` (lowerer_impl_imperative.cpp:665-678): printed as `break`, it ends the loop
over the chunks, and the threads with a position before the row in the first chunk do nothing at all. -/
def chunkKernel : Kernel (List Int) where
  x := 0
  lo := lit 0
  hi := lit 1
  step := lit 1
  body := .loop 6 (lit (3 / 4)) (lit ((10 + 3) / 4)) (lit 1) (.par .thread 1 0 4 1
    (.seq (.set 8 (splitExpr 6 1 4))
      (.seq (.ite ⟨[8], fun l => match l with | [p] => if p < 3 ∨ p ≥ 10 then 1 else 0 | _ => 0⟩ .cont .skip)
        (.emit [8] id))))

theorem chunks_fails : ∃ evs : List (List Int), launch 0 chunkKernel rowsEnv = some evs ∧
    evs = [[3], [7]] ∧ chunkKernel.asLoop 0 rowsEnv = [[3], [4], [5], [6], [7], [8], [9]] :=
  ⟨_, rfl, by decide +kernel, by decide +kernel⟩

/-- `while` loops are not counted as loops of a kernel: a `continue` inside one is printed as `return`
and ends the thread. -/
theorem while_fails : ∃ (k : Kernel (List Int)) (evs : List (List Int)),
    launch 9 k rowsEnv = some evs ∧ evs = [] ∧ k.asLoop 9 rowsEnv = [[2], [3]] :=
  ⟨⟨0, lit 0, lit 1, lit 1, .par .thread 1 0 1 1 (.seq (.set 2 (lit 0))
      (.wloop ⟨[2], fun l => match l with | [a] => if a < 3 then 1 else 0 | _ => 0⟩
        (.seq (.set 2 ⟨[2], fun l => l.sum + 1⟩)
          (.seq (.ite ⟨[2], fun l => if l = [1] then 1 else 0⟩ .cont .skip) (.emit [2] id)))))⟩, _, rfl,
    by decide +kernel, by decide +kernel⟩

/-- The end of a window is a `break` (lowerer_impl_imperative.cpp:1334, 4054-4060): where the loop is
given to threads, it is printed outside of every loop, which does not compile. -/
theorem window_end_fails : ∃ (k : Kernel (List Int)) (g : Geometry), geometry k rowsEnv = some g ∧
    (run 0 (tr true 0 k.body) (threadEnv k g rowsEnv 0 2)).ctl = .brk ∧
    k.asLoop 0 rowsEnv = [[0], [1]] :=
  ⟨⟨0, lit 0, lit 1, lit 1, .par .thread 1 0 4 1
      (.seq (.ite ⟨[1], fun l => if l.sum ≥ 2 then 1 else 0⟩ .brk .skip) (.emit [1] id))⟩, _, rfl,
    by decide +kernel, by decide +kernel⟩

/-- A reduction over warps is done where the variable of the warps has its first value: by every thread
of the first warp instead of one. -/
theorem warp_reduction_fails : ∃ (k : Kernel (List Int)) (evs : List (List Int)),
    launch 0 k rowsEnv = some evs ∧ evs.count [7, 1] = 4 ∧ (k.asLoop 0 rowsEnv).count [7, 1] = 1 :=
  ⟨⟨0, lit 0, lit 1, lit 1, .seq (.par .warp 2 0 2 1 (.par .thread 1 0 4 1 (.emit [2, 1] id)))
      (.red 2 0 2 1 (.emit [2] (fun l => 7 :: l)))⟩, _, rfl, by decide +kernel, by decide +kernel⟩

end Verif.Cuda
