import Verif.GpuAcc.Lemmas
/-!
# Additions of GPU threads to shared components: property C85
-/
namespace Verif.GpuAcc
variable {V : Type} [AddCommMonoid V]

/-- C85. One call of `atomicAddWarp`: if every thread of the warp either makes the call or has returned, at
every address exactly the values of the threads with that address are added, whatever is read from threads
that have returned. -/
theorem atomic_add_warp (u : Nat) (lane : Nat → Lane V) (h : ∀ l, l < 32 → lane l ≠ .elsewhere) :
    ∃ log, atomicAddWarp u lane = some log ∧
      ∀ k, sumAt k log = sumAt k ((List.range 32).filterMap (fun l => (lane l).addition)) := by
  obtain ⟨log, e1, e2⟩ := atomicAddWarp_sum u lane h
  exact ⟨log, e1, fun k => by rw [e2, sumAt_additions]⟩

/-- All threads add to component 5: one addition of the sum. Threads 8 to 31 have returned: eight additions. -/
example : atomicAddWarp 7 (fun l => Lane.here 5 (l : Int)) = some [(5, 496)] ∧
    atomicAddWarp 7 (fun l => if l < 8 then Lane.here 5 (l : Int) else .gone) =
      some [(5, 0), (5, 1), (5, 2), (5, 3), (5, 4), (5, 5), (5, 6), (5, 7)] := by
  exact ⟨by decide +kernel, by decide +kernel⟩

theorem warp_adds {u : Nat} {p : Prog V} (hp : Together 0 p) (size base : Nat) :
    ∃ log, warp u p size base = some log ∧ ∀ a, sumAt a log =
      over (fun l => if base + l < size then sumAt a (runThread (base + l) p []).2 else 0) (List.range 32) := by
  obtain ⟨ex, log, e1, _, e3⟩ := exec_good u base p 0 [] (fun l => decide (base + l < size)) (fun l => !decide (base + l < size)) hp
    (by intro l _ h; rw [h]; rfl) (by
      intro _
      refine Or.inl (fun l _ => ?_)
      by_cases h : base + l < size
      · left; exact decide_eq_true h
      · right; rw [decide_eq_false h]; rfl)
  refine ⟨log, by unfold warp; rw [e1]; rfl, fun a => ?_⟩
  rw [e3]
  refine over_congr (fun l _ => ?_)
  simp

theorem over_map (f : Nat → V) (g : Nat → Nat) (l : List Nat) : over f (l.map g) = over (fun x => f (g x)) l := by
  unfold over; rw [List.map_map]; rfl

theorem warps_adds {u : Nat} {p : Prog V} (hp : Together 0 p) (size : Nat) : ∀ (n : Nat),
    ∃ log, warps u p size (List.range n) = some log ∧ ∀ a, sumAt a log =
      over (fun t => if t < size then sumAt a (runThread t p []).2 else 0) (List.range (n * 32)) := by
  have hgen : ∀ (ws : List Nat), ∃ log, warps u p size ws = some log ∧ ∀ a, sumAt a log =
      over (fun t => if t < size then sumAt a (runThread t p []).2 else 0)
        (ws.flatMap (fun w => (List.range 32).map (fun l => w * 32 + l))) := by
    intro ws
    induction ws with
    | nil => exact ⟨[], rfl, fun a => rfl⟩
    | cons w ws ih =>
      obtain ⟨l1, e1, e2⟩ := warp_adds (u := u) hp size (w * 32)
      obtain ⟨l2, g1, g2⟩ := ih
      refine ⟨l1 ++ l2, by unfold warps; rw [e1, g1], fun a => ?_⟩
      rw [sumAt_append, e2, g2, List.flatMap_cons, over_append, over_map]
  intro n
  obtain ⟨log, e1, e2⟩ := hgen (List.range n)
  refine ⟨log, e1, fun a => ?_⟩
  rw [e2]
  congr 1
  clear e1 e2
  induction n with
  | zero => rfl
  | succ n ih =>
    rw [List.range_succ (n := n), List.flatMap_append, ih, List.flatMap_singleton, Nat.succ_mul, List.range_add]

/-- The additions of the threads of a block, one thread after another. -/
def threadsLog (p : Prog V) (size : Nat) : Log V := (List.range size).flatMap (fun t => (runThread t p []).2)

theorem sumAt_flatMap (a : Nat) (f : Nat → Log V) (l : List Nat) : sumAt a (l.flatMap f) = over (fun t => sumAt a (f t)) l := by
  induction l with
  | nil => rfl
  | cons x l ih => rw [List.flatMap_cons, sumAt_append, over_cons, ih]

theorem over_range_cut (f : Nat → V) {n m : Nat} (h : n ≤ m) :
    over (fun t => if t < n then f t else 0) (List.range m) = over f (List.range n) := by
  obtain ⟨d, rfl⟩ := Nat.le.dest h
  rw [List.range_add, over_append, over_map]
  rw [← zero_over (f := fun x => if n + x < n then f (n + x) else 0) (fun x _ => if_neg (by omega)), add_zero]
  exact over_congr (fun x hx => if_pos (List.mem_range.1 hx))

/-- C85. A block of any number of threads (the last warp need not be full) whose threads stay together up to
the additions that warps share, though some may return early: the block runs without undefined behaviour, and
at every component it adds in total what its threads add. -/
theorem block_adds_partial (u : Nat) {p : Prog V} (hp : Together 0 p) (size : Nat) :
    ∃ log, block u p size = some log ∧ ∀ a, sumAt a log = sumAt a (threadsLog p size) := by
  obtain ⟨log, e1, e2⟩ := warps_adds (u := u) hp size ((size + 31) / 32)
  refine ⟨log, e1, fun a => ?_⟩
  rw [e2, threadsLog, sumAt_flatMap]
  exact over_range_cut (fun t => sumAt a (runThread t p []).2) (by omega)

/-- C85. Atomic additions in any order: every component ends up as its old value plus all that was added. -/
theorem atomics_any_order {log order : Log V} (h : order.Perm log) (mem : Nat → V) (k : Nat) :
    addAll order mem k = mem k + sumAt k log := by
  rw [← sumAt_perm k h]
  clear h
  induction order generalizing mem with
  | nil => rw [sumAt_nil, add_zero]; rfl
  | cons x l ih =>
    obtain ⟨a, v⟩ := x
    rw [addAll, ih, sumAt_cons]
    by_cases hk : k = a
    · subst hk
      rw [if_pos rfl, if_pos rfl, add_assoc]
    · rw [if_neg hk, if_neg (fun h => hk h.symm), zero_add]

/-- All blocks of a launch. -/
def launchLog (u : Nat) (size : Nat) : List (Prog V) → Option (Log V)
  | [] => some []
  | p :: ps =>
    match block u p size, launchLog u size ps with
    | some l, some r => some (l ++ r)
    | _, _ => none

/-- C85. A launch: the blocks run one program each, with their own addresses and values. However the additions
of their warps are interleaved, every component ends up as its old value plus what all threads add. -/
theorem launch_adds_partial (u : Nat) (size : Nat) {ps : List (Prog V)} (hp : ∀ p ∈ ps, Together 0 p) :
    ∃ log, launchLog u size ps = some log ∧ ∀ (order : Log V), order.Perm log → ∀ (mem : Nat → V) (k : Nat),
      addAll order mem k = mem k + sumAt k (ps.flatMap (fun p => threadsLog p size)) := by
  have : ∃ log, launchLog u size ps = some log ∧ ∀ k, sumAt k log = sumAt k (ps.flatMap (fun p => threadsLog p size)) := by
    induction ps with
    | nil => exact ⟨[], rfl, fun _ => rfl⟩
    | cons p ps ih =>
      obtain ⟨l1, e1, e2⟩ := block_adds_partial u (hp p List.mem_cons_self) size
      obtain ⟨l2, g1, g2⟩ := ih (fun q hq => hp q (List.mem_cons_of_mem _ hq))
      refine ⟨l1 ++ l2, by unfold launchLog; rw [e1, g1], fun k => ?_⟩
      rw [sumAt_append, e2, g2, List.flatMap_cons, sumAt_append]
  obtain ⟨log, e1, e2⟩ := this
  exact ⟨log, e1, fun order ho mem k => by rw [atomics_any_order ho, e2]⟩

/-- Threads past the end return; the others add `t` to component 0 by the warp, then `10` to component
`t % 3` in a loop of `t % 4` iterations by themselves. -/
def exProg : Prog Int :=
  .seq (.exit (fun t _ => decide (40 ≤ t)))
    (.seq (.add false (fun _ _ => 0) (fun t _ => t))
      (.loop true (fun t _ => t % 4) (.add false (fun t _ => t % 3) (fun _ _ => 10))))

example : Together 0 exProg ∧ ((block 7 exProg 50).map (fun l => [sumAt 0 l, sumAt 1 l, sumAt 2 l])) = some [990, 190, 200] := by
  refine ⟨⟨trivial, trivial, Or.inl rfl, trivial⟩, by decide +kernel⟩

/-- C85 is false when the threads of a warp separate before an addition of the warp: an addition under a
condition that holds for some threads only is undefined, for every block of at least two threads. (Guards of
results whose rows are empty, cases of merged operands.) -/
theorem condition_fails (u size : Nat) (h : 1 < size) :
    block u (.ite (fun t _ => t == 0) (.add false (fun _ _ => 0) (fun _ _ => (1 : Int)))) size = none := by
  have hw : warp u (.ite (fun t _ => t == 0) (.add false (fun _ _ => 0) (fun _ _ => (1 : Int)))) size (0 * 32) = none := by
    unfold warp
    rw [exec, exec]
    have h0 : (List.range 32).all (fun l => !(decide (0 * 32 + l < size) && (0 * 32 + l == 0))) = false := by
      rw [List.all_eq_false]
      exact ⟨0, by simp, by simp; omega⟩
    rw [if_neg (by rw [h0]; exact (fun h => nomatch h)), if_pos (show usesWarp false 0 = true from rfl)]
    unfold atomicAddWarp
    rw [if_pos]
    · rfl
    · rw [List.any_eq_true]
      refine ⟨1, by simp, ?_⟩
      have h1 : decide (0 * 32 + 1 < size) = true := decide_eq_true (by omega)
      simp only [h1]
      rfl
  unfold block
  have hn : ∃ n, (size + 31) / 32 = n + 1 := ⟨(size + 31) / 32 - 1, by omega⟩
  obtain ⟨n, hn⟩ := hn
  rw [hn, List.range_succ_eq_map]
  unfold warps
  rw [hw]

/-- C85 is false for additions inside `while` loops of different lengths: `while` loops are not counted, so
that the warp is used although its threads leave the loop at different times. -/
theorem while_fails :
    block 0 (.loop false (fun t _ => t) (.add false (fun _ _ => 0) (fun _ _ => (1 : Int)))) 32 = none ∧
    ((block 0 (.loop true (fun t _ => t) (.add false (fun _ _ => 0) (fun _ _ => (1 : Int)))) 32).map (sumAt 0)) = some 496 := by
  exact ⟨by decide +kernel, by decide +kernel⟩

/-- C85 is false for loops of different lengths around additions that are marked as shared by a warp. -/
theorem marked_fails :
    block 0 (.loop true (fun t _ => t) (.add true (fun _ _ => 0) (fun _ _ => (1 : Int)))) 32 = none := by
  decide +kernel

/-! ### multiplication -/

/-- The product of factors. -/
def product (fs : List Int) : Int := fs.foldr (· * ·) 1

/-- C85. Multiplications that are not interleaved: the component is multiplied by all factors. -/
theorem multiply_partial (fs : List Int) (v : Int) :
    (mulRun ((List.range fs.length).flatMap (fun i => [i, i])) (fs.map .start) v).2 = v * product fs := by
  have : ∀ (fs done : List Int) (v : Int), (mulRun ((List.range' done.length fs.length).flatMap (fun i => [i, i]))
      (done.map (fun _ => MulSt.done) ++ fs.map .start) v).2 = v * product fs := by
    intro fs
    induction fs with
    | nil => intro done v; simp [mulRun, product]
    | cons f fs ih =>
      intro done v
      rw [List.length_cons, List.range'_succ, List.flatMap_cons]
      have hget : (done.map (fun _ => MulSt.done) ++ (f :: fs).map MulSt.start)[done.length]? = some (.start f) := by
        rw [List.getElem?_append_right (by simp)]; simp
      have hset : (done.map (fun _ => MulSt.done) ++ (f :: fs).map MulSt.start).set done.length (.read f v) =
          done.map (fun _ => MulSt.done) ++ (.read f v :: fs.map MulSt.start) := by
        rw [List.set_append_right _ _ (by simp)]; simp
      have hget2 : (done.map (fun _ => MulSt.done) ++ (MulSt.read f v :: fs.map MulSt.start))[done.length]? = some (.read f v) := by
        rw [List.getElem?_append_right (by simp)]; simp
      have hset2 : (done.map (fun _ => MulSt.done) ++ (MulSt.read f v :: fs.map MulSt.start)).set done.length .done =
          (done ++ [f]).map (fun _ => MulSt.done) ++ fs.map MulSt.start := by
        rw [List.set_append_right _ _ (by simp)]; simp
      show (mulRun (done.length :: done.length :: _) _ v).2 = _
      rw [mulRun, hget]
      simp only [mulStep]
      rw [hset, mulRun, hget2]
      simp only [mulStep, if_true]
      rw [hset2]
      have := ih (done ++ [f]) (v * f)
      rw [List.length_append, List.length_singleton] at this
      refine Eq.trans this ?_
      show v * f * product fs = v * (f * product fs)
      rw [Int.mul_assoc]
  have h := this fs [] v
  simpa [List.range_eq_range'] using h

example : (mulRun [0, 0, 1, 1, 2, 2] [.start 2, .start 3, .start 5] 7).2 = 210 := by decide

/-- C85 is false for multiplication: two threads that read the component before either writes it, as the
threads of a warp do, lose the second factor, because the compare-and-swap is not repeated. -/
theorem multiply_fails (v f g : Int) (h : v * f ≠ v) :
    (mulRun [0, 1, 0, 1] [.start f, .start g] v).2 = v * f ∧
    (mulRun [0, 1, 0, 1] [.start f, .start g] v).1 = [.done, .done] := by
  simp [mulRun, mulStep, h]

example : (7 : Int) * 2 ≠ 7 ∧ (mulRun [0, 1, 0, 1] [.start 2, .start 3] 7).2 = 14 := by decide

end Verif.GpuAcc
