import Verif.Width.Lemmas
import Verif.Provenance.Theorems

/-!
# C75: sizes and 32-bit integers

`none` is signed overflow, undefined behaviour in the generated C.
-/

namespace Verif.Width

open Verif.Provenance (Step Rec nest)

/-- C75. The positions a kernel computes in a tensor of dense levels with dimensions `ds` (none of them empty) are
defined for all its coordinates if and only if the tensor has at most 2^31 components, and then they are the
row-major positions. -/
theorem positions_iff (ds : List Nat) (hpos : ∀ d ∈ ds, 0 < d) :
    (∀ is, Inside ds is → locate ds 0 is = some (rowMajor ds is)) ↔ volume ds ≤ 2147483648 := by
  constructor
  · intro h
    have h1 := locate_some_lt (by omega) (h (last ds) (inside_last hpos))
    have h2 := rowMajor_last hpos
    omega
  · intro h is his
    rw [locate_exact his (by omega), exact_rowMajor his]
    simp

example : (∀ d ∈ [1000, 2000, 1000], 0 < d) ∧ volume [1000, 2000, 1000] ≤ 2147483648 := by decide
example : ¬ volume [46341, 46341] ≤ 2147483648 := by decide

/-- No position is wrong: what is defined is the row-major position. -/
theorem positions_sound (ds is : List Nat) (q : Nat) (his : Inside ds is) (h : locate ds 0 is = some q) :
    q = rowMajor ds is := by
  rw [locate_some h, exact_rowMajor his]; simp

example : Inside [65536, 65536] [3, 5] ∧ locate [65536, 65536] 0 [3, 5] = some 196613 := by
  constructor
  · simp [Inside]
  · decide

/-- C75 (partial). The number of components a kernel computes for a result of dense levels, none of them empty, is
defined if and only if it is below 2^31, and then it is the number of components.
Missing: results with an empty level (`size_empty_fails`). -/
theorem size_partial (ds : List Nat) (hpos : ∀ d ∈ ds, 0 < d) :
    (size ds 1 = some (volume ds) ↔ volume ds < 2147483648) ∧ (size ds 1 = none ↔ 2147483648 ≤ volume ds) := by
  have h1 : volume ds < 2147483648 → size ds 1 = some (volume ds) := by
    intro h
    have := size_exact (s := 1) hpos (by omega)
    simpa using this
  have h2 : ∀ r, size ds 1 = some r → r = volume ds ∧ r < 2147483648 := by
    intro r hr
    obtain ⟨h3, h4⟩ := size_some (by omega) hr
    exact ⟨by simpa using h3, h4⟩
  refine ⟨⟨fun h => (h2 _ h).2, h1⟩, ⟨fun h => ?_, fun h => ?_⟩⟩
  · apply Nat.le_of_not_lt
    intro hlt
    rw [h1 hlt] at h; cases h
  · cases hs : size ds 1 with
    | none => rfl
    | some r => obtain ⟨rfl, h4⟩ := h2 r hs; omega

example : (∀ d ∈ [1000, 2000, 1000], 0 < d) ∧ volume [1000, 2000, 1000] < 2147483648 := by decide
example : 2147483648 ≤ volume [65536, 32768] := by decide

/-- C75 is false of empty tensors: a 65536 × 65536 × 0 result has no components, and computing that number
overflows. -/
theorem size_empty_fails : volume [65536, 65536, 0] = 0 ∧ size [65536, 65536, 0] 1 = none := by decide

/-- A tensor of exactly 2^31 components has all its positions but not its size. -/
theorem size_limit_fails :
    (∀ is, Inside [65536, 32768] is → locate [65536, 32768] 0 is = some (rowMajor [65536, 32768] is)) ∧
    size [65536, 32768] 1 = none :=
  ⟨(positions_iff _ (by decide)).2 (by decide), by decide⟩

/-- C75 (partial). Appending `n` components to an array of a compressed level, from the initial capacity on, is
defined if and only if `n ≤ 2^30`, and then the final capacity holds them all.
Missing: the numbers of components between 2^30 and 2^31, which `int` positions could number
(`append_fails`). -/
theorem append_partial (n : Nat) :
    (n ≤ 1073741824 → ∃ cap, appends n 0 defaultAllocSize = some cap ∧ n ≤ cap ∧ cap < 2147483648) ∧
    (1073741824 < n → appends n 0 defaultAllocSize = none) := by
  have e : defaultAllocSize = 2 ^ 20 := by decide
  rw [e]
  constructor
  · intro h
    obtain ⟨c, h1, h2, h3⟩ := appends_ok n 0 20 (by omega) (by omega) (by omega)
    exact ⟨c, h1, by omega, by omega⟩
  · intro h
    exact appends_none n 0 20 (by omega) (by omega) (by omega)

example : appends 5 3 4 = some 8 := by decide

/-- C75 is false of results with more than 2^30 components: growing the arrays overflows although positions,
coordinates and the number of components all fit. -/
theorem append_fails : appends 1073741825 0 defaultAllocSize = none ∧ 1073741825 < 2147483648 :=
  ⟨(append_partial _).2 (by decide), by decide⟩

/-- C75 (partial). If the extents of a schedule's loops and the variables it recovers, padding included, stay below
2^31, then every iteration of the 32-bit kernel is defined, and its body runs for exactly the iterations of
the original nest, each once; in their order if the schedule exchanges no loops.
Missing: the other schedules, where the property is false (`padding_fails`, `split_iff`, `fuse_iff`) or where
schedules of unbounded integers already fail (C17). -/
theorem schedule_partial (ss : List Step) (n : List Nat)
    (happ : (Provenance.scheduleExtents ss n).isSome = true) (hfac : Provenance.FactorsCompatible ss n)
    (hfit : Fits ss n) :
    ∃ l, execution ss n = some l ∧ l.Perm (nest n) ∧ ((∀ s ∈ ss, s.keepsOrder) → l = nest n) := by
  obtain ⟨en, hen⟩ := Option.isSome_iff_exists.1 happ
  obtain ⟨h1, h2⟩ := schedule_fits hfit hen
  have heq : execution ss n = Provenance.execution ss n := by
    unfold execution Provenance.execution
    rw [h1, hen]
    simp only
    have hrec : ∀ x ∈ nest en, scheduleRecover ss n x = Provenance.scheduleRecover ss n x :=
      fun x hx => (h2 x (nest_below hx)).1
    have hall : (nest en).all (fun x => scheduleRecover ss n x != .ub) =
        (nest en).all (fun x => Provenance.scheduleRecover ss n x != .ub) := by
      rw [Bool.eq_iff_iff, List.all_eq_true, List.all_eq_true]
      constructor
      · intro h x hx; rw [← hrec x hx]; exact h x hx
      · intro h x hx; rw [hrec x hx]; exact h x hx
    rw [hall]
    congr 1
    · congr 1
      apply filterMap_congr_mem
      intro x hx
      rw [hrec x hx]
      cases Provenance.scheduleRecover ss n x <;> rfl
  rw [heq]
  exact Provenance.schedule_covers_partial ss n happ hfac

/-- Non-vacuity: the tiling of C17 on large loops. -/
example : (Provenance.scheduleExtents [.split 0 4, .split 2 3, .swap 1, .fuse 0, .divide 0 2] [100000, 70000]).isSome = true ∧
    Provenance.FactorsCompatible [.split 0 4, .split 2 3, .swap 1, .fuse 0, .divide 0 2] [100000, 70000] ∧
    Fits [.split 0 4, .split 2 3, .swap 1, .fuse 0, .divide 0 2] [100000, 70000] := by
  refine ⟨by decide +kernel, by decide +kernel, ?_⟩
  decide +kernel

/-- An iteration of the scheduled nest with undefined behaviour. -/
theorem execution_none {ss : List Step} {n e x : List Nat} (he : scheduleExtents ss n = some e)
    (hx : Provenance.inBox x e = true) (hr : scheduleRecover ss n x = .ub) : execution ss n = none := by
  unfold execution
  rw [he]
  simp only
  rw [if_neg]
  intro h
  have := List.all_eq_true.1 h x (Provenance.mem_nest.2 hx)
  rw [hr] at this
  simp at this

/-- A single split is defined if and only if extent plus factor stay within 2^31. -/
theorem split_iff (e s : Nat) (hs : 0 < s) :
    execution [.split 0 s] [e] = some (nest [e]) ↔ e + (s - 1) < 2147483648 := by
  constructor
  · intro h
    apply Nat.lt_of_not_le
    intro hge
    have h1 : scheduleExtents [.split 0 s] [e] = none := by
      rw [scheduleExtents, stepExtents, if_neg (by omega), ceilDiv, add, chk_ge hge]; rfl
    unfold execution at h
    rw [h1] at h
    cases h
  · intro h
    have happ : Provenance.scheduleExtents [.split 0 s] [e] = some [pieces e s, s] := by
      simp only [Provenance.scheduleExtents, Provenance.stepExtents]
      rw [if_neg (by omega)]; rfl
    have hfac : Provenance.FactorsCompatible [.split 0 s] [e] := by
      unfold Provenance.FactorsCompatible
      simp [Provenance.scheduleFlags, Provenance.stepFlags, Provenance.stepExtents, Nat.ne_of_gt hs]
    have hst : Provenance.stepExtents (.split 0 s) [e] = some [pieces e s, s] := by
      simp only [Provenance.stepExtents]
      rw [if_neg (by omega)]; rfl
    have hfit : Fits [.split 0 s] [e] := by
      rw [Fits, hst]
      refine ⟨⟨h, ?_⟩, trivial⟩
      have h1 : pieces e s * s ≤ e + (s - 1) := Nat.div_mul_le_self _ _
      rcases Nat.eq_zero_or_pos (pieces e s) with h0 | h0
      · rw [h0]; simp; omega
      · have h2 : (pieces e s - 1) * s + s = pieces e s * s := by
          obtain ⟨k, hk⟩ : ∃ k, pieces e s = k + 1 := ⟨pieces e s - 1, by omega⟩
          rw [hk, Nat.add_mul]; simp
        omega
    obtain ⟨l, h1, _, h3⟩ := schedule_partial [.split 0 s] [e] (by rw [happ]; rfl) hfac hfit
    rw [h1, h3 (by simp [Step.keepsOrder])]

/-- Two loops can be fused if and only if the product of their extents stays below 2^31. -/
theorem fuse_iff (e f : Nat) : execution [.fuse 0] [e, f] = some (nest [e, f]) ↔ e * f < 2147483648 := by
  constructor
  · intro h
    apply Nat.lt_of_not_le
    intro hge
    have h1 : scheduleExtents [.fuse 0] [e, f] = none := by
      rw [scheduleExtents, stepExtents, mul, chk_ge hge]; rfl
    unfold execution at h
    rw [h1] at h
    cases h
  · intro h
    obtain ⟨l, h1, _, h3⟩ := schedule_partial [.fuse 0] [e, f] (by simp [Provenance.scheduleExtents, Provenance.stepExtents])
      (by simp [Provenance.FactorsCompatible, Provenance.scheduleFlags, Provenance.stepFlags, Provenance.stepExtents])
      (by rw [Fits]; exact ⟨h, trivial⟩)
    rw [h1, h3 (by simp [Step.keepsOrder])]

/-- C75 is false of fused loops: a 65536 × 65536 nest, both extents far below the limit. -/
theorem fuse_fails : execution [.fuse 0] [65536, 65536] = none := by
  unfold execution
  have h : scheduleExtents [.fuse 0] [65536, 65536] = none := by decide
  rw [h]

/-- C75 is false of repeated splits: a loop over 2^30 split by 2^15 and its outer loop by 2^20.  All the extents fit,
but the variable is recovered in the padding, where it overflows, before the guard can skip the iteration.
With unbounded integers the schedule is right. -/
theorem padding_fails :
    execution [.split 0 32768, .split 0 1048576] [1073741824] = none ∧
    scheduleExtents [.split 0 32768, .split 0 1048576] [1073741824] = some [1, 1048576, 32768] ∧
    Provenance.execution [.split 0 32768, .split 0 1048576] [1073741824] = some (nest [1073741824]) := by
  refine ⟨execution_none (e := [1, 1048576, 32768]) (x := [0, 1048575, 0]) (by decide +kernel) (by decide +kernel)
    (by decide +kernel), by decide +kernel, ?_⟩
  obtain ⟨l, h1, _, h3⟩ := Provenance.schedule_covers_partial [.split 0 32768, .split 0 1048576] [1073741824]
    (by decide +kernel) (by decide +kernel)
  rw [h1, h3 (by simp [Step.keepsOrder])]

/-- C75 is false of the largest loop: split by 2 its extent plus one overflows. -/
theorem split_fails : execution [.split 0 2] [2147483647] ≠ some (nest [2147483647]) := by
  rw [Ne, split_iff _ _ (by omega)]; omega

end Verif.Width
