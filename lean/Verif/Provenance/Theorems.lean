import Verif.Provenance.Schedule
/-!
# Loop derivations: properties C13-C18 (loop part)

The specification is just lists: `List.range n = [0, 1, ..., n-1]` is what the underived loop visits;
`nest n` (Model) is the iteration order of the underived loop nest.
-/
namespace Verif.Provenance

/-- C13. Splitting `[0,n)` by `s ≥ 1` visits `0, 1, ..., n-1`, each once, in this order. -/
theorem split_covers (n s : Nat) (hs : 0 < s) : splitLoop (0, n) s = List.range n := by
  unfold splitLoop splitOuterBounds splitInnerBounds underivedGuardSkips splitRecover
  simp only [Nat.zero_div, loopRange_zero]
  have hin : ∀ o, ((List.range s).filterMap fun i =>
      if decide (o * s + i ≥ n) = true then none else some (o * s + i)) =
      ((List.range s).map (fun i => o * s + i)).filter (fun v => decide (v < n)) := by
    intro o
    rw [List.filter_map, ← List.filterMap_eq_map, List.filterMap_filter]
    apply filterMap_congr'
    intro i _
    simp only [decide_eq_true_eq, Function.comp]
    by_cases h : o * s + i < n
    · simp [h]
    · rw [if_pos (by omega), if_neg h]
  simp only [hin]
  rw [← List.filter_flatMap, range_mul_flatMap, filter_lt_range n _ (ceil_mul_ge n s hs)]

example : splitLoop (0, 10) 4 = [0, 1, 2, 3, 4, 5, 6, 7, 8, 9] := by decide

/-- Splitting a loop whose lower bound is not zero runs iterations below the lower bound: the
derived bounds assume a zero lower bound and only the upper bound is guarded. (Underived loops
always start at zero, lowerer_impl_imperative.cpp:376, so this is a precondition the code keeps for
coordinate loops; position loops, which do start elsewhere, use the two-sided guard of
`posSplit_covers`.) -/
theorem split_nonzero_lower_fails : splitLoop (3, 7) 4 = [0, 1, 2, 3, 4, 5, 6] := by decide

/-- C14. Dividing `[0,n)` into `d ≥ 1` pieces visits `0, 1, ..., n-1`, each once, in this order. -/
theorem divide_covers (n d : Nat) (hd : 0 < d) : divideLoop (0, n) d = List.range n := by
  unfold divideLoop divideOuterBounds divideInnerBounds divideGuardSkips underivedGuardSkips
    divideRecover divideInnerBounds
  simp only [Nat.zero_div, loopRange_zero, Nat.sub_zero]
  generalize hL : (n + (d - 1)) / d = L
  have hin : ∀ o, ((List.range L).filterMap fun i =>
      if decide (o * L + i ≥ n) = true then none
      else if decide (o * L + i ≥ (o + 1) * L) = true then none else some (o * L + i)) =
      ((List.range L).map (fun i => o * L + i)).filter (fun v => decide (v < n)) := by
    intro o
    rw [List.filter_map, ← List.filterMap_eq_map, List.filterMap_filter]
    apply filterMap_congr'
    intro i hi
    simp only [List.mem_range] at hi
    simp only [decide_eq_true_eq, Function.comp, Nat.succ_mul]
    by_cases h : o * L + i < n
    · rw [if_neg (by omega), if_neg (by omega), if_pos h]
    · rw [if_pos (by omega), if_neg h]
  simp only [hin]
  rw [← List.filter_flatMap, range_mul_flatMap, filter_lt_range n _]
  have := ceil_mul_ge n d hd
  rw [hL] at this
  rw [Nat.mul_comm]; exact this

example : divideLoop (0, 10) 4 = [0, 1, 2, 3, 4, 5, 6, 7, 8, 9] := by decide

/-- C15. Fusing loops over `[0,m)` and `[0,n)` is defined and visits every pair, once, in the order
of the original nest. -/
theorem fuse_covers (m n : Nat) : fuseLoop (0, m) (0, n) =
    some ((List.range m).flatMap fun i => (List.range n).map fun j => (i, j)) := by
  unfold fuseLoop
  have hb : fuseBounds (0, m) (0, n) = (0, m * n) := by simp [fuseBounds]
  rw [hb, loopRange_zero]
  rcases Nat.eq_zero_or_pos n with rfl | hn
  · simp
  · have h1 : (List.range (m * n)).mapM (fuseRecover (0, n)) =
        some ((List.range (m * n)).map fun f => (f / n, f % n)) := by
      have : ∀ l : List Nat, l.mapM (fuseRecover (0, n)) = some (l.map fun f => (f / n, f % n)) := by
        intro l
        induction l with
        | nil => simp
        | cons a l ih =>
          have hn' : n ≠ 0 := by omega
          simp [ih, fuseRecover, hn']
      exact this _
    rw [h1, ← range_mul_flatMap m n]
    simp only [Option.map_some, Option.some.injEq, List.map_flatMap, List.map_map, List.filter_flatMap]
    apply flatMap_congr'
    intro i hi
    simp only [List.mem_range] at hi
    rw [List.filter_eq_self.mpr]
    · apply List.map_congr_left
      intro j hj
      simp only [List.mem_range] at hj
      simp only [Function.comp]
      rw [Nat.mul_comm, Nat.mul_add_div (by omega), Nat.div_eq_of_lt hj, Nat.mul_add_mod, Nat.mod_eq_of_lt hj]
      simp
    · intro p hp
      simp only [List.mem_map, List.mem_range, Function.comp] at hp
      obtain ⟨j, hj, rfl⟩ := hp
      rw [Nat.mul_comm, Nat.mul_add_div (by omega), Nat.div_eq_of_lt hj, Nat.mul_add_mod, Nat.mod_eq_of_lt hj]
      simp [underivedGuardSkips]
      omega

example : fuseLoop (0, 2) (0, 3) = some [(0,0),(0,1),(0,2),(1,0),(1,1),(1,2)] := by decide

/-- C16. `bound(i, ib, b, MaxExact)` visits `[0,b)` whatever the real extent is. -/
theorem bound_visits (n b : Nat) : boundLoop (0, n) b = List.range b := by
  simp [boundLoop, boundBounds, loopRange_zero]

/-- C16. The bounded loop visits the original range exactly when the bound is the real extent. -/
theorem bound_exact_iff (n b : Nat) : boundLoop (0, n) b = List.range n ↔ b = n := by
  rw [bound_visits]
  constructor
  · intro h
    have := congrArg List.length h
    simpa using this
  · rintro rfl; rfl

/-- C16 with a split of the bounded variable: if the bound is the real extent the body runs exactly
for `0 .. n-1`, whether or not the guard was dropped. -/
theorem bound_split_covers (n s : Nat) (hs : 0 < s) : boundSplitLoop n n s = List.range n := by
  by_cases h : guardElided n s = true
  · unfold boundSplitLoop boundBounds splitOuterBounds splitInnerBounds splitRecover
    simp only [h, Bool.not_true, Bool.false_and, Bool.false_eq_true, if_false, Nat.zero_div, loopRange_zero,
      List.filterMap_eq_map']
    rw [range_mul_flatMap]
    simp only [guardElided, beq_iff_eq] at h
    obtain ⟨q, rfl⟩ := Nat.dvd_of_mod_eq_zero h
    have : (s * q + (s - 1)) / s = q := by
      rw [Nat.mul_add_div (by omega), Nat.div_eq_of_lt (by omega)]; omega
    rw [this, Nat.mul_comm]
  · rw [← split_covers n s hs]
    unfold boundSplitLoop splitLoop boundBounds
    simp [h]

/-- With a further split of the inner loop, the guard is dropped by comparing the bound with the
innermost factor only, so the body runs outside the real range: extent 12, bound 12, split by 8, inner
split by 4 visits 12..15 as well, i.e. the generated code accesses memory out of bounds. -/
theorem bound_split_split_out_of_range_fails :
    boundSplitSplitLoop 12 12 8 4 = List.range 16 := by decide

/-- C18 (loop part). A position loop over `[lo,hi)` that has been split by `s ≥ 1` visits exactly
`lo, lo+1, ..., hi-1` in order, for every lower bound. -/
theorem posSplit_covers (lo hi s : Nat) (hs : 0 < s) :
    posSplitLoop (lo, hi) s = loopRange (lo, hi) := by
  unfold posSplitLoop splitOuterBounds splitInnerBounds posGuardSkips splitRecover
  have hin : ∀ o, ((loopRange (0, s)).filterMap fun i =>
      if (decide (o * s + i < lo) || decide (o * s + i ≥ hi)) = true then none else some (o * s + i)) =
      ((List.range s).map (fun i => o * s + i)).filter (fun v => decide (lo ≤ v) && decide (v < hi)) := by
    intro o
    rw [loopRange_zero, List.filter_map, ← List.filterMap_eq_map, List.filterMap_filter]
    apply filterMap_congr'
    intro i _
    simp only [Function.comp, Bool.or_eq_true, decide_eq_true_eq, Bool.and_eq_true]
    by_cases h : lo ≤ o * s + i ∧ o * s + i < hi
    · rw [if_neg (by omega), if_pos h]
    · rw [if_pos (by omega), if_neg h]
  simp only [hin]
  rw [← List.filter_flatMap]
  -- outer values `lo/s .. ceil(hi/s)`
  have key : ∀ a b, a ≤ b → (loopRange (a, b)).flatMap (fun o => (List.range s).map fun i => o * s + i) =
      (List.range ((b - a) * s)).map (a * s + ·) := by
    intro a b _
    unfold loopRange
    rw [List.flatMap_map, ← range_mul_flatMap, List.map_flatMap]
    apply flatMap_congr'
    intro o _
    rw [List.map_map]
    apply List.map_congr_left
    intro i _
    simp only [Function.comp, Nat.add_mul]
    omega
  have hfil : ∀ (c m lo hi : Nat), c ≤ lo → (hi ≤ c + m) →
      ((List.range m).map (c + ·)).filter (fun v => decide (lo ≤ v) && decide (v < hi)) = loopRange (lo, hi) := by
    intro c m
    induction m with
    | zero =>
      intro lo hi h1 h2
      have : hi - lo = 0 := by omega
      simp [loopRange, this]
    | succ m ih =>
      intro lo hi h1 h2
      rw [List.range_succ, List.map_append, List.filter_append]
      by_cases h3 : hi ≤ c + m
      · rw [ih lo hi h1 h3]
        simp; omega
      · have hh : hi = c + m + 1 := by omega
        subst hh
        by_cases h4 : lo ≤ c + m
        · have hstep : ((List.range m).map (c + ·)).filter (fun v => decide (lo ≤ v) && decide (v < c + m + 1)) =
              ((List.range m).map (c + ·)).filter (fun v => decide (lo ≤ v) && decide (v < c + m)) := by
            apply List.filter_congr
            intro v hv
            simp only [List.mem_map, List.mem_range] at hv
            obtain ⟨i, hi, rfl⟩ := hv
            have : decide (c + i < c + m + 1) = decide (c + i < c + m) := by
              apply decide_eq_decide.2; omega
            rw [this]
          rw [hstep, ih lo (c + m) h1 (Nat.le_refl _)]
          unfold loopRange
          have : (c + m + 1 - lo) = (c + m - lo) + 1 := by omega
          simp only [this, List.range_succ, List.map_append, List.map_cons, List.map_nil]
          congr 1
          have e2 : lo + (c + m - lo) = c + m := by omega
          rw [e2]
          simp [h4]
        · have e1 : (c + m + 1) - lo = 0 := by omega
          simp only [loopRange, e1, List.range_zero, List.map_nil]
          rw [← List.filter_append, List.filter_eq_nil_iff]
          intro v hv
          simp only [List.mem_append, List.mem_map, List.mem_range, List.mem_singleton, List.map_cons, List.map_nil] at hv
          simp only [Bool.and_eq_true, decide_eq_true_eq]
          rcases hv with ⟨i, hi, rfl⟩ | rfl <;> omega
  by_cases hlh : lo < hi
  · rw [key _ _ (by
      have : lo / s ≤ hi / s := Nat.div_le_div_right (by omega)
      have : hi / s ≤ (hi + (s - 1)) / s := Nat.div_le_div_right (by omega)
      omega)]
    apply hfil
    · exact Nat.div_mul_le_self lo s
    · have h1 := ceil_mul_ge hi s hs
      have h3 : lo / s ≤ (hi + (s - 1)) / s := by
        have : lo / s ≤ hi / s := Nat.div_le_div_right (by omega)
        have : hi / s ≤ (hi + (s - 1)) / s := Nat.div_le_div_right (by omega)
        omega
      rw [Nat.sub_mul]
      have : lo / s * s ≤ (hi + (s - 1)) / s * s := Nat.mul_le_mul_right _ h3
      omega
  · have e1 : hi - lo = 0 := by omega
    have : loopRange (lo, hi) = [] := by simp [loopRange, e1]
    rw [this, List.filter_eq_nil_iff]
    intro v _
    simp; omega

example : posSplitLoop (5, 11) 4 = [5, 6, 7, 8, 9, 10] := by decide

/-! ## Sequences of derivations -/

/-- The hypothesis of the chained theorem, as a predicate on the user's schedule: whenever an inner
loop that came out of a `split` is split or divided again, the new factor divides that loop's extent.
(Loops derived from underived ones through outer loops, fused loops and the inner loop of a `divide`
may be split by any factor.) -/
def FactorsCompatible (ss : List Step) (n : List Nat) : Prop :=
  (scheduleFlags ss n (n.map fun _ => true)).isSome = true

instance (ss : List Step) (n : List Nat) : Decidable (FactorsCompatible ss n) := by
  unfold FactorsCompatible; infer_instance

/-- C17 (partial). For every applicable schedule of splits, divides, fuses and loop exchanges with
compatible factors, on every nest of loops with every extents: the generated nest is free of division
by zero, and the body runs for exactly the iterations of the original nest, each once. If the schedule
has no exchange they run in the original order.
Missing: schedules where an inner split loop is re-split by a non-dividing factor, for which the
property is false (`schedule_double_visit_fails`). -/
theorem schedule_covers_partial (ss : List Step) (n : List Nat)
    (happ : (scheduleExtents ss n).isSome = true) (hfac : FactorsCompatible ss n) :
    ∃ l, execution ss n = some l ∧ l.Perm (nest n) ∧ ((∀ s ∈ ss, s.keepsOrder) → l = nest n) := by
  obtain ⟨eF, he⟩ := Option.isSome_iff_exists.mp happ
  obtain ⟨fF, hf⟩ := Option.isSome_iff_exists.mp hfac
  obtain ⟨A, B, C, Z, D, M⟩ := schedule_spec ss n eF _ fF (by simp) he hf
  unfold execution
  rw [he]
  simp only
  rw [if_pos (by
    rw [List.all_eq_true]
    intro x hx
    simp only [bne_iff_ne]
    exact D x (mem_nest.1 hx))]
  let g : List Nat → Option (List Nat) := fun x =>
    match scheduleRecover ss n x with
    | .ok u => if inBox u n then some u else none
    | _ => none
  have hg : ∀ x u, g x = some u ↔ scheduleRecover ss n x = .ok u ∧ inBox u n = true := by
    intro x u
    simp only [g]
    split
    · rename_i v hv
      rw [hv]
      split
      · rename_i hb
        simp only [Option.some.injEq, Rec.ok.injEq]
        constructor
        · rintro rfl; exact ⟨rfl, hb⟩
        · exact fun h => h.1
      · rename_i hb
        simp only [reduceCtorEq, Rec.ok.injEq, false_iff]
        rintro ⟨rfl, h⟩; exact hb h
    · rename_i hne
      simp only [reduceCtorEq, false_iff]
      rintro ⟨h, _⟩
      exact hne u h
  have hmem : ∀ u, u ∈ (nest eF).filterMap g ↔ u ∈ nest n := by
    intro u
    rw [List.mem_filterMap, mem_nest]
    constructor
    · rintro ⟨x, _, hx⟩; exact ((hg x u).1 hx).2
    · intro hu
      obtain ⟨x, hx, hx'⟩ := A u hu
      exact ⟨x, mem_nest.2 hx, (hg x u).2 ⟨hx', hu⟩⟩
  have hnodup : ((nest eF).filterMap g).Nodup := by
    rw [List.Nodup, List.pairwise_filterMap]
    apply List.Pairwise.imp_of_mem _ (nodup_nest eF)
    intro x y hx hy hxy u hu v hv huv
    subst huv
    obtain ⟨h1, h2⟩ := (hg x u).1 hu
    obtain ⟨h3, _⟩ := (hg y u).1 hv
    exact hxy (C x y u (mem_nest.1 hx) (mem_nest.1 hy) h2 h1 h3)
  refine ⟨(nest eF).filterMap g, rfl, ?_, ?_⟩
  · exact (List.perm_ext_iff_of_nodup hnodup (nodup_nest n)).mpr hmem
  · intro hk
    apply eq_of_pairwise_lexLt _ (pairwise_nest n) hmem
    rw [List.pairwise_filterMap]
    apply List.Pairwise.imp_of_mem _ (pairwise_nest eF)
    intro x y hx hy hxy u hu v hv
    exact M hk x y u v (mem_nest.1 hx) (mem_nest.1 hy) ((hg x u).1 hu).1 ((hg y v).1 hv).1 hxy

/-- Non-vacuity: tile two loops of extents 10 and 7 (factors that do not divide), exchange, fuse the
outer loops and divide the fused loop. -/
example : (scheduleExtents [.split 0 4, .split 2 3, .swap 1, .fuse 0, .divide 0 2] [10, 7]).isSome = true ∧
    FactorsCompatible [.split 0 4, .split 2 3, .swap 1, .fuse 0, .divide 0 2] [10, 7] := by decide

/-- C17 is false in general: `split(i, i0, i1, 5)` then `split(i1, j0, j1, 3)` on a loop of extent 10.
There is no guard `i1 < 5`, so iteration 5 runs twice. -/
theorem schedule_double_visit_fails :
    execution [.split 0 5, .split 1 3] [10] =
      some [[0], [1], [2], [3], [4], [5], [5], [6], [7], [8], [9]] := by decide

/-- All derived lower bounds stay zero, which is why `Step` only tracks upper bounds. -/
theorem derive_lo_zero (e e' s : Nat) :
    (splitOuterBounds (0, e) s).1 = 0 ∧ (splitInnerBounds (0, e) s).1 = 0 ∧
    (divideOuterBounds (0, e) s).1 = 0 ∧ (divideInnerBounds (0, e) s).1 = 0 ∧
    (fuseBounds (0, e) (0, e')).1 = 0 := by
  simp [splitOuterBounds, splitInnerBounds, divideOuterBounds, divideInnerBounds, fuseBounds]

end Verif.Provenance
