import Verif.Unroll.Lemmas
import Verif.Unroll.Cover

/-!
# C88: unrolled and vectorized loops
-/

namespace Verif.Unroll

theorem lower_unmarked (vars : List Variable) : ∀ (loops : List (Var × Bool)) (D : List Var) (env : Env),
    (∀ l ∈ loops, l.2 = false) → lower vars D env loops = run true vars D env (loops.map (·.1))
  | [], _, _, _ => rfl
  | (v, true) :: _, _, _, h => nomatch h _ List.mem_cons_self
  | (v, false) :: loops, D, env, h => by
    have ih := fun x => lower_unmarked vars loops (v :: D) (env.set v x) (fun l hl => h l (List.mem_cons_of_mem _ hl))
    show (List.range _).flatMap _ = (List.range _).flatMap _
    rw [List.flatMap_def, List.flatMap_def]
    congr 1
    refine List.map_congr_left fun x _ => ?_
    rw [ih x]

theorem accepted_unmarked (vars : List Variable) : ∀ (loops : List (Var × Bool)) (D : List Var),
    (∀ l ∈ loops, l.2 = false) → accepted vars D loops = true
  | [], _, _ => rfl
  | (v, true) :: _, _, h => nomatch h _ List.mem_cons_self
  | (v, false) :: loops, D, h => accepted_unmarked vars loops (v :: D) fun l hl => h l (List.mem_cons_of_mem _ hl)

/-- The loops without marks. -/
def plain (loops : List (Var × Bool)) : List (Var × Bool) := loops.map fun l => (l.1, false)

theorem plain_fst (loops : List (Var × Bool)) : (plain loops).map (·.1) = loops.map (·.1) := by
  unfold plain
  rw [List.map_map]
  rfl

theorem plain_unmarked (loops : List (Var × Bool)) : ∀ l ∈ plain loops, l.2 = false := by
  intro l hl
  obtain ⟨_, _, rfl⟩ := List.mem_map.1 hl
  rfl

theorem lower_same {vars : List Variable} (hn : (vars.flatMap fun r => r.tree.leaves).Nodup) :
    ∀ (loops : List (Var × Bool)) (D : List Var) (env : Env), (∀ v ∈ loops.map (·.1), v ∉ D) →
      (loops.map (·.1)).Nodup →
      (∀ before v after, loops = before ++ (v, true) :: after → (∀ l ∈ before, l.2 = false) →
        Simple ((before.map (·.1)).reverse ++ D) vars) →
      lower vars D env loops = run true vars D env (loops.map (·.1))
  | [], _, _, _, _, _ => rfl
  | (v, true) :: loops, D, env, hf, hnd, hs => by
    have h := hs [] v loops rfl (fun l hl => nomatch hl)
    rw [List.map_nil, List.reverse_nil, List.nil_append] at h
    show (if guardCondition D env vars then _ else _) = _
    split
    · rfl
    · rename_i hg
      have hg : guardCondition D env vars = false := by
        cases hc : guardCondition D env vars with
        | false => rfl
        | true => exact absurd hc hg
      exact (run_same hn h hg (v :: loops.map fun l : Var × Bool => l.1) D env (fun w hw => hf w hw) hnd (fun _ h => h) (fun _ _ => rfl)
        (fun w hw hD => absurd hw hD)).symm
  | (v, false) :: loops, D, env, hf, hnd, hs => by
    rw [List.map_cons] at hnd
    have ih := fun x => lower_same hn loops (v :: D) (env.set v x)
      (by
        intro w hw hmem
        rcases List.mem_cons.1 hmem with rfl | hmem
        · exact (List.nodup_cons.1 hnd).1 hw
        · exact hf w (List.mem_cons_of_mem _ hw) hmem)
      (List.nodup_cons.1 hnd).2
      (by
        intro before w after he hb
        have := hs ((v, false) :: before) w after (by rw [he]; rfl) (by
          intro l hl
          rcases List.mem_cons.1 hl with rfl | hl
          · rfl
          · exact hb l hl)
        rw [List.map_cons, List.reverse_cons, List.append_assoc] at this
        exact this)
    show (List.range _).flatMap _ = (List.range _).flatMap _
    rw [List.flatMap_def, List.flatMap_def]
    congr 1
    refine List.map_congr_left fun x _ => ?_
    rw [ih x]

/-- C88: without marks, a kernel only touches coordinates inside of the dimensions, whatever was split or divided
and in whatever order the loops are. -/
theorem plain_in_range {vars : List Variable} {loops : List (Var × Bool)} (hw : WellFormed vars (loops.map (·.1))) :
    ∃ c, kernel vars (plain loops) = some c ∧ ∀ x ∈ c, InRange vars x := by
  unfold kernel
  rw [accepted_unmarked vars _ _ (plain_unmarked loops), if_pos rfl]
  refine ⟨_, rfl, ?_⟩
  rw [lower_unmarked vars _ _ _ (plain_unmarked loops), plain_fst]
  refine run_in_range hw.apart _ [] _ (fun _ _ h => nomatch h) hw.once (fun r hr v hv => .inr (hw.all r hr v hv)) ?_
  intro r _ hk
  cases hl : r.tree.leaves with
  | nil =>
    exfalso
    have : ∀ t : Tree, t.leaves ≠ [] := by
      intro t
      induction t with
      | leaf v => exact fun h => nomatch h
      | node k f o i iho _ => exact fun h => iho (List.append_eq_nil_iff.1 h).1
    exact this _ hl
  | cons v vs =>
    have hv : v ∈ r.tree.leaves := by rw [hl]; exact List.mem_cons_self
    exact nomatch hk v hv

/-- C88: every accepted kernel, whatever is marked, executes its statement at all coordinates inside of the
dimensions. -/
theorem unroll_covers {vars : List Variable} {loops : List (Var × Bool)} (hw : WellFormed vars (loops.map (·.1)))
    {c : List (List Nat)} (h : kernel vars loops = some c) : ∀ x, InRange vars x → x ∈ c := by
  intro x hx
  unfold kernel at h
  split at h
  · cases h
    obtain ⟨goal, h1, h2⟩ := exists_goal vars x hw.apart hw.positive hx
    rw [← h1]
    refine lower_covers h2 _ [] _ ?_ (fun r hr v hv => .inr (hw.all r hr v hv)) (fun _ h => nomatch h)
    intro l hl
    obtain ⟨r, hr, hvr⟩ := hw.only l.1 (List.mem_map.2 ⟨l, hl, rfl⟩)
    obtain ⟨b, hb⟩ := leaf_bound (n := r.dim) hvr
    rw [bound_eq hw.apart hr hb]
    exact (h2 r hr).leaf _ _ l.1 b hb
  · exact nomatch h

/-- C88: an accepted kernel with unrolled and vectorized loops executes its statement at the same coordinates, in
the same order, as the kernel without these marks, given that what is open at the first marked loop is simple.
Missing: other schedules, for which it fails (`unroll_middle_fails`, `unroll_reordered_fails`,
`unroll_two_variables_fails`); fused, bounded and position loops. -/
theorem unroll_same_partial {vars : List Variable} {loops : List (Var × Bool)}
    (hw : WellFormed vars (loops.map (·.1)))
    (hs : ∀ before v after, loops = before ++ (v, true) :: after → (∀ l ∈ before, l.2 = false) →
      Simple (before.map (·.1)).reverse vars)
    {c : List (List Nat)} (h : kernel vars loops = some c) : kernel vars (plain loops) = some c := by
  unfold kernel at h ⊢
  rw [accepted_unmarked vars _ _ (plain_unmarked loops), if_pos rfl,
    lower_unmarked vars _ _ _ (plain_unmarked loops), plain_fst]
  split at h
  · rw [← h, lower_same hw.apart loops [] _ (fun _ _ h => nomatch h) hw.once]
    intro before v after he hb
    rw [List.append_nil]
    exact hs before v after he hb
  · exact nomatch h

/-- C88: such a kernel only touches coordinates inside of the dimensions. -/
theorem unroll_in_range_partial {vars : List Variable} {loops : List (Var × Bool)}
    (hw : WellFormed vars (loops.map (·.1)))
    (hs : ∀ before v after, loops = before ++ (v, true) :: after → (∀ l ∈ before, l.2 = false) →
      Simple (before.map (·.1)).reverse vars)
    {c : List (List Nat)} (h : kernel vars loops = some c) : ∀ x ∈ c, InRange vars x := by
  obtain ⟨c', h1, h2⟩ := plain_in_range hw
  rw [unroll_same_partial hw hs h] at h1
  cases h1
  exact h2

/-! ### Examples -/

/-- A variable of size `n`, split into pieces of 8, which are split into pieces of 4: loops 0, 2, 3. -/
def inner (n : Nat) : Variable := ⟨n, .node .split 8 (.leaf 0) (.node .split 4 (.leaf 2) (.leaf 3))⟩

theorem inner_wellFormed (n : Nat) (loops : List Var) (h : loops.Perm [0, 2, 3]) : WellFormed [inner n] loops := by
  refine ⟨(by decide : [0, 2, 3].Nodup), h.symm.nodup (by decide), ?_, ?_, ?_⟩
  · intro r hr v hv
    rw [List.mem_singleton.1 hr] at hv
    exact h.mem_iff.2 hv
  · intro v hv
    exact ⟨inner n, List.mem_cons_self, h.mem_iff.1 hv⟩
  · intro r hr
    rw [List.mem_singleton.1 hr]
    show (0 < 8 ∧ True ∧ 0 < 4 ∧ True ∧ True)
    decide

/-- The hypotheses are met for every size when the loop over pieces of 4 is unrolled, with the loop inside of the
pieces inside of it, ... -/
example (n : Nat) : kernel [inner n] [(0, false), (2, false), (3, false)] =
    kernel [inner n] [(0, false), (2, true), (3, false)] := by
  refine unroll_same_partial (loops := [(0, false), (2, true), (3, false)])
    (inner_wellFormed n _ (.refl _)) ?_ rfl
  intro before v after he hb
  have hb' : before = [(0, false)] := by
    cases before with
    | nil => cases he
    | cons b bs =>
      cases bs with
      | nil => cases he; rfl
      | cons b' bs =>
        injection he with h1 h2
        injection h2 with h2 h3
        have := hb b' (List.mem_cons_of_mem _ List.mem_cons_self)
        rw [← h2] at this
        exact nomatch this
  subst hb'
  intro bef r aft hv _
  have hr : bef = [] ∧ r = inner n := by
    cases bef with
    | nil => cases hv; exact ⟨rfl, rfl⟩
    | cons a b =>
      injection hv with h1 h2
      exact absurd h2 (by simp)
  obtain ⟨rfl, rfl⟩ := hr
  refine .inr (.inr ⟨?_, fun _ h => nomatch h⟩)
  refine Deep.node (.inl ⟨0, rfl⟩) (.bottom (.inl ⟨2, rfl⟩) (.inl ⟨3, rfl⟩) ?_)
  intro hk
  exact absurd (hk 2 (by decide)) (by decide)

/-- All coordinates are reached with every choice of marks and every order of the loops. -/
example (n : Nat) (m0 m2 : Bool) (x : Nat) (hx : x < n) (c : List (List Nat))
    (h : kernel [inner n] [(3, false), (2, m2), (0, m0)] = some c) : [x] ∈ c := by
  refine unroll_covers (inner_wellFormed n [3, 2, 0] (by decide)) h [x] ⟨rfl, fun k r y h1 h2 => ?_⟩
  cases k with
  | zero =>
    cases h1
    cases h2
    exact hx
  | succ k => exact nomatch h2

/-- ... in which the last pieces are computed by the copy with guards. -/
example : kernel [inner 21] [(0, false), (2, true), (3, false)] = some ((List.range 21).map fun x => [x]) := by
  decide +kernel

/-! ### Schedules for which the copy without guards runs too far -/

/-- A variable of size `n`, split into pieces of 8; the numbers of the pieces are split into pieces of 4: loops 2,
3, 1. -/
def outer (n : Nat) : Variable := ⟨n, .node .split 8 (.node .split 4 (.leaf 2) (.leaf 3)) (.leaf 1)⟩

theorem outer_wellFormed (n : Nat) (loops : List Var) (h : loops.Perm [2, 3, 1]) : WellFormed [outer n] loops := by
  refine ⟨(by decide : [2, 3, 1].Nodup), h.symm.nodup (by decide), ?_, ?_, ?_⟩
  · intro r hr v hv
    rw [List.mem_singleton.1 hr] at hv
    exact h.mem_iff.2 hv
  · intro v hv
    exact ⟨outer n, List.mem_cons_self, h.mem_iff.1 hv⟩
  · intro r hr
    rw [List.mem_singleton.1 hr]
    show (0 < 8 ∧ (0 < 4 ∧ True ∧ True) ∧ True)
    decide

theorem out_of_range {vars : List Variable} {c : List (List Nat)} {x : List Nat} (hx : x ∈ c) (k : Nat) {r : Variable}
    (hr : vars[k]? = some r) {y : Nat} (hy : x[k]? = some y) (h : r.dim ≤ y) : ¬∀ x ∈ c, InRange vars x :=
  fun hall => absurd ((hall x hx).2 k r y hr hy) (Nat.not_lt_of_le h)

/-- C88 fails: after `split(i, i0, i1, 8)`, `split(i0, i2, i3, 4)` and `unroll(i3)`, the kernel for a dimension of
50 runs up to coordinate 63. -/
theorem unroll_middle_fails : WellFormed [outer 50] [2, 3, 1] ∧
    ∃ c, kernel [outer 50] [(2, false), (3, true), (1, false)] = some c ∧ [63] ∈ c ∧
      ¬∀ x ∈ c, InRange [outer 50] x := by
  refine ⟨outer_wellFormed 50 _ (.refl _), (List.range 64).map fun x => [x], by decide +kernel, by decide, ?_⟩
  exact out_of_range (x := [63]) (by decide) 0 rfl rfl (by decide)

/-- C88 fails if the innermost loop is unrolled, when the loops were reordered: after `split(i, i0, i1, 8)`,
`split(i0, i2, i3, 4)`, `reorder(i2, i1, i3)` and `unroll(i3)`, the kernel for a dimension of 40 touches 40. -/
theorem unroll_reordered_fails : WellFormed [outer 40] [2, 1, 3] ∧
    ∃ c, kernel [outer 40] [(2, false), (1, false), (3, true)] = some c ∧ ¬∀ x ∈ c, InRange [outer 40] x := by
  have h : ∃ c, kernel [outer 40] [(2, false), (1, false), (3, true)] = some c ∧ [40] ∈ c := by
    refine ⟨_, rfl, ?_⟩
    decide +kernel
  obtain ⟨c, h1, h2⟩ := h
  exact ⟨outer_wellFormed 40 _ (by decide), c, h1, out_of_range (x := [40]) h2 0 rfl rfl (by decide)⟩

/-- C88 fails with two variables: what is added for the first one (a piece of 2) is too small for the second one,
which is as in the examples above. -/
theorem unroll_two_variables_fails :
    let vars : List Variable := [⟨5, .node .split 2 (.leaf 10) (.leaf 11)⟩, inner 13]
    let loops := [(10, false), (0, false), (2, true), (3, false), (11, false)]
    WellFormed vars (loops.map (·.1)) ∧
      ∃ c, kernel vars loops = some c ∧ [0, 13] ∈ c ∧ ¬∀ x ∈ c, InRange vars x := by
  have h : ∃ c, kernel [⟨5, .node .split 2 (.leaf 10) (.leaf 11)⟩, inner 13]
      [(10, false), (0, false), (2, true), (3, false), (11, false)] = some c ∧ [0, 13] ∈ c := by
    refine ⟨_, rfl, ?_⟩
    decide +kernel
  obtain ⟨c, h1, h2⟩ := h
  refine ⟨⟨(by decide : [10, 11, 0, 2, 3].Nodup), by decide, ?_, ?_, ?_⟩, c, h1, h2,
    out_of_range (x := [0, 13]) h2 1 rfl rfl (by decide)⟩
  · intro r hr v hv
    rcases List.mem_cons.1 hr with rfl | hr
    · rcases List.mem_cons.1 hv with rfl | hv
      · decide
      · rw [List.mem_singleton.1 hv]
        decide
    · rw [List.mem_singleton.1 hr] at hv
      have hv : v ∈ [0, 2, 3] := hv
      simp only [List.mem_cons, List.not_mem_nil, or_false] at hv
      rcases hv with rfl | rfl | rfl <;> decide
  · intro v hv
    have hv : v ∈ [10, 0, 2, 3, 11] := hv
    simp only [List.mem_cons, List.not_mem_nil, or_false] at hv
    rcases hv with rfl | rfl | rfl | rfl | rfl
    · exact ⟨_, List.mem_cons_self, List.mem_cons_self⟩
    · exact ⟨_, List.mem_cons_of_mem _ List.mem_cons_self, (by decide : 0 ∈ [0, 2, 3])⟩
    · exact ⟨_, List.mem_cons_of_mem _ List.mem_cons_self, (by decide : 2 ∈ [0, 2, 3])⟩
    · exact ⟨_, List.mem_cons_of_mem _ List.mem_cons_self, (by decide : 3 ∈ [0, 2, 3])⟩
    · exact ⟨_, List.mem_cons_self, (by decide : 11 ∈ [10, 11])⟩
  · intro r hr
    rcases List.mem_cons.1 hr with rfl | hr
    · show (0 < 2 ∧ True ∧ True)
      decide
    · rw [List.mem_singleton.1 hr]
      show (0 < 8 ∧ True ∧ 0 < 4 ∧ True ∧ True)
      decide

/-- A loop over a variable that was not replaced cannot be unrolled unless the variable of another loop is still
open. -/
example : kernel [⟨5, .leaf 0⟩] [(0, true)] = none := by decide

end Verif.Unroll
