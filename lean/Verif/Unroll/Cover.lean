import Verif.Unroll.Lemmas

/-!
# Every coordinate is reached
-/

namespace Verif.Unroll

/-- All variables have values below their bounds. -/
def Good (env : Env) : Nat → Tree → Prop
  | n, .leaf v => env v < n
  | n, .node k f o i =>
    value env n (.node k f o i) < n ∧ Good env (outerBound k f n) o ∧ Good env (innerBound k f n) i

theorem Good.lt {env : Env} {n : Nat} {t : Tree} (h : Good env n t) : value env n t < n := by
  cases t with
  | leaf v => exact h
  | node k f o i => exact h.1

theorem Good.congr {env env' : Env} : ∀ (t : Tree) (n : Nat), (∀ v ∈ t.leaves, env v = env' v) → Good env n t →
    Good env' n t
  | .leaf v, n, he, h => by
    show env' v < n
    rw [← he v List.mem_cons_self]
    exact h
  | .node k f o i, n, he, h => by
    refine ⟨?_, Good.congr o _ (fun v hv => he v (List.mem_append_left _ hv)) h.2.1,
      Good.congr i _ (fun v hv => he v (List.mem_append_right _ hv)) h.2.2⟩
    rw [← value_congr _ n he]
    exact h.1

theorem pieces_mul {n f : Nat} (hf : 0 < f) : n ≤ pieces n f * f := by
  unfold pieces
  have h := Nat.div_add_mod (n + (f - 1)) f
  have h2 := Nat.mod_lt (n + (f - 1)) hf
  have h3 := Nat.mul_comm f ((n + (f - 1)) / f)
  omega

theorem stride_pos {k : Command} {n f y : Nat} (hf : 0 < f) (hy : y < n) : 0 < stride k f n := by
  cases k with
  | split => exact hf
  | divide =>
    have h := pieces_mul (n := n) hf
    exact Nat.pos_of_ne_zero fun h0 => by
      have h1 : pieces n f = 0 := h0
      rw [h1, Nat.zero_mul] at h
      omega

theorem div_lt_outer {k : Command} {n f y : Nat} (hf : 0 < f) (hy : y < n) : y / stride k f n < outerBound k f n := by
  refine (Nat.div_lt_iff_lt_mul (stride_pos hf hy)).2 ?_
  have h := pieces_mul (n := n) hf
  cases k with
  | split => exact Nat.lt_of_lt_of_le hy h
  | divide =>
    show y < f * pieces n f
    rw [Nat.mul_comm]
    exact Nat.lt_of_lt_of_le hy h

theorem stride_inner (k : Command) (n f : Nat) : stride k f n = innerBound k f n := by
  cases k <;> rfl

/-- Every value below the bound is the value for some values of the loop variables. -/
theorem decompose : ∀ (t : Tree) (n y : Nat), t.Positive → t.leaves.Nodup → y < n →
    ∃ env, value env n t = y ∧ Good env n t
  | .leaf v, n, y, _, _, hy => ⟨fun _ => y, rfl, hy⟩
  | .node k f o i, n, y, hp, hn, hy => by
    have hn' := List.nodup_append.1 (show (o.leaves ++ i.leaves).Nodup from hn)
    have hs := stride_pos (k := k) hp.1 hy
    obtain ⟨e1, h1, g1⟩ := decompose o (outerBound k f n) (y / stride k f n) hp.2.1 hn'.1 (div_lt_outer hp.1 hy)
    obtain ⟨e2, h2, g2⟩ := decompose i (innerBound k f n) (y % stride k f n) hp.2.2 hn'.2.1
      (by rw [← stride_inner]; exact Nat.mod_lt _ hs)
    let e : Env := fun v => if v ∈ o.leaves then e1 v else e2 v
    have he1 : ∀ v ∈ o.leaves, e1 v = e v := by
      intro v hv
      show e1 v = if v ∈ o.leaves then e1 v else e2 v
      rw [if_pos hv]
    have he2 : ∀ v ∈ i.leaves, e2 v = e v := by
      intro v hv
      show e2 v = if v ∈ o.leaves then e1 v else e2 v
      rw [if_neg (fun ho => hn'.2.2 v ho v hv rfl)]
    have hval : value e n (.node k f o i) = y := by
      show value e (outerBound k f n) o * stride k f n + value e (innerBound k f n) i = y
      rw [← value_congr o _ he1, ← value_congr i _ he2, h1, h2]
      exact Nat.div_add_mod' y _
    exact ⟨e, hval, by rw [hval]; exact hy, g1.congr o _ he1, g2.congr i _ he2⟩

theorem Good.not_divideSkips {env : Env} {n : Nat} {t : Tree} (h : Good env n t) : divideSkips env n t = false := by
  cases t with
  | leaf v => rfl
  | node k f o i =>
    have hi := h.2.2.lt
    unfold divideSkips
    rw [Bool.and_eq_false_iff]
    refine .inr (decide_eq_false (Nat.not_le_of_lt ?_))
    show value env _ o * stride k f n + value env _ i < _
    rw [stride_inner, Nat.succ_mul]
    omega

theorem newly_good {D : List Var} {v : Var} {env : Env} : ∀ (t : Tree) (n : Nat) (y : Nat × Tree),
    y ∈ newly D v n t → Good env n t → Good env y.1 y.2
  | .leaf _, _, y, h, _ => nomatch h
  | .node k f o i, n, y, h, hg => by
    have last : ∀ {l : List (Nat × Tree)}, (y ∈ l → Good env y.1 y.2) →
        y ∈ l ++ (if recoverable (v :: D) (.node k f o i) then [(n, Tree.node k f o i)] else []) →
        Good env y.1 y.2 := by
      intro l hl hy
      rcases List.mem_append.1 hy with hy | hy
      · exact hl hy
      · split at hy
        · rw [List.mem_singleton.1 hy]
          exact hg
        · exact nomatch hy
    unfold newly at h
    split at h
    · exact last (fun h => newly_good o _ y h hg.2.1) h
    · split at h
      · exact last (fun h => newly_good i _ y h hg.2.2) h
      · exact nomatch h

theorem divideSkips_congr {env env' : Env} (t : Tree) (n : Nat) (h : ∀ v ∈ t.leaves, env v = env' v) :
    divideSkips env n t = divideSkips env' n t := by
  cases t with
  | leaf v => rfl
  | node k f o i =>
    show (decide (k = .divide) && decide ((value env (outerBound k f n) o + 1) * innerBound k f n ≤
      value env n (.node k f o i))) = (decide (k = .divide) && decide ((value env' (outerBound k f n) o + 1) *
      innerBound k f n ≤ value env' n (.node k f o i)))
    rw [value_congr _ n h, value_congr o _ fun v hv => h v (List.mem_append_left _ hv)]

theorem no_skip {vars : List Variable} {D : List Var} {v : Var} {env goal : Env} (emit : Bool)
    (hg : ∀ r ∈ vars, Good goal r.dim r.tree) (he : ∀ w ∈ v :: D, env w = goal w) :
    skips emit vars D v env = false := by
  unfold skips
  rw [List.any_eq_false]
  intro r hr hany
  obtain ⟨y, hy, hs⟩ := List.any_eq_true.1 hany
  have hgy := newly_good _ _ y hy (hg r hr)
  have hk := (newly_spec _ _ y hy).2
  have hcongr : ∀ w ∈ y.2.leaves, env w = goal w := fun w hw => he w (hk w hw)
  unfold guardSkips at hs
  rw [divideSkips_congr _ _ hcongr, hgy.not_divideSkips, Bool.or_false, Bool.and_eq_true, Bool.and_eq_true] at hs
  have h1 := newly_bound _ _ y hy (of_decide_eq_true hs.1.2)
  have h2 : r.dim ≤ value env y.1 y.2 := of_decide_eq_true hs.2
  rw [value_congr _ _ hcongr, ← h1] at h2
  exact absurd hgy.lt (Nat.not_lt_of_le h2)

theorem run_covers {vars : List Variable} {goal : Env} (emit : Bool)
    (hg : ∀ r ∈ vars, Good goal r.dim r.tree) : ∀ (loops D : List Var) (env : Env),
    (∀ v ∈ loops, goal v < bound vars v) → (∀ r ∈ vars, ∀ v ∈ r.tree.leaves, v ∈ D ∨ v ∈ loops) →
    (∀ w ∈ D, env w = goal w) →
    (vars.map fun r => value goal r.dim r.tree) ∈ run emit vars D env loops
  | [], D, env, _, hall, he => by
    refine List.mem_singleton.2 (List.map_congr_left fun r hr => (value_congr _ _ fun v hv => ?_).symm)
    exact he v ((hall r hr v hv).resolve_right (fun h => nomatch h))
  | v :: loops, D, env, hb, hall, he => by
    unfold run
    refine List.mem_flatMap.2 ⟨goal v, List.mem_range.2 (hb v List.mem_cons_self), ?_⟩
    have he' : ∀ w ∈ v :: D, (env.set v (goal v)) w = goal w := by
      intro w hw
      unfold Env.set
      split
      · rename_i h
        rw [h]
      · rename_i h
        exact he w ((List.mem_cons.1 hw).resolve_left h)
    rw [no_skip emit hg he', if_neg (fun h => nomatch h)]
    refine run_covers emit hg loops (v :: D) _ (fun w hw => hb w (List.mem_cons_of_mem _ hw)) ?_ he'
    intro r hr w hw
    rcases hall r hr w hw with h | h
    · exact .inl (List.mem_cons_of_mem _ h)
    · rcases List.mem_cons.1 h with rfl | h
      · exact .inl List.mem_cons_self
      · exact .inr h

theorem lower_covers {vars : List Variable} {goal : Env}
    (hg : ∀ r ∈ vars, Good goal r.dim r.tree) : ∀ (loops : List (Var × Bool)) (D : List Var) (env : Env),
    (∀ l ∈ loops, goal l.1 < bound vars l.1) →
    (∀ r ∈ vars, ∀ v ∈ r.tree.leaves, v ∈ D ∨ v ∈ loops.map (·.1)) →
    (∀ w ∈ D, env w = goal w) →
    (vars.map fun r => value goal r.dim r.tree) ∈ lower vars D env loops
  | [], D, env, _, hall, he => run_covers true hg [] D env (fun _ h => nomatch h) hall he
  | (v, true) :: loops, D, env, hb, hall, he => by
    have h := fun emit => run_covers emit hg (v :: loops.map fun l : Var × Bool => l.1) D env (by
      intro w hw
      rcases List.mem_cons.1 hw with rfl | hw
      · exact hb _ List.mem_cons_self
      · obtain ⟨l, hl, rfl⟩ := List.mem_map.1 hw
        exact hb l (List.mem_cons_of_mem _ hl)) (fun r hr w hw => hall r hr w hw) he
    unfold lower
    split
    · exact h true
    · exact h false
  | (v, false) :: loops, D, env, hb, hall, he => by
    unfold lower
    refine List.mem_flatMap.2 ⟨goal v, List.mem_range.2 (hb _ List.mem_cons_self), ?_⟩
    have he' : ∀ w ∈ v :: D, (env.set v (goal v)) w = goal w := by
      intro w hw
      unfold Env.set
      split
      · rename_i h
        rw [h]
      · rename_i h
        exact he w ((List.mem_cons.1 hw).resolve_left h)
    rw [no_skip true hg he', if_neg (fun h => nomatch h)]
    refine lower_covers hg loops (v :: D) _ (fun w hw => hb w (List.mem_cons_of_mem _ hw)) ?_ he'
    intro r hr w hw
    rcases hall r hr w hw with h | h
    · exact .inl (List.mem_cons_of_mem _ h)
    · rcases List.mem_cons.1 h with rfl | h
      · exact .inl List.mem_cons_self
      · exact .inr h

theorem Good.leaf {env : Env} : ∀ (t : Tree) (n : Nat), Good env n t → ∀ v b, (v, b) ∈ leafBounds n t → env v < b
  | .leaf w, n, h, v, b, hm => by
    cases List.mem_singleton.1 hm
    exact h
  | .node k f o i, n, h, v, b, hm => by
    rcases List.mem_append.1 hm with hm | hm
    · exact Good.leaf o _ h.2.1 v b hm
    · exact Good.leaf i _ h.2.2 v b hm

/-- Values of loop variables for given coordinates. -/
theorem exists_goal : ∀ (vars : List Variable) (x : List Nat), (vars.flatMap fun r => r.tree.leaves).Nodup →
    (∀ r ∈ vars, r.tree.Positive) → InRange vars x →
    ∃ goal : Env, (vars.map fun r => value goal r.dim r.tree) = x ∧ ∀ r ∈ vars, Good goal r.dim r.tree
  | [], x, _, _, hx => ⟨fun _ => 0, (List.length_eq_zero_iff.1 hx.1).symm, fun _ h => nomatch h⟩
  | r :: vars, [], _, _, hx => nomatch hx.1
  | r :: vars, y :: x, hn, hp, hx => by
    rw [List.flatMap_cons] at hn
    have hn' := List.nodup_append.1 hn
    obtain ⟨g2, h2, k2⟩ := exists_goal vars x hn'.2.1 (fun r hr => hp r (List.mem_cons_of_mem _ hr))
      ⟨Nat.succ.inj hx.1, fun k r' x' h1 h2 => hx.2 (k + 1) r' x' h1 h2⟩
    obtain ⟨g1, h1, k1⟩ := decompose r.tree r.dim y (hp r List.mem_cons_self) hn'.1 (hx.2 0 r y rfl rfl)
    let e : Env := fun v => if v ∈ r.tree.leaves then g1 v else g2 v
    have he1 : ∀ v ∈ r.tree.leaves, g1 v = e v := by
      intro v hv
      show g1 v = if v ∈ r.tree.leaves then g1 v else g2 v
      rw [if_pos hv]
    have he2 : ∀ r' ∈ vars, ∀ v ∈ r'.tree.leaves, g2 v = e v := by
      intro r' hr' v hv
      show g2 v = if v ∈ r.tree.leaves then g1 v else g2 v
      rw [if_neg (fun ho => hn'.2.2 v ho v (List.mem_flatMap.2 ⟨r', hr', hv⟩) rfl)]
    refine ⟨e, ?_, ?_⟩
    · rw [List.map_cons, ← value_congr _ _ he1, h1, ← h2]
      congr 1
      exact List.map_congr_left fun r' hr' => (value_congr _ _ (he2 r' hr')).symm
    · intro r' hr'
      rcases List.mem_cons.1 hr' with rfl | hr'
      · exact k1.congr _ _ he1
      · exact (k2 r' hr').congr _ _ (he2 r' hr')

end Verif.Unroll
