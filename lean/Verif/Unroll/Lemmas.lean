import Verif.Unroll.Model
import Verif.Unroll.Spec

/-! # Facts about guards and bounds -/

namespace Verif.Unroll

theorem recoverable_iff {D : List Var} {t : Tree} : recoverable D t = true ↔ Known D t := by
  unfold recoverable Known
  rw [List.all_eq_true]
  exact ⟨fun h v hv => List.contains_iff_mem.1 (h v hv), fun h v hv => List.contains_iff_mem.2 (h v hv)⟩

theorem not_recoverable {D : List Var} {t : Tree} (h : ¬Known D t) : recoverable D t = false := by
  cases hr : recoverable D t with
  | false => rfl
  | true => exact absurd (recoverable_iff.1 hr) h

theorem contains_false {D : List Var} {v : Var} (h : v ∉ D) : D.contains v = false := by
  cases hc : D.contains v with
  | false => rfl
  | true => exact absurd (List.contains_iff_mem.1 hc) h

theorem map_leafBounds : ∀ (t : Tree) (n : Nat), (leafBounds n t).map (·.1) = t.leaves
  | .leaf _, _ => rfl
  | .node k f o i, n => by
    show (leafBounds _ o ++ leafBounds _ i).map _ = o.leaves ++ i.leaves
    rw [List.map_append, map_leafBounds o, map_leafBounds i]

theorem leaf_bound {t : Tree} {n : Nat} {v : Var} (h : v ∈ t.leaves) : ∃ b, (v, b) ∈ leafBounds n t := by
  rw [← map_leafBounds t n, List.mem_map] at h
  obtain ⟨⟨w, b⟩, h1, h2⟩ := h
  exact ⟨b, h2 ▸ h1⟩

theorem bound_leaf {t : Tree} {n : Nat} {v : Var} {b : Nat} (h : (v, b) ∈ leafBounds n t) : v ∈ t.leaves := by
  rw [← map_leafBounds t n, List.mem_map]
  exact ⟨_, h, rfl⟩

theorem lookup_of_nodup {β : Type} : ∀ {l : List (Nat × β)} {v : Nat} {b : β}, (l.map (·.1)).Nodup → (v, b) ∈ l →
    l.lookup v = some b
  | [], _, _, _, h => nomatch h
  | (w, c) :: l, v, b, hn, h => by
    rw [List.map_cons, List.nodup_cons] at hn
    rcases List.mem_cons.1 h with h1 | h2
    · cases h1
      simp [List.lookup]
    · have hne : v ≠ w := by
        rintro rfl
        exact hn.1 (List.mem_map.2 ⟨_, h2, rfl⟩)
      rw [List.lookup_cons]
      have : (v == w) = false := by simpa using hne
      rw [this]
      exact lookup_of_nodup hn.2 h2

theorem bound_eq {vars : List Variable} (hn : (vars.flatMap fun r => r.tree.leaves).Nodup) {r : Variable}
    (hr : r ∈ vars) {v b : Nat} (h : (v, b) ∈ leafBounds r.dim r.tree) : bound vars v = b := by
  unfold bound
  rw [lookup_of_nodup (b := b)]
  · rfl
  · rw [List.map_flatMap]
    have : (fun a : Variable => (leafBounds a.dim a.tree).map (·.1)) = fun r => r.tree.leaves := by
      funext a
      exact map_leafBounds _ _
    rw [this]
    exact hn
  · exact List.mem_flatMap.2 ⟨r, hr, h⟩

/-! ### Values -/

theorem value_congr {env env' : Env} : ∀ (t : Tree) (n : Nat), (∀ v ∈ t.leaves, env v = env' v) →
    value env n t = value env' n t
  | .leaf v, _, h => h v List.mem_cons_self
  | .node k f o i, n, h => by
    show value env _ o * _ + value env _ i = value env' _ o * _ + value env' _ i
    rw [value_congr o _ fun v hv => h v (List.mem_append_left _ hv),
      value_congr i _ fun v hv => h v (List.mem_append_right _ hv)]

/-- Values that the loops inside can give to the loop variables. -/
def Reaches (D : List Var) (env env' : Env) (n : Nat) (t : Tree) : Prop :=
  ∀ v b, (v, b) ∈ leafBounds n t → (v ∈ D → env' v = env v) ∧ (v ∉ D → env' v < b)

theorem Reaches.outer {D env env' n k f o i} (h : Reaches D env env' n (.node k f o i)) :
    Reaches D env env' (outerBound k f n) o :=
  fun v b hv => h v b (List.mem_append_left _ hv)

theorem Reaches.inner {D env env' n k f o i} (h : Reaches D env env' n (.node k f o i)) :
    Reaches D env env' (innerBound k f n) i :=
  fun v b hv => h v b (List.mem_append_right _ hv)

theorem known_value {D env env' n t} (hk : Known D t) (h : Reaches D env env' n t) :
    value env' n t = value (lowEnv D env) n t := by
  refine value_congr t n fun v hv => ?_
  obtain ⟨b, hb⟩ := leaf_bound (n := n) hv
  rw [(h v b hb).1 (hk v hv)]
  unfold lowEnv
  rw [List.contains_iff_mem.2 (hk v hv), if_pos rfl]

theorem low_le_highChild (D : List Var) (env : Env) (n : Nat) (t : Tree) :
    value (lowEnv D env) n t ≤ highChild D env n t := by
  cases t with
  | leaf v =>
    show lowEnv D env v ≤ if D.contains v then env v else n
    unfold lowEnv
    split
    · exact Nat.le_refl _
    · exact Nat.zero_le _
  | node k f o i => exact Nat.le_refl _

theorem low_le_high (D : List Var) (env : Env) (n : Nat) (t : Tree) :
    value (lowEnv D env) n t ≤ high D env n t := by
  cases t with
  | leaf v => exact low_le_highChild D env n (.leaf v)
  | node k f o i =>
    exact Nat.add_le_add (Nat.mul_le_mul_right _ (low_le_highChild D env _ o)) (low_le_highChild D env _ i)

theorem direct_le {D env env' n t} (hd : Direct D t) (h : Reaches D env env' n t) :
    value env' n t ≤ highChild D env n t := by
  rcases hd with ⟨v, rfl⟩ | hk
  · show env' v ≤ if D.contains v then env v else n
    have hv := h v n List.mem_cons_self
    by_cases hD : v ∈ D
    · rw [List.contains_iff_mem.2 hD, if_pos rfl, hv.1 hD]
      exact Nat.le_refl _
    · rw [contains_false hD, if_neg (fun h => nomatch h)]
      exact Nat.le_of_lt (hv.2 hD)
  · rw [known_value hk h]
    exact low_le_highChild D env n t

theorem shallow_le {D env env' n t} (hs : Shallow D t) (h : Reaches D env env' n t) :
    value env' n t ≤ high D env n t := by
  cases hs with
  | node ho hi =>
    exact Nat.add_le_add (Nat.mul_le_mul_right _ (direct_le ho h.outer)) (direct_le hi h.inner)

/-- The end of a chain, with its bound. -/
inductive Ends (D : List Var) : Nat → Tree → Nat → Tree → Prop where
  | bottom {n k f o i} : Direct D o → Direct D i → ¬Known D (.node k f o i) →
      Ends D n (.node k f o i) n (.node k f o i)
  | down {n k f o i m x} : Known D o → Ends D (innerBound k f n) i m x → Ends D n (.node k f o i) m x

theorem Chain.ends {D t} (h : Chain D t) : ∀ n, ∃ m x, Ends D n t m x := by
  induction h with
  | bottom h1 h2 h3 => exact fun n => ⟨n, _, .bottom h1 h2 h3⟩
  | @down k f o i h1 _ ih =>
    intro n
    obtain ⟨m, x, h⟩ := ih (innerBound k f n)
    exact ⟨m, x, .down h1 h⟩

theorem Ends.isNode {D n t m x} (h : Ends D n t m x) : ∃ k f o i, t = .node k f o i := by
  cases h <;> exact ⟨_, _, _, _, rfl⟩

theorem Ends.unknown {D n t m x} (h : Ends D n t m x) : ∃ v ∈ t.leaves, v ∉ D := by
  have key : ∀ {n t m x}, Ends D n t m x → ¬Known D t := by
    intro n t m x h
    induction h with
    | bottom _ _ h => exact h
    | down _ _ ih => exact fun hk => ih fun v hv => hk v (List.mem_append_right _ hv)
  refine Classical.byContradiction fun hne => key h fun v hv => ?_
  exact Classical.byContradiction fun hD => hne ⟨v, hv, hD⟩

/-- What is added for the end of the chain covers the chain. -/
theorem chain_le {D env env' n t m x} (hc : Ends D n t m x) (h : Reaches D env env' n t) :
    value env' n t ≤ value (lowEnv D env) n t + (high D env m x - value (lowEnv D env) m x) := by
  induction hc with
  | @bottom n k f o i h1 h2 _ =>
    have h3 := shallow_le (.node h1 h2) h
    have h4 := low_le_high D env n (.node k f o i)
    omega
  | @down n k f o i m x h1 _ ih =>
    have h2 := ih h.inner
    have h3 := known_value h1 h.outer
    show value env' _ o * _ + value env' _ i ≤ value (lowEnv D env) _ o * _ + value (lowEnv D env) _ i + _
    rw [h3]
    omega

/-! ### The first variable that is recovered -/

theorem newly_nil {D : List Var} {v : Var} {n : Nat} {t : Tree} (h : v ∉ t.leaves) : newly D v n t = [] := by
  cases t with
  | leaf w => rfl
  | node k f o i =>
    have h1 : v ∉ o.leaves := fun hv => h (List.mem_append_left _ hv)
    have h2 : v ∉ i.leaves := fun hv => h (List.mem_append_right _ hv)
    unfold newly
    rw [contains_false h1, contains_false h2]
    rfl

theorem newly_known {G : List Var} {v : Var} {n : Nat} {k f o i} (hv : v ∈ (Tree.node k f o i).leaves)
    (hk : Known (v :: G) (.node k f o i)) : newly G v n (.node k f o i) ≠ [] := by
  unfold newly
  rw [recoverable_iff.2 hk]
  by_cases ho : v ∈ o.leaves
  · rw [List.contains_iff_mem.2 ho, if_pos rfl, if_pos rfl]
    simp
  · have hi : v ∈ i.leaves := (List.mem_append.1 hv).resolve_left ho
    rw [contains_false ho, if_neg (by simp), List.contains_iff_mem.2 hi, if_pos rfl, if_pos rfl]
    simp

/-- A first variable of the inner piece is the first variable. -/
theorem firstNew_inner {n : Nat} {k f o k' f' o' i'} {x : Nat × Tree} : ∀ (vs G : List Var),
    (∀ v ∈ vs, v ∉ o.leaves ∧ v ∈ (Tree.node k' f' o' i').leaves) →
    firstNew (innerBound k f n) (.node k' f' o' i') G vs = some x →
    firstNew n (.node k f o (.node k' f' o' i')) G vs = some x
  | [], _, _, h => nomatch h
  | v :: vs, G, hvs, h => by
    obtain ⟨h1, h2⟩ := hvs v List.mem_cons_self
    have hnew : newly G v n (.node k f o (.node k' f' o' i')) =
        newly G v (innerBound k f n) (.node k' f' o' i') ++
        (if recoverable (v :: G) (.node k f o (.node k' f' o' i')) then [(n, .node k f o (.node k' f' o' i'))]
          else []) := by
      conv => lhs; unfold newly
      rw [contains_false h1, if_neg (by simp), List.contains_iff_mem.2 h2, if_pos rfl]
    unfold firstNew at h ⊢
    rw [hnew]
    cases hi : newly G v (innerBound k f n) (.node k' f' o' i') with
    | cons y ys =>
      rw [hi] at h
      exact h
    | nil =>
      rw [hi] at h
      have : recoverable (v :: G) (.node k f o (.node k' f' o' i')) = false := by
        refine not_recoverable fun hk => ?_
        exact newly_known h2 (fun w hw => hk w (List.mem_append_right _ hw)) hi
      rw [this]
      exact firstNew_inner vs (v :: G) (fun w hw => hvs w (List.mem_cons_of_mem _ hw)) h

theorem pending_known {D t} (h : Known D t) : pending D t = [] := by
  unfold pending
  rw [List.filter_eq_nil_iff]
  intro v hv
  rw [List.contains_iff_mem.2 (h v hv)]
  simp

theorem mem_pending {D t v} : v ∈ pending D t ↔ v ∈ t.leaves ∧ v ∉ D := by
  unfold pending
  rw [List.mem_filter]
  simp

theorem pending_node {D k f o i} : pending D (.node k f o i) = pending D o ++ pending D i :=
  List.filter_append ..

/-- What `newly` says about a direct node. -/
theorem newly_direct {D G : List Var} {v : Var} {n k f o i} (ho : Direct D o) (hi : Direct D i)
    (hv : v ∈ (Tree.node k f o i).leaves) (hD : v ∉ D) :
    newly G v n (.node k f o i) = if recoverable (v :: G) (.node k f o i) then [(n, .node k f o i)] else [] := by
  have sub : ∀ {m t}, Direct D t → v ∈ t.leaves → newly G v m t = [] := by
    intro m t ht hvt
    rcases ht with ⟨w, rfl⟩ | hk
    · rfl
    · exact absurd (hk v hvt) hD
  conv => lhs; unfold newly
  by_cases h1 : v ∈ o.leaves
  · rw [List.contains_iff_mem.2 h1, if_pos rfl, sub ho h1]
    rfl
  · have h2 : v ∈ i.leaves := (List.mem_append.1 hv).resolve_left h1
    rw [contains_false h1, if_neg (by simp), List.contains_iff_mem.2 h2, if_pos rfl, sub hi h2]
    rfl

/-- Loop variables of a direct node are defined one by one until the node is recovered. -/
theorem firstNew_direct {D : List Var} {n k f o i} (ho : Direct D o) (hi : Direct D i) :
    ∀ (vs G : List Var), (∀ v ∈ vs, v ∈ (Tree.node k f o i).leaves ∧ v ∉ D) → vs ≠ [] →
      (∀ v ∈ (Tree.node k f o i).leaves, v ∈ G ∨ v ∈ vs) →
      firstNew n (.node k f o i) G vs = some (n, .node k f o i)
  | [], _, _, hne, _ => absurd rfl hne
  | v :: vs, G, hvs, _, hall => by
    obtain ⟨h1, h2⟩ := hvs v List.mem_cons_self
    unfold firstNew
    rw [newly_direct ho hi h1 h2]
    by_cases hk : Known (v :: G) (.node k f o i)
    · rw [recoverable_iff.2 hk]
      rfl
    · rw [not_recoverable hk]
      refine firstNew_direct ho hi vs (v :: G) (fun w hw => hvs w (List.mem_cons_of_mem _ hw)) ?_ ?_
      · rintro rfl
        refine hk fun w hw => ?_
        rcases hall w hw with h | h
        · exact List.mem_cons_of_mem _ h
        · rw [List.mem_singleton.1 h]
          exact List.mem_cons_self
      · intro w hw
        rcases hall w hw with h | h
        · exact .inl (List.mem_cons_of_mem _ h)
        · rcases List.mem_cons.1 h with rfl | h
          · exact .inl List.mem_cons_self
          · exact .inr h

theorem firstNew_chain {D n t m x} (hc : Ends D n t m x) : ∀ (G : List Var),
    (∀ v ∈ t.leaves, v ∈ G ↔ v ∈ D) → firstNew n t G (pending D t) = some (m, x) := by
  induction hc with
  | @bottom n k f o i h1 h2 h3 =>
    intro G hG
    refine firstNew_direct h1 h2 _ G (fun v hv => mem_pending.1 hv) ?_ ?_
    · intro hnil
      refine h3 fun v hv => Classical.byContradiction fun hD => ?_
      have := mem_pending.2 ⟨hv, hD⟩
      rw [hnil] at this
      exact nomatch this
    · intro v hv
      by_cases hD : v ∈ D
      · exact .inl ((hG v hv).2 hD)
      · exact .inr (mem_pending.2 ⟨hv, hD⟩)
  | @down n k f o i m x h1 h2 ih =>
    intro G hG
    rw [pending_node, pending_known h1, List.nil_append]
    obtain ⟨k', f', o', i', rfl⟩ := h2.isNode
    refine firstNew_inner _ G ?_ (ih G fun v hv => hG v (List.mem_append_right _ hv))
    intro v hv
    obtain ⟨h3, h4⟩ := mem_pending.1 hv
    exact ⟨fun ho => h4 (h1 v ho), h3⟩

theorem firstNew_deep {D n k f o i m x} (ho : Direct D o) (hc : Ends D (innerBound k f n) i m x)
    (hn : (Tree.node k f o i).leaves.Nodup) :
    firstNew n (.node k f o i) D (pending D (.node k f o i)) = some (m, x) := by
  have hdis : ∀ v ∈ i.leaves, v ∉ o.leaves := by
    intro v hi ho
    exact (List.nodup_append.1 hn).2.2 v ho v hi rfl
  obtain ⟨k', f', o', i', rfl⟩ := hc.isNode
  have tail : ∀ G, (∀ v ∈ (Tree.node k' f' o' i').leaves, v ∈ G ↔ v ∈ D) →
      firstNew n (.node k f o (.node k' f' o' i')) G (pending D (.node k' f' o' i')) = some (m, x) := by
    intro G hG
    refine firstNew_inner _ G ?_ (firstNew_chain hc G hG)
    intro v hv
    obtain ⟨h3, _⟩ := mem_pending.1 hv
    exact ⟨hdis v h3, h3⟩
  rw [pending_node]
  rcases ho with ⟨w, rfl⟩ | hk
  · by_cases hw : w ∈ D
    · rw [pending_known (fun v hv => by rw [List.mem_singleton.1 hv]; exact hw), List.nil_append]
      exact tail D fun _ _ => Iff.rfl
    · have : pending D (.leaf w) = [w] := by
        unfold pending
        show List.filter _ [w] = [w]
        rw [List.filter_cons, contains_false hw]
        rfl
      rw [this, List.singleton_append]
      unfold firstNew
      have hnew : newly D w n (.node k f (.leaf w) (.node k' f' o' i')) = [] := by
        unfold newly
        rw [List.contains_iff_mem.2 (show w ∈ (Tree.leaf w).leaves from List.mem_cons_self), if_pos rfl]
        rw [not_recoverable]
        · rfl
        · intro hk
          obtain ⟨u, hu, huD⟩ := hc.unknown
          rcases List.mem_cons.1 (hk u (List.mem_append_right _ hu)) with rfl | h
          · exact hdis u hu List.mem_cons_self
          · exact huD h
      rw [hnew]
      refine tail (w :: D) fun v hv => ⟨fun h => ?_, List.mem_cons_of_mem _⟩
      rcases List.mem_cons.1 h with rfl | h
      · exact absurd List.mem_cons_self (hdis v hv)
      · exact h
  · rw [pending_known hk, List.nil_append]
    exact tail D fun _ _ => Iff.rfl

theorem deep_le {D env env' n k f o i m x} (ho : Direct D o) (hc : Ends D (innerBound k f n) i m x)
    (h : Reaches D env env' n (.node k f o i)) :
    value env' n (.node k f o i) ≤
      high D env n (.node k f o i) + (high D env m x - value (lowEnv D env) m x) := by
  have h1 := chain_le hc h.inner
  have h2 := Nat.mul_le_mul_right (stride k f n) (direct_le ho h.outer)
  obtain ⟨k', f', o', i', rfl⟩ := hc.isNode
  show value env' _ o * _ + value env' _ _ ≤ highChild D env _ o * _ + value (lowEnv D env) _ _ + _
  omega

/-! ### The copy without guards -/

theorem mem_guarded {D : List Var} {vars : List Variable} {r : Variable} : r ∈ guarded D vars ↔
    r ∈ vars ∧ ¬Known D r.tree ∧ ∀ v, r.tree ≠ .leaf v := by
  unfold guarded
  rw [List.mem_filter]
  refine and_congr Iff.rfl ?_
  cases ht : r.tree with
  | leaf v => simp [needsGuard]
  | node k f o i =>
    simp only [needsGuard, Bool.not_eq_true', ne_eq, reduceCtorEq, not_false_eq_true, implies_true, and_true]
    constructor
    · intro h hk
      rw [recoverable_iff.2 hk] at h
      exact nomatch h
    · exact not_recoverable

theorem leaves_nodup {vars : List Variable} (hn : (vars.flatMap fun r => r.tree.leaves).Nodup) {r : Variable}
    (hr : r ∈ vars) : r.tree.leaves.Nodup := by
  refine List.Sublist.nodup ?_ hn
  obtain ⟨A, B, rfl⟩ := List.append_of_mem hr
  rw [List.flatMap_append, List.flatMap_cons]
  exact (List.sublist_append_left _ _).trans (List.sublist_append_right _ _)

theorem first_guarded {D : List Var} {before after : List Variable} {r : Variable}
    (hb : ∀ r' ∈ before, Known D r'.tree ∨ ∃ v, r'.tree = .leaf v) (hr : r ∈ guarded D (before ++ r :: after)) :
    ∃ rest, guarded D (before ++ r :: after) = r :: rest := by
  have hnil : guarded D before = [] := by
    cases hg : guarded D before with
    | nil => rfl
    | cons r' rs =>
      have hm : r' ∈ guarded D before := by rw [hg]; exact List.mem_cons_self
      obtain ⟨h1, h2, h3⟩ := mem_guarded.1 hm
      rcases hb r' h1 with h | ⟨v, h⟩
      · exact absurd h h2
      · exact absurd h (h3 v)
  have hr' := mem_guarded.1 hr
  have h1 : r ∈ guarded D [r] := mem_guarded.2 ⟨List.mem_cons_self, hr'.2⟩
  have hp : needsGuard D r.tree = true := (List.mem_filter.1 h1).2
  unfold guarded at hnil ⊢
  rw [List.filter_append, hnil, List.nil_append, List.filter_cons, if_pos hp]
  exact ⟨_, rfl⟩

/-- If the condition is false, no value inside is out of range. -/
theorem guard_sound {D : List Var} {env env' : Env} {vars : List Variable}
    (hn : (vars.flatMap fun r => r.tree.leaves).Nodup) (hs : Simple D vars)
    (hg : guardCondition D env vars = false) {r : Variable} (hr : r ∈ guarded D vars)
    (h : Reaches D env env' r.dim r.tree) : value env' r.dim r.tree < r.dim := by
  obtain ⟨hr1, hr2, hr3⟩ := mem_guarded.1 hr
  have hlt : high D env r.dim r.tree + maxOffset D env vars < r.dim := by
    refine Nat.lt_of_not_le fun hle => ?_
    have : guardCondition D env vars = true := List.any_eq_true.2 ⟨r, hr, decide_eq_true hle⟩
    rw [hg] at this
    exact nomatch this
  obtain ⟨before, after, rfl⟩ := List.append_of_mem hr1
  rcases hs before r after rfl hr2 with h1 | ⟨v, h1⟩ | ⟨h1, h2⟩
  · have := shallow_le h1 h
    omega
  · exact absurd h1 (hr3 v)
  · generalize hv : before ++ r :: after = vars at *
    obtain ⟨rest, hrest⟩ := first_guarded h2 (hv.symm ▸ hr)
    rw [hv] at hrest
    have hnd := leaves_nodup hn hr1
    have hoff : ∀ {m x}, firstNew r.dim r.tree D (pending D r.tree) = some (m, x) →
        maxOffset D env vars = high D env m x - value (lowEnv D env) m x := by
      intro m x hf
      unfold maxOffset
      rw [hrest, List.findSome?_cons, hf]
    generalize ht : r.tree = t at *
    cases h1 with
    | @node k f o i ho hc =>
      obtain ⟨m, x, he⟩ := hc.ends (innerBound k f r.dim)
      have h3 := deep_le ho he h
      have h4 := hoff (firstNew_deep ho he hnd)
      omega

/-- Every variable that `newly` lists has become known. -/
theorem newly_spec {D : List Var} {v : Var} : ∀ (t : Tree) (n : Nat) (y : Nat × Tree), y ∈ newly D v n t →
    v ∈ y.2.leaves ∧ Known (v :: D) y.2
  | .leaf _, _, y, h => nomatch h
  | .node k f o i, n, y, h => by
    have last : ∀ {l : List (Nat × Tree)}, v ∈ (Tree.node k f o i).leaves → (y ∈ l → v ∈ y.2.leaves ∧ Known (v :: D) y.2) →
        y ∈ l ++ (if recoverable (v :: D) (.node k f o i) then [(n, Tree.node k f o i)] else []) →
        v ∈ y.2.leaves ∧ Known (v :: D) y.2 := by
      intro l hv hl hy
      rcases List.mem_append.1 hy with hy | hy
      · exact hl hy
      · split at hy
        · rename_i hk
          rw [List.mem_singleton.1 hy]
          exact ⟨hv, recoverable_iff.1 hk⟩
        · exact nomatch hy
    unfold newly at h
    split at h
    · rename_i ho
      exact last (List.mem_append_left _ (List.contains_iff_mem.1 ho)) (newly_spec o _ y) h
    · split at h
      · rename_i hi
        exact last (List.mem_append_right _ (List.contains_iff_mem.1 hi)) (newly_spec i _ y) h
      · exact nomatch h

theorem newly_bound {D : List Var} {v : Var} : ∀ (t : Tree) (n : Nat) (y : Nat × Tree), y ∈ newly D v n t →
    y.2 = t → y.1 = n
  | .leaf _, _, y, h, _ => nomatch h
  | .node k f o i, n, y, h, hy => by
    have size : ∀ {m t}, y ∈ newly D v m t → sizeOf y.2 ≤ sizeOf t := by
      intro m t
      induction t generalizing m with
      | leaf => exact fun h => nomatch h
      | node k f o i iho ihi =>
        intro h
        unfold newly at h
        have big : sizeOf o < sizeOf (Tree.node k f o i) ∧ sizeOf i < sizeOf (Tree.node k f o i) := by
          simp only [Tree.node.sizeOf_spec]
          omega
        split at h
        · rcases List.mem_append.1 h with h | h
          · have := iho h
            omega
          · split at h
            · rw [List.mem_singleton.1 h]
              exact Nat.le_refl _
            · exact nomatch h
        · split at h
          · rcases List.mem_append.1 h with h | h
            · have := ihi h
              omega
            · split at h
              · rw [List.mem_singleton.1 h]
                exact Nat.le_refl _
              · exact nomatch h
          · exact nomatch h
    have big : sizeOf o < sizeOf (Tree.node k f o i) ∧ sizeOf i < sizeOf (Tree.node k f o i) := by
      simp only [Tree.node.sizeOf_spec]
      omega
    unfold newly at h
    split at h
    · rcases List.mem_append.1 h with h | h
      · have := size h
        rw [hy] at this
        omega
      · split at h
        · rw [List.mem_singleton.1 h]
        · exact nomatch h
    · split at h
      · rcases List.mem_append.1 h with h | h
        · have := size h
          rw [hy] at this
          omega
        · split at h
          · rw [List.mem_singleton.1 h]
          · exact nomatch h
      · exact nomatch h

/-- Guards that never fire can be left out. -/
theorem skips_same {vars : List Variable} {D : List Var} {v : Var} {env : Env}
    (h : ∀ r ∈ vars, v ∈ r.tree.leaves → Known (v :: D) r.tree → (∀ w, r.tree ≠ .leaf w) →
      value env r.dim r.tree < r.dim) :
    skips true vars D v env = skips false vars D v env := by
  unfold skips
  refine congrArg (fun p => p) ?_
  have : ∀ r ∈ vars, (newly D v r.dim r.tree).any (guardSkips true r env) =
      (newly D v r.dim r.tree).any (guardSkips false r env) := by
    intro r hr
    have hy : ∀ y ∈ newly D v r.dim r.tree, guardSkips true r env y = guardSkips false r env y := by
      rintro ⟨m, t⟩ hy
      have hsp := newly_spec _ _ _ hy
      have hb := newly_bound _ _ _ hy
      have hno : ∀ w, r.tree ≠ .leaf w := by
        intro w hw
        rw [hw] at hy
        exact nomatch hy
      unfold guardSkips
      by_cases he : t = r.tree
      · have hm : m = r.dim := hb he
        subst hm
        have hlt := h r hr (he ▸ hsp.1) (he ▸ hsp.2) hno
        rw [← he] at hlt
        have : decide (r.dim ≤ value env r.dim t) = false := decide_eq_false (Nat.not_le_of_lt hlt)
        show (_ && _ && decide (r.dim ≤ value env r.dim t) || _) = (_ && _ && decide (r.dim ≤ value env r.dim t) || _)
        rw [this]
        simp
      · show (_ && decide (t = r.tree) && _ || _) = (_ && decide (t = r.tree) && _ || _)
        rw [decide_eq_false he]
        simp
    rw [Bool.eq_iff_iff, List.any_eq_true, List.any_eq_true]
    constructor
    · rintro ⟨y, h1, h2⟩
      exact ⟨y, h1, hy y h1 ▸ h2⟩
    · rintro ⟨y, h1, h2⟩
      exact ⟨y, h1, (hy y h1).symm ▸ h2⟩
  rw [Bool.eq_iff_iff, List.any_eq_true, List.any_eq_true]
  constructor
  · rintro ⟨r, h1, h2⟩
    exact ⟨r, h1, (this r h1) ▸ h2⟩
  · rintro ⟨r, h1, h2⟩
    exact ⟨r, h1, (this r h1).symm ▸ h2⟩

/-- The two copies do the same if the condition is false. -/
theorem run_same {D : List Var} {env : Env} {vars : List Variable}
    (hn : (vars.flatMap fun r => r.tree.leaves).Nodup) (hs : Simple D vars)
    (hg : guardCondition D env vars = false) :
    ∀ (loops D' : List Var) (env' : Env), (∀ v ∈ loops, v ∉ D') → loops.Nodup → (∀ v ∈ D, v ∈ D') →
      (∀ v ∈ D, env' v = env v) → (∀ v ∈ D', v ∉ D → env' v < bound vars v) →
      run true vars D' env' loops = run false vars D' env' loops := by
  intro loops
  induction loops with
  | nil => intros; rfl
  | cons v loops ih =>
    intro D' env' hfresh hnd hsub henv hlt
    have hvD' : v ∉ D' := hfresh v List.mem_cons_self
    have hvD : v ∉ D := fun h => hvD' (hsub v h)
    unfold run
    rw [List.flatMap_def, List.flatMap_def]
    congr 1
    refine List.map_congr_left fun x hx => ?_
    rw [List.mem_range] at hx
    have hset : ∀ w ∈ D, (env'.set v x) w = env w := by
      intro w hw
      unfold Env.set
      rw [if_neg (show ¬w = v from fun h => hvD (h ▸ hw)), henv w hw]
    have hset' : ∀ w ∈ v :: D', w ∉ D → (env'.set v x) w < bound vars w := by
      intro w hw hD
      unfold Env.set
      by_cases h : w = v
      · rw [if_pos h, h]
        exact hx
      · rw [if_neg h]
        exact hlt w ((List.mem_cons.1 hw).resolve_left h) hD
    rw [skips_same]
    · split
      · rfl
      · refine ih (v :: D') (env'.set v x) ?_ (List.nodup_cons.1 hnd).2 (fun w hw => List.mem_cons_of_mem _ (hsub w hw))
          hset hset'
        intro w hw hmem
        rcases List.mem_cons.1 hmem with rfl | hmem
        · exact (List.nodup_cons.1 hnd).1 hw
        · exact hfresh w (List.mem_cons_of_mem _ hw) hmem
    · intro r hr hvr hk hno
      refine guard_sound hn hs hg (mem_guarded.2 ⟨hr, fun hkD => hvD (hkD v hvr), hno⟩) ?_
      intro w b hwb
      have hw := bound_leaf hwb
      refine ⟨fun hD => hset w hD, fun hD => ?_⟩
      rw [← bound_eq hn hr hwb]
      exact hset' w (hk w hw) hD

/-! ### Guards keep coordinates in range -/

theorem run_in_range {vars : List Variable} (hn : (vars.flatMap fun r => r.tree.leaves).Nodup) :
    ∀ (loops D : List Var) (env : Env), (∀ v ∈ loops, v ∉ D) → loops.Nodup →
      (∀ r ∈ vars, ∀ v ∈ r.tree.leaves, v ∈ D ∨ v ∈ loops) →
      (∀ r ∈ vars, Known D r.tree → value env r.dim r.tree < r.dim) →
      ∀ c ∈ run true vars D env loops, InRange vars c := by
  intro loops
  induction loops with
  | nil =>
    intro D env _ _ hall hk c hc
    rw [List.mem_singleton.1 hc]
    refine ⟨List.length_map .., fun k r x hr hx => ?_⟩
    rw [List.getElem?_map, hr] at hx
    have hm : r ∈ vars := List.mem_of_getElem? hr
    cases hx
    exact hk r hm fun v hv => (hall r hm v hv).resolve_right (fun h => nomatch h)
  | cons v loops ih =>
    intro D env hfresh hnd hall hk c hc
    unfold run at hc
    obtain ⟨x, hx, hc⟩ := List.mem_flatMap.1 hc
    rw [List.mem_range] at hx
    split at hc
    · exact nomatch hc
    · rename_i hskip
      have hvD := hfresh v List.mem_cons_self
      refine ih (v :: D) (env.set v x) ?_ (List.nodup_cons.1 hnd).2 ?_ ?_ c hc
      · intro w hw hmem
        rcases List.mem_cons.1 hmem with rfl | hmem
        · exact (List.nodup_cons.1 hnd).1 hw
        · exact hfresh w (List.mem_cons_of_mem _ hw) hmem
      · intro r hr w hw
        rcases hall r hr w hw with h | h
        · exact .inl (List.mem_cons_of_mem _ h)
        · rcases List.mem_cons.1 h with rfl | h
          · exact .inl List.mem_cons_self
          · exact .inr h
      · intro r hr hkr
        by_cases hv : v ∈ r.tree.leaves
        · cases ht : r.tree with
          | leaf w =>
            rw [ht] at hv
            have : v = w := List.mem_singleton.1 hv
            subst this
            show (env.set v x) v < r.dim
            have hb := bound_eq hn hr (v := v) (b := r.dim) (by rw [ht]; exact List.mem_cons_self)
            unfold Env.set
            rw [if_pos rfl, ← hb]
            exact hx
          | node k f o i =>
            refine Nat.lt_of_not_le fun hle => hskip ?_
            unfold skips
            refine List.any_eq_true.2 ⟨r, hr, List.any_eq_true.2 ⟨(r.dim, r.tree), ?_, ?_⟩⟩
            · rw [ht] at hv hkr ⊢
              unfold newly
              rw [recoverable_iff.2 hkr]
              by_cases ho : v ∈ o.leaves
              · rw [List.contains_iff_mem.2 ho, if_pos rfl, if_pos rfl]
                simp
              · have hi : v ∈ i.leaves := (List.mem_append.1 hv).resolve_left ho
                rw [contains_false ho, if_neg (by simp), List.contains_iff_mem.2 hi, if_pos rfl, if_pos rfl]
                simp
            · rw [ht]
              unfold guardSkips
              show (_ && decide (Tree.node k f o i = r.tree) && decide (r.dim ≤ value (env.set v x) r.dim (.node k f o i)) || _) = true
              rw [decide_eq_true ht.symm, decide_eq_true hle]
              rfl
        · have : Known D r.tree := by
            intro w hw
            rcases List.mem_cons.1 (hkr w hw) with rfl | h
            · exact absurd hw hv
            · exact h
          rw [value_congr (env' := env)]
          · exact hk r hr this
          · intro w hw
            unfold Env.set
            rw [if_neg (show ¬w = v from fun h => hvD (h ▸ this w hw))]

end Verif.Unroll
