import Verif.Forest.Lemmas
/-! C97: forests of index variables. -/
namespace Verif.Forest

/-! ### Helper facts -/

theorem Above.trans {f : Nat → Option Nat} {u v w : Nat} (h1 : Above f u v) (h2 : Above f v w) : Above f u w := by
  induction h2 with
  | parent h => exact .step h h1
  | step h _ ih => exact .step h ih

theorem above_before {lv : Nat → Nat} {f : Nat → Option Nat} (hf : ∀ x q, f x = some q → Before lv x q) {u v : Nat} (h : Above f u v) : Before lv v u := by
  induction h with
  | parent h => exact hf _ _ h
  | step h _ ih => exact before_trans (hf _ _ h) ih

theorem path_above {ps : List Path} {f : Nat → Option Nat} (he : ∀ u v, Edge ps u v → Above f u v) : ∀ (b : List Nat) (p : Path) (a : List Nat) (u v : Nat) (c : List Nat), p ∈ ps → p = a ++ u :: (b ++ v :: c) → Above f u v
  | [], p, a, u, v, c, hp, e => he u v ⟨p, hp, a, c, e⟩
  | w :: b, p, a, u, v, c, hp, e => (he u w ⟨p, hp, a, b ++ v :: c, e⟩).trans (path_above he b p (a ++ [u]) w v c hp (by rw [e]; simp))

/-- The forest that is made of levels that are longest walks. -/
theorem finish_spec {ps : List Path} {L : Nat → Nat} (hL : Longest (Edge ps) L) {sort : (Nat → Nat) → List Nat → List Nat} (hs : Stable sort) {lv : Levels} (hlv : ∀ v, Occurs ps v → lv v = some (L v)) :
    ∃ f, finish ps sort lv = .forest f ∧ f.roots = sources ps ∧ f.nodes = vertices ps ∧ (∀ u v, Edge ps u v → Above f.parent u v) ∧ (∀ v, ¬ Above f.parent v v)
      ∧ (∀ v q, f.parent v = some q → Occurs ps v ∧ Occurs ps q) := by
  have hget : ∀ v, Occurs ps v → lv.get v = L v := fun v hv => by unfold Levels.get; rw [hlv v hv]; rfl
  have hall : (vertices ps).all (fun v => (lv v).isSome) = true := by
    rw [List.all_eq_true]
    intro v hv
    rw [hlv v (mem_vertices.mp hv)]; rfl
  obtain ⟨hperm, hord⟩ := hs lv.get (asc (vertices ps)) (sorted_asc _)
  have hmem : ∀ v, v ∈ sort lv.get (asc (vertices ps)) ↔ Occurs ps v := fun v => by rw [hperm.mem_iff, mem_asc, mem_vertices]
  have hready : Ready lv.get (sort lv.get (asc (vertices ps))) ⟨preds ps, fun _ => none⟩ := by
    refine ⟨hord, fun x => sorted_asc _, fun x p hp => ?_, fun x _ p hp => ?_⟩
    · have he := mem_preds.mp hp
      obtain ⟨h1, h2⟩ := edge_occurs he
      have := hL.grows p x he
      exact .inl (by rw [hget p h1, hget x h2]; omega)
    · exact (hmem p).mpr (edge_occurs (mem_preds.mp hp)).1
  have hp := place_all hready
  have hpar : ∀ x q, ((sort lv.get (asc (vertices ps))).foldl (place lv.get) ⟨preds ps, fun _ => none⟩).parent x = some q → Occurs ps x ∧ Occurs ps q ∧ Before lv.get x q := by
    intro x q h
    by_cases hx : x ∈ sort lv.get (asc (vertices ps))
    · rcases hp.parent x hx q h with ⟨h1, h2⟩ | h'
      · exact ⟨(hmem x).mp hx, (hmem q).mp h2, h1⟩
      · cases h'
    · rw [(hp.same x hx).1] at h; cases h
  refine ⟨_, by unfold finish; rw [if_pos hall], rfl, rfl, fun u v he => ?_, fun v h => ?_, fun v q h => ⟨(hpar v q h).1, (hpar v q h).2.1⟩⟩
  · exact hp.above v ((hmem v).mpr (edge_occurs he).2) u (hp.more v u (mem_preds.mpr he))
  · exact before_irrefl (above_before (fun x q h => (hpar x q h).2.2) h)

theorem visit_some {u : Nat} : ∀ {ss : List Nat} {lv : Levels} {x : Nat}, visit lv u ss x ≠ none → lv x ≠ none ∨ x ∈ ss
  | [], _, _, h => .inl h
  | s :: ss, lv, x, h => by
    rcases visit_some (ss := ss) h with h | h
    · by_cases hx : x = s
      · exact .inr (by rw [hx]; simp)
      · unfold put at h
        rw [if_neg hx] at h
        exact .inl h
    · exact .inr (List.mem_cons_of_mem _ h)

theorem Walk.append {E : Nat → Nat → Prop} {z m : Nat} : ∀ {k x y : Nat}, Walk E x k y → Walk E y m z → Walk E x (k + m) z
  | _, _, _, .nil _, h => by rw [Nat.zero_add]; exact h
  | _, _, _, .cons (k := k) h1 h2, h => by rw [show k + 1 + m = k + m + 1 by omega]; exact .cons h1 (h2.append h)

/-- The first loop ends only after the longest walk. -/
theorem bfs_bound {E : Nat → Nat → Prop} {succ : Nat → List Nat} (hs : ∀ u v, v ∈ succ u ↔ E u v) : ∀ (n : Nat) (lv : Levels) (q : List Nat) (lv' : Levels), bfs succ n lv q = some lv' →
    (∀ x ∈ q, ∀ k y, Walk E x k y → k ≤ n) ∧ ∀ v, lv' v ≠ none → lv v ≠ none ∨ ∃ x ∈ q, ∃ k, Walk E x k v
  | n, lv, [], lv', h => by
    have : bfs succ n lv [] = some lv := by cases n <;> rfl
    rw [this] at h
    cases h
    exact ⟨(fun _ h => nomatch h), fun _ h => .inl h⟩
  | 0, _, _ :: _, _, h => nomatch h
  | n + 1, lv, u :: q, lv', h => by
    obtain ⟨h1, h2⟩ := bfs_bound hs n _ _ _ (h : bfs succ n (visit lv u (succ u)) (q ++ succ u) = some lv')
    refine ⟨fun x hx k y hw => ?_, fun v hv => ?_⟩
    · rcases List.mem_cons.mp hx with rfl | hx
      · cases hw with
        | nil => exact Nat.zero_le _
        | cons he hw' => exact Nat.succ_le_succ (h1 _ (List.mem_append_right _ ((hs _ _).mpr he)) _ _ hw')
      · exact Nat.le_succ_of_le (h1 x (List.mem_append_left _ hx) k y hw)
    · rcases h2 v hv with h | ⟨x, hx, k, hw⟩
      · rcases visit_some h with h | h
        · exact .inl h
        · exact .inr ⟨u, by simp, 1, .cons ((hs _ _).mp h) (.nil _)⟩
      · rcases List.mem_append.mp hx with hx | hx
        · exact .inr ⟨x, List.mem_cons_of_mem _ hx, k, hw⟩
        · exact .inr ⟨u, by simp, k + 1, .cons ((hs _ _).mp hx) hw⟩

theorem longest_walk {ps : List Path} : ∀ (k v : Nat), ∃ s, Walk (Edge ps) s (longest (preds ps) k v) v
  | 0, v => ⟨v, .nil v⟩
  | k + 1, v => by
    by_cases hp : preds ps v = []
    · refine ⟨v, ?_⟩
      have : longest (preds ps) (k + 1) v = 0 := by
        show (preds ps v).foldr _ 0 = 0
        rw [hp]; rfl
      rw [this]; exact .nil v
    · obtain ⟨u, hu, e⟩ := foldr_max_mem (f := fun u => longest (preds ps) k u + 1) hp
      obtain ⟨s, hw⟩ := longest_walk k u
      refine ⟨s, ?_⟩
      have e' : longest (preds ps) k u + 1 = longest (preds ps) (k + 1) v := e
      rw [← e']
      exact hw.snoc (mem_preds.mp hu)

theorem Walk.last {E : Nat → Nat → Prop} : ∀ {k x z : Nat}, Walk E x (k + 1) z → ∃ y, Walk E x k y ∧ E y z
  | 0, x, _, .cons h (.nil _) => ⟨x, .nil x, h⟩
  | _ + 1, _, _, .cons h w => let ⟨y, h1, h2⟩ := w.last; ⟨y, .cons h h1, h2⟩

theorem walk_longest {ps : List Path} : ∀ {k l s v : Nat}, Walk (Edge ps) s l v → l ≤ k → l ≤ longest (preds ps) k v
  | _, 0, _, _, _, _ => Nat.zero_le _
  | 0, _ + 1, _, _, _, h => absurd h (Nat.not_succ_le_zero _)
  | k + 1, l + 1, s, v, hw, h => by
    obtain ⟨y, h1, h2⟩ := hw.last
    have := walk_longest (k := k) h1 (by omega)
    have h3 := foldr_max_le (f := fun u => longest (preds ps) k u + 1) (mem_preds.mpr h2)
    show l + 1 ≤ (preds ps v).foldr (fun u m => max (longest (preds ps) k u + 1) m) 0
    exact Nat.le_trans (Nat.succ_le_succ this) h3

theorem addNew_nodup {l : List Nat} (v : Nat) (h : l.Nodup) : (addNew l v).Nodup := by
  unfold addNew
  split
  · exact h
  · rename_i hv
    rw [List.nodup_append]
    refine ⟨h, by simp, fun a ha b hb e => ?_⟩
    rw [List.mem_singleton.mp hb] at e
    exact hv (e ▸ ha)

theorem vertices_nodup (ps : List Path) : (vertices ps).Nodup := by
  unfold vertices
  have : ∀ (vs l : List Nat), l.Nodup → (vs.foldl addNew l).Nodup := by
    intro vs
    induction vs with
    | nil => intro l h; exact h
    | cons v vs ih => intro l h; exact ih _ (addNew_nodup v h)
  exact this _ [] .nil

theorem sources_nodup (ps : List Path) : (sources ps).Nodup :=
  (List.Pairwise.filter _ (sorted_asc _)).imp fun h => Nat.ne_of_lt h

/-! ### Properties -/

/-- If the accesses fit some order of loops, a forest is made: it has exactly the variables that occur, each once; a variable that comes before another one
in an access is above it; nothing is above itself; the variables without parent are roots. Roots are the variables that come first wherever they occur. The sort must
keep the order of variables of the same level. -/
theorem forest_orders_paths_partial (ps : List Path) (h : Ordered ps) (sort : (Nat → Nat) → List Nat → List Nat) (hs : Stable sort) :
    ∃ n0, ∀ n, n0 ≤ n → ∃ f, build ps sort n = .forest f
      ∧ (∀ v, v ∈ f.nodes ↔ Occurs ps v) ∧ f.nodes.Nodup ∧ f.roots.Nodup ∧ (∀ v, (f.children v).Nodup)
      ∧ (∀ p ∈ ps, ∀ a u b v c, p = a ++ u :: (b ++ v :: c) → Above f.parent u v)
      ∧ (∀ v, ¬ Above f.parent v v)
      ∧ (∀ v, v ∈ f.roots ↔ Occurs ps v ∧ ∀ u, ¬ Edge ps u v)
      ∧ (∀ v, Occurs ps v → f.parent v = none → v ∈ f.roots)
      ∧ (∀ c v, c ∈ f.children v ↔ f.parent c = some v) := by
  obtain ⟨L, hL⟩ := longest_exists h
  obtain ⟨W, hW⟩ := rounds_exist h
  refine ⟨((sources ps).map W).sum, fun n hn => ?_⟩
  obtain ⟨lv, hb⟩ := bfs_ends hW n (init (sources ps)) (sources ps) hn
  have hq : ((sources ps).map fun s => (s, 0)).map Prod.fst = sources ps := by
    rw [List.map_map]; exact List.map_id' _
  have hlv := bfs_levels hL (fun u v => mem_succs) n _ _ 0 lv (queue_init hL) (by rw [hq]; exact hb)
  obtain ⟨f, h1, h2, h3, h4, h5, h6⟩ := finish_spec hL hs hlv
  refine ⟨f, by unfold build; rw [hb]; exact h1, fun v => by rw [h3]; exact mem_vertices, by rw [h3]; exact vertices_nodup ps, by rw [h2]; exact sources_nodup ps,
    fun v => by unfold Forest.children; rw [h3]; exact List.Pairwise.filter _ (vertices_nodup ps), fun p hp a u b v c e => path_above h4 b p a u v c hp e, h5,
    fun v => by rw [h2]; exact mem_sources, fun v hv hn => ?_, fun c v => ?_⟩
  · rw [h2, mem_sources]
    refine ⟨hv, fun u he => ?_⟩
    cases h4 u v he with
    | parent h => rw [hn] at h; cases h
    | step h _ => rw [hn] at h; cases h
  · unfold Forest.children
    rw [List.mem_filter, h3, mem_vertices, beq_iff_eq]
    exact ⟨fun h => h.2, fun h => ⟨(h6 c v h).1, h⟩⟩

/-- If the accesses fit no order of loops, no forest is made: an assertion fails or the construction does not end. -/
theorem unordered_no_forest (ps : List Path) (h : ¬ Ordered ps) (sort : (Nat → Nat) → List Nat → List Nat) (n : Nat) : build ps sort n = .endless ∨ build ps sort n = .assertion := by
  unfold build
  cases hb : bfs (succs ps) n (init (sources ps)) (sources ps) with
  | none => exact .inl rfl
  | some lv =>
    right
    show finish ps sort lv = .assertion
    unfold finish
    refine if_neg fun hall => h ?_
    obtain ⟨h1, h2⟩ := bfs_bound (E := Edge ps) (fun u v => mem_succs) n _ _ _ hb
    have hreach : ∀ v, Occurs ps v → ∃ x ∈ sources ps, ∃ k, Walk (Edge ps) x k v := by
      intro v hv
      have := List.all_eq_true.mp hall v (mem_vertices.mpr hv)
      rcases h2 v (by intro e; rw [e] at this; cases this) with h | h
      · unfold init at h
        split at h
        · rename_i hs; exact ⟨v, hs, 0, .nil v⟩
        · exact absurd rfl h
      · exact h
    refine ⟨longest (preds ps) n, fun u v he => ?_⟩
    obtain ⟨s, hw⟩ := longest_walk (ps := ps) n u
    have hso : Occurs ps s := by
      generalize longest (preds ps) n u = l at hw
      cases hw with
      | nil => exact (edge_occurs he).1
      | cons h _ => exact (edge_occurs h).1
    obtain ⟨x, hx, k, hk⟩ := hreach s hso
    have hle := h1 x hx _ _ (hk.append (hw.snoc he))
    exact walk_longest (hw.snoc he) (by omega)

/-- Endless: a variable that comes first wherever it occurs, from which accesses lead on and on. -/
theorem cycle_behind_root_fails (ps : List Path) (sort : (Nat → Nat) → List Nat → List Nat) (s : Nat) (hs : Occurs ps s) (hn : ∀ u, ¬ Edge ps u s) (hw : ∀ k, ∃ v, Walk (Edge ps) s k v) (n : Nat) :
    build ps sort n = .endless := by
  unfold build
  cases hb : bfs (succs ps) n (init (sources ps)) (sources ps) with
  | none => rfl
  | some lv =>
    obtain ⟨h1, _⟩ := bfs_bound (E := Edge ps) (fun u v => mem_succs) n _ _ _ hb
    obtain ⟨v, hv⟩ := hw (n + 1)
    have := h1 s (mem_sources.mpr ⟨hs, hn⟩) _ _ hv
    omega

/-! ### Witnesses -/

/-- Insertion that keeps the order of elements of the same level, as libraries use it for short lists. -/
def insertBy (lv : Nat → Nat) (x : Nat) : List Nat → List Nat
  | [] => [x]
  | y :: l => if lv y ≤ lv x then x :: y :: l else y :: insertBy lv x l
def insertionSort (lv : Nat → Nat) : List Nat → List Nat
  | [] => []
  | x :: l => insertBy lv x (insertionSort lv l)

theorem insertBy_perm {lv : Nat → Nat} {x : Nat} : ∀ l : List Nat, (insertBy lv x l).Perm (x :: l)
  | [] => .refl _
  | y :: l => by
    unfold insertBy
    split
    · exact .refl _
    · exact ((insertBy_perm l).cons y).trans (.swap x y l)

theorem insertBy_stable {lv : Nat → Nat} {x : Nat} : ∀ {l : List Nat}, l.Pairwise (Before lv) → (∀ y ∈ l, x < y) → (insertBy lv x l).Pairwise (Before lv)
  | [], _, _ => by simp [insertBy]
  | y :: l, h, hx => by
    have hy := List.pairwise_cons.mp h
    unfold insertBy
    split
    · rename_i hle
      refine List.pairwise_cons.mpr ⟨fun z hz => ?_, h⟩
      have hxy : Before lv x y := by
        have := hx y (by simp)
        rcases Nat.lt_or_ge (lv y) (lv x) with h | h
        · exact .inl h
        · exact .inr ⟨by omega, this⟩
      rcases List.mem_cons.mp hz with rfl | hz
      · exact hxy
      · exact before_trans hxy (hy.1 z hz)
    · rename_i hle
      refine List.pairwise_cons.mpr ⟨fun z hz => ?_, insertBy_stable hy.2 fun z hz => hx z (List.mem_cons_of_mem _ hz)⟩
      rcases List.mem_cons.mp ((insertBy_perm l).mem_iff.mp hz) with rfl | hz
      · exact .inl (by omega)
      · exact hy.1 z hz

theorem insertionSort_perm (lv : Nat → Nat) : ∀ l : List Nat, (insertionSort lv l).Perm l
  | [] => .refl _
  | x :: l => (insertBy_perm _).trans ((insertionSort_perm lv l).cons x)

theorem insertionSort_stable : Stable insertionSort := by
  intro lv l
  induction l with
  | nil => intro _; exact ⟨.refl _, .nil⟩
  | cons x l ih =>
    intro h
    have hx := List.pairwise_cons.mp h
    refine ⟨insertionSort_perm lv _, insertBy_stable (ih hx.2).2 fun y hy => hx.1 y ((insertionSort_perm lv l).mem_iff.mp hy)⟩

/-- Matrix multiplication with transposed operand: the hypotheses of `forest_orders_paths_partial` are met. -/
example : Ordered [[0, 1], [0, 2], [1, 2]] := by
  refine ⟨id, ?_⟩
  intro u v h
  have h' := mem_edges.mpr h
  have e : edges [[0, 1], [0, 2], [1, 2]] = [(0, 1), (0, 2), (1, 2)] := by decide +kernel
  rw [e] at h'
  simp only [List.mem_cons, Prod.mk.injEq, List.not_mem_nil, or_false] at h'
  show u < v
  omega

/-- The parents of a forest, for comparisons. -/
def parentsOf (vs : List Nat) : Built → Option (List Nat × List (Option Nat))
  | .forest f => some (f.roots, vs.map f.parent)
  | _ => none

example : parentsOf [0, 1, 2] (build [[0, 1], [0, 2], [1, 2]] insertionSort 9) = some ([0], [none, some 0, some 1]) := by decide +kernel

/-- Roots that have a parent: of two variables that come first, one gets below the other, and both are roots. -/
theorem roots_fails : parentsOf [0, 1, 2] (build [[0, 2], [1, 2]] insertionSort 9) = some ([0, 1], [some 1, none, some 0]) := by decide +kernel

/-- A sort by levels that does not keep the order of variables of the same level, which `std::sort` is free to be. -/
def otherSort (lv : Nat → Nat) (l : List Nat) : List Nat := insertionSort lv l.reverse

theorem insertBy_sorted {lv : Nat → Nat} {x : Nat} : ∀ {l : List Nat}, (l.Pairwise fun a b => lv b ≤ lv a) → (insertBy lv x l).Pairwise fun a b => lv b ≤ lv a
  | [], _ => by simp [insertBy]
  | y :: l, h => by
    have hy := List.pairwise_cons.mp h
    unfold insertBy
    split
    · rename_i hle
      refine List.pairwise_cons.mpr ⟨fun z hz => ?_, h⟩
      rcases List.mem_cons.mp hz with rfl | hz
      · exact hle
      · exact Nat.le_trans (hy.1 z hz) hle
    · rename_i hle
      refine List.pairwise_cons.mpr ⟨fun z hz => ?_, insertBy_sorted hy.2⟩
      rcases List.mem_cons.mp ((insertBy_perm l).mem_iff.mp hz) with rfl | hz
      · omega
      · exact hy.1 z hz

theorem insertionSort_sorted (lv : Nat → Nat) : ∀ l : List Nat, (insertionSort lv l).Pairwise fun a b => lv b ≤ lv a
  | [] => .nil
  | _ :: l => insertBy_sorted (insertionSort_sorted lv l)

/-- With such a sort an access is not along the forest: variable 0 comes before 2, and is not above it. -/
theorem unstable_sort_fails : Sorts otherSort ∧ Ordered [[0, 2], [1, 3], [2, 4], [3, 4]]
    ∧ parentsOf [0, 1, 2, 3, 4] (build [[0, 2], [1, 3], [2, 4], [3, 4]] otherSort 20) = some ([0, 1], [none, none, some 3, some 1, some 2]) := by
  refine ⟨fun lv l => ⟨(insertionSort_perm lv _).trans (List.reverse_perm l), insertionSort_sorted lv _⟩, ⟨id, fun u v h => ?_⟩, by decide +kernel⟩
  have h' := mem_edges.mpr h
  have e : edges [[0, 2], [1, 3], [2, 4], [3, 4]] = [(0, 2), (1, 3), (2, 4), (3, 4)] := by decide +kernel
  rw [e] at h'
  simp only [List.mem_cons, Prod.mk.injEq, List.not_mem_nil, or_false] at h'
  show u < v
  omega

/-- A diagonal: the assertion fails. -/
theorem diagonal_fails : ∀ n sort, build [[0, 0]] sort n = .assertion := by
  intro n sort
  have : bfs (succs [[0, 0]]) n (init (sources [[0, 0]])) (sources [[0, 0]]) = some (init (sources [[0, 0]])) := by
    have e : sources [[0, 0]] = [] := by decide +kernel
    rw [e]
    cases n <;> rfl
  unfold build
  rw [this]
  have hall : ((vertices [[0, 0]]).all fun v => (init (sources [[0, 0]]) v).isSome) = false := by decide +kernel
  show finish _ _ _ = _
  unfold finish
  rw [hall]
  rfl

/-- Two transposed accesses behind a variable: the construction does not end. -/
theorem transposed_behind_root_fails (n : Nat) (sort : (Nat → Nat) → List Nat → List Nat) : build [[0, 1, 2], [2, 1]] sort n = .endless := by
  have e : edges [[0, 1, 2], [2, 1]] = [(0, 1), (1, 2), (2, 1)] := by decide +kernel
  have he : ∀ u v, Edge [[0, 1, 2], [2, 1]] u v ↔ (u, v) ∈ [(0, 1), (1, 2), (2, 1)] := fun u v => by rw [← e]; exact mem_edges.symm
  have key : ∀ k, (∃ v, Walk (Edge [[0, 1, 2], [2, 1]]) 1 k v) ∧ ∃ v, Walk (Edge [[0, 1, 2], [2, 1]]) 2 k v := by
    intro k
    induction k with
    | zero => exact ⟨⟨1, .nil 1⟩, ⟨2, .nil 2⟩⟩
    | succ k ih =>
      obtain ⟨⟨v, hv⟩, ⟨w, hw⟩⟩ := ih
      exact ⟨⟨w, .cons ((he 1 2).mpr (by decide)) hw⟩, ⟨v, .cons ((he 2 1).mpr (by decide)) hv⟩⟩
  refine cycle_behind_root_fails _ sort 0 ⟨[0, 1, 2], by simp, by simp⟩ (fun u h => ?_) (fun k => ?_) n
  · have := (he u 0).mp h
    simp at this
  · cases k with
    | zero => exact ⟨0, .nil 0⟩
    | succ k =>
      obtain ⟨⟨v, hv⟩, _⟩ := key k
      exact ⟨v, .cons ((he 0 1).mpr (by decide)) hv⟩

end Verif.Forest
