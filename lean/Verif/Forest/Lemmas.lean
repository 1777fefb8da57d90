import Verif.Forest.Model
/-! Lemmas for `Verif.Forest.Theorems`. -/
namespace Verif.Forest

/-! ### Sets -/

theorem mem_ins {x y : Nat} : ∀ {s : List Nat}, y ∈ ins x s ↔ y = x ∨ y ∈ s
  | [] => by simp [ins]
  | z :: s => by
    unfold ins
    split
    · simp
    · split
      · rename_i h; subst h; simp
      · rw [List.mem_cons, mem_ins (s := s), List.mem_cons]
        constructor
        · rintro (h | h | h)
          · exact .inr (.inl h)
          · exact .inl h
          · exact .inr (.inr h)
        · rintro (h | h | h)
          · exact .inr (.inl h)
          · exact .inl h
          · exact .inr (.inr h)

theorem sorted_ins {x : Nat} : ∀ {s : List Nat}, s.Pairwise (· < ·) → (ins x s).Pairwise (· < ·)
  | [], _ => by simp [ins]
  | y :: s, h => by
    rw [List.pairwise_cons] at h
    unfold ins
    split
    · rename_i hlt
      rw [List.pairwise_cons, List.pairwise_cons]
      refine ⟨fun z hz => ?_, h⟩
      rcases List.mem_cons.mp hz with rfl | hz
      · exact hlt
      · exact Nat.lt_trans hlt (h.1 z hz)
    · split
      · exact List.pairwise_cons.mpr h
      · rw [List.pairwise_cons]
        refine ⟨fun z hz => ?_, sorted_ins h.2⟩
        rcases mem_ins.mp hz with rfl | hz
        · omega
        · exact h.1 z hz

theorem mem_asc {y : Nat} : ∀ {l : List Nat}, y ∈ asc l ↔ y ∈ l
  | [] => by simp [asc]
  | x :: l => by
    show y ∈ ins x (asc l) ↔ _
    rw [mem_ins, mem_asc, List.mem_cons]

theorem sorted_asc : ∀ (l : List Nat), (asc l).Pairwise (· < ·)
  | [] => by simp [asc]
  | _ :: l => sorted_ins (sorted_asc l)

/-! ### Graphs -/

theorem mem_addNew {v x : Nat} {l : List Nat} : x ∈ addNew l v ↔ x ∈ l ∨ x = v := by
  unfold addNew
  split
  · rename_i h
    exact ⟨.inl, fun h' => h'.elim id fun e => by rw [e]; exact h⟩
  · simp

theorem mem_foldl_addNew {x : Nat} : ∀ {vs l : List Nat}, x ∈ vs.foldl addNew l ↔ x ∈ l ∨ x ∈ vs
  | [], l => by simp
  | v :: vs, l => by
    rw [List.foldl_cons, mem_foldl_addNew, mem_addNew, List.mem_cons, or_assoc]

theorem mem_vertices {ps : List Path} {v : Nat} : v ∈ vertices ps ↔ Occurs ps v := by
  unfold vertices
  rw [mem_foldl_addNew, List.mem_flatten]
  simp [Occurs]

theorem mem_pairs {u v : Nat} : ∀ {p : Path}, (u, v) ∈ pairs p ↔ ∃ a b, p = a ++ u :: v :: b
  | [] => by simp [pairs]
  | [x] => by
    constructor
    · intro h; simp [pairs] at h
    · rintro ⟨a, b, h⟩
      have := congrArg List.length h
      simp at this
      omega
  | x :: y :: p => by
    have e : pairs (x :: y :: p) = (x, y) :: pairs (y :: p) := rfl
    rw [e, List.mem_cons, mem_pairs (p := y :: p)]
    constructor
    · rintro (h | ⟨a, b, h⟩)
      · cases h; exact ⟨[], p, rfl⟩
      · exact ⟨x :: a, b, by rw [h]; rfl⟩
    · rintro ⟨a, b, h⟩
      cases a with
      | nil => cases h; exact .inl rfl
      | cons z a => exact .inr ⟨a, b, (List.cons.inj h).2⟩

theorem mem_edges {ps : List Path} {u v : Nat} : (u, v) ∈ edges ps ↔ Edge ps u v := by
  unfold edges Edge
  rw [List.mem_flatMap]
  constructor
  · rintro ⟨p, hp, h⟩; exact ⟨p, hp, mem_pairs.mp h⟩
  · rintro ⟨p, hp, h⟩; exact ⟨p, hp, mem_pairs.mpr h⟩

theorem mem_succs {ps : List Path} {u v : Nat} : v ∈ succs ps u ↔ Edge ps u v := by
  unfold succs
  rw [mem_asc, List.mem_map, ← mem_edges]
  constructor
  · rintro ⟨⟨a, b⟩, h, rfl⟩
    rw [List.mem_filter] at h
    have : a = u := by simpa using h.2
    rw [← this]; exact h.1
  · intro h
    exact ⟨(u, v), List.mem_filter.mpr ⟨h, by simp⟩, rfl⟩

theorem mem_preds {ps : List Path} {u v : Nat} : u ∈ preds ps v ↔ Edge ps u v := by
  unfold preds
  rw [mem_asc, List.mem_map, ← mem_edges]
  constructor
  · rintro ⟨⟨a, b⟩, h, rfl⟩
    rw [List.mem_filter] at h
    have : b = v := by simpa using h.2
    rw [← this]; exact h.1
  · intro h
    exact ⟨(u, v), List.mem_filter.mpr ⟨h, by simp⟩, rfl⟩

theorem mem_tail {v : Nat} : ∀ {p : Path}, v ∈ p.tail ↔ ∃ u a b, p = a ++ u :: v :: b
  | [] => by simp
  | [x] => by
    constructor
    · intro h; cases h
    · rintro ⟨u, a, b, h⟩
      have := congrArg List.length h
      simp at this
      omega
  | x :: y :: p => by
    show v ∈ y :: p ↔ _
    rw [List.mem_cons]
    constructor
    · rintro (rfl | h)
      · exact ⟨x, [], p, rfl⟩
      · obtain ⟨u, a, b, e⟩ := mem_tail (p := y :: p).mp h
        exact ⟨u, x :: a, b, by rw [e]; rfl⟩
    · rintro ⟨u, a, b, e⟩
      cases a with
      | nil => cases e; exact .inl rfl
      | cons z a => exact .inr (mem_tail (p := y :: p).mpr ⟨u, a, b, (List.cons.inj e).2⟩)

theorem mem_sources {ps : List Path} {v : Nat} : v ∈ sources ps ↔ Occurs ps v ∧ ∀ u, ¬ Edge ps u v := by
  unfold sources
  rw [List.mem_filter, mem_asc, mem_vertices]
  have : (! (ps.flatMap List.tail).contains v) = true ↔ ∀ u, ¬ Edge ps u v := by
    rw [Bool.not_eq_true', ← Bool.not_eq_true, List.contains_iff_mem, List.mem_flatMap]
    constructor
    · rintro h u ⟨p, hp, a, b, e⟩
      exact h ⟨p, hp, mem_tail.mpr ⟨u, a, b, e⟩⟩
    · rintro h ⟨p, hp, ht⟩
      obtain ⟨u, a, b, e⟩ := mem_tail.mp ht
      exact h u ⟨p, hp, a, b, e⟩
  rw [this]

theorem edge_occurs {ps : List Path} {u v : Nat} (h : Edge ps u v) : Occurs ps u ∧ Occurs ps v := by
  obtain ⟨p, hp, a, b, rfl⟩ := h
  exact ⟨⟨_, hp, by simp⟩, ⟨_, hp, by simp⟩⟩

/-! ### Longest walks -/

/-- The length of the longest walk to a variable, for walks of length at most `k`. -/
def longest (pre : Nat → List Nat) : Nat → Nat → Nat
  | 0, _ => 0
  | k + 1, v => (pre v).foldr (fun u m => max (longest pre k u + 1) m) 0

theorem foldr_max_le {f : Nat → Nat} : ∀ {l : List Nat} {u : Nat}, u ∈ l → f u ≤ l.foldr (fun u m => max (f u) m) 0
  | x :: l, u, h => by
    rw [List.foldr_cons]
    rcases List.mem_cons.mp h with rfl | h
    · exact Nat.le_max_left _ _
    · exact Nat.le_trans (foldr_max_le h) (Nat.le_max_right _ _)

theorem foldr_max_mem {f : Nat → Nat} : ∀ {l : List Nat}, l ≠ [] → ∃ u ∈ l, f u = l.foldr (fun u m => max (f u) m) 0
  | [], h => absurd rfl h
  | [x], _ => ⟨x, by simp, by simp⟩
  | x :: y :: l, _ => by
    obtain ⟨u, hu, e⟩ := foldr_max_mem (f := f) (l := y :: l) (by simp)
    rw [List.foldr_cons]
    rcases Nat.le_total (f x) ((y :: l).foldr (fun u m => max (f u) m) 0) with h | h
    · exact ⟨u, List.mem_cons_of_mem _ hu, by rw [e, Nat.max_eq_right h]⟩
    · exact ⟨x, by simp, by rw [Nat.max_eq_left h]⟩

theorem foldr_max_congr {f g : Nat → Nat} : ∀ {l : List Nat}, (∀ u ∈ l, f u = g u) → l.foldr (fun u m => max (f u) m) 0 = l.foldr (fun u m => max (g u) m) 0
  | [], _ => rfl
  | x :: l, h => by
    rw [List.foldr_cons, List.foldr_cons, h x (by simp), foldr_max_congr fun u hu => h u (List.mem_cons_of_mem _ hu)]

theorem longest_stable {pre : Nat → List Nat} {rank : Nat → Nat} (hr : ∀ v, ∀ u ∈ pre v, rank u < rank v) : ∀ (k k' v : Nat), rank v ≤ k → rank v ≤ k' → longest pre k v = longest pre k' v
  | 0, 0, _, _, _ => rfl
  | 0, k' + 1, v, h, _ => by
    have : pre v = [] := by
      cases hp : pre v with
      | nil => rfl
      | cons u l => have := hr v u (by rw [hp]; simp); omega
    show 0 = (pre v).foldr _ 0
    rw [this]; rfl
  | k + 1, 0, v, _, h => by
    have : pre v = [] := by
      cases hp : pre v with
      | nil => rfl
      | cons u l => have := hr v u (by rw [hp]; simp); omega
    show (pre v).foldr _ 0 = 0
    rw [this]; rfl
  | k + 1, k' + 1, v, h, h' => by
    show (pre v).foldr (fun u m => max (longest pre k u + 1) m) 0 = (pre v).foldr (fun u m => max (longest pre k' u + 1) m) 0
    refine foldr_max_congr fun u hu => ?_
    have := hr v u hu
    rw [longest_stable hr k k' u (by omega) (by omega)]

/-- Longest walks. -/
structure Longest (E : Nat → Nat → Prop) (L : Nat → Nat) : Prop where
  grows : ∀ u v, E u v → L u + 1 ≤ L v
  from' : ∀ v, L v ≠ 0 → ∃ u, E u v ∧ L u + 1 = L v

theorem longest_exists {ps : List Path} (h : Ordered ps) : ∃ L, Longest (Edge ps) L := by
  obtain ⟨rank, hr⟩ := h
  have hr' : ∀ v, ∀ u ∈ preds ps v, rank u < rank v := fun v u hu => hr u v (mem_preds.mp hu)
  refine ⟨fun v => longest (preds ps) (rank v) v, fun u v he => ?_, fun v hv => ?_⟩
  · have hlt := hr u v he
    obtain ⟨k, hk⟩ : ∃ k, rank v = k + 1 := ⟨rank v - 1, by omega⟩
    show longest (preds ps) (rank u) u + 1 ≤ longest (preds ps) (rank v) v
    rw [hk, longest_stable hr' (rank u) k u (by omega) (by omega)]
    exact foldr_max_le (f := fun u => longest (preds ps) k u + 1) (mem_preds.mpr he)
  · replace hv : longest (preds ps) (rank v) v ≠ 0 := hv
    cases hk : rank v with
    | zero => rw [hk] at hv; exact absurd rfl hv
    | succ k =>
      rw [hk] at hv
      have hne : preds ps v ≠ [] := by
        intro e
        apply hv
        show (preds ps v).foldr _ 0 = 0
        rw [e]; rfl
      obtain ⟨u, hu, e⟩ := foldr_max_mem (f := fun u => longest (preds ps) k u + 1) hne
      refine ⟨u, mem_preds.mp hu, ?_⟩
      have hlt := hr' v u hu
      show longest (preds ps) (rank u) u + 1 = longest (preds ps) (k + 1) v
      rw [longest_stable hr' (rank u) k u (by omega) (by omega)]
      exact e

/-! ### The first loop -/

theorem visit_get {u : Nat} : ∀ {ss : List Nat} {lv : Levels}, u ∉ ss → ∀ x, visit lv u ss x = if x ∈ ss then some (lv.get u + 1) else lv x
  | [], lv, _, x => by simp [visit]
  | s :: ss, lv, h, x => by
    rw [List.mem_cons, not_or] at h
    show visit (put lv s (lv.get u + 1)) u ss x = _
    rw [visit_get h.2]
    have e : (put lv s (lv.get u + 1)).get u = lv.get u := by
      unfold Levels.get put
      rw [if_neg h.1]
    rw [e]
    by_cases h1 : x ∈ ss
    · rw [if_pos h1, if_pos (List.mem_cons_of_mem _ h1)]
    · rw [if_neg h1]
      unfold put
      by_cases h2 : x = s
      · rw [if_pos h2, if_pos (by rw [h2]; simp)]
      · rw [if_neg h2, if_neg]
        simp [h1, h2]

inductive Walk (E : Nat → Nat → Prop) : Nat → Nat → Nat → Prop
  | nil (x : Nat) : Walk E x 0 x
  | cons {x y z k : Nat} : E x y → Walk E y k z → Walk E x (k + 1) z

theorem Walk.snoc {E : Nat → Nat → Prop} : ∀ {k x y z : Nat}, Walk E x k y → E y z → Walk E x (k + 1) z
  | _, _, _, _, .nil _, h => .cons h (.nil _)
  | _, _, _, _, .cons h1 h2, h => .cons h1 (h2.snoc h)

theorem walk_of_longest {E : Nat → Nat → Prop} {L : Nat → Nat} (hL : Longest E L) : ∀ (n v : Nat), L v = n → ∃ s, L s = 0 ∧ Walk E s n v ∧ (v = s ∨ ∃ w, E s w)
  | 0, v, h => ⟨v, h, .nil v, .inl rfl⟩
  | n + 1, v, h => by
    obtain ⟨u, hu, e⟩ := hL.from' v (by omega)
    obtain ⟨s, h1, h2, h3⟩ := walk_of_longest hL n u (by omega)
    refine ⟨s, h1, h2.snoc hu, .inr ?_⟩
    rcases h3 with rfl | h3
    · exact ⟨v, hu⟩
    · exact h3

/-- What holds in the first loop; the queue carries the number of steps to its variables. -/
structure Queue (E : Nat → Nat → Prop) (V : Nat → Prop) (L : Nat → Nat) (lv : Levels) (q : List (Nat × Nat)) (D : Nat) : Prop where
  sorted : (q.map Prod.snd).Pairwise (· ≤ ·)
  low : ∀ x ∈ q, D ≤ x.2
  high : ∀ x ∈ q, x.2 ≤ D + 1
  label : ∀ x ∈ q, ∃ l, lv x.1 = some l ∧ x.2 ≤ l
  upper : ∀ x l, lv x = some l → l ≤ L x
  done : ∀ v, V v → (lv v = some (L v) ∧ L v ≤ D + 1) ∨ ∃ x ∈ q, ∃ k, Walk E x.1 (k + 1) v ∧ x.2 + (k + 1) = L v

theorem queue_step {E : Nat → Nat → Prop} {V : Nat → Prop} {L : Nat → Nat} {lv : Levels} {q : List (Nat × Nat)} {D u d : Nat} {ss : List Nat} (hL : Longest E L) (hss : ∀ v, v ∈ ss ↔ E u v)
    (h : Queue E V L lv ((u, d) :: q) D) : Queue E V L (visit lv u ss) (q ++ ss.map fun s => (s, d + 1)) d := by
  have hu : u ∉ ss := fun hx => by have := hL.grows u u ((hss u).mp hx); omega
  have hv := visit_get (lv := lv) hu
  obtain ⟨l, hl, hdl⟩ := h.label (u, d) (by simp)
  have hget : lv.get u = l := by unfold Levels.get; rw [hl]; rfl
  have hsrt := List.pairwise_cons.mp h.sorted
  have hlo : ∀ x ∈ q, d ≤ x.2 := fun x hx => hsrt.1 x.2 (List.mem_map.mpr ⟨x, hx, rfl⟩)
  have hDd : D ≤ d := h.low (u, d) (by simp)
  have hhi : ∀ x ∈ q, x.2 ≤ d + 1 := fun x hx => by have := h.high x (List.mem_cons_of_mem _ hx); omega
  refine ⟨?_, ?_, ?_, ?_, ?_, ?_⟩
  · rw [List.map_append, List.pairwise_append]
    refine ⟨hsrt.2, ?_, ?_⟩
    · rw [List.map_map, List.pairwise_map]
      exact List.pairwise_of_forall fun _ _ => Nat.le_refl _
    · intro a ha b hb
      obtain ⟨x, hx, rfl⟩ := List.mem_map.mp ha
      obtain ⟨y, hy, rfl⟩ := List.mem_map.mp hb
      obtain ⟨z, _, rfl⟩ := List.mem_map.mp hy
      exact hhi x hx
  · intro x hx
    rcases List.mem_append.mp hx with hx | hx
    · exact hlo x hx
    · obtain ⟨z, _, rfl⟩ := List.mem_map.mp hx
      exact Nat.le_succ d
  · intro x hx
    rcases List.mem_append.mp hx with hx | hx
    · exact hhi x hx
    · obtain ⟨z, _, rfl⟩ := List.mem_map.mp hx
      exact Nat.le_refl _
  · intro x hx
    rw [hv]
    by_cases hxs : x.1 ∈ ss
    · rw [if_pos hxs, hget]
      refine ⟨l + 1, rfl, ?_⟩
      rcases List.mem_append.mp hx with hx | hx
      · have := hhi x hx; omega
      · obtain ⟨z, _, rfl⟩ := List.mem_map.mp hx
        show d + 1 ≤ l + 1
        omega
    · rw [if_neg hxs]
      rcases List.mem_append.mp hx with hx | hx
      · exact h.label x (List.mem_cons_of_mem _ hx)
      · obtain ⟨z, hz, rfl⟩ := List.mem_map.mp hx
        exact absurd hz hxs
  · intro x m hx
    rw [hv] at hx
    split at hx
    · rename_i hxs
      cases hx
      have := hL.grows u x ((hss x).mp hxs)
      have := h.upper u l hl
      omega
    · exact h.upper x m hx
  · intro v hV
    have set : v ∈ ss → L v ≤ d + 1 → visit lv u ss v = some (L v) ∧ L v ≤ d + 1 := by
      intro hm hle
      rw [hv, if_pos hm, hget]
      have := hL.grows u v ((hss v).mp hm)
      have := h.upper u l hl
      exact ⟨congrArg some (by omega), hle⟩
    rcases h.done v hV with ⟨h1, h2⟩ | ⟨x, hx, k, hw, e⟩
    · left
      by_cases hm : v ∈ ss
      · exact set hm (by omega)
      · rw [hv, if_neg hm]
        exact ⟨h1, by omega⟩
    · rcases List.mem_cons.mp hx with rfl | hx
      · cases hw with
        | cons he hw' =>
          cases k with
          | zero =>
            cases hw'
            exact .inl (set ((hss v).mpr he) (by omega))
          | succ k =>
            rename_i y
            refine .inr ⟨(y, d + 1), List.mem_append_right _ (List.mem_map.mpr ⟨y, (hss y).mpr he, rfl⟩), k, hw', ?_⟩
            show d + 1 + (k + 1) = L v
            have : d + (k + 1 + 1) = L v := e
            omega
      · exact .inr ⟨x, List.mem_append_left _ hx, k, hw, e⟩

theorem bfs_levels {E : Nat → Nat → Prop} {V : Nat → Prop} {L : Nat → Nat} {succ : Nat → List Nat} (hL : Longest E L) (hs : ∀ u v, v ∈ succ u ↔ E u v) :
    ∀ (n : Nat) (lv : Levels) (q : List (Nat × Nat)) (D : Nat) (lv' : Levels), Queue E V L lv q D → bfs succ n lv (q.map Prod.fst) = some lv' → ∀ v, V v → lv' v = some (L v)
  | n, lv, [], D, lv', hq, h, v, hv => by
    have : bfs succ n lv [] = some lv := by cases n <;> rfl
    rw [List.map_nil, this] at h
    cases h
    rcases hq.done v hv with h1 | ⟨x, hx, _⟩
    · exact h1.1
    · cases hx
  | 0, _, _ :: _, _, _, _, h, _, _ => nomatch h
  | n + 1, lv, (u, d) :: q, D, lv', hq, h, v, hv => by
    refine bfs_levels hL hs n _ (q ++ (succ u).map fun s => (s, d + 1)) d lv' (queue_step hL (hs u) hq) ?_ v hv
    rw [← h, List.map_append, List.map_map]
    show bfs succ n _ (q.map Prod.fst ++ (succ u).map fun s => s) = bfs succ n _ (q.map Prod.fst ++ succ u)
    rw [List.map_id']

theorem queue_init {ps : List Path} {L : Nat → Nat} (hL : Longest (Edge ps) L) : Queue (Edge ps) (Occurs ps) L (init (sources ps)) ((sources ps).map fun s => (s, 0)) 0 := by
  have src : ∀ v, Occurs ps v → L v = 0 → v ∈ sources ps := fun v hv h0 => mem_sources.mpr ⟨hv, fun u hu => by have := hL.grows u v hu; omega⟩
  refine ⟨?_, fun _ _ => Nat.zero_le _, ?_, ?_, ?_, ?_⟩
  · rw [List.map_map, List.pairwise_map]
    exact List.pairwise_of_forall fun _ _ => Nat.le_refl _
  · intro x hx
    obtain ⟨z, _, rfl⟩ := List.mem_map.mp hx
    exact Nat.zero_le _
  · intro x hx
    obtain ⟨z, hz, rfl⟩ := List.mem_map.mp hx
    exact ⟨0, by unfold init; rw [if_pos hz], Nat.le_refl _⟩
  · intro x l hx
    unfold init at hx
    split at hx
    · cases hx; exact Nat.zero_le _
    · cases hx
  · intro v hv
    by_cases h0 : L v = 0
    · left
      unfold init
      rw [if_pos (src v hv h0), h0]
      exact ⟨rfl, by omega⟩
    · right
      obtain ⟨s, h1, h2, h3⟩ := walk_of_longest hL (L v) v rfl
      obtain ⟨k, hk⟩ : ∃ k, L v = k + 1 := ⟨L v - 1, by omega⟩
      have hs : Occurs ps s := by
        rcases h3 with rfl | ⟨w, hw⟩
        · exact hv
        · exact (edge_occurs hw).1
      rw [hk] at h2
      exact ⟨(s, 0), List.mem_map.mpr ⟨s, src s hs h1, rfl⟩, k, h2, by show 0 + (k + 1) = L v; omega⟩

/-! ### The first loop ends -/

/-- How many rounds a variable in the queue takes. -/
def rounds (succ : Nat → List Nat) : Nat → Nat → Nat
  | 0, _ => 1
  | k + 1, v => 1 + ((succ v).map (rounds succ k)).sum

theorem sum_le {f g : Nat → Nat} : ∀ {l : List Nat}, (∀ x ∈ l, f x ≤ g x) → (l.map f).sum ≤ (l.map g).sum
  | [], _ => Nat.le_refl _
  | x :: l, h => by
    rw [List.map_cons, List.map_cons, List.sum_cons, List.sum_cons]
    have := h x (by simp)
    have := sum_le (l := l) fun y hy => h y (List.mem_cons_of_mem _ hy)
    omega

theorem rounds_mono {succ : Nat → List Nat} : ∀ {k k' : Nat} (v : Nat), k ≤ k' → rounds succ k v ≤ rounds succ k' v
  | 0, 0, _, _ => Nat.le_refl _
  | 0, k' + 1, _, _ => by unfold rounds; omega
  | k + 1, 0, _, h => absurd h (Nat.not_succ_le_zero _)
  | k + 1, k' + 1, v, h => by
    show 1 + ((succ v).map (rounds succ k)).sum ≤ 1 + ((succ v).map (rounds succ k')).sum
    have := sum_le (f := rounds succ k) (g := rounds succ k') (l := succ v) fun x _ => rounds_mono x (by omega)
    omega

theorem bfs_ends {succ : Nat → List Nat} {W : Nat → Nat} (hW : ∀ v, 1 + ((succ v).map W).sum ≤ W v) : ∀ (n : Nat) (lv : Levels) (q : List Nat), (q.map W).sum ≤ n → ∃ lv', bfs succ n lv q = some lv'
  | n, lv, [], _ => ⟨lv, by cases n <;> rfl⟩
  | 0, lv, u :: q, h => by
    rw [List.map_cons, List.sum_cons] at h
    have := hW u
    omega
  | n + 1, lv, u :: q, h => by
    refine bfs_ends hW n _ _ ?_
    rw [List.map_cons, List.sum_cons] at h
    rw [List.map_append, List.sum_append]
    have := hW u
    omega

theorem bounded (rank : Nat → Nat) : ∀ l : List Nat, ∃ M, ∀ v ∈ l, rank v < M
  | [] => ⟨0, fun _ h => nomatch h⟩
  | x :: l => by
    obtain ⟨M, hM⟩ := bounded rank l
    refine ⟨max M (rank x + 1), fun v hv => ?_⟩
    rcases List.mem_cons.mp hv with rfl | hv
    · omega
    · have := hM v hv; omega

theorem rounds_exist {ps : List Path} (h : Ordered ps) : ∃ W : Nat → Nat, ∀ v, 1 + ((succs ps v).map W).sum ≤ W v := by
  obtain ⟨rank, hr⟩ := h
  obtain ⟨M, hM⟩ := bounded rank (vertices ps)
  refine ⟨fun v => rounds (succs ps) (M - rank v) v, fun v => ?_⟩
  show 1 + ((succs ps v).map fun v => rounds (succs ps) (M - rank v) v).sum ≤ rounds (succs ps) (M - rank v) v
  cases hk : M - rank v with
  | zero =>
    have : succs ps v = [] := by
      cases hs : succs ps v with
      | nil => rfl
      | cons w l =>
        have he : Edge ps v w := mem_succs.mp (by rw [hs]; simp)
        have := hM v (mem_vertices.mpr (edge_occurs he).1)
        omega
    rw [this]
    exact Nat.le_refl _
  | succ k =>
    show _ ≤ 1 + ((succs ps v).map (rounds (succs ps) k)).sum
    have := sum_le (f := fun v => rounds (succs ps) (M - rank v) v) (g := rounds (succs ps) k) (l := succs ps v) fun x hx => rounds_mono x (by
      have := hr v x (mem_succs.mp hx); omega)
    omega

/-! ### The second loop -/

/-- A variable is placed before another one. -/
def Before (lv : Nat → Nat) (a b : Nat) : Prop := lv b < lv a ∨ (lv a = lv b ∧ a < b)

theorem before_irrefl {lv : Nat → Nat} {a : Nat} (h : Before lv a a) : False := by
  rcases h with h | ⟨_, h⟩ <;> omega

theorem before_trans {lv : Nat → Nat} {a b c : Nat} (h1 : Before lv a b) (h2 : Before lv b c) : Before lv a c := by
  rcases h1 with h1 | ⟨h1, h1'⟩ <;> rcases h2 with h2 | ⟨h2, h2'⟩
  · exact .inl (by omega)
  · exact .inl (by omega)
  · exact .inl (by omega)
  · exact .inr ⟨by omega, by omega⟩

theorem pick_some {lv : Nat → Nat} : ∀ {l : List Nat} {b : Nat}, l.Pairwise (· < ·) → (∀ p ∈ l, b < p) → ∃ q, pick lv l (some b) = some q ∧ (q = b ∨ q ∈ l) ∧ (q = b ∨ Before lv q b) ∧ ∀ p ∈ l, p = q ∨ Before lv q p
  | [], b, _, _ => ⟨b, rfl, .inl rfl, .inl rfl, fun _ h => nomatch h⟩
  | p :: l, b, hs, hb => by
    rw [List.pairwise_cons] at hs
    by_cases hlt : lv b < lv p
    · obtain ⟨q, h1, h2, h3, h4⟩ := pick_some (lv := lv) hs.2 hs.1
      refine ⟨q, by unfold pick; rw [if_pos hlt, h1], ?_, ?_, ?_⟩
      · rcases h2 with rfl | h2
        · exact .inr (by simp)
        · exact .inr (List.mem_cons_of_mem _ h2)
      · right
        rcases h3 with rfl | h3
        · exact .inl hlt
        · exact before_trans h3 (.inl hlt)
      · intro x hx
        rcases List.mem_cons.mp hx with rfl | hx
        · rcases h3 with rfl | h3
          · exact .inl rfl
          · exact .inr h3
        · exact h4 x hx
    · obtain ⟨q, h1, h2, h3, h4⟩ := pick_some (lv := lv) (b := b) hs.2 (fun x hx => hb x (List.mem_cons_of_mem _ hx))
      have hbp : Before lv b p := by
        have := hb p (by simp)
        rcases Nat.lt_or_ge (lv p) (lv b) with h | h
        · exact .inl h
        · exact .inr ⟨by omega, this⟩
      refine ⟨q, by unfold pick; rw [if_neg hlt, h1], ?_, h3, ?_⟩
      · rcases h2 with h2 | h2
        · exact .inl h2
        · exact .inr (List.mem_cons_of_mem _ h2)
      · intro x hx
        rcases List.mem_cons.mp hx with rfl | hx
        · right
          rcases h3 with rfl | h3
          · exact hbp
          · exact before_trans h3 hbp
        · exact h4 x hx

theorem pick_spec {lv : Nat → Nat} {l : List Nat} (hs : l.Pairwise (· < ·)) : (l = [] ∧ pick lv l none = none) ∨ ∃ q, pick lv l none = some q ∧ q ∈ l ∧ ∀ p ∈ l, p = q ∨ Before lv q p := by
  cases l with
  | nil => exact .inl ⟨rfl, rfl⟩
  | cons p l =>
    rw [List.pairwise_cons] at hs
    obtain ⟨q, h1, h2, h3, h4⟩ := pick_some (lv := lv) hs.2 hs.1
    refine .inr ⟨q, h1, ?_, ?_⟩
    · rcases h2 with rfl | h2
      · simp
      · exact List.mem_cons_of_mem _ h2
    · intro x hx
      rcases List.mem_cons.mp hx with rfl | hx
      · rcases h3 with rfl | h3
        · exact .inl rfl
        · exact .inr h3
      · exact h4 x hx

theorem mem_hand {q y : Nat} : ∀ {ps s : List Nat}, y ∈ hand q ps s ↔ y ∈ s ∨ (y ∈ ps ∧ y ≠ q)
  | [], s => by simp [hand]
  | p :: ps, s => by
    show y ∈ hand q ps (if p = q then s else ins p s) ↔ _
    rw [mem_hand]
    by_cases h : p = q
    · rw [if_pos h, List.mem_cons]
      constructor
      · rintro (h1 | ⟨h1, h2⟩)
        · exact .inl h1
        · exact .inr ⟨.inr h1, h2⟩
      · rintro (h1 | ⟨h1 | h1, h2⟩)
        · exact .inl h1
        · exact absurd (h1.trans h) h2
        · exact .inr ⟨h1, h2⟩
    · rw [if_neg h, mem_ins, List.mem_cons]
      constructor
      · rintro ((rfl | h1) | ⟨h1, h2⟩)
        · exact .inr ⟨.inl rfl, h⟩
        · exact .inl h1
        · exact .inr ⟨.inr h1, h2⟩
      · rintro (h1 | ⟨rfl | h1, h2⟩)
        · exact .inl (.inr h1)
        · exact .inl (.inl rfl)
        · exact .inr ⟨h1, h2⟩

theorem sorted_hand {q : Nat} : ∀ {ps s : List Nat}, s.Pairwise (· < ·) → (hand q ps s).Pairwise (· < ·)
  | [], _, h => h
  | p :: ps, s, h => by
    show (hand q ps (if p = q then s else ins p s)).Pairwise (· < ·)
    refine sorted_hand ?_
    split
    · exact h
    · exact sorted_ins h

/-- What holds before variables are placed. -/
structure Ready (lv : Nat → Nat) (rest : List Nat) (st : State) : Prop where
  order : rest.Pairwise (Before lv)
  sorted : ∀ x, (st.preds x).Pairwise (· < ·)
  before : ∀ x, ∀ p ∈ st.preds x, Before lv x p
  inside : ∀ x ∈ rest, ∀ p ∈ st.preds x, p ∈ rest

/-- What holds after variables are placed. -/
structure Placed (lv : Nat → Nat) (rest : List Nat) (st st' : State) : Prop where
  same : ∀ x, x ∉ rest → st'.parent x = st.parent x ∧ st'.preds x = st.preds x
  more : ∀ x, ∀ p ∈ st.preds x, p ∈ st'.preds x
  above : ∀ x ∈ rest, ∀ p ∈ st'.preds x, Above st'.parent p x
  parent : ∀ x ∈ rest, ∀ q, st'.parent x = some q → (Before lv x q ∧ q ∈ rest) ∨ st.parent x = some q

theorem place_all {lv : Nat → Nat} : ∀ {rest : List Nat} {st : State}, Ready lv rest st → Placed lv rest st (rest.foldl (place lv) st)
  | [], st, _ => ⟨fun _ _ => ⟨rfl, rfl⟩, fun _ _ h => h, (fun _ h => nomatch h), fun _ h => nomatch h⟩
  | x :: rest, st, hr => by
    have ho := List.pairwise_cons.mp hr.order
    have hx : x ∉ rest := fun h => before_irrefl (ho.1 x h)
    have hin : ∀ p ∈ st.preds x, p ∈ rest := fun p hp => by
      rcases List.mem_cons.mp (hr.inside x (by simp) p hp) with rfl | h
      · exact (before_irrefl (hr.before _ _ hp)).elim
      · exact h
    have hin' : ∀ y ∈ rest, ∀ p ∈ st.preds y, p ∈ rest := fun y hy p hp => by
      rcases List.mem_cons.mp (hr.inside y (List.mem_cons_of_mem _ hy) p hp) with rfl | h
      · exact (before_irrefl (before_trans (ho.1 y hy) (hr.before _ _ hp))).elim
      · exact h
    rw [List.foldl_cons]
    rcases pick_spec (lv := lv) (hr.sorted x) with ⟨he, hp⟩ | ⟨q, hp, hq, hmin⟩
    · have e : place lv st x = st := by unfold place; rw [hp]
      rw [e]
      have ih := place_all (rest := rest) ⟨ho.2, hr.sorted, hr.before, hin'⟩
      refine ⟨fun y hy => ih.same y fun h => hy (List.mem_cons_of_mem _ h), ih.more, fun y hy p hpy => ?_, fun y hy p hpy => ?_⟩
      · rcases List.mem_cons.mp hy with rfl | hy
        · rw [(ih.same y hx).2, he] at hpy; cases hpy
        · exact ih.above y hy p hpy
      · rcases List.mem_cons.mp hy with rfl | hy
        · rw [(ih.same y hx).1] at hpy; exact .inr hpy
        · rcases ih.parent y hy p hpy with ⟨h1, h2⟩ | h
          · exact .inl ⟨h1, List.mem_cons_of_mem _ h2⟩
          · exact .inr h
    · generalize e : place lv st x = st1
      have e1 : ∀ y, st1.preds y = if y = q then hand q (st.preds x) (st.preds q) else st.preds y := by
        intro y; rw [← e]; unfold place; rw [hp]
      have e2 : ∀ y, st1.parent y = if y = x then some q else st.parent y := by
        intro y; rw [← e]; unfold place; rw [hp]
      have hqr : q ∈ rest := hin q hq
      have hqx : x ≠ q := fun h => hx (by rw [h]; exact hqr)
      have ih := place_all (rest := rest) (st := st1) ⟨ho.2, fun y => by
          rw [e1]; split
          · exact sorted_hand (hr.sorted q)
          · exact hr.sorted y, fun y p hpy => by
          rw [e1] at hpy
          split at hpy
          · rename_i hy
            rw [hy]
            rcases mem_hand.mp hpy with h | ⟨h, hne⟩
            · exact hr.before q p h
            · rcases hmin p h with h | h
              · exact absurd h hne
              · exact h
          · exact hr.before y p hpy, fun y hy p hpy => by
          rw [e1] at hpy
          split at hpy
          · rename_i hyq
            rcases mem_hand.mp hpy with h | ⟨h, _⟩
            · exact hin' q hqr p h
            · exact hin p h
          · exact hin' y hy p hpy⟩
      have hpar : (rest.foldl (place lv) st1).parent x = some q := by
        rw [(ih.same x hx).1, e2, if_pos rfl]
      have hpx : (rest.foldl (place lv) st1).preds x = st.preds x := by
        rw [(ih.same x hx).2, e1, if_neg hqx]
      refine ⟨fun y hy => ?_, fun y p hpy => ?_, fun y hy p hpy => ?_, fun y hy p hpy => ?_⟩
      · rw [List.mem_cons, not_or] at hy
        have := ih.same y hy.2
        rw [e1, e2, if_neg hy.1, if_neg (fun h => hy.2 (by rw [h]; exact hqr))] at this
        exact this
      · refine ih.more y p ?_
        rw [e1]
        split
        · rename_i hyq
          rw [← hyq]
          exact mem_hand.mpr (.inl hpy)
        · exact hpy
      · rcases List.mem_cons.mp hy with rfl | hy
        · rw [hpx] at hpy
          by_cases hpq : p = q
          · rw [hpq]; exact .parent hpar
          · refine .step hpar (ih.above q hqr p (ih.more q p ?_))
            rw [e1, if_pos rfl]
            exact mem_hand.mpr (.inr ⟨hpy, hpq⟩)
        · exact ih.above y hy p hpy
      · rcases List.mem_cons.mp hy with rfl | hy
        · rw [hpar] at hpy
          cases hpy
          exact .inl ⟨hr.before _ _ hq, List.mem_cons_of_mem _ hqr⟩
        · rcases ih.parent y hy p hpy with ⟨h1, h2⟩ | h
          · exact .inl ⟨h1, List.mem_cons_of_mem _ h2⟩
          · rw [e2, if_neg (fun h => hx (by rw [← h]; exact hy))] at h
            exact .inr h

end Verif.Forest
