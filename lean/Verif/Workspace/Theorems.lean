import Verif.Workspace.Model
import Verif.Assembly.Theorems
/-! C49: workspaces deliver every touched coordinate once and are clean afterwards. -/
namespace Verif.Workspace
open Verif.Assembly (Arr read write readAll write_some read_set readAll_eq)

variable {V : Type}

/-! ### Specification -/

/-- The right-hand sides assigned at a coordinate. -/
def writesAt (ups : List (Nat × V)) (c : Nat) : List V := (ups.filter (fun u => u.1 == c)).map Prod.snd

/-- The first value combined with the later ones, in order. -/
def accumulate (op : V → V → V) : List V → Option V
  | [] => none
  | r :: rs => some (rs.foldl op r)

/-- The touched coordinates in increasing order with their accumulated values. -/
def delivered (n : Nat) (op : V → V → V) (ups : List (Nat × V)) : List (Nat × V) :=
  (List.range n).filterMap fun c => (accumulate op (writesAt ups c)).map fun v => (c, v)

/-- What `qsort` with `cmp` guarantees. -/
def SortSpec (sort : List Nat → List Nat) : Prop := ∀ l, (sort l).Perm l ∧ (sort l).Pairwise (· ≤ ·)

/-- A workspace between two uses: arrays of size `n` and every guard clear. -/
structure Clean (n : Nat) (w : Ws V) : Prop where
  vals : w.vals.length = n
  list : w.list.length = n
  guard : w.guard = List.replicate n (some false)

/-! ### Lemmas -/

theorem writesAt_append (ups : List (Nat × V)) (u : Nat × V) (c : Nat) :
    writesAt (ups ++ [u]) c = writesAt ups c ++ (if u.1 = c then [u.2] else []) := by
  unfold writesAt
  rw [List.filter_append, List.map_append]
  congr 1
  by_cases h : u.1 = c <;> simp [h]

theorem accumulate_snoc (op : V → V → V) (l : List V) (r : V) :
    accumulate op (l ++ [r]) = some (match accumulate op l with | none => r | some v => op v r) := by
  cases l with
  | nil => rfl
  | cons a l => simp [accumulate]

theorem accumulate_none {op : V → V → V} {l : List V} : accumulate op l = none ↔ l = [] := by
  cases l <;> simp [accumulate]

/-- The state after the assignments `done`; `l` are the listed coordinates. -/
structure Inv (n : Nat) (op : V → V → V) (done : List (Nat × V)) (l : List Nat) (w : Ws V) : Prop where
  vlen : w.vals.length = n
  llen : w.list.length = n
  glen : w.guard.length = n
  size : w.size = l.length
  nodup : l.Nodup
  lt : ∀ c ∈ l, c < n
  mem : ∀ c, c ∈ l ↔ writesAt done c ≠ []
  guard : ∀ c, c < n → read w.guard c = some (decide (writesAt done c ≠ []))
  vals : ∀ c v, accumulate op (writesAt done c) = some v → read w.vals c = some v
  list : ∀ k c, l[k]? = some c → read w.list k = some c

theorem nodup_length {l : List Nat} {n : Nat} (h : l.Nodup) (hlt : ∀ c ∈ l, c < n) : l.length ≤ n := by
  have hp : l.Perm ((List.range n).filter (fun c => decide (c ∈ l))) := by
    rw [List.perm_ext_iff_of_nodup h (List.Pairwise.filter _ List.nodup_range)]
    intro a
    rw [List.mem_filter, List.mem_range, decide_eq_true_iff]
    exact ⟨fun ha => ⟨hlt a ha, ha⟩, fun ha => ha.2⟩
  rw [hp.length_eq]
  exact Nat.le_trans (List.length_filter_le _ _) (by simp)

theorem update_spec (n : Nat) (op : V → V → V) (done : List (Nat × V)) (l : List Nat) (w : Ws V) (u : Nat × V)
    (hu : u.1 < n) (h : Inv n op done l w) :
    ∃ w' l', update op w u = some w' ∧ Inv n op (done ++ [u]) l' w' := by
  have hg := h.guard u.1 hu
  have hwv : u.1 < w.vals.length := by rw [h.vlen]; exact hu
  have hwg : u.1 < w.guard.length := by rw [h.glen]; exact hu
  by_cases ht : writesAt done u.1 = []
  · have hnm : u.1 ∉ l := fun hm => (h.mem u.1).1 hm ht
    have hnd : (l ++ [u.1]).Nodup := by
      rw [List.nodup_append]
      exact ⟨h.nodup, by simp, by intro a ha b hb; rw [List.mem_singleton] at hb; rw [hb]; intro he; exact hnm (he ▸ ha)⟩
    have hlt : ∀ c ∈ l ++ [u.1], c < n := by
      intro c hc
      rcases List.mem_append.1 hc with hc | hc
      · exact h.lt c hc
      · rw [List.mem_singleton] at hc; rw [hc]; exact hu
    have hsz : w.size < w.list.length := by
      have := nodup_length hnd hlt
      rw [List.length_append] at this
      rw [h.llen, h.size]
      have h2 : [u.1].length = 1 := rfl
      omega
    refine ⟨⟨w.vals.set u.1 (some u.2), w.guard.set u.1 (some true), w.list.set w.size (some u.1), w.size + 1⟩, l ++ [u.1], ?_, ?_⟩
    · unfold update
      rw [hg]
      have : decide (writesAt done u.1 ≠ []) = false := by simp [ht]
      rw [this, Option.bind_some, if_pos rfl, write_some hwv]
      show (write w.list w.size u.1).bind _ = _
      rw [write_some hsz]
      show (write w.guard u.1 true).map _ = _
      rw [write_some hwg]
      rfl
    · refine ⟨by simp [h.vlen], by simp [h.llen], by simp [h.glen], by simp [h.size], hnd, hlt, ?_, ?_, ?_, ?_⟩
      · intro c
        rw [List.mem_append, List.mem_singleton, h.mem, writesAt_append]
        by_cases hc : u.1 = c
        · subst hc; simp
        · have : c ≠ u.1 := fun h => hc h.symm
          simp [hc, this]
      · intro c hc
        rw [read_set _ _ _ _ hwg, writesAt_append]
        by_cases hcu : u.1 = c
        · rw [if_pos hcu, if_pos hcu]; simp
        · rw [if_neg hcu, if_neg hcu, List.append_nil]; exact h.guard c hc
      · intro c v hv
        rw [read_set _ _ _ _ hwv]
        rw [writesAt_append] at hv
        by_cases hcu : u.1 = c
        · subst hcu
          rw [if_pos rfl, accumulate_snoc, ht] at hv
          rw [if_pos rfl]
          exact hv
        · rw [if_neg hcu, List.append_nil] at hv
          rw [if_neg hcu]
          exact h.vals c v hv
      · intro k c hk
        rw [read_set _ _ _ _ hsz]
        rcases Nat.lt_or_ge k l.length with hlt' | hge
        · rw [List.getElem?_append_left hlt'] at hk
          rw [if_neg (by rw [h.size]; omega)]
          exact h.list k c hk
        · rw [List.getElem?_append_right hge] at hk
          have hk0 : k - l.length = 0 := by
            have := (List.getElem?_eq_some_iff.1 hk).1
            simp at this; omega
          rw [hk0] at hk
          rw [if_pos (by rw [h.size]; omega)]
          exact hk
  · obtain ⟨v, hv⟩ : ∃ v, accumulate op (writesAt done u.1) = some v := by
      cases ha : accumulate op (writesAt done u.1) with
      | none => exact absurd (accumulate_none.1 ha) ht
      | some v => exact ⟨v, rfl⟩
    refine ⟨{ w with vals := w.vals.set u.1 (some (op v u.2)) }, l, ?_, ?_⟩
    · unfold update
      rw [hg]
      have : decide (writesAt done u.1 ≠ []) = true := by simp [ht]
      rw [this, Option.bind_some, if_neg (by simp), h.vals _ v hv]
      show (write w.vals u.1 (op v u.2)).map _ = _
      rw [write_some hwv]
      rfl
    · refine ⟨by simp [h.vlen], h.llen, h.glen, h.size, h.nodup, h.lt, ?_, ?_, ?_, h.list⟩
      · intro c
        rw [h.mem, writesAt_append]
        by_cases hc : u.1 = c
        · subst hc; simp [ht]
        · simp [hc]
      · intro c hc
        rw [writesAt_append]
        by_cases hcu : u.1 = c
        · subst hcu
          show read w.guard u.1 = _
          rw [hg]
          simp [ht]
        · rw [if_neg hcu, List.append_nil]; exact h.guard c hc
      · intro c v' hv'
        show read (w.vals.set u.1 (some (op v u.2))) c = _
        rw [read_set _ _ _ _ hwv]
        rw [writesAt_append] at hv'
        by_cases hcu : u.1 = c
        · subst hcu
          rw [if_pos rfl, accumulate_snoc, hv] at hv'
          rw [if_pos rfl]
          exact hv'
        · rw [if_neg hcu, List.append_nil] at hv'
          rw [if_neg hcu]
          exact h.vals c v' hv'

theorem updates_spec (n : Nat) (op : V → V → V) : ∀ (ups done : List (Nat × V)) (l : List Nat) (w : Ws V),
    (∀ u ∈ ups, u.1 < n) → Inv n op done l w →
    ∃ w' l', ups.foldlM (update op) w = some w' ∧ Inv n op (done ++ ups) l' w' := by
  intro ups
  induction ups with
  | nil => intro done l w _ h; exact ⟨w, l, rfl, by rw [List.append_nil]; exact h⟩
  | cons u ups ih =>
    intro done l w hu h
    obtain ⟨w1, l1, e1, h1⟩ := update_spec n op done l w u (hu u (by simp)) h
    obtain ⟨w2, l2, e2, h2⟩ := ih (done ++ [u]) l1 w1 (fun x hx => hu x (by simp [hx])) h1
    refine ⟨w2, l2, ?_, by rw [List.append_assoc] at h2; exact h2⟩
    rw [List.foldlM_cons, e1]
    exact e2

theorem drain_spec (n : Nat) (val : Nat → Option V) (l : List Nat) : ∀ (k : Nat) (w : Ws V) (out : List (Nat × V)),
    k ≤ l.length → w.guard.length = n → (∀ c ∈ l, c < n ∧ (val c).isSome) →
    (∀ c ∈ l, read w.vals c = val c) → (∀ i c, l[i]? = some c → read w.list i = some c) →
    ∃ w', (List.range' (l.length - k) k).foldlM drainStep (w, out) =
        some (w', out ++ (l.drop (l.length - k)).filterMap fun c => (val c).map fun v => (c, v)) ∧
      w'.vals = w.vals ∧ w'.list = w.list ∧ w'.size = w.size ∧ w'.guard.length = n ∧
      ∀ c, read w'.guard c = if c ∈ l.drop (l.length - k) then some false else read w.guard c := by
  intro k
  induction k with
  | zero =>
    intro w out _ hg _ _ _
    refine ⟨w, ?_, rfl, rfl, rfl, hg, ?_⟩
    · simp
    · intro c; simp
  | succ k ih =>
    intro w out hk hg hl hv hlist
    have hlt : l.length - (k + 1) < l.length := by omega
    have hget := List.getElem?_eq_getElem hlt
    have hmem : l[l.length - (k + 1)] ∈ l := List.getElem_mem hlt
    obtain ⟨hcn, hcs⟩ := hl _ hmem
    obtain ⟨v, hvc⟩ := Option.isSome_iff_exists.1 hcs
    have hwg : l[l.length - (k + 1)] < w.guard.length := by rw [hg]; exact hcn
    obtain ⟨w', i1, i2, i3, i4, i5, i6⟩ := ih { w with guard := w.guard.set l[l.length - (k + 1)] (some false) }
      (out ++ [(l[l.length - (k + 1)], v)]) (by omega) (by simp [hg]) hl hv hlist
    have hstep : drainStep (w, out) (l.length - (k + 1)) =
        some ({ w with guard := w.guard.set l[l.length - (k + 1)] (some false) }, out ++ [(l[l.length - (k + 1)], v)]) := by
      unfold drainStep
      show (read w.list _).bind _ = _
      rw [hlist _ _ hget]
      show (read w.vals _).bind _ = _
      rw [hv _ hmem, hvc]
      show (write w.guard _ false).map _ = _
      rw [write_some hwg]
      rfl
    have hdrop : l.drop (l.length - (k + 1)) = l[l.length - (k + 1)] :: l.drop (l.length - k) := by
      rw [List.drop_eq_getElem_cons hlt, show l.length - (k + 1) + 1 = l.length - k by omega]
    refine ⟨w', ?_, i2, i3, i4, i5, ?_⟩
    · rw [List.range'_succ, List.foldlM_cons, hstep, show l.length - (k + 1) + 1 = l.length - k by omega]
      show List.foldlM drainStep _ _ = _
      rw [i1, hdrop, List.filterMap_cons, hvc]
      simp
    · intro c
      rw [i6 c, hdrop]
      show (if c ∈ l.drop (l.length - k) then some false else read (w.guard.set _ (some false)) c) = _
      rw [read_set _ _ _ _ hwg]
      by_cases h1 : c ∈ l.drop (l.length - k)
      · rw [if_pos h1, if_pos (by simp [h1])]
      · rw [if_neg h1]
        by_cases h2 : l[l.length - (k + 1)] = c
        · rw [if_pos h2, if_pos (by rw [h2]; simp)]
        · rw [if_neg h2, if_neg]
          rw [List.mem_cons]
          rintro (h3 | h3)
          · exact h2 h3.symm
          · exact h1 h3

theorem read_replicate {n c : Nat} (h : c < n) : read (List.replicate n (some false)) c = some false := by
  unfold Verif.Assembly.read
  rw [List.getElem?_replicate, if_pos h]; rfl

/-- One use of a clean workspace; `l` are the touched coordinates in the order of the sorted list. -/
theorem round_list (n : Nat) (op : V → V → V) (sort : List Nat → List Nat) (hperm : ∀ l, (sort l).Perm l) (w : Ws V)
    (hw : Clean n w) (ups : List (Nat × V)) (hu : ∀ u ∈ ups, u.1 < n) :
    ∃ w' l, round op sort w ups = some (w', (sort l).filterMap fun c => (accumulate op (writesAt ups c)).map fun v => (c, v)) ∧
      Clean n w' ∧ l.Nodup ∧ ∀ c, c ∈ l ↔ writesAt ups c ≠ [] := by
  have h0 : Inv n op [] [] { w with size := 0 } := by
    refine ⟨hw.vals, hw.list, by show w.guard.length = n; rw [hw.guard]; simp, rfl, by simp, by simp, by simp [writesAt], ?_, ?_, by simp⟩
    · intro c hc
      show read w.guard c = _
      rw [hw.guard, read_replicate hc]
      simp [writesAt]
    · intro c v hv; simp [writesAt, accumulate] at hv
  obtain ⟨w1, l, e1, h1⟩ := updates_spec n op ups [] [] { w with size := 0 } hu h0
  rw [List.nil_append] at h1
  have hll := nodup_length h1.nodup h1.lt
  have hread : readAll w1.list w1.size = some l := by
    unfold Verif.Assembly.readAll
    rw [h1.size, if_pos (by rw [h1.llen]; exact hll)]
    have : w1.list.take l.length = l.map some := by
      apply List.ext_getElem?
      intro k
      rcases Nat.lt_or_ge k l.length with hlt | hge
      · have := h1.list k _ (List.getElem?_eq_getElem hlt)
        rw [List.getElem?_take_of_lt hlt, List.getElem?_map, List.getElem?_eq_getElem hlt]
        unfold Verif.Assembly.read at this
        rw [List.getElem?_eq_getElem (show k < w1.list.length by rw [h1.llen]; omega)] at this ⊢
        exact congrArg some this
      · rw [List.getElem?_eq_none (by rw [List.length_take]; omega), List.getElem?_eq_none (by simpa using hge)]
    rw [this]
    exact Verif.Assembly.mapM_id_some l
  have hps := hperm l
  have hlen : (sort l).length = l.length := hps.length_eq
  let w2 : Ws V := { w1 with list := (sort l).map some ++ w1.list.drop w1.size }
  have hacc : ∀ c ∈ sort l, c < n ∧ (accumulate op (writesAt ups c)).isSome := by
    intro c hc
    have hc' := hps.mem_iff.1 hc
    refine ⟨h1.lt c hc', ?_⟩
    cases ha : accumulate op (writesAt ups c) with
    | none => exact absurd (accumulate_none.1 ha) ((h1.mem c).1 hc')
    | some v => rfl
  obtain ⟨w3, d1, d2, d3, d4, d5, d6⟩ := drain_spec n (fun c => accumulate op (writesAt ups c)) (sort l) (sort l).length w2 []
    (Nat.le_refl _) h1.glen hacc (by
      intro c hc
      obtain ⟨v, hv⟩ := Option.isSome_iff_exists.1 (hacc c hc).2
      show read w1.vals c = accumulate op (writesAt ups c)
      rw [hv]; exact h1.vals c v hv) (by
      intro i c hi
      show read ((sort l).map some ++ w1.list.drop w1.size) i = _
      have hlt := (List.getElem?_eq_some_iff.1 hi).1
      unfold Verif.Assembly.read
      rw [List.getElem?_append_left (by simpa using hlt), List.getElem?_map, hi]
      rfl)
  refine ⟨w3, l, ?_, ⟨?_, ?_, ?_⟩, h1.nodup, h1.mem⟩
  · unfold round
    rw [e1]
    show (sortList sort w1).bind _ = _
    unfold sortList
    rw [hread]
    show (List.range w1.size).foldlM drainStep (w2, []) = _
    rw [h1.size, ← hlen, List.range_eq_range']
    rw [Nat.sub_self, List.drop_zero, List.nil_append] at d1
    exact d1
  · rw [d2]; exact h1.vlen
  · rw [d3]
    show ((sort l).map some ++ w1.list.drop w1.size).length = n
    rw [List.length_append, List.length_map, List.length_drop, h1.llen, h1.size, hlen]
    omega
  · apply List.ext_getElem?
    intro c
    rcases Nat.lt_or_ge c n with hlt | hge
    · have := d6 c
      rw [Nat.sub_self, List.drop_zero] at this
      have hr : read w3.guard c = some false := by
        rw [this]
        by_cases hc : c ∈ sort l
        · rw [if_pos hc]
        · rw [if_neg hc]
          show read w1.guard c = _
          rw [h1.guard c hlt]
          have : ¬ writesAt ups c ≠ [] := fun hne => hc (hps.mem_iff.2 ((h1.mem c).2 hne))
          simp [this]
      unfold Verif.Assembly.read at hr
      rw [List.getElem?_eq_getElem (show c < w3.guard.length by rw [d5]; exact hlt)] at hr ⊢
      rw [List.getElem?_replicate, if_pos hlt]
      exact congrArg some hr
    · rw [List.getElem?_eq_none (by rw [d5]; exact hge), List.getElem?_eq_none (by simpa using hge)]

theorem filterMap_filter_some {α β : Type} (f : α → Option β) (l : List α) :
    (l.filter (fun a => (f a).isSome)).filterMap f = l.filterMap f := by
  induction l with
  | nil => rfl
  | cons a l ih =>
    rw [List.filter_cons, List.filterMap_cons]
    cases hf : f a with
    | none => simp [ih]
    | some b => simp [hf, ih]

theorem touched_perm {n : Nat} {op : V → V → V} {ups : List (Nat × V)} {l : List Nat} (hu : ∀ u ∈ ups, u.1 < n) (hn : l.Nodup)
    (hm : ∀ c, c ∈ l ↔ writesAt ups c ≠ []) :
    l.Perm ((List.range n).filter (fun c => ((accumulate op (writesAt ups c)).map fun v => (c, v)).isSome)) := by
  rw [List.perm_ext_iff_of_nodup hn (List.Pairwise.filter _ List.nodup_range)]
  intro c
  rw [List.mem_filter, List.mem_range, hm]
  constructor
  · intro h
    refine ⟨?_, ?_⟩
    · obtain ⟨x, hx⟩ := List.exists_mem_of_ne_nil _ h
      obtain ⟨u, hu', _⟩ := List.mem_map.1 hx
      obtain ⟨h1, h2⟩ := List.mem_filter.1 hu'
      rw [beq_iff_eq] at h2
      exact h2 ▸ hu u h1
    · cases ha : accumulate op (writesAt ups c) with
      | none => exact absurd (accumulate_none.1 ha) h
      | some v => rfl
  · rintro ⟨_, h⟩ he
    rw [he] at h
    cases h

/-! ### C49 -/

/-- C49. Using a clean workspace for any sequence of assignments inside its dimension never leaves the
arrays or loads an unwritten slot, delivers every touched coordinate exactly once, in increasing order, with
the first value combined with the later ones in order, and leaves the workspace clean. -/
theorem workspace_round (n : Nat) (op : V → V → V) (sort : List Nat → List Nat) (hs : SortSpec sort) (w : Ws V)
    (hw : Clean n w) (ups : List (Nat × V)) (hu : ∀ u ∈ ups, u.1 < n) :
    ∃ w', round op sort w ups = some (w', delivered n op ups) ∧ Clean n w' := by
  obtain ⟨w', l, e, hc, hn, hm⟩ := round_list n op sort (fun l => (hs l).1) w hw ups hu
  refine ⟨w', ?_, hc⟩
  have heq : sort l = (List.range n).filter (fun c => ((accumulate op (writesAt ups c)).map fun v => (c, v)).isSome) := by
    apply Verif.Pack.sorted_ext
    · have h1 := (hs l).2
      have h2 : (sort l).Nodup := (hs l).1.symm.nodup hn
      exact (h1.and h2).imp (fun h => Nat.lt_of_le_of_ne h.1 h.2)
    · exact List.Pairwise.filter _ List.pairwise_lt_range
    · intro x
      rw [((hs l).1.trans (touched_perm (op := op) hu hn hm)).mem_iff]
  rw [e, heq, filterMap_filter_some (fun c => (accumulate op (writesAt ups c)).map fun v => (c, v))]
  rfl

/-- C49 when the result does not need to be ordered and the list is not sorted: the same coordinates and
values, in some order. -/
theorem workspace_round_unsorted (n : Nat) (op : V → V → V) (w : Ws V) (hw : Clean n w) (ups : List (Nat × V))
    (hu : ∀ u ∈ ups, u.1 < n) :
    ∃ w' out, round op id w ups = some (w', out) ∧ Clean n w' ∧ out.Perm (delivered n op ups) := by
  obtain ⟨w', l, e, hc, hn, hm⟩ := round_list n op id (fun l => List.Perm.refl l) w hw ups hu
  refine ⟨w', _, e, hc, ?_⟩
  have := (touched_perm (op := op) hu hn hm).filterMap (fun c => (accumulate op (writesAt ups c)).map fun v => (c, v))
  rw [filterMap_filter_some] at this
  exact this

/-- C49 for a `where` statement inside loops, with the workspace allocated once: every execution delivers
what a fresh workspace would, for every number of executions. -/
theorem workspace_rounds (n : Nat) (op : V → V → V) (sort : List Nat → List Nat) (hs : SortSpec sort)
    (rs : List (List (Nat × V))) (hr : ∀ ups ∈ rs, ∀ u ∈ ups, u.1 < n) :
    rounds op sort (init n) rs = some (rs.map (delivered n op)) := by
  have key : ∀ (rs : List (List (Nat × V))) (w : Ws V), Clean n w → (∀ ups ∈ rs, ∀ u ∈ ups, u.1 < n) →
      rounds op sort w rs = some (rs.map (delivered n op)) := by
    intro rs
    induction rs with
    | nil => intro w _ _; rfl
    | cons ups rs ih =>
      intro w hw h
      obtain ⟨w', e, hc⟩ := workspace_round n op sort hs w hw ups (h ups (by simp))
      show (round op sort w ups).bind _ = _
      rw [e]
      show (rounds op sort w' rs).map _ = _
      rw [ih w' hc (fun u hu => h u (by simp [hu]))]
      rfl
  exact key rs (init n) ⟨by simp [init], by simp [init], rfl⟩ hr

/-- Merge sort meets the specification of `qsort`. -/
theorem mergeSort_spec : SortSpec (fun l => l.mergeSort (fun a b => decide (a ≤ b))) := by
  intro l
  refine ⟨List.mergeSort_perm _ _, ?_⟩
  have := List.pairwise_mergeSort (le := fun a b : Nat => decide (a ≤ b)) (by intro a b c h1 h2; simp at *; omega)
    (by intro a b; simp; omega) l
  exact this.imp (fun h => by simpa using h)

example : Clean 5 (init 5 : Ws Int) := ⟨by simp [init], by simp [init], rfl⟩
example : delivered 5 (· + ·) [(3, (1 : Int)), (1, 2), (3, 10), (1, 5), (4, 0)] = [(1, 7), (3, 11), (4, 0)] := by decide

/-! ### C58: choosing the level -/

/-- The level that stores a mode. -/
def StoredAt (ordering : List Nat) (mode level : Nat) : Prop := ordering[level]? = some mode

/-- C58, partial. For formats whose mode ordering is its own inverse (every matrix format, and every
ordering that swaps modes in pairs) the inspected level is the one that stores the mode. Missing: other
orderings, for which it is not (`accelerate_level_fails`). -/
theorem accelerate_level_partial (ordering : List Nat) (hinv : ∀ i j : Nat, ordering[i]? = some j → ordering[j]? = some i)
    (mode level : Nat) (h : inspectedLevel ordering mode = some level) : StoredAt ordering mode level := hinv _ _ h

example : ∀ i j : Nat, [1, 0, 2][i]? = some j → [1, 0, 2][j]? = some i := by
  intro i j h
  match i with
  | 0 => simp at h; subst h; rfl
  | 1 => simp at h; subst h; rfl
  | 2 => simp at h; subst h; rfl
  | i + 3 => simp at h

/-- C58 fails for a cyclic mode ordering: for mode 0 of a tensor with ordering (1,2,0), stored at level 2,
the format of level 1 is inspected. -/
theorem accelerate_level_fails : ¬ ∀ (ordering : List Nat), ordering.Perm (List.range ordering.length) →
    ∀ mode level, inspectedLevel ordering mode = some level → StoredAt ordering mode level := by
  intro h
  have := h [1, 2, 0] (by decide) 0 1 rfl
  cases this

end Verif.Workspace
