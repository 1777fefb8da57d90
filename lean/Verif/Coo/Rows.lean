import Verif.Coo.Kernel
/-! The coordinate format of an ordered list of components is well formed, and stores them. -/
namespace Verif.Coo
open Verif.Merge

variable {V : Type}

/-! ### loops that do not index the operand -/

theorem wfC_used (m : Nat) : ∀ (ls : List (Nat × Option CLvl)) (lo hi : Nat),
    wfC ((usedLevels ls).map (fun x => (x.1, some x.2))) m lo hi → wfC ls m lo hi
  | [], _, _, h => h
  | (n, none) :: ls, lo, hi, h => wfC_used m ls lo hi h
  | (n, some (.dense nd)) :: ls, lo, hi, h =>
    ⟨h.1, h.2.1, fun c hc => wfC_used m ls _ _ (h.2.2 c hc)⟩
  | (n, some (.comp u P C)) :: ls, lo, hi, h => by
    have h' := (wfC_sparse (l := .comp u P C) rfl).1 h
    obtain ⟨h1, a, seg, h2, h3, h4, h5⟩ := h'
    exact (wfC_sparse (l := .comp u P C) rfl).2
      ⟨h1, a, seg, h2, h3, h4, fun c hc => wfC_used m ls _ _ (h5 c hc)⟩
  | (n, some (.sing u C)) :: ls, lo, hi, h => by
    have h' := (wfC_sparse (l := .sing u C) rfl).1 h
    obtain ⟨h1, a, seg, h2, h3, h4, h5⟩ := h'
    exact (wfC_sparse (l := .sing u C) rfl).2
      ⟨h1, a, seg, h2, h3, h4, fun c hc => wfC_used m ls _ _ (h5 c hc)⟩

theorem flatMap_below_none (c : Nat) : ∀ (ps : List Nat), ps.flatMap (below none c) = ps
  | [] => rfl
  | p :: ps => by rw [List.flatMap_cons, flatMap_below_none c ps]; rfl

theorem valueC_used (o : Ops V) (vals : List V) : ∀ (ls : List (Option CLvl)) (path ps : List Nat),
    path.length = ls.length →
    valueC o vals ls path ps = valueC o vals ((ls.filterMap id).map some) (usedCoords ls path) ps
  | [], _, _, _ => rfl
  | none :: ls, [], _, h => by cases h
  | some _ :: ls, [], _, h => by cases h
  | none :: ls, c :: cs, ps, h => by
    rw [valueC, flatMap_below_none, valueC_used o vals ls cs ps (by simpa using h)]
    rfl
  | some l :: ls, c :: cs, ps, h => by
    rw [valueC, valueC_used o vals ls cs _ (by simpa using h)]
    rfl

/-! ### ordered components -/

theorem lexLe_get : ∀ (j : Nat) {r s : List Nat}, lexLe r s → r.length = s.length → j < r.length →
    r.take j = s.take j → r.getD j 0 ≤ s.getD j 0
  | _, [], _, _, _, h, _ => by cases h
  | _, _ :: _, [], h, _, _, _ => by cases h
  | 0, a :: as, b :: bs, h, _, _, _ => by
    rcases h with h | ⟨h, _⟩ <;> simp <;> omega
  | j + 1, a :: as, b :: bs, h, hl, hj, ht => by
    simp only [List.take_succ_cons, List.cons.injEq] at ht
    rcases h with h | ⟨_, h⟩
    · omega
    · simpa using lexLe_get j h (by simpa using hl) (by simpa using hj) ht.2

theorem take_succ_eq {r s : List Nat} {j : Nat} (hr : j < r.length) (hs : j < s.length)
    (ht : r.take j = s.take j) (hg : r.getD j 0 = s.getD j 0) : r.take (j + 1) = s.take (j + 1) := by
  rw [List.getD_eq_getElem?_getD, List.getD_eq_getElem?_getD, List.getElem?_eq_getElem hr,
    List.getElem?_eq_getElem hs] at hg
  rw [List.take_add_one, List.take_add_one, ht, List.getElem?_eq_getElem hr, List.getElem?_eq_getElem hs]
  simp only [Option.getD_some] at hg
  rw [hg]

/-- The positions of the run of a coordinate hold it. -/
theorem run_mem {seg : List Nat} (hs : seg.Pairwise (· ≤ ·)) {c q : Nat}
    (h1 : seg.countP (fun x => decide (x < c)) ≤ q) (h2 : q < seg.countP (fun x => decide (x ≤ c))) :
    seg[q]? = some c := by
  have h := filter_sorted c seg 0 hs
  have hm : q ∈ List.range' (0 + seg.countP (fun x => decide (x < c)))
        (seg.countP (fun x => decide (x ≤ c)) - seg.countP (fun x => decide (x < c))) := by
    rw [List.mem_range'_1]; omega
  rw [← h, List.mem_filter] at hm
  simpa using hm.2

/-- The singleton levels below components that agree so far. -/
theorem sings_wf {dups : Bool} {dims : List Nat} {rows : List (List Nat)} (h : RowsOK dups dims rows) {m : Nat}
    (hm : rows.length ≤ m) : ∀ (d j lo hi : Nat), j + d = dims.length → lo ≤ hi → hi ≤ rows.length →
    (∀ p q r s, lo ≤ p → p < hi → lo ≤ q → q < hi → rows[p]? = some r → rows[q]? = some s → r.take j = s.take j) →
    wfC ((List.range' j d).map (fun i =>
      (dims.getD i 0, some (.sing (i + 1 == dims.length && !dups) (column rows i))))) m lo hi := by
  intro d
  induction d with
  | zero => intro j lo hi _ _ hhi _; show hi ≤ m; omega
  | succ d ih =>
    intro j lo hi hj hlo hhi hag
    rw [List.range'_succ, List.map_cons]
    refine (wfC_sparse (l := .sing _ _) rfl).2 ⟨trivial, lo, ((column rows j).drop lo).take (hi - lo), ?_, ?_, ?_, ?_⟩
    · simp [listed, column, hhi]
    all_goals
      have hget : ∀ q x, (((column rows j).drop lo).take (hi - lo))[q]? = some x →
          lo + q < hi ∧ ∃ r, rows[lo + q]? = some r ∧ r.getD j 0 = x := by
        intro q x hx
        rw [List.getElem?_take] at hx
        split at hx
        · rename_i hq
          rw [List.getElem?_drop] at hx
          simp only [column, List.getElem?_map] at hx
          cases hr : rows[lo + q]? with
          | none => rw [hr] at hx; cases hx
          | some r =>
            rw [hr] at hx
            simp only [Option.map_some, Option.some.injEq] at hx
            exact ⟨by omega, r, rfl, hx⟩
        · cases hx
      have hpair : ∀ (p q : Nat) (r s : List Nat), p < q → rows[p]? = some r → rows[q]? = some s → lexLe r s := by
        intro p q r s hpq hr hs
        have hs' := h.sorted
        rw [List.pairwise_iff_getElem] at hs'
        obtain ⟨h1, h2⟩ := List.getElem?_eq_some_iff.1 hr
        obtain ⟨h3, h4⟩ := List.getElem?_eq_some_iff.1 hs
        have := hs' p q h1 h3 hpq
        rwa [h2, h4] at this
      have hle : (((column rows j).drop lo).take (hi - lo)).Pairwise (· ≤ ·) := by
        rw [List.pairwise_iff_getElem]
        intro p q hp hq hpq
        obtain ⟨p1, r, p2, p3⟩ := hget p _ (List.getElem?_eq_getElem hp)
        obtain ⟨q1, s, q2, q3⟩ := hget q _ (List.getElem?_eq_getElem hq)
        rw [← p3, ← q3]
        have hrl := h.len r (List.mem_of_getElem? p2)
        have hsl := h.len s (List.mem_of_getElem? q2)
        exact lexLe_get j (hpair _ _ _ _ (by omega) p2 q2) (by omega) (by omega)
          (hag _ _ r s (by omega) p1 (by omega) q1 p2 q2)
    · show ordered (j + 1 == dims.length && !dups) _
      unfold ordered
      split
      · rename_i hu
        rw [Bool.and_eq_true, beq_iff_eq, Bool.not_eq_true'] at hu
        have hnd := h.nodup hu.2
        rw [List.pairwise_iff_getElem] at hle ⊢
        intro p q hp hq hpq
        have hlt := hle p q hp hq hpq
        rcases Nat.lt_or_ge (((column rows j).drop lo).take (hi - lo))[p] (((column rows j).drop lo).take (hi - lo))[q] with h' | h'
        · exact h'
        · exfalso
          obtain ⟨p1, r, p2, p3⟩ := hget p _ (List.getElem?_eq_getElem hp)
          obtain ⟨q1, s, q2, q3⟩ := hget q _ (List.getElem?_eq_getElem hq)
          have hrl := h.len r (List.mem_of_getElem? p2)
          have hsl := h.len s (List.mem_of_getElem? q2)
          have heq := take_succ_eq (r := r) (s := s) (j := j) (by omega) (by omega)
            (hag _ _ r s (by omega) p1 (by omega) q1 p2 q2) (by omega)
          rw [List.take_of_length_le (by omega), List.take_of_length_le (by omega)] at heq
          subst heq
          obtain ⟨h1, h2⟩ := List.getElem?_eq_some_iff.1 p2
          obtain ⟨h3, h4⟩ := List.getElem?_eq_some_iff.1 q2
          exact List.pairwise_iff_getElem.1 hnd (lo + p) (lo + q) h1 h3 (by omega) (h2.trans h4.symm)
      · exact hle
    · intro c hc
      obtain ⟨q, hq⟩ := List.mem_iff_getElem?.1 hc
      obtain ⟨q1, r, q2, q3⟩ := hget q c hq
      rw [← q3]
      exact h.bound r (List.mem_of_getElem? q2) j (by omega)
    · intro c hc
      have hcl : ∀ (f : Nat → Bool), (((column rows j).drop lo).take (hi - lo)).countP f ≤ hi - lo := by
        intro f
        refine Nat.le_trans List.countP_le_length ?_
        simp; omega
      have hmono : (((column rows j).drop lo).take (hi - lo)).countP (fun x => decide (x < c)) ≤
          (((column rows j).drop lo).take (hi - lo)).countP (fun x => decide (x ≤ c)) := by
        apply List.countP_mono_left
        intro y _ hy
        simp only [decide_eq_true_eq] at hy ⊢
        omega
      have h1 := hcl (fun x => decide (x ≤ c))
      refine ih (j + 1) _ _ (by omega) (by omega) (by omega) ?_
      intro p q r s hp hp' hq hq' hr hs
      have e1 := run_mem hle (c := c) (q := p - lo) (by omega) (by omega)
      have e2 := run_mem hle (c := c) (q := q - lo) (by omega) (by omega)
      obtain ⟨_, r', r1, r2⟩ := hget _ _ e1
      obtain ⟨_, s', s1, s2⟩ := hget _ _ e2
      have ep : lo + (p - lo) = p := by omega
      have eq : lo + (q - lo) = q := by omega
      rw [ep, hr] at r1
      rw [eq, hs] at s1
      cases r1
      cases s1
      have hrl := h.len r (List.mem_of_getElem? hr)
      have hsl := h.len s (List.mem_of_getElem? hs)
      exact take_succ_eq (by omega) (by omega)
        (hag p q r s (by omega) (by omega) (by omega) (by omega) hr hs) (by omega)

theorem zip_range : ∀ (xs : List Nat) (a : Nat) (f : Nat → CLvl),
    (xs.zip ((List.range' a xs.length).map f)).map (fun x => (x.1, some x.2)) =
      (List.range' a xs.length).map (fun i => (xs.getD (i - a) 0, some (f i)))
  | [], _, _ => rfl
  | x :: xs, a, f => by
    rw [List.length_cons, List.range'_succ, List.map_cons, List.map_cons, List.zip_cons_cons, List.map_cons,
      zip_range xs (a + 1) f, Nat.sub_self]
    congr 1
    apply List.map_congr_left
    intro i hi
    rw [List.mem_range'_1] at hi
    have : i - a = (i - (a + 1)) + 1 := by omega
    rw [this, List.getD_cons_succ]

/-- The coordinate format of ordered components is well formed. -/
theorem coo_wf {dups : Bool} {dims : List Nat} {rows : List (List Nat)} (h : RowsOK dups dims rows) {m : Nat}
    (hm : rows.length ≤ m) (hd : dims ≠ []) :
    wfC ((dims.zip (cooLevels dups rows dims.length)).map (fun x => (x.1, some x.2))) m 0 1 := by
  cases dims with
  | nil => exact absurd rfl hd
  | cons n dims =>
    have hs := sings_wf h hm (dims.length + 1) 0 0 rows.length (by simp) (Nat.zero_le _) (Nat.le_refl _)
      (by intros; simp)
    rw [List.range'_succ, List.map_cons] at hs
    have hs := (wfC_sparse (l := .sing _ _) rfl).1 hs
    obtain ⟨_, a, seg, h2, h3, h4, h5⟩ := hs
    have hN : (column rows 0).length = rows.length := by simp [column]
    simp only [listed, hN, Nat.le_refl, if_true, Option.some.injEq, Prod.mk.injEq] at h2
    obtain ⟨rfl, rfl⟩ := h2
    refine (wfC_sparse (l := .comp _ _ _) rfl).2
      ⟨?_, 0, ((column rows 0).drop 0).take (rows.length - 0), ?_, ?_, h4, ?_⟩
    · intro p _ hp
      have : p = 0 := by omega
      subst this
      exact ⟨0, rows.length, rfl, rfl, Nat.zero_le _⟩
    · simp [listed, hN]
    · have : (0 + 1 == (n :: dims).length) = (dims.length == 0) := by
        cases dims <;> simp
      rw [this] at h3
      exact h3
    · intro c hc
      have := h5 c hc
      have htail := zip_range dims 1 (fun j => CLvl.sing (j == dims.length && !dups) (column rows j))
      show wfC ((dims.zip ((List.range' 1 dims.length).map
        (fun j => CLvl.sing (j == dims.length && !dups) (column rows j)))).map (fun x => (x.1, some x.2))) _ _ _
      rw [htail]
      have he : (List.range' (0 + 1) dims.length).map (fun i =>
          ((n :: dims).getD i 0, some (CLvl.sing (i + 1 == (n :: dims).length && !dups) (column rows i)))) =
          (List.range' 1 dims.length).map (fun i =>
            (dims.getD (i - 1) 0, some (CLvl.sing (i == dims.length && !dups) (column rows i)))) := by
        apply List.map_congr_left
        intro i hi
        rw [List.mem_range'_1] at hi
        obtain ⟨i', rfl⟩ : ∃ i', i = i' + 1 := ⟨i - 1, by omega⟩
        simp
      rw [he] at this
      exact this

/-! ### the stored values -/

theorem flatMap_below_sing (u : Bool) (C : List Nat) (c : Nat) : ∀ (ps : List Nat),
    ps.flatMap (below (some (.sing u C)) c) = ps.filter (fun q => C[q]? == some c)
  | [] => rfl
  | p :: ps => by
    rw [List.flatMap_cons, List.filter_cons, flatMap_below_sing u C c ps]
    by_cases h : C[p]? = some c
    · simp [below, h]
    · have hb : (C[p]? == some c) = false := by simpa using h
      simp [below, h]

theorem valueC_sings (o : Ops V) (vals : List V) (rows : List (List Nat)) (u : Nat → Bool) :
    ∀ (d j : Nat) (path ps : List Nat), path.length = d → (∀ r ∈ rows, r.length = j + d) →
    (∀ p ∈ ps, p < rows.length) →
    valueC o vals (((List.range' j d).map (fun i => CLvl.sing (u i) (column rows i))).map some) path ps =
      sumOver o vals (ps.filter (fun p => (rows.getD p []).drop j == path)) o.zero := by
  intro d
  induction d with
  | zero =>
    intro j path ps hp hr hps
    have : path = [] := List.length_eq_zero_iff.1 hp
    subst this
    simp only [List.range'_zero, List.map_nil, valueC]
    have : ps.filter (fun p => (rows.getD p []).drop j == []) = ps := by
      rw [List.filter_eq_self]
      intro p hpp
      have hl := hps p hpp
      have := hr _ (List.getElem_mem hl)
      rw [List.getD_eq_getElem?_getD, List.getElem?_eq_getElem hl, Option.getD_some,
        List.drop_of_length_le (by omega)]
      rfl
    rw [this]; rfl
  | succ d ih =>
    intro j path ps hp hr hps
    cases path with
    | nil => cases hp
    | cons c cs =>
      rw [List.range'_succ, List.map_cons, List.map_cons, valueC, flatMap_below_sing,
        ih (j + 1) cs _ (by simpa using hp) (fun r hr' => by have := hr r hr'; omega)
          (fun p hpp => hps p (List.mem_filter.1 hpp).1), List.filter_filter]
      congr 1
      apply List.filter_congr
      intro p hpp
      have hl := hps p hpp
      have hlen := hr _ (List.getElem_mem hl)
      have h1 : rows.getD p [] = rows[p] := by
        rw [List.getD_eq_getElem?_getD, List.getElem?_eq_getElem hl]; rfl
      have h2 : (column rows j)[p]? = some (rows[p].getD j 0) := by
        simp [column, List.getElem?_eq_getElem hl]
      have hj : j < rows[p].length := by omega
      rw [h1, h2, List.drop_eq_getElem_cons hj, List.getD_eq_getElem?_getD, List.getElem?_eq_getElem hj,
        Option.getD_some]
      rw [Bool.eq_iff_iff, Bool.and_eq_true, beq_iff_eq, beq_iff_eq, beq_iff_eq, List.cons.injEq,
        Option.some.injEq, and_comm]

/-- The coordinate format stores the components: the value at a coordinate is the sum of the listed values. -/
theorem coo_value (o : Ops V) (vals : List V) {rows : List (List Nat)} {dups : Bool} {order : Nat}
    (ho : 0 < order) (hr : ∀ r ∈ rows, r.length = order) {path : List Nat} (hp : path.length = order) :
    valueC o vals ((cooLevels dups rows order).map some) path [0] =
      sumOver o vals ((List.range rows.length).filter (fun p => rows.getD p [] == path)) o.zero := by
  cases order with
  | zero => omega
  | succ order =>
    cases path with
    | nil => cases hp
    | cons c cs =>
      have h := valueC_sings o vals rows (fun j => j == order && !dups) (order + 1) 0 (c :: cs)
        (List.range rows.length) hp (fun r hr' => by have := hr r hr'; omega)
        (fun p hpp => List.mem_range.1 hpp)
      simp only [List.drop_zero] at h
      rw [← h, List.range'_succ, List.map_cons, List.map_cons, valueC, flatMap_below_sing]
      simp only [cooLevels, List.map_cons, valueC]
      congr 1
      simp [below, List.range_eq_range']

theorem sumOver_rows (o : Ops V) (path : List Nat) : ∀ (rows : List (List Nat)) (vals : List V) (a : V),
    rows.length ≤ vals.length →
    sumOver o vals ((List.range rows.length).filter (fun p => rows.getD p [] == path)) a =
      ((rows.zip vals).filter (fun rv => rv.1 == path)).foldl (fun s rv => o.bin .add s rv.2) a
  | [], _, _, _ => rfl
  | _ :: _, [], _, h => by simp at h
  | r :: rows, v :: vals, a, h => by
    have ih := fun a => sumOver_rows o path rows vals a (by simpa using h)
    have hshift : ∀ (ps : List Nat) (a : V), sumOver o (v :: vals) (ps.map Nat.succ) a = sumOver o vals ps a := by
      intro ps a
      simp [sumOver, List.foldl_map]
    rw [List.length_cons, List.range_succ_eq_map, List.filter_cons, List.filter_map, List.zip_cons_cons,
      List.filter_cons]
    have hf : ((fun p => (r :: rows).getD p [] == path) ∘ Nat.succ) = (fun p => rows.getD p [] == path) := by
      funext p; simp
    rw [hf]
    simp only [List.getD_cons_zero]
    split
    · simp only [sumOver, List.foldl_cons]
      have := hshift ((List.range rows.length).filter (fun p => rows.getD p [] == path)) (o.bin .add a v)
      simp only [sumOver] at this
      simp only [List.getD_cons_zero]
      rw [this]
      exact ih _
    · rw [hshift]; exact ih a

/-- The levels that the loops use, without the dimensions. -/
theorem used_snd : ∀ (ls : List CLoop) (k : Nat),
    (levelsC ls k).filterMap id = (usedLevels (dimLevelsC ls k)).map Prod.snd
  | [], _ => rfl
  | l :: ls, k => by
    have ih := used_snd ls k
    simp only [levelsC, dimLevelsC, usedLevels, List.map_cons] at ih ⊢
    cases h : l.lvl k with
    | none => simpa using ih
    | some x => simpa using ih

theorem usedCoords_length : ∀ (ls : List (Option CLvl)) (path : List Nat), path.length = ls.length →
    (usedCoords ls path).length = (ls.filterMap id).length
  | [], _, _ => rfl
  | none :: ls, [], h => by cases h
  | some _ :: ls, [], h => by cases h
  | none :: ls, c :: cs, h => usedCoords_length ls cs (by simpa using h)
  | some _ :: ls, c :: cs, h => by
    simp only [usedCoords, List.length_cons, List.filterMap_cons, id]
    rw [usedCoords_length ls cs (by simpa using h)]

end Verif.Coo
