import Verif.Coo.Sim
/-! What one loop over operands with runs of equal coordinates executes. -/
namespace Verif.Coo
open Verif.Merge Verif.Merge.Expr

variable {V : Type}

/-- The runs that a statement reads at coordinate `x`: from the number of smaller coordinates to the number
of coordinates not larger. -/
def runReads (K : Ctx) (W : CInput) (x : Nat) (s : Option (Expr V)) : List (Nat × Nat × Nat) :=
  match s with
  | none => []
  | some e => (e.leaves.filter (fun k => (K k).elim false (·.posIter))).map (fun k =>
      (k, (W.crd k).countP (fun y => decide (y < x)), (W.crd k).countP (fun y => decide (y ≤ x))))

/-- The body executed at coordinate `x`. -/
def eventAt (K : Ctx) (e : Expr V) (W : CInput) (x : Nat) : Nat × Option (Expr V) × List (Nat × Nat × Nat) :=
  (x, e.zeroOut (zAbs K (present W.plain x)), runReads K W x (e.zeroOut (zAbs K (present W.plain x))))

theorem present_dedup (W : CInput) (x : Nat) : present (dedup W) x = present W.plain x := by
  funext k
  unfold present
  rw [decide_eq_decide]
  exact mem_runs

/-- The end of a run that is present. -/
theorem endOf_present {K : Ctx} {W : CInput} (hW : InputC K W) {k x : Nat} (hk : K k = some compressedAttr)
    (hx : x ∈ W.crd k) :
    off (runs (W.crd k)) (((dedup W).crd k).idxOf x) = (W.crd k).countP (fun y => decide (y < x)) ∧
    endOf W x k (((dedup W).crd k).idxOf x) = (W.crd k).countP (fun y => decide (y ≤ x)) := by
  have hs := runs_sorted (ordered_le (hW k hk).1)
  have hm : x ∈ (runs (W.crd k)).map Prod.fst := mem_runs.2 hx
  obtain ⟨h1, h2⟩ := off_idxOf (runs_pos (W.crd k)) hs hm
  rw [expand_runs] at h1 h2
  refine ⟨h1, ?_⟩
  have hl := List.idxOf_lt_length_of_mem hm
  have hget : ((dedup W).crd k)[((dedup W).crd k).idxOf x]? = some x := by
    show ((runs (W.crd k)).map Prod.fst)[((runs (W.crd k)).map Prod.fst).idxOf x]? = some x
    rw [List.getElem?_eq_getElem hl, List.getElem_idxOf hl]
  unfold endOf
  split
  · rename_i hu
    have hord := (hW k hk).1
    rw [hu] at hord
    have hru := runs_unique (l := W.crd k) (by simpa [ordered] using hord)
    rw [← h2]
    have hl' : ((runs (W.crd k)).map Prod.fst).idxOf x < (runs (W.crd k)).length := by simpa using hl
    rw [off_succ (List.getElem?_eq_getElem hl')]
    have hone : ∀ r ∈ runs (W.crd k), r.2 = 1 := by
      rw [hru]
      intro r hr
      rw [List.mem_map] at hr
      obtain ⟨y, _, rfl⟩ := hr
      rfl
    rw [hone _ (List.getElem_mem hl')]
    rfl
  · first
      | exact h2
      | (rw [if_pos hget]; exact h2)

/-- The events of the loop over distinct coordinates, read as runs. -/
theorem raise_evAt {K : Ctx} (hin : InTree K) {W : CInput} (hW : InputC K W) (e : Expr V) (x : Nat) :
    (raise W false (evAt K e (dedup W) x)).plain = eventAt K e W x := by
  unfold raise CEvent.plain evAt eventAt
  simp only [Prod.mk.injEq, true_and]
  rw [present_dedup]
  refine ⟨rfl, ?_⟩
  cases hz : e.zeroOut (zAbs K (present W.plain x)) with
  | none => rfl
  | some e' =>
    simp only [readsOf, runReads, List.map_map]
    apply List.map_congr_left
    intro k hk
    rw [List.mem_filter] at hk
    cases hKk : K k with
    | none => rw [hKk] at hk; simp at hk
    | some a =>
      rw [hKk] at hk
      rcases hin k a hKk with rfl | rfl
      · cases hk.2
      · have hmem : x ∈ W.crd k := by
          obtain ⟨_, hzk⟩ := leaves_zeroOut hz k hk.1
          rw [zAbs, hKk] at hzk
          simp only [decide_true, Bool.true_and, Bool.not_eq_false'] at hzk
          exact of_decide_eq_true hzk
        obtain ⟨h1, h2⟩ := endOf_present hW hKk hmem
        simp only [Function.comp, h1, h2]

/-- The executed bodies of a loop: one for every coordinate at which the expression is not structurally
zero, in order, reading the whole run of every operand. -/
theorem forallC_spec {K : Ctx} (hin : InTree K) {srt : List Point → List Point} (hs : SortSpec srt)
    {e : Expr V} (hlin : consistent K e) {W : CInput} (hW : InputC K W) {fuel : Nat}
    (hpot : potential K e (dedup W) ⟨fun _ => 0, 0⟩ 0 ≤ fuel) :
    ∃ evs, runForallC K srt W fuel e = some evs ∧
      evs.map CEvent.plain =
        ((List.range W.n).filter (fun x => supp K (present W.plain x) e)).map (eventAt K e W) := by
  have h : LoopOK K e (makeLattice K srt e) := (latOK_build hin hs e hlin).loop
  obtain ⟨r, rs, hL, hr, hroot⟩ := h.root
  have hrL : r ∈ makeLattice K srt e := by rw [hL]; exact List.mem_cons_self
  have hlat : latIters (makeLattice K srt e) = r.iters := by rw [hL]; rfl
  have hI := dedup_ok hW
  have habs := forall_spec hin hs hlin hI hpot
  -- the specification
  have hspec : (spanEvents K e (dedup W) 0 W.n).map (fun ev => (raise W false ev).plain) =
      ((List.range W.n).filter (fun x => supp K (present W.plain x) e)).map (eventAt K e W) := by
    unfold spanEvents
    rw [List.map_map, List.range_eq_range']
    have : (fun x => supp K (present (dedup W) x) e) = fun x => supp K (present W.plain x) e := by
      funext x; rw [present_dedup]
    rw [this]
    apply List.map_congr_left
    intro x _
    exact raise_evAt hin hW e x
  rw [← hspec]
  have hrel : Rel K W ⟨fun _ => 0, 0⟩ ⟨fun _ => 0, 0⟩ := ⟨rfl, fun k _ => (off_zero _).symm⟩
  -- the loop that is not a merge loop reads one position
  have hleaf : ∀ k ∈ e.leaves, K k = some compressedAttr → It.lev k ∈ r.iters := by
    intro k hk hK
    rcases Point.mem_all.1 (hroot k hk (by rw [hK]; simp)) with h' | h'
    · exact h'
    · obtain ⟨j, hj, _, hd⟩ := h.locs r hrL _ h'
      cases hj; rw [hd] at hK; exact absurd hK (by decide)
  unfold runForall at habs
  unfold runForallC
  simp only at habs ⊢
  rw [hlat] at habs ⊢
  match hri : r.iters with
  | [] => exact absurd hri (h.ne r hrL)
  | [.dim] =>
    rw [hri] at habs
    simp only [Option.some.injEq] at habs ⊢
    refine ⟨_, rfl, ?_⟩
    have hn : (dedup W).n = W.n := rfl
    rw [hn] at habs
    rw [← habs, List.map_map, List.map_map]
    apply List.map_congr_left
    intro c _
    simp only [Function.comp, raise, CEvent.plain, Prod.mk.injEq, true_and]
    have h0 : e.leaves.filter (fun k => (K k).elim false (·.posIter)) = [] := by
      rw [List.filter_eq_nil_iff]
      intro k hk hp
      cases hKk : K k with
      | none => rw [hKk] at hp; simp at hp
      | some a =>
        rw [hKk] at hp
        rcases hin k a hKk with rfl | rfl
        · cases hp
        · have := hleaf k hk hKk
          rw [hri] at this; simp at this
    simp only [readsC, readsOf, h0, List.map_nil]
  | [.lev k0] =>
    rw [hri] at habs
    simp only
    have hk0 := (h.iters r hrL k0 (by rw [hri]; simp)).2
    cases hu : W.uniq k0 with
    | true =>
      simp only [if_true]
      refine ⟨_, rfl, ?_⟩
      simp only [Option.some.injEq] at habs
      have hn : (dedup W).n = W.n := rfl
      rw [hn] at habs
      have hord := (hW k0 hk0).1
      rw [hu] at hord
      have hru := runs_unique (l := W.crd k0) (by simpa [ordered] using hord)
      have hcr : (dedup W).crd k0 = W.crd k0 := by
        show (runs (W.crd k0)).map Prod.fst = W.crd k0
        rw [hru, List.map_map]; exact List.map_id _
      rw [← habs, hcr]
      unfold positionEvents
      rw [List.map_map, List.map_map]
      apply List.map_congr_left
      intro cp hcp
      have hget := List.mem_zipIdx_iff_getElem?.1 hcp
      simp only [Function.comp, raise, CEvent.plain, Prod.mk.injEq, true_and, readsC, readsOf, List.map_map]
      apply List.map_congr_left
      intro k hk
      rw [List.mem_filter] at hk
      cases hKk : K k with
      | none => rw [hKk] at hk; simp at hk
      | some a =>
        rw [hKk] at hk
        rcases hin k a hKk with rfl | rfl
        · cases hk.2
        · have := hleaf k hk.1 hKk
          rw [hri, List.mem_singleton] at this
          have hkk : k = k0 := It.lev.inj this
          subst hkk
          simp only [Function.comp, if_true, endOf, hu]
          have hoff : off (runs (W.crd k)) cp.2 = cp.2 := by
            have hl := (List.getElem?_eq_some_iff.1 hget).1
            rw [hru]
            unfold off
            rw [← List.map_take, List.map_map]
            have : ∀ (l : List Nat), (l.map (Prod.snd ∘ fun x => (x, 1))).sum = l.length := by
              intro l; induction l with
              | nil => rfl
              | cons a as ih => rw [List.map_cons, List.sum_cons, ih, List.length_cons]; simp only [Function.comp]; omega
            rw [this, List.length_take]
            omega
          rw [hoff]
    | false =>
      simp only [Bool.false_eq_true, if_false]
      rw [getLoopLattice_id h (List.Sublist.refl _)]
      -- the position loop over distinct coordinates is a merge loop as well
      have hmerge := points_spec hin h hI (makeLattice K srt e) [] rfl fuel ⟨fun _ => 0, 0⟩ 0 inv_init
        (by intro q hq; cases hq) hpot
      exact points_sim hin h hW _ (fun p hp => hp) fuel _ _ _ hrel hmerge
  | x :: y :: zs =>
    rw [hri] at habs
    simp only at habs ⊢
    rw [getLoopLattice_id h (List.Sublist.refl _)] at habs ⊢
    exact points_sim hin h hW _ (fun p hp => hp) fuel _ _ _ hrel habs

end Verif.Coo
