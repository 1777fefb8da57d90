import Verif.Merge.Lattice
/-! The loop lattice: facts about `makeLattice`, `getLoopLattice` and `subLattice`. -/
namespace Verif.Merge
open Expr

variable {V : Type}

/-- Facts about a loop lattice. -/
structure LoopOK (K : Ctx) (e : Expr V) (L : List Point) : Prop where
  prod : ∀ p ∈ L, p.isOm = false
  nodupI : ∀ p ∈ L, p.iters.Nodup
  nodupL : ∀ p ∈ L, p.locs.Nodup
  iters : ∀ p ∈ L, ∀ k, .lev k ∈ p.iters → k ∈ e.leaves ∧ K k = some compressedAttr
  locs : ∀ p ∈ L, ∀ x ∈ p.locs, ∃ k, x = .lev k ∧ k ∈ e.leaves ∧ K k = some denseAttr
  ne : ∀ p ∈ L, p.iters ≠ []
  flag : ∀ p ∈ L, .dim ∈ p.iters ↔ supp K (fun _ => false) e = true
  sound : ∀ p ∈ L, ∀ R, spSub p R → supp K R e = true
  cover : ∀ R, supp K R e = true → ∃ p ∈ L, spSub p R ∧
    e.zeroOut (zRest K p) = e.zeroOut (zAbs K R) ∧ ∀ q ∈ L, spSub q R → q.all ⊆ p.all
  sorted : L.Pairwise (fun a b => a.size ≥ b.size)
  distinct : L.Pairwise (fun a b => ¬ ∀ x, x ∈ a.iters ↔ x ∈ b.iters)
  root : ∃ p ps, L = p :: ps ∧ (∀ q ∈ L, q.all ⊆ p.all) ∧
    ∀ k ∈ e.leaves, K k ≠ none → It.lev k ∈ p.all

theorem isFull_iters {K : Ctx} {e : Expr V} {p : Point}
    (h : ∀ k, .lev k ∈ p.iters → k ∈ e.leaves ∧ K k = some compressedAttr)
    {x : It} (hx : x ∈ p.iters) : x.isFull K = true ↔ x = .dim := by
  cases x with
  | dim => simp [It.isFull]
  | lev k => simp [It.isFull, (h k hx).2, compressedAttr]

theorem removeLackFull_filter {K : Ctx} {e : Expr V} {p : Point} {ps : List Point}
    (h : ∀ k, .lev k ∈ p.iters → k ∈ e.leaves ∧ K k = some compressedAttr) :
    removeLackFull K (p :: ps) =
      (p :: ps).filter (fun q => decide (It.dim ∈ p.iters → It.dim ∈ q.iters)) := by
  unfold removeLackFull
  apply List.filter_congr
  intro q _
  rw [Bool.eq_iff_iff, List.all_eq_true, decide_eq_true_eq]
  simp only [latIters, List.mem_filter, decide_eq_true_eq]
  constructor
  · intro hall hd; exact hall .dim ⟨hd, rfl⟩
  · rintro hd x ⟨hx, hf⟩
    rw [(isFull_iters h hx).1 hf]
    exact hd (by rw [← (isFull_iters h hx).1 hf]; exact hx)

theorem removeIdentical_cons_nil (p : Point) (ps : List Point) :
    removeIdentical [] (p :: ps) = p :: removeIdentical [p.iters] ps := by
  have hd : removeIdentical [] (p :: ps) =
    if containsSet [] p.iters then removeIdentical [] ps
    else p :: removeIdentical [p.iters] ps := rfl
  rw [hd, if_neg]; simp [containsSet]

theorem removeIdentical_id : ∀ (ps : List Point) (seen : List (List It)),
    ps.Pairwise (fun a b => ¬ ∀ x, x ∈ a.iters ↔ x ∈ b.iters) →
    (∀ p ∈ ps, ∀ s ∈ seen, ¬ ∀ x, x ∈ s ↔ x ∈ p.iters) →
    removeIdentical seen ps = ps := by
  intro ps
  induction ps with
  | nil => intros; rfl
  | cons p ps ih =>
    intro seen hd hs
    have hd' : removeIdentical seen (p :: ps) =
      if containsSet seen p.iters then removeIdentical seen ps
      else p :: removeIdentical (p.iters :: seen) ps := rfl
    rw [List.pairwise_cons] at hd
    rw [hd', if_neg, ih _ hd.2]
    · intro q hq s hs'
      rcases List.mem_cons.1 hs' with rfl | hs'
      · exact hd.1 q hq
      · exact hs q (List.mem_cons_of_mem _ hq) s hs'
    · intro hc
      obtain ⟨t, ht, hx⟩ := containsSet_iff.1 hc
      exact hs p List.mem_cons_self t ht hx

/-- The loop lattice of a lattice satisfying the construction invariant. -/
theorem LatOK.loop {K : Ctx} {e : Expr V} {L : List Point} (h : LatOK K e L) :
    LoopOK K e (getLoopLattice K L) := by
  obtain ⟨p, ps, rfl, hroot, hdim⟩ := h.root
  have hpm : p ∈ p :: ps := List.mem_cons_self
  have hrf := removeLackFull_filter (ps := ps) (h.iters p hpm)
  unfold getLoopLattice
  rw [hrf]
  generalize hF : (p :: ps).filter (fun q => decide (It.dim ∈ p.iters → It.dim ∈ q.iters)) = F
  have hFm : ∀ q, q ∈ F ↔ q ∈ p :: ps ∧ (It.dim ∈ p.iters → It.dim ∈ q.iters) := by
    intro q; rw [← hF, List.mem_filter, decide_eq_true_eq]
  have hFs : F.Pairwise (fun a b => a.size ≥ b.size) := by
    rw [← hF]; exact h.sorted.sublist List.filter_sublist
  have hsub := removeIdentical_sublist [] F
  have hin : ∀ q ∈ removeIdentical [] F, q ∈ p :: ps := fun q hq => ((hFm q).1 (hsub.subset hq)).1
  refine { prod := fun q hq => h.prod q (hin q hq), nodupI := fun q hq => h.nodupI q (hin q hq),
           nodupL := fun q hq => h.nodupL q (hin q hq), iters := fun q hq => h.iters q (hin q hq),
           locs := fun q hq => h.locs q (hin q hq), ne := fun q hq => h.ne q (hin q hq),
           flag := ?_, sound := fun q hq => h.sound q (hin q hq), cover := ?_,
           sorted := hFs.sublist hsub, distinct := (removeIdentical_distinct F []).1, root := ?_ }
  · intro q hq
    obtain ⟨h1, h2⟩ := (hFm q).1 (hsub.subset hq)
    exact ⟨h.dimOnly q h1, fun hf => h2 (hdim.2 hf)⟩
  · intro R hR
    obtain ⟨m, hm, m1, m2, m3, m4⟩ := h.cover R hR
    have hmF : m ∈ F := (hFm m).2 ⟨hm, fun hd => m2 (hdim.1 hd)⟩
    rcases removeIdentical_rep F [] m hmF hFs with ⟨t, ht, _⟩ | ⟨q, hq, hsz, hit⟩
    · cases ht
    · have hqR : spSub q R := fun k hk => m1 k ((hit _).1 hk)
      have hqm := m4 q (hin q hq) hqR
      have hmq := subset_of_size h.toRawOK (hin q hq) hqm (by omega)
      have hall : ∀ x, x ∈ q.all ↔ x ∈ m.all := fun x => ⟨fun h => hqm h, fun h => hmq h⟩
      refine ⟨q, hq, hqR, by rw [zRest_congr hall]; exact m3, ?_⟩
      intro q' hq' hs x hx
      exact hmq (m4 q' (hin q' hq') hs hx)
  · have hFp : F = p :: ps.filter (fun q => decide (It.dim ∈ p.iters → It.dim ∈ q.iters)) := by
      rw [← hF, List.filter_cons, if_pos (by simp)]
    refine ⟨p, _, by rw [hFp, removeIdentical_cons_nil], ?_, ?_⟩
    · intro q hq; exact hroot q (hin q hq)
    · intro k hk hK
      obtain ⟨q, hq, hl⟩ := h.leavesIn k hk hK
      exact hroot q hq hl

theorem LoopOK.all_nodup {K : Ctx} {e : Expr V} {L : List Point} (h : LoopOK K e L) {p : Point} (hp : p ∈ L) :
    p.all.Nodup := by
  unfold Point.all
  rw [List.nodup_append]
  refine ⟨h.nodupI p hp, h.nodupL p hp, ?_⟩
  intro x hx y hy hxy
  subst hxy
  obtain ⟨k, rfl, _, hd⟩ := h.locs p hp x hy
  have := (h.iters p hp k hx).2
  rw [hd] at this; exact absurd this (by decide)

theorem LoopOK.iters_of_all {K : Ctx} {e : Expr V} {L : List Point} (h : LoopOK K e L) {p q : Point}
    (hp : p ∈ L) (hq : q ∈ L) (hs : p.all ⊆ q.all) : p.iters ⊆ q.iters := by
  intro x hx
  rcases Point.mem_all.1 (hs (Point.mem_all.2 (Or.inl hx))) with h' | h'
  · exact h'
  · obtain ⟨k, rfl, _, hd⟩ := h.locs q hq x h'
    have := (h.iters p hp k hx).2
    rw [hd] at this; exact absurd this (by decide)

/-- Points with the same iterators are equal. -/
theorem pairwise_eq {L : List Point} (hd : L.Pairwise (fun a b => ¬ ∀ x, x ∈ a.iters ↔ x ∈ b.iters))
    {p q : Point} (hp : p ∈ L) (hq : q ∈ L) (hi : ∀ x, x ∈ p.iters ↔ x ∈ q.iters) : p = q := by
  induction L with
  | nil => cases hp
  | cons a as ih =>
    rw [List.pairwise_cons] at hd
    rcases List.mem_cons.1 hp with rfl | hp' <;> rcases List.mem_cons.1 hq with rfl | hq'
    · rfl
    · exact absurd hi (hd.1 q hq')
    · exact absurd (fun x => (hi x).symm) (hd.1 p hp')
    · exact ih hd.2 hp' hq'

theorem LoopOK.eq_of_size {K : Ctx} {e : Expr V} {L : List Point} (h : LoopOK K e L) {p q : Point}
    (hp : p ∈ L) (hq : q ∈ L) (hs : p.all ⊆ q.all) (hsz : q.size ≤ p.size) : p = q := by
  have hqp : q.all ⊆ p.all := by
    rw [Point.size_eq, Point.size_eq] at hsz
    exact subset_of_length_le (h.all_nodup hp) hs hsz
  exact pairwise_eq h.distinct hp hq
    (fun x => ⟨fun hx => h.iters_of_all hp hq hs hx, fun hx => h.iters_of_all hq hp hqp hx⟩)

/-- In a loop lattice, inclusion of iterators is inclusion of everything. -/
theorem LoopOK.all_of_iters {K : Ctx} {e : Expr V} {L : List Point} (h : LoopOK K e L) {p q : Point}
    (hp : p ∈ L) (hq : q ∈ L) (hi : q.iters ⊆ p.iters) : q.all ⊆ p.all := by
  let R : Nat → Bool := fun k => decide (It.lev k ∈ p.iters)
  have hpR : spSub p R := by intro k hk; simp [R, hk]
  have hqR : spSub q R := by intro k hk; simp [R, hi hk]
  obtain ⟨m, hm, m1, _, m4⟩ := h.cover R (h.sound p hp R hpR)
  have hpm := m4 p hp hpR
  have hmi : m.iters ⊆ p.iters := by
    intro x hx
    cases x with
    | dim => exact (h.flag p hp).2 ((h.flag m hm).1 hx)
    | lev k => simpa [R] using m1 k hx
  have : p = m := pairwise_eq h.distinct hp hm
    (fun x => ⟨fun hx => h.iters_of_all hp hm hpm hx, fun hx => hmi hx⟩)
  rw [this]; exact m4 q hq hqR

theorem mem_subLattice {L : List Point} {p q : Point} :
    q ∈ subLattice L p ↔ q ∈ L ∧ q.iters ⊆ p.iters := by
  unfold subLattice
  rw [List.mem_filter, List.all_eq_true]
  simp only [decide_eq_true_eq]
  exact Iff.rfl

/-- The first point of the sublattice of a point is the point. -/
theorem LoopOK.sub_front {K : Ctx} {e : Expr V} {L : List Point} (h : LoopOK K e L) {p : Point}
    (hp : p ∈ L) : ∃ ps, subLattice L p = p :: ps := by
  have hps : p ∈ subLattice L p := mem_subLattice.2 ⟨hp, fun _ h => h⟩
  have hsorted : (subLattice L p).Pairwise (fun a b => a.size ≥ b.size) :=
    h.sorted.sublist List.filter_sublist
  cases hs : subLattice L p with
  | nil => rw [hs] at hps; cases hps
  | cons f fs =>
    have hf : f ∈ subLattice L p := by rw [hs]; exact List.mem_cons_self
    obtain ⟨hfL, hfi⟩ := mem_subLattice.1 hf
    have hsz : p.size ≤ f.size := by
      rw [hs] at hps hsorted
      rcases List.mem_cons.1 hps with rfl | hps'
      · exact Nat.le_refl _
      · exact (List.pairwise_cons.1 hsorted).1 p hps'
    have : f = p := h.eq_of_size hfL hp (h.all_of_iters hp hfL hfi) hsz
    rw [this]; exact ⟨fs, rfl⟩

/-- Lists of loop lattice points are unchanged by `getLoopLattice`. -/
theorem getLoopLattice_id {K : Ctx} {e : Expr V} {L M : List Point} (h : LoopOK K e L)
    (hsub : M.Sublist L) : getLoopLattice K M = M := by
  cases M with
  | nil => rfl
  | cons p ps =>
    have hm : ∀ q ∈ p :: ps, q ∈ L := fun q hq => hsub.subset hq
    have hp := hm p List.mem_cons_self
    unfold getLoopLattice
    rw [removeLackFull_filter (h.iters p hp)]
    have : (p :: ps).filter (fun q => decide (It.dim ∈ p.iters → It.dim ∈ q.iters)) = p :: ps := by
      rw [List.filter_eq_self]
      intro q hq
      rw [decide_eq_true_eq]
      intro hd
      exact (h.flag q (hm q hq)).2 ((h.flag p hp).1 hd)
    rw [this]
    apply removeIdentical_id
    · exact h.distinct.sublist hsub
    · intro q _ s hs; cases hs

end Verif.Merge
