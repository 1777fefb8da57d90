import Verif.Window.Sim
/-! The sequence of windowed merge loops, and the single position loop. -/
namespace Verif.Window
open Verif.Search Verif.Merge Verif.Merge.Expr

variable {V : Type}

theorem mem_compLeaves {K : Ctx} {e : Expr V} {k : Nat} :
    k ∈ compLeaves K e ↔ k ∈ e.leaves ∧ K k = some compressedAttr := by
  simp [compLeaves]

/-- What an operand of the statement of a point is when it is compressed: an iterator of the point. -/
theorem leaf_mem_iters {K : Ctx} {e : Expr V} {L : List Point} (hin : InTree K) (h : LoopOK K e L) {p : Point}
    (hp : p ∈ L) {e' : Expr V} (he : e.zeroOut (exhausted L p) = some e') {k : Nat} (hk : k ∈ e'.leaves)
    (ha : ∃ a, K k = some a ∧ a.posIter = true) : It.lev k ∈ p.iters := by
  obtain ⟨hkl, hz⟩ := leaves_zeroOut he k hk
  rw [exhausted_eq h hp hkl] at hz
  obtain ⟨a, hKa, hpi⟩ := ha
  unfold zRest at hz
  rw [hKa] at hz
  simp only [Option.isSome_some, Bool.true_and, Bool.not_eq_false', decide_eq_true_eq] at hz
  rcases Point.mem_all.1 hz with h' | h'
  · exact h'
  · obtain ⟨j, hj, _, hd⟩ := h.locs p hp _ h'
    cases hj
    rw [hd] at hKa
    cases hKa
    cases hpi

section
variable {K : Ctx} {e : Expr V} {L : List Point} (hin : InTree K) (h : LoopOK K e L) {W : WInput}
  (hW : ∀ k ∈ compLeaves K e, AccOK (W.acc k) W.n)
include hin h hW

theorem points_sim : ∀ (ps : List Point), (∀ p ∈ ps, p ∈ L) →
    ∀ (F f : Nat) (st sa : St) (evs : List (Event V)), Rel (compLeaves K e) W st sa →
      runPoints K (absInput W) L e f ps sa = some evs → f + rest W (compLeaves K e) st + ps.length ≤ F →
      runPointsW K W L e F ps st = some (evs.map (raise W)) := by
  intro ps
  induction ps with
  | nil =>
    intro _ F f st sa evs _ hrun _
    rw [runPoints] at hrun
    cases hrun
    rfl
  | cons p ps ih =>
    intro hps F f st sa evs hr hrun hF
    have hp := hps p List.mem_cons_self
    obtain ⟨qs, hqs⟩ := h.sub_front hp
    unfold runPoints at hrun
    simp only at hrun
    unfold runPointsW
    rw [hqs] at hrun ⊢
    simp only at hrun ⊢
    rw [← hqs] at hrun ⊢
    cases hw : runWhile K (absInput W) (subLattice L p) p (e.zeroOut (exhausted L p)) f sa with
    | none => rw [hw] at hrun; cases hrun
    | some out =>
      rw [hw] at hrun
      simp only at hrun
      simp only [List.length_cons] at hF
      obtain ⟨outW, w1, w2, w3, w4⟩ := while_sim hW (K := K) (p := p) (lat := subLattice L p)
        (stmt := e.zeroOut (exhausted L p)) (h.ne p hp)
        (getLoopLattice_id h List.filter_sublist)
        (by
          intro x hx
          cases x with
          | dim => exact mergers_dim h hp (by rw [hx]; exact List.mem_cons_self)
          | lev k => rw [mergers_nodim h hp (by rw [hx]; simp)]; exact hx)
        (fun k hk => mem_compLeaves.2 (h.iters p hp k hk))
        (fun k hk => (mem_rangers_lev h hp).2 hk)
        (fun q hq x hx => (mem_subLattice.1 hq).2 hx)
        (fun e' he' k hk ha => leaf_mem_iters hin h hp he' hk ha)
        F f ps.length st sa out hr hw (by omega)
      rw [w1]
      simp only
      cases hrec : runPoints K (absInput W) L e out.fuel ps out.st with
      | none => rw [hrec] at hrun; cases hrun
      | some evs' =>
        rw [hrec] at hrun
        simp only [Option.some.injEq] at hrun
        rw [ih (fun q hq => hps q (List.mem_cons_of_mem _ hq)) outW.fuel out.fuel _ _ evs' w2 hrec w3]
        simp only
        rw [← hrun, w4, List.map_append]

end

/-! ### the coordinates selected -/

theorem segment_getElem? (A : Acc) (i : Nat) (hi : i < A.e - A.s) : A.segment[i]? = A.arr[A.s + i]? := by
  unfold Acc.segment
  rw [List.getElem?_take_of_lt hi, List.getElem?_drop]

theorem segment_length {A : Acc} {n : Nat} (h : AccOK A n) : A.segment.length = A.e - A.s := by
  unfold Acc.segment
  have := h.len; have := h.se
  simp; omega

theorem mem_segment {A : Acc} {n : Nat} (h : AccOK A n) {x : Int} :
    x ∈ A.segment ↔ ∃ p, A.s ≤ p ∧ p < A.e ∧ A.arr[p]? = some x := by
  rw [List.mem_iff_getElem?]
  constructor
  · rintro ⟨i, hi⟩
    have hl : i < A.segment.length := (List.getElem?_eq_some_iff.1 hi).1
    rw [segment_length h] at hl
    rw [segment_getElem? A i hl] at hi
    exact ⟨A.s + i, by omega, by omega, hi⟩
  · rintro ⟨p, h1, h2, h3⟩
    refine ⟨p - A.s, ?_⟩
    rw [segment_getElem? A _ (by omega)]
    have : A.s + (p - A.s) = p := by omega
    rw [this]; exact h3

theorem segment_sorted {A : Acc} {n : Nat} (h : AccOK A n) : A.segment.Pairwise (· < ·) := by
  rw [List.pairwise_iff_getElem]
  intro i j hi hj hij
  rw [segment_length h] at hi hj
  have h1 := segment_getElem? A i hi
  have h2 := segment_getElem? A j hj
  rw [List.getElem?_eq_getElem (by rw [segment_length h]; omega)] at h1 h2
  exact h.strict (A.s + i) (A.s + j) _ _ (by omega) (by omega) (by omega) h1.symm h2.symm

theorem mem_sel {A : Acc} {n : Nat} (h : AccOK A n) {p c : Nat} :
    (p, c) ∈ sel A ↔ A.s ≤ p ∧ p < A.e ∧ A.arr[p]? = some (A.coord c) ∧ c < n := by
  unfold sel
  rw [List.mem_filterMap]
  constructor
  · rintro ⟨q, hq, hpk⟩
    rw [List.mem_range'_1] at hq
    unfold pick at hpk
    split at hpk
    · rename_i d hd
      simp only [Option.some.injEq, Prod.mk.injEq] at hpk
      obtain ⟨rfl, rfl⟩ := hpk
      obtain ⟨h1, h2, h3⟩ := (load_ok_iff h hq.1 d).1 hd
      exact ⟨hq.1, h1, h2, h3⟩
    · cases hpk
  · rintro ⟨h1, h2, h3, h4⟩
    refine ⟨p, List.mem_range'_1.2 (by omega), ?_⟩
    unfold pick
    rw [(load_ok_iff h h1 c).2 ⟨h2, h3, h4⟩]

theorem sel_sorted {A : Acc} {n : Nat} (h : AccOK A n) :
    (sel A).Pairwise (fun a b => a.1 < b.1 ∧ a.2 < b.2) := by
  have h1 : (sel A).Pairwise (fun a b => a.1 < b.1) := by
    unfold sel
    rw [List.pairwise_filterMap]
    refine List.Pairwise.imp ?_ List.pairwise_lt_range'
    intro p q hpq a ha b hb
    have hfst : ∀ {p : Nat} {a : Nat × Nat}, pick A p = some a → a.1 = p := by
      intro p a ha
      unfold pick at ha
      split at ha
      · cases ha; rfl
      · cases ha
    rw [hfst ha, hfst hb]; exact hpq
  refine List.Pairwise.imp_of_mem ?_ h1
  rintro ⟨p, c⟩ ⟨q, d⟩ hpc hqd hlt
  refine ⟨hlt, ?_⟩
  obtain ⟨a1, a2, a3, a4⟩ := (mem_sel h).1 hpc
  obtain ⟨b1, b2, b3, b4⟩ := (mem_sel h).1 hqd
  exact (coord_lt h).1 (h.strict p q _ _ a1 hlt b2 a3 b3)

theorem stores_iff {A : Acc} {n : Nat} (h : AccOK A n) {c : Nat} (hc : c < n) :
    A.stores c = true ↔ c ∈ (sel A).map Prod.snd := by
  unfold Acc.stores
  rw [decide_eq_true_eq, mem_segment h, List.mem_map]
  constructor
  · rintro ⟨p, h1, h2, h3⟩
    exact ⟨(p, c), (mem_sel h).2 ⟨h1, h2, h3, hc⟩, rfl⟩
  · rintro ⟨⟨p, d⟩, hm, rfl⟩
    obtain ⟨h1, h2, h3, _⟩ := (mem_sel h).1 hm
    exact ⟨p, h1, h2, h3⟩

theorem idxOf_pairwise {l : List Int} (hs : l.Pairwise (· < ·)) {i : Nat} {x : Int} (hx : l[i]? = some x) :
    l.idxOf x = i := by
  induction l generalizing i with
  | nil => simp at hx
  | cons a as ih =>
    rw [List.pairwise_cons] at hs
    cases i with
    | zero =>
      simp only [List.getElem?_cons_zero, Option.some.injEq] at hx
      subst hx; simp
    | succ i =>
      rw [List.getElem?_cons_succ] at hx
      have hm : x ∈ as := List.mem_of_getElem? hx
      have hne : a ≠ x := by have := hs.1 x hm; omega
      rw [List.idxOf_cons, ih hs.2 hx]
      have : (a == x) = false := by simpa using hne
      rw [this]; rfl

theorem posOf_eq {A : Acc} {n : Nat} (h : AccOK A n) {p c : Nat} (hm : (p, c) ∈ sel A) : A.posOf c = p := by
  obtain ⟨h1, h2, h3, _⟩ := (mem_sel h).1 hm
  unfold Acc.posOf
  have : A.segment[p - A.s]? = some (A.coord c) := by
    rw [segment_getElem? A _ (by omega)]
    have : A.s + (p - A.s) = p := by omega
    rw [this]; exact h3
  rw [idxOf_pairwise (segment_sorted h) this]
  omega

/-- Looking up a selected coordinate finds its position. -/
theorem sel_idxOf {A : Acc} {n : Nat} (h : AccOK A n) {c : Nat} (hm : c ∈ (sel A).map Prod.snd) :
    (((sel A)[((sel A).map Prod.snd).idxOf c]?).map Prod.fst).getD 0 = A.posOf c := by
  have hl := List.idxOf_lt_length_of_mem hm
  have hl' : ((sel A).map Prod.snd).idxOf c < (sel A).length := by simpa using hl
  rw [List.getElem?_eq_getElem hl']
  simp only [Option.map_some, Option.getD_some]
  have hc : ((sel A)[((sel A).map Prod.snd).idxOf c]).2 = c := by
    have := List.getElem_idxOf hl
    rw [List.getElem_map] at this
    exact this
  have hmem := List.getElem_mem hl'
  symm
  apply posOf_eq h
  have heq : (sel A)[((sel A).map Prod.snd).idxOf c] = (((sel A)[((sel A).map Prod.snd).idxOf c]).1, c) := by
    exact Prod.ext rfl hc
  rw [← heq]; exact hmem

/-! ### the single position loop -/

theorem sorted_pairs_eq {l m : List (Nat × Int)} (hl : Ascending l) (hm : Ascending m)
    (h : ∀ x, x ∈ l ↔ x ∈ m) : l = m := by
  have hnd : ∀ {l : List (Nat × Int)}, Ascending l → l.Nodup := by
    intro l hl
    refine List.Pairwise.imp ?_ hl
    rintro a b ⟨h1, _⟩ hab
    rw [hab] at h1; omega
  have hp : l.Perm m := (List.perm_ext_iff_of_nodup (hnd hl) (hnd hm)).2 h
  refine hp.eq_of_pairwise ?_ hl hm
  rintro a b _ _ h1 h2
  omega

theorem posLoop_eq {A : Acc} {n : Nat} (h : AccOK A n) :
    posLoop A = some ((sel A).map (fun pc => (pc.1, (pc.2 : Int)))) := by
  have hasc : Ascending ((sel A).map (fun pc => (pc.1, (pc.2 : Int)))) := by
    unfold Ascending
    rw [List.pairwise_map]
    refine (sel_sorted h).imp ?_
    rintro a b ⟨h1, h2⟩
    exact ⟨h1, by simpa using h2⟩
  unfold posLoop
  cases hw : A.win with
  | some w =>
    obtain ⟨hl, hsz, hst, hn⟩ := h.win w hw
    obtain ⟨out, o1, o2, o3⟩ := serialLoop_spec (w := w) A.s hst h.se hl h.len hsz h.strict
    simp only
    rw [o1]
    congr 1
    apply sorted_pairs_eq o2 hasc
    rintro ⟨p, k⟩
    rw [o3, List.mem_map]
    constructor
    · rintro ⟨h1, h2, ⟨x, hx, hk, hxe⟩, h4⟩
      refine ⟨(p, k.toNat), (mem_sel h).2 ⟨h1, h2, ?_, by omega⟩, ?_⟩
      · unfold Acc.coord
        rw [hw]
        simp only
        rw [hx, hxe]
        have : ((k.toNat : Nat) : Int) = k := by omega
        rw [this]
      · simp; omega
    · rintro ⟨⟨q, c⟩, hm, heq⟩
      simp only [Prod.mk.injEq] at heq
      obtain ⟨rfl, rfl⟩ := heq
      obtain ⟨h1, h2, h3, h4⟩ := (mem_sel h).1 hm
      unfold Acc.coord at h3
      rw [hw] at h3
      exact ⟨h1, h2, ⟨_, h3, by omega, rfl⟩, by omega⟩
  | none =>
    simp only
    have key : ∀ (m b : Nat), A.s ≤ b → b + m = A.e →
        (List.range' b m).mapM (fun p => (A.arr[p]?).map (fun x => (p, x))) =
        some (((List.range' b m).filterMap (pick A)).map (fun pc => (pc.1, (pc.2 : Int)))) := by
      intro m
      induction m with
      | zero => intro b _ _; rfl
      | succ m ih =>
        intro b hb hbm
        rw [List.range'_succ, List.mapM_cons, ih (b + 1) (by omega) (by omega), List.filterMap_cons]
        have hl : b < A.arr.length := by have := h.len; omega
        have hget := List.getElem?_eq_getElem hl
        obtain ⟨h0, hn⟩ := h.bounds hw b _ hb (by omega) hget
        have hpk : pick A b = some (b, A.arr[b].toNat) := by
          unfold pick
          rw [(load_ok_iff h hb A.arr[b].toNat).2 ⟨by omega, ?_, by omega⟩]
          unfold Acc.coord
          rw [hw, hget]
          simp only [Option.some.injEq]
          omega
        rw [hget, hpk]
        simp only [Option.map_some, List.map_cons]
        have : ((A.arr[b].toNat : Nat) : Int) = A.arr[b] := by omega
        rw [this]
        rfl
    exact key _ _ (Nat.le_refl _) (by have := h.se; omega)

/-! ### the whole loop -/

theorem startPos_spec {A : Acc} {n : Nat} (h : AccOK A n) : ∃ b, startPos A = some b ∧ A.s ≤ b ∧ b ≤ A.e ∧
    cnt A b = 0 ∧ ∀ w, A.win = some w → ∀ p x, b ≤ p → p < A.e → A.arr[p]? = some x → w.lo ≤ x := by
  unfold startPos
  cases hw : A.win with
  | none => exact ⟨A.s, rfl, Nat.le_refl _, h.se, cnt_start A, by intro w hw'; cases hw'⟩
  | some w =>
    obtain ⟨hl, hsz, hst, hn⟩ := h.win w hw
    obtain ⟨b, hb, hlb⟩ := search_spec A.arr A.s A.e w.lo h.se hl h.len hsz h.strict
    refine ⟨b, hb, hlb.1, hlb.2.1, ?_, ?_⟩
    · unfold cnt
      rw [List.length_eq_zero_iff, List.filterMap_eq_nil_iff]
      intro p hp
      rw [List.mem_range'_1] at hp
      unfold pick
      split
      · rename_i c hc
        exfalso
        obtain ⟨_, h2, _⟩ := (load_ok_iff h hp.1 c).1 hc
        have := hlb.2.2.1 p _ hp.1 (by omega) h2
        unfold Acc.coord at this
        rw [hw] at this
        simp only at this
        have : 0 ≤ (c : Int) * w.stride := Int.mul_nonneg (by omega) (by omega)
        omega
      · rfl
    · intro w' hw'
      cases hw'
      exact ge_lo_of_start h.strict hlb

theorem startAll_spec {W : WInput} : ∀ (its : List It), (∀ k, .lev k ∈ its → AccOK (W.acc k) W.n) →
    ∃ f, startAll W its = some f ∧ ∀ k, .lev k ∈ its → startPos (W.acc k) = some (f k) := by
  intro its
  induction its with
  | nil => intro _; exact ⟨_, rfl, by intro k hk; cases hk⟩
  | cons x xs ih =>
    intro h
    obtain ⟨f, hf, hfs⟩ := ih (fun k hk => h k (List.mem_cons_of_mem _ hk))
    cases x with
    | dim =>
      refine ⟨f, hf, ?_⟩
      intro k hk
      rcases List.mem_cons.1 hk with hk | hk
      · cases hk
      · exact hfs k hk
    | lev j =>
      obtain ⟨b, hb, _⟩ := startPos_spec (h j List.mem_cons_self)
      rw [startAll, hb, hf]
      refine ⟨_, rfl, ?_⟩
      intro k hk
      by_cases hkj : k = j
      · subst hkj; rw [if_pos rfl]; exact hb
      · rw [if_neg hkj]
        rcases List.mem_cons.1 hk with hk | hk
        · cases hk; exact absurd rfl hkj
        · exact hfs k hk

/-- A budget that is always enough: the size of the dimension, the stored coordinates twice (once
for visiting, once for skipping) and one iteration per loop for leaving it at the end of a window. -/
def budget (K : Ctx) (srt : List Point → List Point) (W : WInput) (e : Expr V) : Nat :=
  W.n + 2 * ((compLeaves K e).map (fun k => (W.acc k).e - (W.acc k).s)).sum + (makeLattice K srt e).length

theorem sel_length {A : Acc} : (sel A).length ≤ A.e - A.s := by
  unfold sel
  refine Nat.le_trans (List.length_filterMap_le _ _) ?_
  simp

/-- Loops over windows of the operands execute the events of the loop over the selected
coordinates. -/
theorem forallW_sim {K : Ctx} (hin : InTree K) {srt : List Point → List Point} (hs : SortSpec srt)
    {e : Expr V} (hlin : consistent K e) {W : WInput} (hW : ∀ k ∈ compLeaves K e, AccOK (W.acc k) W.n)
    (hI : InputOK K (absInput W)) {fuel : Nat} (hfuel : budget K srt W e ≤ fuel) :
    runForallW K srt W fuel e = some ((spanEvents K e (absInput W) 0 W.n).map (raise W)) := by
  have h : LoopOK K e (makeLattice K srt e) := (latOK_build hin hs e hlin).loop
  obtain ⟨r, rs, hL, hr, hroot⟩ := h.root
  have hrL : r ∈ makeLattice K srt e := by rw [hL]; exact List.mem_cons_self
  have hlat : latIters (makeLattice K srt e) = r.iters := by rw [hL]; rfl
  have hpot : potential K e (absInput W) ⟨fun _ => 0, 0⟩ 0 ≤
      W.n + ((compLeaves K e).map (fun k => (W.acc k).e - (W.acc k).s)).sum := by
    unfold potential
    split
    · show W.n - 0 ≤ _; omega
    · refine Nat.le_trans ?_ (Nat.le_add_left _ _)
      apply sum_le
      intro k _
      show ((sel (W.acc k)).map Prod.snd).length - 0 ≤ _
      rw [List.length_map]
      exact sel_length
  have habs := forall_spec hin hs hlin hI hpot
  unfold runForall at habs
  unfold runForallW
  simp only at habs ⊢
  rw [hlat] at habs ⊢
  have hleaf : ∀ k ∈ e.leaves, K k = some compressedAttr → It.lev k ∈ r.iters := by
    intro k hk hK
    rcases Point.mem_all.1 (hroot k hk (by rw [hK]; simp)) with h' | h'
    · exact h'
    · obtain ⟨j, hj, _, hd⟩ := h.locs r hrL _ h'
      cases hj; rw [hd] at hK; exact absurd hK (by decide)
  match hri : r.iters with
  | [] => exact absurd hri (h.ne r hrL)
  | [.dim] =>
    rw [hri] at habs
    simp only [Option.some.injEq] at habs ⊢
    have hn : (absInput W).n = W.n := rfl
    rw [hn] at habs
    rw [← habs, List.map_map]
    apply List.map_congr_left
    intro c _
    simp only [Function.comp, raise, Event.mk.injEq, true_and]
    have : readsOf K (fun _ => 0) (some e) = [] := by
      simp only [readsOf]
      rw [List.map_eq_nil_iff, List.filter_eq_nil_iff]
      intro k hk hp
      cases hKk : K k with
      | none => rw [hKk] at hp; simp at hp
      | some a =>
        rw [hKk] at hp
        rcases hin k a hKk with rfl | rfl
        · cases hp
        · have := hleaf k hk hKk
          rw [hri] at this; simp at this
    rw [this]; rfl
  | [.lev k0] =>
    rw [hri] at habs
    simp only [Option.some.injEq] at habs ⊢
    have hk0 := h.iters r hrL k0 (by rw [hri]; simp)
    have hA := hW k0 (mem_compLeaves.2 hk0)
    have hn : (absInput W).n = W.n := rfl
    rw [hn] at habs
    rw [posLoop_eq hA, Option.map_some, ← habs]
    congr 1
    rw [List.map_map, List.map_map]
    show _ = List.map _ (((sel (W.acc k0)).map Prod.snd).zipIdx)
    rw [List.zipIdx_map, List.map_map]
    -- the number of a selected coordinate is its index
    apply List.ext_getElem?
    intro i
    rw [List.getElem?_map, List.getElem?_map, List.getElem?_zipIdx]
    cases hi : (sel (W.acc k0))[i]? with
    | none => rfl
    | some pc =>
      simp only [Option.map_some, Function.comp, Option.some.injEq, Nat.zero_add]
      unfold raise
      simp only [Prod.map, id, Int.toNat_natCast, Event.mk.injEq, true_and, readsOf, List.map_map]
      apply List.map_congr_left
      intro k hk
      rw [List.mem_filter] at hk
      cases hKk : K k with
      | none => rw [hKk] at hk; simp at hk
      | some a =>
        rw [hKk] at hk
        rcases hin k a hKk with rfl | rfl
        · cases hk.2
        · have := hleaf k hk.1 hKk
          rw [hri, List.mem_singleton] at this
          cases this
          simp [hi]
  | x :: y :: zs =>
    rw [hri] at habs
    simp only at habs ⊢
    rw [← hri]
    obtain ⟨f, hf, hfs⟩ := startAll_spec (W := W) r.iters
      (fun k hk => hW k (mem_compLeaves.2 (h.iters r hrL k hk)))
    rw [hf]
    simp only
    rw [getLoopLattice_id h (List.Sublist.refl _)] at habs ⊢
    have hst : ∀ k ∈ compLeaves K e, ∃ b, f k = b ∧ (W.acc k).s ≤ b ∧ b ≤ (W.acc k).e ∧ cnt (W.acc k) b = 0 ∧
        ∀ w, (W.acc k).win = some w → ∀ p x, b ≤ p → p < (W.acc k).e → (W.acc k).arr[p]? = some x → w.lo ≤ x := by
      intro k hk
      obtain ⟨h1, h2⟩ := mem_compLeaves.1 hk
      obtain ⟨b, hb, h3⟩ := startPos_spec (hW k hk)
      have := hfs k (hleaf k h1 h2)
      rw [this] at hb
      cases hb
      exact ⟨_, rfl, h3⟩
    refine points_sim hin h hW (makeLattice K srt e) (fun p hp => hp) fuel _ ⟨f, 0⟩ ⟨fun _ => 0, 0⟩ _ ?_ habs ?_
    · constructor
      · rfl
      · intro k hk; obtain ⟨b, rfl, h1, _⟩ := hst k hk; exact h1
      · intro k hk; obtain ⟨b, rfl, _, h1, _⟩ := hst k hk; exact h1
      · intro k hk; obtain ⟨b, rfl, _, _, _, h1⟩ := hst k hk; exact h1
      · intro k hk; obtain ⟨b, rfl, _, _, h1, _⟩ := hst k hk; exact h1.symm
    · have hrest : rest W (compLeaves K e) ⟨f, 0⟩ ≤
          ((compLeaves K e).map (fun k => (W.acc k).e - (W.acc k).s)).sum := by
        apply sum_le
        intro k hk
        obtain ⟨b, rfl, h1, _⟩ := hst k hk
        show _ - f k ≤ _
        omega
      unfold budget at hfuel
      omega

end Verif.Window
