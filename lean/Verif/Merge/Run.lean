import Verif.Merge.LoopLat
/-! The merge loops visit exactly the structurally nonzero coordinates, in order, and execute the
expression restricted to the operands that are present. -/
namespace Verif.Merge
open Expr

variable {V : Type}

/-- The compressed segments are strictly increasing and inside the dimension. -/
def InputOK (K : Ctx) (I : Input) : Prop :=
  ∀ k, K k = some compressedAttr → (I.crd k).Pairwise (· < ·) ∧ ∀ x ∈ I.crd k, x < I.n

/-- Accesses whose segment has the coordinate. -/
def present (I : Input) (c : Nat) : Nat → Bool := fun k => decide (c ∈ I.crd k)

/-! ### sorted segments -/

theorem countP_sorted {l : List Nat} (hs : l.Pairwise (· < ·)) {t c y : Nat}
    (hy : l[l.countP (fun x => decide (x < t))]? = some y) (htc : t ≤ c) :
    t ≤ y ∧ (∀ x ∈ l, t ≤ x → y ≤ x) ∧
    (c ≤ y → l.countP (fun x => decide (x < c + 1)) =
      l.countP (fun x => decide (x < t)) + if y = c then 1 else 0) := by
  induction l with
  | nil => simp at hy
  | cons a as ih =>
    rw [List.pairwise_cons] at hs
    by_cases ha : a < t
    · have h1 : ∀ s, t ≤ s → (a :: as).countP (fun x => decide (x < s)) =
          as.countP (fun x => decide (x < s)) + 1 := by
        intro s hts
        rw [List.countP_cons_of_pos]; simp; omega
      rw [h1 t (Nat.le_refl _), List.getElem?_cons_succ] at hy
      obtain ⟨i1, i2, i3⟩ := ih hs.2 hy
      refine ⟨i1, ?_, ?_⟩
      · intro x hx htx
        rcases List.mem_cons.1 hx with rfl | hx
        · omega
        · exact i2 x hx htx
      · intro hcy
        rw [h1 (c+1) (by omega), h1 t (Nat.le_refl _), i3 hcy]; omega
    · have h0 : (a :: as).countP (fun x => decide (x < t)) = 0 := by
        rw [List.countP_eq_zero]
        intro x hx
        rcases List.mem_cons.1 hx with rfl | hx
        · simpa using ha
        · have := hs.1 x hx; simp; omega
      rw [h0, List.getElem?_cons_zero, Option.some.injEq] at hy
      subst hy
      refine ⟨by omega, ?_, ?_⟩
      · intro x hx _
        rcases List.mem_cons.1 hx with rfl | hx
        · exact Nat.le_refl _
        · exact Nat.le_of_lt (hs.1 x hx)
      · intro hcy
        rw [h0, Nat.zero_add]
        by_cases hac : a = c
        · subst hac
          rw [if_pos rfl, List.countP_cons_of_pos (by simp)]
          have : as.countP (fun x => decide (x < a + 1)) = 0 := by
            rw [List.countP_eq_zero]
            intro x hx
            have := hs.1 x hx; simp; omega
          omega
        · rw [if_neg hac, List.countP_eq_zero]
          intro x hx
          rcases List.mem_cons.1 hx with rfl | hx
          · simp; omega
          · have := hs.1 x hx; simp; omega

theorem idxOf_of_getElem? {l : List Nat} (hs : l.Pairwise (· < ·)) {p y : Nat} (hy : l[p]? = some y) :
    l.idxOf y = p := by
  obtain ⟨hp, rfl⟩ := List.getElem?_eq_some_iff.1 hy
  have hn : l.Nodup := hs.imp (fun h => Nat.ne_of_lt h)
  exact hn.idxOf_getElem p hp

theorem countP_lt_length {l : List Nat} {t x : Nat} (hx : x ∈ l) (htx : t ≤ x) :
    l.countP (fun x => decide (x < t)) < l.length := by
  rcases Nat.lt_or_ge (l.countP (fun x => decide (x < t))) l.length with h | h
  · exact h
  · have h' := List.countP_le_length (p := fun x => decide (x < t)) (l := l)
    have := List.countP_eq_length.1 (Nat.le_antisymm h' h) x hx
    simp at this; omega

theorem countP_mono (l : List Nat) {t t' : Nat} (h : t ≤ t') :
    l.countP (fun x => decide (x < t)) ≤ l.countP (fun x => decide (x < t')) := by
  apply List.countP_mono_left
  intro x _ hx; simp at hx ⊢; omega

theorem zipIdx_map_sorted {β : Type} {l : List Nat} (hs : l.Pairwise (· < ·)) (f : Nat × Nat → β) :
    l.zipIdx.map f = l.map (fun x => f (x, l.idxOf x)) := by
  apply List.ext_getElem?
  intro i
  rw [List.getElem?_map, List.getElem?_map, List.getElem?_zipIdx]
  cases hi : l[i]? with
  | none => rfl
  | some y => simp [idxOf_of_getElem? hs hi]

/-! ### the minimum -/

theorem minList_spec : ∀ (l : List Nat), l ≠ [] → ∃ m, minList l = some m ∧ m ∈ l ∧ ∀ x ∈ l, m ≤ x
  | [], h => absurd rfl h
  | [x], _ => ⟨x, rfl, by simp, by simp⟩
  | x :: y :: ys, _ => by
    obtain ⟨m, h1, h2, h3⟩ := minList_spec (y :: ys) (by simp)
    have : minList (x :: y :: ys) = (minList (y :: ys)).map (fun m => min x m) := rfl
    refine ⟨min x m, by rw [this, h1]; rfl, ?_, ?_⟩
    · rcases Nat.le_total x m with h | h
      · rw [Nat.min_eq_left h]; exact List.mem_cons_self
      · rw [Nat.min_eq_right h]; exact List.mem_cons_of_mem _ h2
    · intro z hz
      rcases List.mem_cons.1 hz with rfl | hz
      · exact Nat.min_le_left _ _
      · exact Nat.le_trans (Nat.min_le_right _ _) (h3 z hz)

theorem mapM_some {α β : Type} (f : α → Option β) : ∀ (l : List α), (∀ x ∈ l, (f x).isSome) →
    ∃ r, l.mapM f = some r ∧ (∀ y, y ∈ r ↔ ∃ x ∈ l, f x = some y) ∧ (l ≠ [] → r ≠ [])
  | [], _ => ⟨[], rfl, by simp, by simp⟩
  | a :: as, h => by
    obtain ⟨b, hb⟩ := Option.isSome_iff_exists.1 (h a List.mem_cons_self)
    obtain ⟨r, h1, h2, _⟩ := mapM_some f as (fun x hx => h x (List.mem_cons_of_mem _ hx))
    refine ⟨b :: r, by simp [List.mapM_cons, hb, h1], ?_, by simp⟩
    intro y
    rw [List.mem_cons, h2]
    constructor
    · rintro (rfl | ⟨x, hx, hy⟩)
      · exact ⟨a, List.mem_cons_self, hb⟩
      · exact ⟨x, List.mem_cons_of_mem _ hx, hy⟩
    · rintro ⟨x, hx, hy⟩
      rcases List.mem_cons.1 hx with rfl | hx
      · rw [hb] at hy; left; exact (Option.some.inj hy).symm
      · exact Or.inr ⟨x, hx, hy⟩

theorem resolve_spec (I : Input) (st : St) (ms : List It) (hne : ms ≠ [])
    (hs : ∀ x ∈ ms, (coordOf I st x).isSome) :
    ∃ c, resolve I st ms = some c ∧ (∃ x ∈ ms, coordOf I st x = some c) ∧
      ∀ x ∈ ms, ∀ y, coordOf I st x = some y → c ≤ y := by
  match ms, hne, hs with
  | [x], _, hs =>
    obtain ⟨c, hc⟩ := Option.isSome_iff_exists.1 (hs x (by simp))
    refine ⟨c, hc, ⟨x, by simp, hc⟩, ?_⟩
    intro z hz y hy
    rw [List.mem_singleton] at hz; subst hz
    rw [hc] at hy; cases hy; exact Nat.le_refl _
  | x :: z :: zs, _, hs =>
    obtain ⟨r, h1, h2, h3⟩ := mapM_some (coordOf I st) (x :: z :: zs) hs
    obtain ⟨m, m1, m2, m3⟩ := minList_spec r (h3 (by simp))
    have : resolve I st (x :: z :: zs) = ((x :: z :: zs).mapM (coordOf I st)).bind minList := rfl
    refine ⟨m, by rw [this, h1]; exact m1, (h2 m).1 m2, ?_⟩
    intro w hw y hy
    exact m3 y ((h2 y).2 ⟨w, hw, hy⟩)

/-! ### rangers and mergers -/

section points
variable {K : Ctx} {e : Expr V} {L : List Point} (h : LoopOK K e L) {p : Point} (hp : p ∈ L)
include h hp

theorem full_iff {x : It} (hx : x ∈ p.iters) : x.isFull K = true ↔ x = .dim :=
  isFull_iters (h.iters p hp) hx

theorem mem_rangers_lev {k : Nat} : It.lev k ∈ p.rangers K ↔ It.lev k ∈ p.iters := by
  unfold Point.rangers
  split
  · rw [List.mem_filter]
    constructor
    · exact fun h => h.1
    · intro hk
      refine ⟨hk, ?_⟩
      have := full_iff h hp hk
      cases hf : It.isFull K (.lev k) with
      | false => rfl
      | true => rw [hf] at this; exact absurd (this.1 rfl) (by simp)
  · exact Iff.rfl

theorem mem_rangers_dim : It.dim ∈ p.rangers K ↔ It.dim ∈ p.iters ∧ ∀ k, It.lev k ∉ p.iters := by
  unfold Point.rangers
  split
  · rename_i hany
    rw [List.mem_filter]
    constructor
    · rintro ⟨_, hf⟩; simp [It.isFull] at hf
    · rintro ⟨_, hn⟩
      rw [List.any_eq_true] at hany
      obtain ⟨x, hx, hf⟩ := hany
      cases x with
      | dim => simp [It.isFull] at hf
      | lev k => exact absurd hx (hn k)
  · rename_i hany
    constructor
    · intro hd
      refine ⟨hd, ?_⟩
      intro k hk
      apply hany
      rw [List.any_eq_true]
      refine ⟨_, hk, ?_⟩
      have := full_iff h hp hk
      cases hf : It.isFull K (.lev k) with
      | false => rfl
      | true => rw [hf] at this; exact absurd (this.1 rfl) (by simp)
    · exact fun h => h.1

theorem mergers_dim (hd : It.dim ∈ p.iters) : p.mergers K = [.dim] := by
  unfold Point.mergers
  rw [if_pos (List.any_eq_true.2 ⟨.dim, hd, rfl⟩)]
  have : p.iters.filter (fun x => x.isFull K) = p.iters.filter (fun x => x == .dim) := by
    apply List.filter_congr
    intro x hx
    have := full_iff h hp hx
    rw [Bool.eq_iff_iff, this]; simp
  rw [this, List.filter_beq]
  have hc : p.iters.count .dim = 1 := (h.nodupI p hp).count.trans (if_pos hd)
  rw [hc]; rfl

theorem mergers_nodim (hd : It.dim ∉ p.iters) : p.mergers K = p.iters := by
  unfold Point.mergers
  rw [if_neg]
  · have : p.iters.filter (fun x => !x.isFull K && x.isDim) = [] := by
      rw [List.filter_eq_nil_iff]
      intro x hx
      have : x.isDim = false := by
        cases x with
        | dim => exact absurd hx hd
        | lev k => rfl
      simp [this]
    simp [this]
  · intro ha
    rw [List.any_eq_true] at ha
    obtain ⟨x, hx, hf⟩ := ha
    rw [(full_iff h hp hx).1 hf] at hx
    exact hd hx

end points

/-! ### the invariant -/

/-- Iterator `k` stands at the first coordinate that is at least `t`. -/
def synced (I : Input) (st : St) (t k : Nat) : Prop :=
  st.pos k = (I.crd k).countP (fun x => decide (x < t))

/-- The loop of a point can not run any more. -/
def dead (I : Input) (st : St) (q : Point) : Prop :=
  (∃ k, .lev k ∈ q.iters ∧ st.pos k = (I.crd k).length) ∨ ((∀ k, .lev k ∉ q.iters) ∧ I.n ≤ st.i)

/-- The invariant of the merge loops: everything below `t` has been handled. -/
structure Inv (K : Ctx) (e : Expr V) (L : List Point) (I : Input) (st : St) (t : Nat) : Prop where
  le : ∀ k, st.pos k ≤ (I.crd k).countP (fun x => decide (x < t))
  pts : ∀ q ∈ L, (∀ k, .lev k ∈ q.iters → synced I st t k) ∨ dead I st q
  dim : supp K (fun _ => false) e = true → st.i = t
  tn : t ≤ I.n

/-- The events of the coordinates `t ≤ x < t'` that are structurally nonzero. -/
def evAt (K : Ctx) (e : Expr V) (I : Input) (x : Nat) : Event V :=
  ⟨x, e.zeroOut (zAbs K (present I x)),
    readsOf K (fun k => (I.crd k).idxOf x) (e.zeroOut (zAbs K (present I x)))⟩

def spanEvents (K : Ctx) (e : Expr V) (I : Input) (t len : Nat) : List (Event V) :=
  ((List.range' t len).filter (fun x => supp K (present I x) e)).map (evAt K e I)

theorem spanEvents_append (K : Ctx) (e : Expr V) (I : Input) (t a b : Nat) :
    spanEvents K e I t (a + b) = spanEvents K e I t a ++ spanEvents K e I (t + a) b := by
  unfold spanEvents
  rw [← List.map_append, ← List.filter_append]
  have : List.range' t (a + b) = List.range' t a ++ List.range' (t + a) b := by
    have := @List.range'_append t a b 1
    simpa using this.symm
  rw [this]

theorem readsOf_congr {K : Ctx} {f g : Nat → Nat} {s : Option (Expr V)}
    (h : ∀ e', s = some e' → ∀ k ∈ e'.leaves, (∃ a, K k = some a ∧ a.posIter = true) → f k = g k) :
    readsOf K f s = readsOf K g s := by
  cases s with
  | none => rfl
  | some e' =>
    simp only [readsOf]
    apply List.map_congr_left
    intro k hk
    rw [List.mem_filter] at hk
    cases hK : K k with
    | none => rw [hK] at hk; simp at hk
    | some a =>
      rw [hK] at hk
      rw [h e' rfl k hk.1 ⟨a, hK, hk.2⟩]

theorem spanEvents_nil {K : Ctx} {e : Expr V} {I : Input} {t len : Nat}
    (h : ∀ x, t ≤ x → x < t + len → supp K (present I x) e = false) : spanEvents K e I t len = [] := by
  unfold spanEvents
  rw [List.filter_eq_nil_iff.2]
  · rfl
  · intro x hx
    rw [List.mem_range'_1] at hx
    rw [h x hx.1 hx.2]; simp

section run
variable {K : Ctx} {e : Expr V} {L : List Point} (hin : InTree K) (h : LoopOK K e L) {I : Input}
  (hI : InputOK K I)
include h

theorem exhausted_eq {p : Point} (hp : p ∈ L) {k : Nat} (hk : k ∈ e.leaves) :
    exhausted L p k = zRest K p k := by
  obtain ⟨r, rs, hL, hr, hroot⟩ := h.root
  unfold exhausted zRest
  have h1 : (latIters L ++ latLocs L).any (fun x => x == .lev k) = decide (It.lev k ∈ r.all) := by
    rw [hL, Bool.eq_iff_iff, List.any_eq_true, decide_eq_true_eq]
    simp [latIters, latLocs, Point.all]
  have h2 : p.region.any (fun x => x == .lev k) = decide (It.lev k ∈ p.all) := by
    rw [Bool.eq_iff_iff, List.any_eq_true, decide_eq_true_eq, Point.mem_all]
    constructor
    · rintro ⟨x, hx, hxe⟩
      rw [beq_iff_eq] at hxe; subst hxe
      rcases Point.mem_region.1 hx with h' | h'
      · exact Or.inl h'.1
      · exact Or.inr h'
    · intro hx
      exact ⟨_, Point.mem_region.2 (hx.imp (fun h => ⟨h, rfl⟩) id), by simp⟩
  rw [h1, h2]
  congr 1
  rw [Bool.eq_iff_iff, decide_eq_true_eq]
  constructor
  · intro hx
    have hrL : r ∈ L := by rw [hL]; exact List.mem_cons_self
    rcases Point.mem_all.1 hx with h' | h'
    · rw [(h.iters r hrL k h').2]; rfl
    · obtain ⟨j, hj, _, hd⟩ := h.locs r hrL _ h'
      cases hj; rw [hd]; rfl
  · intro hs
    exact hroot k hk (by intro hc; rw [hc] at hs; cases hs)

theorem exhausted_sub {p q : Point} (hp : p ∈ L) (hq : q ∈ subLattice L p) (k : Nat) :
    exhausted (subLattice L p) q k = (decide (It.lev k ∈ p.all) && !decide (It.lev k ∈ q.all)) := by
  obtain ⟨ps, hps⟩ := h.sub_front hp
  unfold exhausted
  have h1 : (latIters (subLattice L p) ++ latLocs (subLattice L p)).any (fun x => x == .lev k) =
      decide (It.lev k ∈ p.all) := by
    rw [hps, Bool.eq_iff_iff, List.any_eq_true, decide_eq_true_eq]
    simp [latIters, latLocs, Point.all]
  have h2 : q.region.any (fun x => x == .lev k) = decide (It.lev k ∈ q.all) := by
    rw [Bool.eq_iff_iff, List.any_eq_true, decide_eq_true_eq, Point.mem_all]
    constructor
    · rintro ⟨x, hx, hxe⟩
      rw [beq_iff_eq] at hxe; subst hxe
      rcases Point.mem_region.1 hx with h' | h'
      · exact Or.inl h'.1
      · exact Or.inr h'
    · intro hx
      exact ⟨_, Point.mem_region.2 (hx.imp (fun h => ⟨h, rfl⟩) id), by simp⟩
  rw [h1, h2]

/-- The two rewrites of the statement compose to the rewrite of the case point. -/
theorem stmt_eq {p q : Point} (hp : p ∈ L) (hq : q ∈ subLattice L p) :
    zeroOutOpt (exhausted (subLattice L p) q) (e.zeroOut (exhausted L p)) = e.zeroOut (zRest K q) := by
  obtain ⟨hqL, hqi⟩ := mem_subLattice.1 hq
  have hall := h.all_of_iters hp hqL hqi
  rw [zeroOutOpt_zeroOut]
  apply zeroOut_congr
  intro k hk
  rw [exhausted_eq h hp hk, exhausted_sub h hp hq]
  unfold zRest
  by_cases h1 : It.lev k ∈ p.all
  · have hs : (K k).isSome = true := by
      rcases Point.mem_all.1 h1 with h' | h'
      · rw [(h.iters p hp k h').2]; rfl
      · obtain ⟨j, hj, _, hd⟩ := h.locs p hp _ h'
        cases hj; rw [hd]; rfl
    simp [h1, hs]
  · have h2 : It.lev k ∉ q.all := fun hc => h1 (hall hc)
    simp [h1, h2]

/-- A point that is not dead is included in the point whose loop runs. -/
theorem alive_sub {st : St} {t : Nat} (hv : Inv K e L I st t) {p : Point} (hp : p ∈ L)
    (hpa : ¬ dead I st p) {before after : List Point} (hL : L = before ++ p :: after)
    (hdone : ∀ q ∈ before, dead I st q) (hflag : supp K (fun _ => false) e = true → st.i < I.n) :
    ∀ q ∈ L, (∀ k, .lev k ∈ q.iters → ∃ x ∈ I.crd k, t ≤ x) → q.all ⊆ p.all := by
  let X : Nat → Bool := fun k => (I.crd k).any (fun x => decide (t ≤ x))
  have hX : ∀ k, X k = true ↔ ∃ x ∈ I.crd k, t ≤ x := by
    intro k; simp [X, List.any_eq_true]
  have hpX : spSub p X := by
    intro k hk
    rw [hX]
    rcases hv.pts p hp with hs | hd
    · have hlt : st.pos k ≠ (I.crd k).length := fun hc => hpa (Or.inl ⟨k, hk, hc⟩)
      have hle := List.countP_le_length (p := fun x => decide (x < t)) (l := I.crd k)
      have hs' : st.pos k = _ := hs k hk
      apply Classical.byContradiction
      intro hn
      have : (I.crd k).countP (fun x => decide (x < t)) = (I.crd k).length := by
        rw [List.countP_eq_length]
        intro x hx
        simp only [decide_eq_true_eq]
        apply Classical.byContradiction
        intro hge; exact hn ⟨x, hx, by omega⟩
      omega
    · exact absurd hd hpa
  obtain ⟨m, hm, m1, _, m4⟩ := h.cover X (h.sound p hp X hpX)
  have hma : ¬ dead I st m := by
    rintro (⟨k, hk, hpos⟩ | ⟨hno, hn⟩)
    · obtain ⟨x, hx, htx⟩ := (hX k).1 (m1 k hk)
      have := countP_lt_length hx htx
      have := hv.le k
      omega
    · have hd : It.dim ∈ m.iters := by
        cases hmi : m.iters with
        | nil => exact absurd hmi (h.ne m hm)
        | cons y ys =>
          have hy : y ∈ m.iters := by rw [hmi]; exact List.mem_cons_self
          cases y with
          | dim => exact List.mem_cons_self
          | lev k => exact absurd hy (hno k)
      have := hflag ((h.flag m hm).1 hd)
      omega
  have hpm := m4 p hp hpX
  have heq : p = m := by
    rw [hL, List.mem_append] at hm
    rcases hm with hb | hm'
    · exact absurd (hdone m hb) hma
    · rcases List.mem_cons.1 hm' with rfl | ha
      · rfl
      · have hm : m ∈ L := by rw [hL]; exact List.mem_append.2 (Or.inr (List.mem_cons_of_mem _ ha))
        have hs := h.sorted
        rw [hL] at hs
        have := (List.pairwise_append.1 hs).2.1
        have hsz := (List.pairwise_cons.1 this).1 m ha
        exact h.eq_of_size hp hm hpm hsz
  intro q hq hqx
  rw [heq]
  exact m4 q hq (fun k hk => (hX k).2 (hqx k hk))

theorem unexhausted_iff {st : St} {t : Nat} (hv : Inv K e L I st t) {p : Point} (hp : p ∈ L) :
    unexhausted I st (p.rangers K) = true ↔ ¬ dead I st p := by
  unfold unexhausted
  rw [List.all_eq_true]
  constructor
  · rintro hall (⟨k, hk, hpos⟩ | ⟨hno, hn⟩)
    · have := hall _ ((mem_rangers_lev h hp).2 hk)
      simp only [decide_eq_true_eq] at this
      omega
    · have hd : It.dim ∈ p.iters := by
        cases hmi : p.iters with
        | nil => exact absurd hmi (h.ne p hp)
        | cons y ys =>
          have hy : y ∈ p.iters := by rw [hmi]; exact List.mem_cons_self
          cases y with
          | dim => exact List.mem_cons_self
          | lev k => exact absurd hy (hno k)
      have := hall _ ((mem_rangers_dim h hp).2 ⟨hd, hno⟩)
      simp only [decide_eq_true_eq] at this
      omega
  · intro hnd x hx
    cases x with
    | dim =>
      have := (mem_rangers_dim h hp).1 hx
      simp only [decide_eq_true_eq]
      apply Classical.byContradiction
      intro hc; exact hnd (Or.inr ⟨this.2, by omega⟩)
    | lev k =>
      have hk := (mem_rangers_lev h hp).1 hx
      simp only [decide_eq_true_eq]
      have h1 := hv.le k
      have h2 := List.countP_le_length (p := fun x => decide (x < t)) (l := I.crd k)
      apply Classical.byContradiction
      intro hc; exact hnd (Or.inl ⟨k, hk, by omega⟩)

theorem advance_pos {st : St} {c : Nat} {p : Point} (hp : p ∈ L)
    (hload : ∀ k, p.iters = [.lev k] → coordOf I st (.lev k) = some c) (k : Nat) :
    (advance K I st c p).pos k =
      if .lev k ∈ p.iters then (if coordOf I st (.lev k) = some c then st.pos k + 1 else st.pos k)
      else st.pos k := by
  have hinc : ∀ j, .lev j ∈ p.iters →
      incIter K I st c j = if coordOf I st (.lev j) = some c then st.pos j + 1 else st.pos j := by
    intro j hj
    unfold incIter
    have : It.isFull K (.lev j) = false := by
      have := full_iff h hp hj
      cases hf : It.isFull K (.lev j) with
      | false => rfl
      | true => rw [hf] at this; exact absurd (this.1 rfl) (by simp)
    rw [this]; simp
  unfold advance
  split
  · rename_i hp'; rw [hp']; simp
  · rename_i j hp'
    rw [hp']
    by_cases hkj : k = j
    · subst hkj; simp [hload k hp']
    · simp [hkj]
  · simp only
    split
    · rename_i hk; exact hinc k hk
    · rfl

omit h in
theorem advance_i {st : St} {c : Nat} {p : Point} :
    (advance K I st c p).i = if .dim ∈ p.iters then st.i + 1 else st.i := by
  unfold advance
  split
  · rename_i hp'; rw [hp']; simp
  · rename_i j hp'; rw [hp']; simp
  · rfl

end run

/-- What a case search finds: the first matching point, if the unconditional last clause is only
used when some point matches. -/
theorem firstCase_spec (m : Point → Bool) (b : Bool) : ∀ (ps : List Point),
    (b = true → ∃ p ∈ ps, m p = true) →
    firstCase m b ps = ps.find? m
  | [], _ => rfl
  | [p], hb => by
    have h1 : firstCase m b [p] = if b || m p then some p else none := rfl
    rw [h1]
    cases hm : m p with
    | true => simp [hm]
    | false =>
      cases b with
      | false => simp [hm]
      | true =>
        obtain ⟨q, hq, hqm⟩ := hb rfl
        rw [List.mem_singleton] at hq; subst hq
        rw [hm] at hqm; cases hqm
  | p :: q :: ps, hb => by
    have h1 : firstCase m b (p :: q :: ps) = if m p then some p else firstCase m b (q :: ps) := rfl
    rw [h1]
    cases hm : m p with
    | true => simp [hm]
    | false =>
      rw [List.find?_cons, hm]
      simp only [Bool.false_eq_true, if_false]
      apply firstCase_spec m b (q :: ps)
      intro hbt
      obtain ⟨r, hr, hrm⟩ := hb hbt
      rcases List.mem_cons.1 hr with rfl | hr
      · rw [hm] at hrm; cases hrm
      · exact ⟨r, hr, hrm⟩

/-- What is left to do: the rest of the dimension if a full iterator takes part, otherwise the
stored coordinates not yet passed. -/
def potential (K : Ctx) (e : Expr V) (I : Input) (st : St) (t : Nat) : Nat :=
  if supp K (fun _ => false) e then I.n - t
  else ((e.leaves.filter (fun k => decide (K k = some compressedAttr))).map
    (fun k => (I.crd k).length - st.pos k)).sum

theorem sum_le {α : Type} {l : List α} {f g : α → Nat} (h : ∀ x ∈ l, f x ≤ g x) :
    (l.map f).sum ≤ (l.map g).sum := by
  induction l with
  | nil => simp
  | cons a as ih =>
    have h1 := h a List.mem_cons_self
    have h2 := ih (fun x hx => h x (List.mem_cons_of_mem _ hx))
    simp only [List.map_cons, List.sum_cons]; omega

theorem sum_lt {α : Type} {l : List α} {f g : α → Nat} (h : ∀ x ∈ l, f x ≤ g x)
    (hx : ∃ x ∈ l, f x < g x) : (l.map f).sum < (l.map g).sum := by
  induction l with
  | nil => obtain ⟨x, hx, _⟩ := hx; cases hx
  | cons a as ih =>
    have h1 := h a List.mem_cons_self
    have h2 := sum_le (fun x hx => h x (List.mem_cons_of_mem a hx))
    simp only [List.map_cons, List.sum_cons]
    obtain ⟨x, hx, hlt⟩ := hx
    rcases List.mem_cons.1 hx with rfl | hx
    · omega
    · have := ih (fun x hx => h x (List.mem_cons_of_mem _ hx)) ⟨x, hx, hlt⟩; omega

section step
variable {K : Ctx} {e : Expr V} {L : List Point} (hin : InTree K) (h : LoopOK K e L) {I : Input}
  (hI : InputOK K I)
include hin h hI

/-- One iteration of the loop of a point: the loads are inside the segments, the coordinate does not
go back, the events are those of the coordinates passed, and the potential decreases. -/
theorem step_spec {st : St} {t : Nat} (hv : Inv K e L I st t) {p : Point} (hp : p ∈ L)
    (hpa : ¬ dead I st p) {before after : List Point} (hL : L = before ++ p :: after)
    (hdone : ∀ q ∈ before, dead I st q) :
    loadsOk I st p = true ∧ ∃ c, resolve I st (p.mergers K) = some c ∧ t ≤ c ∧ c < I.n ∧
      mergeCases K I st c (subLattice L p) (e.zeroOut (exhausted L p)) =
        spanEvents K e I t (c + 1 - t) ∧
      Inv K e L I (advance K I st c p) (c + 1) ∧
      (∀ q ∈ before, dead I (advance K I st c p) q) ∧
      potential K e I (advance K I st c p) (c + 1) < potential K e I st t := by
  have hsync : ∀ k, .lev k ∈ p.iters → synced I st t k := by
    rcases hv.pts p hp with hs | hd
    · exact hs
    · exact absurd hd hpa
  have hlt : ∀ k, .lev k ∈ p.iters → st.pos k < (I.crd k).length := by
    intro k hk
    have hne : st.pos k ≠ (I.crd k).length := fun hc => hpa (Or.inl ⟨k, hk, hc⟩)
    have h1 := hv.le k
    have h2 := List.countP_le_length (p := fun x => decide (x < t)) (l := I.crd k)
    omega
  -- the coordinate of each position iterator
  have hco : ∀ k, .lev k ∈ p.iters → ∃ y, coordOf I st (.lev k) = some y ∧ y ∈ I.crd k ∧ t ≤ y := by
    intro k hk
    refine ⟨(I.crd k)[st.pos k]'(hlt k hk), ?_, List.getElem_mem _, ?_⟩
    · simp [coordOf, List.getElem?_eq_getElem (hlt k hk)]
    · have hK := (h.iters p hp k hk).2
      have hy : (I.crd k)[(I.crd k).countP (fun x => decide (x < t))]? =
          some ((I.crd k)[st.pos k]'(hlt k hk)) := by
        rw [← hsync k hk, List.getElem?_eq_getElem (hlt k hk)]
      exact (countP_sorted (hI k hK).1 hy (Nat.le_refl t)).1
  have hload : ∀ x ∈ p.iters, (coordOf I st x).isSome := by
    intro x hx
    cases x with
    | dim => rfl
    | lev k => obtain ⟨y, hy, _⟩ := hco k hx; rw [hy]; rfl
  have htn : supp K (fun _ => false) e = true → st.i < I.n := by
    intro hf
    have hi := hv.dim hf
    by_cases hsp : ∃ k, .lev k ∈ p.iters
    · obtain ⟨k, hk⟩ := hsp
      obtain ⟨y, _, hy, hty⟩ := hco k hk
      have := (hI k (h.iters p hp k hk).2).2 y hy
      omega
    · apply Classical.byContradiction
      intro hc
      exact hpa (Or.inr ⟨fun k hk => hsp ⟨k, hk⟩, by omega⟩)
  have hsub := alive_sub h hv hp hpa hL hdone htn
  refine ⟨by unfold loadsOk; rw [List.all_eq_true]; exact hload, ?_⟩
  -- the resolved coordinate
  have hres : ∃ c, resolve I st (p.mergers K) = some c ∧ t ≤ c ∧ c < I.n ∧
      (∀ k y, .lev k ∈ p.iters → coordOf I st (.lev k) = some y → c ≤ y) ∧
      (supp K (fun _ => false) e = true → c = t) ∧
      (supp K (fun _ => false) e = false → ∃ k, .lev k ∈ p.iters ∧ coordOf I st (.lev k) = some c) := by
    cases hf : supp K (fun _ => false) e with
    | true =>
      have hd := (h.flag p hp).2 hf
      have hi := hv.dim hf
      refine ⟨st.i, by rw [mergers_dim h hp hd]; rfl, by omega, htn hf, ?_, fun _ => hi,
        fun hc => by cases hc⟩
      intro k y hk hy
      obtain ⟨y', hy', _, hty⟩ := hco k hk
      rw [hy] at hy'; cases hy'; omega
    | false =>
      have hd : It.dim ∉ p.iters := by
        intro hc; rw [(h.flag p hp).1 hc] at hf; cases hf
      rw [mergers_nodim h hp hd]
      obtain ⟨c, h1, ⟨x, hx, h2⟩, h3⟩ := resolve_spec I st p.iters (h.ne p hp) hload
      cases x with
      | dim => exact absurd hx hd
      | lev k =>
        obtain ⟨y, hy, hyc, hty⟩ := hco k hx
        rw [h2] at hy; cases hy
        exact ⟨c, h1, hty, (hI k (h.iters p hp k hx).2).2 c hyc,
          fun j z hj hz => h3 _ hj z hz, (fun hc => by cases hc), fun _ => ⟨k, hx, h2⟩⟩
  obtain ⟨c, hc, htc, hcn, hmin, hflagc, hnoflag⟩ := hres
  -- presence of the coordinate in an iterator of the point
  have hpres : ∀ k, .lev k ∈ p.iters → (c ∈ I.crd k ↔ coordOf I st (.lev k) = some c) := by
    intro k hk
    obtain ⟨y, hy, hyc, hty⟩ := hco k hk
    have hK := (h.iters p hp k hk).2
    have hy' : (I.crd k)[(I.crd k).countP (fun x => decide (x < t))]? = some y := by
      rw [← hsync k hk]; exact hy
    have hcy := hmin k y hk hy
    constructor
    · intro hcc
      have := (countP_sorted (hI k hK).1 hy' (Nat.le_refl t)).2.1 c hcc htc
      rw [hy]; congr 1; omega
    · intro hcc
      rw [hy] at hcc; cases hcc; exact hyc
  have hone : ∀ k, p.iters = [.lev k] → coordOf I st (.lev k) = some c := by
    intro k hk
    cases hf : supp K (fun _ => false) e with
    | true =>
      have := (h.flag p hp).2 hf
      rw [hk] at this; simp at this
    | false =>
      obtain ⟨j, hj, hjc⟩ := hnoflag hf
      rw [hk] at hj; simp at hj; rw [← hj]; exact hjc
  have hapos := advance_pos (I := I) (st := st) (c := c) h hp hone
  refine ⟨c, hc, htc, hcn, ?_, ?_, ?_, ?_⟩
  · -- events
    have hskip : ∀ x, t ≤ x → x < t + (c - t) → supp K (present I x) e = false := by
      intro x htx hxc
      cases hs : supp K (present I x) e with
      | false => rfl
      | true =>
        exfalso
        obtain ⟨m, hm, m1, _, _⟩ := h.cover _ hs
        have hmall := hsub m hm (fun k hk => ⟨x, by simpa [present] using m1 k hk, htx⟩)
        have hmi := h.iters_of_all hm hp hmall
        cases hf : supp K (fun _ => false) e with
        | true => have := hflagc hf; omega
        | false =>
          cases hmit : m.iters with
          | nil => exact h.ne m hm hmit
          | cons y ys =>
            have hy : y ∈ m.iters := by rw [hmit]; exact List.mem_cons_self
            cases y with
            | dim => rw [(h.flag m hm).1 hy] at hf; cases hf
            | lev k =>
              have hxk : x ∈ I.crd k := by simpa [present] using m1 k hy
              obtain ⟨z, hz, hzc, htz⟩ := hco k (hmi hy)
              have hK := (h.iters p hp k (hmi hy)).2
              have hz' : (I.crd k)[(I.crd k).countP (fun x => decide (x < t))]? = some z := by
                rw [← hsync k (hmi hy)]; exact hz
              have h1 := (countP_sorted (hI k hK).1 hz' (Nat.le_refl t)).2.1 x hxk htx
              have h2 := hmin k z (hmi hy) hz
              omega
    have hspan : spanEvents K e I t (c + 1 - t) = spanEvents K e I c 1 := by
      have : c + 1 - t = (c - t) + 1 := by omega
      rw [this, spanEvents_append, spanEvents_nil hskip, List.nil_append]
      congr 1; omega
    rw [hspan]
    have hspan1 : spanEvents K e I c 1 =
        if supp K (present I c) e then [evAt K e I c] else [] := by
      unfold spanEvents
      simp only [List.range'_one]
      cases hs : supp K (present I c) e <;> simp [hs]
    rw [hspan1]
    obtain ⟨ps, hps⟩ := h.sub_front hp
    -- points of the sublattice below the present set
    have hmatch : ∀ q ∈ subLattice L p, caseMatches K I st c q = true ↔ spSub q (present I c) := by
      intro q hq
      obtain ⟨hqL, hqi⟩ := mem_subLattice.1 hq
      unfold caseMatches
      rw [List.all_eq_true]
      constructor
      · intro hall k hk
        have := hall _ ((mem_rangers_lev h hqL).2 hk)
        rw [beq_iff_eq] at this
        simp only [present, decide_eq_true_eq]
        exact (hpres k (hqi hk)).2 this
      · intro hsp x hx
        rw [beq_iff_eq]
        cases x with
        | dim =>
          have hd := ((mem_rangers_dim h hqL).1 hx).1
          have hf := (h.flag q hqL).1 hd
          simp only [coordOf]
          rw [hv.dim hf, hflagc hf]
        | lev k =>
          have hk := (mem_rangers_lev h hqL).1 hx
          exact (hpres k (hqi hk)).1 (by simpa [present] using hsp k hk)
    have hcover : supp K (present I c) e = true → ∃ m ∈ subLattice L p, spSub m (present I c) ∧
        e.zeroOut (zRest K m) = e.zeroOut (zAbs K (present I c)) ∧
        ∀ q ∈ L, spSub q (present I c) → q.all ⊆ m.all := by
      intro hs
      obtain ⟨m, hm, m1, m3, m4⟩ := h.cover _ hs
      have hmall := hsub m hm (fun k hk => ⟨c, by simpa [present] using m1 k hk, htc⟩)
      exact ⟨m, mem_subLattice.2 ⟨hm, h.iters_of_all hm hp hmall⟩, m1, m3, m4⟩
    have hid := getLoopLattice_id (M := subLattice L p) h List.filter_sublist
    -- the positions read by the statement of a point
    have hreads : ∀ q ∈ subLattice L p, spSub q (present I c) →
        readsOf K st.pos (e.zeroOut (zRest K q)) =
        readsOf K (fun k => (I.crd k).idxOf c) (e.zeroOut (zRest K q)) := by
      intro q hq hsp
      obtain ⟨hqL, hqi⟩ := mem_subLattice.1 hq
      apply readsOf_congr
      rintro e' he' k hk ⟨a, hKa, hpi⟩
      have hz := (leaves_zeroOut he' k hk).2
      have hqa : It.lev k ∈ q.all := by
        apply Classical.byContradiction
        intro hc; simp [zRest, hKa, hc] at hz
      have hqk : It.lev k ∈ q.iters := by
        rcases Point.mem_all.1 hqa with h' | h'
        · exact h'
        · obtain ⟨j, hj, _, hd⟩ := h.locs q hqL _ h'
          cases hj; rw [hd] at hKa; cases hKa; cases hpi
      have hK := (h.iters q hqL k hqk).2
      have hcc : c ∈ I.crd k := by simpa [present] using hsp k hqk
      have hco' := (hpres k (hqi hqk)).1 hcc
      simp only [coordOf] at hco'
      exact (idxOf_of_getElem? (hI k hK).1 hco').symm
    unfold mergeCases
    simp only [hid]
    split
    · -- a single iterator
      rename_i hlen
      rw [hps] at hlen
      simp only [latIters] at hlen
      have hpp : spSub p (present I c) := by
        intro k hk
        simp only [present, decide_eq_true_eq]
        rw [hpres k hk]
        cases hf : supp K (fun _ => false) e with
        | true =>
          have hd := (h.flag p hp).2 hf
          match hpi : p.iters, hlen with
          | [x], _ =>
            rw [hpi] at hd hk
            simp at hd hk
            rw [← hd] at hk; cases hk
        | false =>
          obtain ⟨j, hj, hjc⟩ := hnoflag hf
          match hpi : p.iters, hlen with
          | [x], _ =>
            rw [hpi] at hj hk
            simp at hj hk
            rw [← hk] at hj; cases hj; exact hjc
      have hs := h.sound p hp _ hpp
      obtain ⟨m, hm, m1, m3, m4⟩ := hcover hs
      obtain ⟨hmL, hmi⟩ := mem_subLattice.1 hm
      have hpm := m4 p hp hpp
      have hmp := h.all_of_iters hp hmL hmi
      have heq : p = m := pairwise_eq h.distinct hp hmL
        (fun x => ⟨fun hx => h.iters_of_all hp hmL hpm hx, fun hx => hmi hx⟩)
      have hst : e.zeroOut (exhausted L p) = e.zeroOut (zRest K p) :=
        zeroOut_congr (fun k hk => exhausted_eq h hp hk)
      rw [hs, if_pos rfl, hst]
      unfold evAt
      rw [← m3, ← heq, hreads p (mem_subLattice.2 ⟨hp, fun _ h => h⟩) hpp]
    · -- cases
      have hex : (exact K (subLattice L p) && decide ((subLattice L p).length > 1)) = true →
          ∃ q ∈ subLattice L p, caseMatches K I st c q = true := by
        intro hx
        rw [Bool.and_eq_true] at hx
        have hx := hx.1
        unfold exact at hx
        split at hx
        · cases hx
        · split at hx
          · rename_i hany
            rw [List.any_eq_true] at hany
            obtain ⟨q, hq, hall⟩ := hany
            refine ⟨q, hq, (hmatch q hq).2 ?_⟩
            intro k hk
            rw [List.all_eq_true] at hall
            have := (full_iff h (mem_subLattice.1 hq).1 hk).1 (hall _ hk)
            cases this
          · rw [hps] at hx
            simp only [latIters, List.all_eq_true] at hx
            have hone : ∃ x ∈ p.iters, ∀ k, x = .lev k → coordOf I st (.lev k) = some c := by
              cases hf : supp K (fun _ => false) e with
              | true => exact ⟨.dim, (h.flag p hp).2 hf, fun k hk => by cases hk⟩
              | false =>
                obtain ⟨k, hk, hkc⟩ := hnoflag hf
                exact ⟨_, hk, fun j hj => by cases hj; exact hkc⟩
            obtain ⟨x, hxp, hxc⟩ := hone
            have := hx x hxp
            rw [List.any_eq_true] at this
            obtain ⟨q, hq, hqx⟩ := this
            rw [beq_iff_eq] at hqx
            rw [← hps] at hq
            refine ⟨q, hq, (hmatch q hq).2 ?_⟩
            intro k hk
            rw [hqx, List.mem_singleton] at hk
            have hkp : It.lev k ∈ p.iters := (mem_subLattice.1 hq).2 (by rw [hqx, hk]; simp)
            simp only [present, decide_eq_true_eq]
            exact (hpres k hkp).2 (hxc k hk.symm)
      rw [firstCase_spec _ _ _ hex]
      cases hfind : (subLattice L p).find? (caseMatches K I st c) with
      | none =>
        rw [List.find?_eq_none] at hfind
        have : supp K (present I c) e = false := by
          cases hs : supp K (present I c) e with
          | false => rfl
          | true =>
            obtain ⟨m, hm, m1, _⟩ := hcover hs
            exact absurd ((hmatch m hm).2 m1) (hfind m hm)
        simp [this]
      | some q =>
        simp only
        have hq := List.mem_of_find?_eq_some hfind
        have hqm := (hmatch q hq).1 (List.find?_some hfind)
        have hqL := (mem_subLattice.1 hq).1
        have hs := h.sound q hqL _ hqm
        obtain ⟨m, hm, m1, m3, m4⟩ := hcover hs
        have hmL := (mem_subLattice.1 hm).1
        have hqm' := m4 q hqL hqm
        have heq : q = m := by
          rw [List.find?_eq_some_iff_append] at hfind
          obtain ⟨_, as, bs, happ, hnot⟩ := hfind
          rw [happ, List.mem_append] at hm
          rcases hm with hm | hm
          · have := hnot m hm
            rw [(hmatch m (by rw [happ]; exact List.mem_append.2 (Or.inl hm))).2 m1] at this
            cases this
          · rcases List.mem_cons.1 hm with hmq | hm
            · exact hmq.symm
            · have hsorted : (subLattice L p).Pairwise (fun a b => a.size ≥ b.size) :=
                h.sorted.sublist List.filter_sublist
              rw [happ] at hsorted
              have := (List.pairwise_cons.1 (List.pairwise_append.1 hsorted).2.1).1 m hm
              exact h.eq_of_size hqL hmL hqm' this
        rw [hs, if_pos rfl, stmt_eq h hp hq, hreads q hq hqm, heq, m3]
        rfl
  · -- invariant
    have hsync' : ∀ k, .lev k ∈ p.iters → synced I (advance K I st c p) (c + 1) k := by
      intro k hk
      unfold synced
      rw [hapos, if_pos hk]
      obtain ⟨y, hy, hyc, hty⟩ := hco k hk
      have hK := (h.iters p hp k hk).2
      have hy' : (I.crd k)[(I.crd k).countP (fun x => decide (x < t))]? = some y := by
        rw [← hsync k hk]; exact hy
      have hcy := hmin k y hk hy
      have := (countP_sorted (hI k hK).1 hy' htc).2.2 hcy
      rw [this, ← hsync k hk, hy]
      by_cases hyc' : y = c
      · subst hyc'; simp
      · simp [hyc']
    constructor
    · intro k
      by_cases hk : .lev k ∈ p.iters
      · rw [hsync' k hk]; exact Nat.le_refl _
      · rw [hapos, if_neg hk]
        exact Nat.le_trans (hv.le k) (countP_mono _ (by omega))
    · intro q hq
      by_cases hqd : dead I st q
      · right
        rcases hqd with ⟨k, hk, hkl⟩ | ⟨hno, hn⟩
        · refine Or.inl ⟨k, hk, ?_⟩
          rw [hapos]
          split
          · rename_i hkp
            have := hlt k hkp; omega
          · exact hkl
        · refine Or.inr ⟨hno, ?_⟩
          rw [advance_i]; split <;> omega
      · left
        intro k hk
        have hqall := hsub q hq (by
          intro j hj
          rcases hv.pts q hq with hs | hd
          · have hlt' : st.pos j ≠ (I.crd j).length := fun hc => hqd (Or.inl ⟨j, hj, hc⟩)
            have hle := List.countP_le_length (p := fun x => decide (x < t)) (l := I.crd j)
            have hs' : st.pos j = _ := hs j hj
            apply Classical.byContradiction
            intro hn
            have : (I.crd j).countP (fun x => decide (x < t)) = (I.crd j).length := by
              rw [List.countP_eq_length]
              intro x hx
              simp only [decide_eq_true_eq]
              apply Classical.byContradiction
              intro hge; exact hn ⟨x, hx, by omega⟩
            omega
          · exact absurd hd hqd)
        exact hsync' k (h.iters_of_all hq hp hqall hk)
    · intro hf
      rw [advance_i, if_pos ((h.flag p hp).2 hf), hv.dim hf, hflagc hf]
    · omega
  · intro q hq
    rcases hdone q hq with ⟨k, hk, hkl⟩ | ⟨hno, hn⟩
    · refine Or.inl ⟨k, hk, ?_⟩
      rw [hapos]
      split
      · rename_i hkp
        have := hlt k hkp; omega
      · exact hkl
    · refine Or.inr ⟨hno, ?_⟩
      rw [advance_i]; split <;> omega
  · unfold potential
    cases hf : supp K (fun _ => false) e with
    | true => simp only [if_true]; omega
    | false =>
      simp only [Bool.false_eq_true, if_false]
      apply sum_lt
      · intro k _
        rw [hapos]
        split <;> (try split) <;> omega
      · obtain ⟨k, hk, hkc⟩ := hnoflag hf
        obtain ⟨hkl, hK⟩ := h.iters p hp k hk
        refine ⟨k, List.mem_filter.2 ⟨hkl, by simp [hK]⟩, ?_⟩
        rw [hapos, if_pos hk, if_pos hkc]
        have := hlt k hk
        omega

/-- The loop of one point. -/
theorem while_spec {p : Point} (hp : p ∈ L) {before after : List Point} (hL : L = before ++ p :: after) :
    ∀ (fuel : Nat) (st : St) (t : Nat), Inv K e L I st t → (∀ q ∈ before, dead I st q) →
      potential K e I st t ≤ fuel →
      ∃ out t', t ≤ t' ∧ runWhile K I (subLattice L p) p (e.zeroOut (exhausted L p)) fuel st = some out ∧
        out.evs = spanEvents K e I t (t' - t) ∧ potential K e I out.st t' ≤ out.fuel ∧
        Inv K e L I out.st t' ∧ (∀ q ∈ before, dead I out.st q) ∧ dead I out.st p := by
  intro fuel
  induction fuel with
  | zero =>
    intro st t hv hdone hf
    unfold runWhile
    by_cases hd : dead I st p
    · have : unexhausted I st (p.rangers K) = false := by
        cases hu : unexhausted I st (p.rangers K) with
        | false => rfl
        | true => exact absurd hd ((unexhausted_iff h hv hp).1 hu)
      rw [this]
      exact ⟨⟨st, 0, []⟩, t, Nat.le_refl _, rfl, by simp [spanEvents], hf, hv, hdone, hd⟩
    · obtain ⟨_, c, _, _, _, _, _, _, hpot⟩ := step_spec hin h hI hv hp hd hL hdone
      omega
  | succ fuel ih =>
    intro st t hv hdone hf
    unfold runWhile
    by_cases hd : dead I st p
    · have : unexhausted I st (p.rangers K) = false := by
        cases hu : unexhausted I st (p.rangers K) with
        | false => rfl
        | true => exact absurd hd ((unexhausted_iff h hv hp).1 hu)
      rw [this]
      exact ⟨⟨st, fuel + 1, []⟩, t, Nat.le_refl _, rfl, by simp [spanEvents], hf, hv, hdone, hd⟩
    · rw [(unexhausted_iff h hv hp).2 hd, if_pos rfl]
      obtain ⟨hl, c, hc, htc, hcn, hev, hv', hdone', hpot⟩ := step_spec hin h hI hv hp hd hL hdone
      obtain ⟨out, t', ht', hrun, hevs, hfu, hv'', hdone'', hdead⟩ :=
        ih (advance K I st c p) (c + 1) hv' hdone' (by omega)
      rw [hl, if_pos rfl, hc]
      simp only
      rw [hrun]
      refine ⟨_, t', by omega, rfl, ?_, hfu, hv'', hdone'', hdead⟩
      simp only
      rw [hev, hevs]
      have h1 : t' - t = (c + 1 - t) + (t' - (c + 1)) := by omega
      rw [h1, spanEvents_append]
      congr 2; omega

/-- The sequence of loops. -/
theorem points_spec : ∀ (after before : List Point), L = before ++ after →
    ∀ (fuel : Nat) (st : St) (t : Nat), Inv K e L I st t → (∀ q ∈ before, dead I st q) →
    potential K e I st t ≤ fuel →
    runPoints K I L e fuel after st = some (spanEvents K e I t (I.n - t)) := by
  intro after
  induction after with
  | nil =>
    intro before hL fuel st t hv hdone _
    unfold runPoints
    congr 1
    symm
    apply spanEvents_nil
    intro x htx hxn
    cases hs : supp K (present I x) e with
    | false => rfl
    | true =>
      exfalso
      obtain ⟨m, hm, m1, _, _⟩ := h.cover _ hs
      have hmb : m ∈ before := by rw [hL, List.append_nil] at hm; exact hm
      rcases hdone m hmb with ⟨k, hk, hkl⟩ | ⟨hno, hn⟩
      · have hx : x ∈ I.crd k := by simpa [present] using m1 k hk
        have := countP_lt_length hx htx
        have := hv.le k
        omega
      · have hd : It.dim ∈ m.iters := by
          cases hmi : m.iters with
          | nil => exact absurd hmi (h.ne m hm)
          | cons y ys =>
            have hy : y ∈ m.iters := by rw [hmi]; exact List.mem_cons_self
            cases y with
            | dim => exact List.mem_cons_self
            | lev k => exact absurd hy (hno k)
        have := hv.dim ((h.flag m hm).1 hd)
        have := hv.tn
        omega
  | cons p ps ih =>
    intro before hL fuel st t hv hdone hf
    have hp : p ∈ L := by rw [hL]; simp
    obtain ⟨qs, hqs⟩ := h.sub_front hp
    obtain ⟨out, t', ht', hrun, hevs, hfu, hv', hdone', hdead⟩ :=
      while_spec hin h hI hp hL fuel st t hv hdone hf
    unfold runPoints
    simp only
    rw [hqs]
    simp only
    rw [← hqs, hrun]
    simp only
    have := ih (before ++ [p]) (by rw [hL]; simp) out.fuel out.st t' hv' (by
      intro q hq
      rcases List.mem_append.1 hq with hq | hq
      · exact hdone' q hq
      · rw [List.mem_singleton] at hq; rw [hq]; exact hdead) hfu
    rw [this]
    simp only
    congr 1
    have htn := hv'.tn
    have h1 : I.n - t = (t' - t) + (I.n - t') := by omega
    rw [h1, spanEvents_append, hevs]
    congr 2; omega

end step

theorem inv_init {K : Ctx} {e : Expr V} {L : List Point} {I : Input} :
    Inv K e L I ⟨fun _ => 0, 0⟩ 0 where
  le k := Nat.zero_le _
  pts q _ := Or.inl (fun k _ => by unfold synced; simp)
  dim _ := rfl
  tn := Nat.zero_le _

/-- The whole loop nest level. -/
theorem forall_spec {K : Ctx} (hin : InTree K) {srt : List Point → List Point} (hs : SortSpec srt)
    {e : Expr V} (hlin : consistent K e) {I : Input} (hI : InputOK K I) {fuel : Nat}
    (hfuel : potential K e I ⟨fun _ => 0, 0⟩ 0 ≤ fuel) :
    runForall K srt I fuel e = some (spanEvents K e I 0 I.n) := by
  have h : LoopOK K e (makeLattice K srt e) := (latOK_build hin hs e hlin).loop
  obtain ⟨r, rs, hL, hr, hroot⟩ := h.root
  have hrL : r ∈ makeLattice K srt e := by rw [hL]; exact List.mem_cons_self
  unfold runForall
  simp only
  have hlat : latIters (makeLattice K srt e) = r.iters := by rw [hL]; rfl
  rw [hlat]
  -- no compressed access is missing
  have hleaf : ∀ k ∈ e.leaves, K k = some compressedAttr → It.lev k ∈ r.iters := by
    intro k hk hK
    rcases Point.mem_all.1 (hroot k hk (by rw [hK]; simp)) with h' | h'
    · exact h'
    · obtain ⟨j, hj, _, hd⟩ := h.locs r hrL _ h'
      cases hj; rw [hd] at hK; exact absurd hK (by decide)
  match hri : r.iters with
  | [] => exact absurd hri (h.ne r hrL)
  | [.dim] =>
    simp only
    have hf : supp K (fun _ => false) e = true := (h.flag r hrL).1 (by rw [hri]; simp)
    have hsupp : ∀ R, supp K R e = true := fun R => supp_mono (fun k _ hc => by cases hc) hf
    have hz : ∀ R, e.zeroOut (zAbs K R) = some e := by
      intro R
      apply zeroOut_none
      intro k hk
      unfold zAbs
      by_cases hK : K k = some compressedAttr
      · have := hleaf k hk hK
        rw [hri] at this; simp at this
      · simp [hK]
    unfold spanEvents
    rw [List.filter_eq_self.2 (fun x _ => hsupp _), List.range_eq_range']
    congr 1
    apply List.map_congr_left
    intro x _
    unfold evAt
    rw [hz]
    congr 1
    apply readsOf_congr
    rintro e' he' k hk ⟨a, hKa, hpi⟩
    cases he'
    rcases hin k a hKa with rfl | rfl
    · cases hpi
    · have := hleaf k hk hKa
      rw [hri] at this; simp at this
  | [.lev k0] =>
    simp only
    have hk0 := (h.iters r hrL k0 (by rw [hri]; simp)).2
    have hnf : supp K (fun _ => false) e = false := by
      cases hf : supp K (fun _ => false) e with
      | false => rfl
      | true => have := (h.flag r hrL).2 hf; rw [hri] at this; simp at this
    have hsupp : ∀ x, supp K (present I x) e = decide (x ∈ I.crd k0) := by
      intro x
      rw [Bool.eq_iff_iff, decide_eq_true_eq]
      constructor
      · intro hsu
        obtain ⟨m, hm, m1, _, _⟩ := h.cover _ hsu
        have hmi := h.iters_of_all hm hrL (hr m hm)
        cases hmit : m.iters with
        | nil => exact absurd hmit (h.ne m hm)
        | cons y ys =>
          have hy : y ∈ m.iters := by rw [hmit]; exact List.mem_cons_self
          have := hmi hy
          rw [hri, List.mem_singleton] at this
          rw [this] at hy
          simpa [present] using m1 k0 hy
      · intro hx
        apply h.sound r hrL
        intro k hk
        rw [hri, List.mem_singleton] at hk
        cases hk
        simpa [present] using hx
    have hz : ∀ x ∈ I.crd k0, e.zeroOut (zAbs K (present I x)) = some e := by
      intro x hx
      apply zeroOut_none
      intro k hk
      unfold zAbs
      by_cases hK : K k = some compressedAttr
      · have := hleaf k hk hK
        rw [hri, List.mem_singleton] at this
        cases this
        simp [present, hx]
      · simp [hK]
    unfold spanEvents
    have hfil : (List.range' 0 I.n).filter (fun x => supp K (present I x) e) = I.crd k0 := by
      have : (fun x => supp K (present I x) e) = fun x => decide (x ∈ I.crd k0) := funext hsupp
      rw [this]
      obtain ⟨hsrt, hlt⟩ := hI k0 hk0
      exact filter_mem_sorted hsrt hlt
    rw [hfil]
    congr 1
    obtain ⟨hsrt, hlt⟩ := hI k0 hk0
    rw [zipIdx_map_sorted hsrt]
    apply List.map_congr_left
    intro x hx
    unfold evAt
    rw [hz x hx]
    congr 1
    apply readsOf_congr
    rintro e' he' k hk ⟨a, hKa, hpi⟩
    cases he'
    rcases hin k a hKa with rfl | rfl
    · cases hpi
    · have := hleaf k hk hKa
      rw [hri, List.mem_singleton] at this
      cases this
      simp
  | x :: y :: zs =>
    simp only
    rw [getLoopLattice_id h (List.Sublist.refl _)]
    have := points_spec hin h hI (makeLattice K srt e) [] rfl fuel ⟨fun _ => 0, 0⟩ 0 inv_init
      (by intro q hq; cases hq) hfuel
    rw [this, Nat.sub_zero]
where
  filter_mem_sorted {l : List Nat} {n : Nat} (hs : l.Pairwise (· < ·)) (hlt : ∀ x ∈ l, x < n) :
      (List.range' 0 n).filter (fun x => decide (x ∈ l)) = l := by
    have hp : ((List.range' 0 n).filter (fun x => decide (x ∈ l))).Perm l := by
      rw [List.perm_ext_iff_of_nodup]
      · intro x
        rw [List.mem_filter, List.mem_range'_1, decide_eq_true_eq]
        exact ⟨fun h => h.2, fun h => ⟨⟨Nat.zero_le _, by simpa using hlt x h⟩, h⟩⟩
      · exact List.Pairwise.filter _ List.nodup_range'
      · exact hs.imp (fun h => Nat.ne_of_lt h)
    refine hp.eq_of_pairwise (le := (· < ·)) ?_ ?_ hs
    · intro a b _ _ h1 h2; omega
    · exact List.Pairwise.filter _ List.pairwise_lt_range'

end Verif.Merge
