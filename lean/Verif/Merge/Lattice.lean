import Verif.Merge.Basic
import Verif.Merge.Zero
/-! The lattice built from an expression covers every combination of present sparse operands. -/
namespace Verif.Merge
open Expr

variable {V : Type}

/-- Every access indexing the loop variable is dense or compressed with default properties. -/
def InTree (K : Ctx) : Prop := ∀ k a, K k = some a → a = denseAttr ∨ a = compressedAttr

/-- Can the expression be nonzero structurally when exactly the compressed accesses in `R` have the
coordinate? -/
def supp (K : Ctx) (R : Nat → Bool) : Expr V → Bool
  | .acc k => match K k with
    | none => true
    | some a => if a.posIter then R k else true
  | .lit _ => true
  | .un _ a => supp K R a
  | .bin .add l r => supp K R l || supp K R r
  | .bin .sub l r => supp K R l || supp K R r
  | .bin .mul l r => supp K R l && supp K R r
  | .bin .div l r => supp K R l && supp K R r

/-- No access indexing the loop variable occurs in both operands of a binary node. -/
def linear (K : Ctx) : Expr V → Prop
  | .acc _ => True
  | .lit _ => True
  | .un _ a => linear K a
  | .bin _ l r => linear K l ∧ linear K r ∧ ∀ k ∈ l.leaves, k ∈ r.leaves → K k = none

/-- The sparse iterators of a point are present in `R`. -/
def spSub (p : Point) (R : Nat → Bool) : Prop := ∀ k, .lev k ∈ p.iters → R k = true

/-- Accesses not merged or located by a point. -/
def zRest (K : Ctx) (p : Point) : Nat → Bool := fun k => (K k).isSome && !decide (It.lev k ∈ p.all)

/-- Compressed accesses that are absent. -/
def zAbs (K : Ctx) (R : Nat → Bool) : Nat → Bool := fun k => decide (K k = some compressedAttr) && !R k

/-- Repeated accesses are harmless: whenever both operands of an operator are present at a coordinate, an
access to the loop variable that occurs in both of them is left in both or in neither once the absent
accesses are removed. -/
def consistent (K : Ctx) : Expr V → Prop
  | .acc _ => True
  | .lit _ => True
  | .un _ a => consistent K a
  | .bin _ l r => consistent K l ∧ consistent K r ∧
    ∀ (R : Nat → Bool) (l' r' : Expr V), l.zeroOut (zAbs K R) = some l' → r.zeroOut (zAbs K R) = some r' →
      ∀ k ∈ l.leaves, k ∈ r.leaves → K k ≠ none → (k ∈ l'.leaves ↔ k ∈ r'.leaves)

theorem linear_consistent {K : Ctx} {e : Expr V} (h : linear K e) : consistent K e := by
  induction e with
  | acc k => trivial
  | lit v => trivial
  | un u a ih => exact ih h
  | bin b l r ihl ihr =>
    exact ⟨ihl h.1, ihr h.2.1, fun _ _ _ _ _ k hk hk' hK => absurd (h.2.2 k hk hk') hK⟩

/-- The access occurs in a possibly undefined expression. -/
def aliveIn (o : Option (Expr V)) (k : Nat) : Prop := ∃ e', o = some e' ∧ k ∈ e'.leaves

/-- A sort by decreasing size. -/
def SortSpec (srt : List Point → List Point) : Prop :=
  ∀ l, (srt l).Perm l ∧ (srt l).Pairwise (fun a b => a.size ≥ b.size)

/-- The invariant of the construction, before sorting. -/
structure RawOK (K : Ctx) (e : Expr V) (L : List Point) : Prop where
  prod : ∀ p ∈ L, p.isOm = false
  nodupI : ∀ p ∈ L, p.iters.Nodup
  nodupL : ∀ p ∈ L, p.locs.Nodup
  iters : ∀ p ∈ L, ∀ k, .lev k ∈ p.iters → k ∈ e.leaves ∧ K k = some compressedAttr
  locs : ∀ p ∈ L, ∀ x ∈ p.locs, ∃ k, x = .lev k ∧ k ∈ e.leaves ∧ K k = some denseAttr
  ne : ∀ p ∈ L, p.iters ≠ []
  dimOnly : ∀ p ∈ L, .dim ∈ p.iters → supp K (fun _ => false) e = true
  sound : ∀ p ∈ L, ∀ R, spSub p R → supp K R e = true
  cover' : ∀ R, supp K R e = true → ∃ p ∈ L, spSub p R ∧
    (supp K (fun _ => false) e = true → .dim ∈ p.iters) ∧
    e.zeroOut (zRest K p) = e.zeroOut (zAbs K R) ∧
    (∀ q ∈ L, spSub q R → q.all ⊆ p.all) ∧ ∀ k, .lev k ∈ p.all → aliveIn (e.zeroOut (zAbs K R)) k
  leavesIn : ∀ k ∈ e.leaves, K k ≠ none → ∃ p ∈ L, .lev k ∈ p.all

theorem RawOK.cover {K : Ctx} {e : Expr V} {L : List Point} (h : RawOK K e L) (R : Nat → Bool)
    (hR : supp K R e = true) : ∃ p ∈ L, spSub p R ∧
    (supp K (fun _ => false) e = true → .dim ∈ p.iters) ∧
    e.zeroOut (zRest K p) = e.zeroOut (zAbs K R) ∧
    ∀ q ∈ L, spSub q R → q.all ⊆ p.all := by
  obtain ⟨p, hp, h1, h2, h3, h4, _⟩ := h.cover' R hR
  exact ⟨p, hp, h1, h2, h3, h4⟩

/-- The invariant of a finished lattice. -/
structure LatOK (K : Ctx) (e : Expr V) (L : List Point) : Prop extends RawOK K e L where
  sorted : L.Pairwise (fun a b => a.size ≥ b.size)

theorem supp_top (K : Ctx) (e : Expr V) : supp K (fun _ => true) e = true := by
  induction e with
  | acc k => simp only [supp]; split <;> simp
  | lit v => rfl
  | un u a ih => exact ih
  | bin b l r ihl ihr => cases b <;> simp [supp, ihl, ihr]

theorem supp_mono {K : Ctx} {R R' : Nat → Bool} {e : Expr V}
    (h : ∀ k ∈ e.leaves, R k = true → R' k = true)
    (hs : supp K R e = true) : supp K R' e = true := by
  induction e with
  | acc k =>
    simp only [supp] at hs ⊢
    cases hk : K k with
    | none => rfl
    | some a =>
      rw [hk] at hs; simp only at hs ⊢
      split
      · rename_i hp; rw [if_pos hp] at hs; exact h k (by simp [leaves]) hs
      · rfl
  | lit v => rfl
  | un u a ih => exact ih (fun k hk => h k (by simpa [leaves] using hk)) hs
  | bin b l r ihl ihr =>
    have il := ihl (fun k hk => h k (by simp [leaves, hk]))
    have ir := ihr (fun k hk => h k (by simp [leaves, hk]))
    cases b <;> simp only [supp, Bool.or_eq_true, Bool.and_eq_true] at hs ⊢
    · exact hs.imp il ir
    · exact hs.imp il ir
    · exact ⟨il hs.1, ir hs.2⟩
    · exact ⟨il hs.1, ir hs.2⟩

/-- If the expression is structurally zero, the rewriter finds it is zero. -/
theorem zeroOut_of_not_supp {K : Ctx} {R : Nat → Bool} {e : Expr V} {z : Nat → Bool}
    (hz : ∀ k ∈ e.leaves, ∀ a, K k = some a → a.posIter = true → R k = false → z k = true)
    (hs : supp K R e = false) : e.zeroOut z = none := by
  induction e with
  | acc k =>
    simp only [supp] at hs
    cases hk : K k with
    | none => rw [hk] at hs; cases hs
    | some a =>
      rw [hk] at hs; simp only at hs
      split at hs
      · rename_i hp
        simp [zeroOut, hz k (by simp [leaves]) a hk hp hs]
      · cases hs
  | lit v => cases hs
  | un u a ih =>
    have := ih (fun k hk => hz k (by simpa [leaves] using hk)) hs
    simp only [zeroOut, this]
  | bin b l r ihl ihr =>
    have il := ihl (fun k hk => hz k (by simp [leaves, hk]))
    have ir := ihr (fun k hk => hz k (by simp [leaves, hk]))
    cases b <;> simp only [supp, Bool.or_eq_false_iff, Bool.and_eq_false_iff] at hs <;>
      simp only [zeroOut]
    · rw [il hs.1, ir hs.2]
    · rw [il hs.1, ir hs.2]
    · rcases hs with h | h
      · rw [il h]
      · rw [ir h]; split <;> simp_all
    · rcases hs with h | h
      · rw [il h]
      · rw [ir h]; split <;> simp_all

/-- Structurally nonzero expressions stay defined. -/
theorem zeroOut_of_supp {K : Ctx} {R : Nat → Bool} {e : Expr V} (hin : InTree K)
    (hs : supp K R e = true) : ∃ e', e.zeroOut (zAbs K R) = some e' := by
  induction e with
  | acc k =>
    simp only [supp] at hs
    cases hk : K k with
    | none => exact ⟨_, by simp [zeroOut, zAbs, hk]; rfl⟩
    | some a =>
      rw [hk] at hs; simp only at hs
      rcases hin k a hk with rfl | rfl
      · exact ⟨_, by simp [zeroOut, zAbs, hk, denseAttr, compressedAttr]; rfl⟩
      · have : R k = true := by simpa [compressedAttr] using hs
        exact ⟨_, by simp [zeroOut, zAbs, hk, this]; rfl⟩
  | lit v => exact ⟨_, rfl⟩
  | un u a ih =>
    obtain ⟨a', h⟩ := ih hs
    exact ⟨_, by simp only [zeroOut, h]; rfl⟩
  | bin b l r ihl ihr =>
    cases b <;> simp only [supp, Bool.or_eq_true, Bool.and_eq_true] at hs <;>
      simp only [zeroOut] <;> cases hl : l.zeroOut (zAbs K R) <;> cases hr : r.zeroOut (zAbs K R) <;>
      simp_all

/-! ### sizes -/

theorem all_nodup {K : Ctx} {e : Expr V} {L : List Point} (h : RawOK K e L) {p : Point} (hp : p ∈ L) :
    p.all.Nodup := by
  unfold Point.all
  rw [List.nodup_append]
  refine ⟨h.nodupI p hp, h.nodupL p hp, ?_⟩
  intro x hx y hy hxy
  subst hxy
  obtain ⟨k, rfl, _, hd⟩ := h.locs p hp x hy
  have := (h.iters p hp k hx).2
  rw [hd] at this; exact absurd this (by decide)

theorem size_le_of_subset {K : Ctx} {e : Expr V} {L : List Point} (h : RawOK K e L) {p q : Point}
    (hp : p ∈ L) (hs : p.all ⊆ q.all) : p.size ≤ q.size := by
  rw [Point.size_eq, Point.size_eq]; exact length_le_of_subset (all_nodup h hp) hs

theorem subset_of_size {K : Ctx} {e : Expr V} {L : List Point} (h : RawOK K e L) {p q : Point}
    (hp : p ∈ L) (hs : p.all ⊆ q.all) (hsz : q.size ≤ p.size) : q.all ⊆ p.all := by
  rw [Point.size_eq, Point.size_eq] at hsz
  exact subset_of_length_le (all_nodup h hp) hs hsz

theorem iters_of_all {K : Ctx} {e : Expr V} {L : List Point} (h : RawOK K e L) {p q : Point}
    (hp : p ∈ L) (hq : q ∈ L) (hs : p.all ⊆ q.all) : p.iters ⊆ q.iters := by
  intro x hx
  rcases Point.mem_all.1 (hs (Point.mem_all.2 (Or.inl hx))) with h' | h'
  · exact h'
  · obtain ⟨k, rfl, _, hd⟩ := h.locs q hq x h'
    have := (h.iters p hp k hx).2
    rw [hd] at this; exact absurd this (by decide)

theorem all_of_region {K : Ctx} {e : Expr V} {L : List Point} (h : RawOK K e L) {p q : Point}
    (hp : p ∈ L) (hq : q ∈ L) (hr : ∀ x, x ∈ q.region ↔ x ∈ p.region) (hsz : q.size ≥ p.size) :
    p.all ⊆ q.all := by
  by_cases hd : It.dim ∈ p.iters → It.dim ∈ q.iters
  · intro x hx
    cases x with
    | dim =>
      rcases Point.mem_all.1 hx with h' | h'
      · exact Point.mem_all.2 (Or.inl (hd h'))
      · obtain ⟨k, hk, _⟩ := h.locs p hp _ h'; cases hk
    | lev k =>
      have : It.lev k ∈ p.region := by
        rw [Point.mem_region]
        rcases Point.mem_all.1 hx with h' | h'
        · exact Or.inl ⟨h', rfl⟩
        · exact Or.inr h'
      rcases Point.mem_region.1 ((hr _).2 this) with h' | h'
      · exact Point.mem_all.2 (Or.inl h'.1)
      · exact Point.mem_all.2 (Or.inr h')
  · exfalso
    have hd1 : It.dim ∈ p.iters := Classical.byContradiction fun h' => hd (fun h'' => absurd h'' h')
    have hd2 : It.dim ∉ q.iters := fun h' => hd (fun _ => h')
    -- q.all ⊆ p.all without dim, so q is strictly smaller
    have hsub : q.all ⊆ p.all.erase .dim := by
      intro x hx
      have hx0 : x ≠ .dim := by
        rintro rfl
        rcases Point.mem_all.1 hx with h' | h'
        · exact hd2 h'
        · obtain ⟨k, hk, _⟩ := h.locs q hq _ h'; cases hk
      rw [List.mem_erase_of_ne hx0]
      cases x with
      | dim => exact absurd rfl hx0
      | lev k =>
        have : It.lev k ∈ q.region := by
          rw [Point.mem_region]
          rcases Point.mem_all.1 hx with h' | h'
          · exact Or.inl ⟨h', rfl⟩
          · exact Or.inr h'
        rcases Point.mem_region.1 ((hr _).1 this) with h' | h'
        · exact Point.mem_all.2 (Or.inl h'.1)
        · exact Point.mem_all.2 (Or.inr h')
    have h1 := length_le_of_subset (all_nodup h hq) hsub
    have hm : It.dim ∈ p.all := Point.mem_all.2 (Or.inl hd1)
    have h2 := List.length_erase_of_mem hm
    have h3 := List.length_pos_of_mem hm
    rw [Point.size_eq, Point.size_eq] at hsz
    omega

/-! ### sorting and removing duplicates -/

theorem RawOK.perm {K : Ctx} {e : Expr V} {L L' : List Point} (h : RawOK K e L)
    (hm : ∀ p, p ∈ L' ↔ p ∈ L) : RawOK K e L' where
  prod p hp := h.prod p ((hm p).1 hp)
  nodupI p hp := h.nodupI p ((hm p).1 hp)
  nodupL p hp := h.nodupL p ((hm p).1 hp)
  iters p hp := h.iters p ((hm p).1 hp)
  locs p hp := h.locs p ((hm p).1 hp)
  ne p hp := h.ne p ((hm p).1 hp)
  dimOnly p hp := h.dimOnly p ((hm p).1 hp)
  sound p hp := h.sound p ((hm p).1 hp)
  cover' R hR := by
    obtain ⟨p, hp, h1, h2, h3, h4, h5⟩ := h.cover' R hR
    exact ⟨p, (hm p).2 hp, h1, h2, h3, fun q hq => h4 q ((hm q).1 hq), h5⟩
  leavesIn k hk hK := by
    obtain ⟨p, hp, h1⟩ := h.leavesIn k hk hK
    exact ⟨p, (hm p).2 hp, h1⟩

theorem zRest_congr {K : Ctx} {p q : Point} (h : ∀ x, x ∈ p.all ↔ x ∈ q.all) : zRest K p = zRest K q := by
  funext k; simp only [zRest, h]

/-- Keeping, for every point of the list, some point with the same iterators keeps the invariant. -/
theorem RawOK.sub {K : Ctx} {e : Expr V} {L L' : List Point} (h : RawOK K e L)
    (hsub : ∀ p ∈ L', p ∈ L)
    (hrep : ∀ p ∈ L, ∃ q ∈ L', p.all ⊆ q.all ∧ ∀ x, x ∈ q.region ↔ x ∈ p.region) :
    RawOK K e L' where
  prod p hp := h.prod p (hsub p hp)
  nodupI p hp := h.nodupI p (hsub p hp)
  nodupL p hp := h.nodupL p (hsub p hp)
  iters p hp := h.iters p (hsub p hp)
  locs p hp := h.locs p (hsub p hp)
  ne p hp := h.ne p (hsub p hp)
  dimOnly p hp := h.dimOnly p (hsub p hp)
  sound p hp := h.sound p (hsub p hp)
  cover' R hR := by
    obtain ⟨p, hp, h1, h2, h3, h4, h5⟩ := h.cover' R hR
    obtain ⟨q, hq, hpq, hreg⟩ := hrep p hp
    have hqL := hsub q hq
    have hqR : spSub q R := by
      intro k hk
      have : It.lev k ∈ q.region := Point.mem_region.2 (Or.inl ⟨hk, rfl⟩)
      rcases Point.mem_region.1 ((hreg _).1 this) with h' | h'
      · exact h1 k h'.1
      · obtain ⟨j, hj, _, hd⟩ := h.locs p hp _ h'
        cases hj
        have := (h.iters q hqL k hk).2
        rw [hd] at this; exact absurd this (by decide)
    have hqp := h4 q hqL hqR
    have hall : ∀ x, x ∈ q.all ↔ x ∈ p.all := fun x => ⟨fun hx => hqp hx, fun hx => hpq hx⟩
    refine ⟨q, hq, hqR, ?_, ?_, ?_, fun k hk => h5 k ((hall _).1 hk)⟩
    · intro hf
      have := hpq (Point.mem_all.2 (Or.inl (h2 hf)))
      rcases Point.mem_all.1 this with h' | h'
      · exact h'
      · obtain ⟨k, hk, _⟩ := h.locs q hqL _ h'; cases hk
    · rw [zRest_congr hall]; exact h3
    · intro q' hq' hs x hx
      exact (hall x).2 (h4 q' (hsub q' hq') hs hx)
  leavesIn k hk hK := by
    obtain ⟨p, hp, h1⟩ := h.leavesIn k hk hK
    obtain ⟨q, hq, hpq, _⟩ := hrep p hp
    exact ⟨q, hq, hpq h1⟩

theorem typedRegions_true {L : List Point} (h : ∀ p ∈ L, p.isOm = false) : typedRegions L true = [] := by
  unfold typedRegions
  rw [List.filter_eq_nil_iff.2]
  · rfl
  · intro p hp; simp [h p hp]

theorem mkPoint_self {p : Point} (h1 : p.iters.Nodup) (h2 : p.locs.Nodup) :
    mkPoint p.iters p.locs p.isOm = p := by
  simp only [mkPoint, dedup_of_nodup h1, dedup_of_nodup h2]

theorem correct_id_true {l r ps : List Point} (hl : ∀ p ∈ l, p.isOm = false) :
    correctPointTypes l r ps true = ps := by
  unfold correctPointTypes
  rw [typedRegions_true hl]
  have : ∀ p : Point, containsSet [] p.region = false := fun _ => rfl
  simp [this]

theorem correct_id_false {K : Ctx} {e : Expr V} {l r ps : List Point} (h : RawOK K e ps) :
    correctPointTypes l r ps false = ps := by
  unfold correctPointTypes
  conv => rhs; rw [← List.map_id ps]
  apply List.map_congr_left
  intro p hp
  split
  · have := mkPoint_self (h.nodupI p hp) (h.nodupL p hp)
    rw [h.prod p hp] at this
    exact this
  · rfl

/-- Sorting and removing duplicated regions finishes a lattice. -/
theorem finish {K : Ctx} {e : Expr V} {L : List Point} {srt : List Point → List Point} {b : Bool}
    (hs : SortSpec srt) (h : RawOK K e L) :
    LatOK K e (removeDuplicatedTensorRegions (srt L) b) := by
  obtain ⟨hperm, hsorted⟩ := hs L
  have hraw : RawOK K e (srt L) := h.perm (fun p => hperm.mem_iff)
  unfold removeDuplicatedTensorRegions
  rw [typedRegions_true hraw.prod]
  obtain ⟨r, hr, hsub⟩ := removeDupRegions_eq (prod := typedRegions (srt L) false) (b := b) rfl [] (srt L)
  rw [hr]
  have hsubm : ∀ p ∈ r, p ∈ srt L := fun p hp => hsub.subset hp
  refine { toRawOK := hraw.sub hsubm ?_, sorted := hsorted.sublist hsub }
  intro p hp
  rcases removeDupRegions_rep (prod := typedRegions (srt L) false) (b := b) (srt L) [] p hp hsorted with
    ⟨t, ht, _⟩ | ⟨q, hq, hsz, hreg⟩
  · cases ht
  · rw [hr] at hq
    exact ⟨q, hq, all_of_region hraw hp (hsubm q hq) hreg hsz, hreg⟩

/-! ### the largest point -/

theorem LatOK.root {K : Ctx} {e : Expr V} {L : List Point} (h : LatOK K e L) :
    ∃ p ps, L = p :: ps ∧ (∀ q ∈ L, q.all ⊆ p.all) ∧
      (It.dim ∈ p.iters ↔ supp K (fun _ => false) e = true) := by
  obtain ⟨m, hm, _, hdim, _, hdom⟩ := h.cover (fun _ => true) (supp_top K e)
  have hdom' : ∀ q ∈ L, q.all ⊆ m.all := fun q hq => hdom q hq (fun _ _ => rfl)
  cases L with
  | nil => cases hm
  | cons p ps =>
    have hp : p ∈ p :: ps := List.mem_cons_self
    have hsz : p.size ≥ m.size := by
      rcases List.mem_cons.1 hm with rfl | hm'
      · exact Nat.le_refl _
      · exact (List.pairwise_cons.1 h.sorted).1 m hm'
    have hmp := subset_of_size h.toRawOK hp (hdom' p hp) hsz
    refine ⟨p, ps, rfl, fun q hq x hx => hmp (hdom' q hq hx), ?_⟩
    constructor
    · exact h.dimOnly p hp
    · intro hf
      exact iters_of_all h.toRawOK hm hp hmp (hdim hf)

theorem LatOK.root_any {K : Ctx} {e : Expr V} {L : List Point} (h : LatOK K e L) :
    (latIters L).any It.isDim = supp K (fun _ => false) e := by
  obtain ⟨p, ps, rfl, _, hd⟩ := h.root
  simp only [latIters]
  cases hs : supp K (fun _ => false) e with
  | true => rw [List.any_eq_true]; exact ⟨.dim, hd.2 hs, rfl⟩
  | false =>
    rw [List.any_eq_false]
    intro x hx hxd
    rw [isDim_iff] at hxd; subst hxd
    rw [hd.1 hx] at hs; cases hs

/-! ### combinations -/

theorem region_leaf {K : Ctx} {e : Expr V} {L : List Point} (h : RawOK K e L) {p : Point} (hp : p ∈ L)
    {x : It} (hx : x ∈ p.region) : ∃ k ∈ e.leaves, x = .lev k ∧ K k ≠ none := by
  rcases Point.mem_region.1 hx with ⟨h', hd⟩ | h'
  · cases x with
    | dim => cases hd
    | lev k => exact ⟨k, (h.iters p hp k h').1, rfl, by rw [(h.iters p hp k h').2]; simp⟩
  · obtain ⟨k, rfl, hk, hd⟩ := h.locs p hp x h'
    exact ⟨k, hk, rfl, by rw [hd]; simp⟩

theorem rootRegion_leaf {K : Ctx} {e : Expr V} {L : List Point} (h : RawOK K e L)
    {x : It} (hx : x ∈ rootRegion L) : ∃ k ∈ e.leaves, x = .lev k ∧ K k ≠ none := by
  cases L with
  | nil => cases hx
  | cons p ps => exact region_leaf h List.mem_cons_self hx

theorem combos_sub {f : Point → Point → Point} {as bs : List Point} {q : Point}
    (hq : q ∈ combos f as bs) : ∃ a ∈ as, ∃ b ∈ bs, q = f a b := by
  unfold combos at hq
  simp only [List.mem_flatMap, List.mem_filterMap] at hq
  obtain ⟨a, haa, b, hbb, h⟩ := hq
  split at h
  · exact ⟨a, haa, b, hbb, (Option.some.inj h).symm⟩
  · cases h

/-- Two points agree on the accesses that occur in both operands. -/
def agree (K : Ctx) (l r : Expr V) (a b : Point) : Prop :=
  ∀ k ∈ l.leaves, k ∈ r.leaves → K k ≠ none → (It.lev k ∈ a.all ↔ It.lev k ∈ b.all)

theorem region_all {p : Point} {k : Nat} : It.lev k ∈ p.region ↔ It.lev k ∈ p.all := by
  rw [Point.mem_region, Point.mem_all]
  constructor
  · rintro (⟨h, _⟩ | h)
    · exact Or.inl h
    · exact Or.inr h
  · rintro (h | h)
    · exact Or.inl ⟨h, rfl⟩
    · exact Or.inr h

theorem combos_mem {K : Ctx} {l r : Expr V} {f : Point → Point → Point} {as bs : List Point}
    (ha : RawOK K l as) (hb : RawOK K r bs) {a b : Point} (haa : a ∈ as) (hbb : b ∈ bs)
    (hag : agree K l r a b) : f a b ∈ combos f as bs := by
  unfold combos
  simp only [List.mem_flatMap, List.mem_filterMap]
  refine ⟨a, haa, b, hbb, ?_⟩
  rw [if_pos]
  unfold hasIntersection
  rw [Bool.and_eq_true, List.all_eq_true, List.all_eq_true]
  constructor
  · intro x hx
    obtain ⟨k, hk, rfl, hK⟩ := region_leaf ha haa hx
    by_cases hc : It.lev k ∈ rootRegion bs
    · obtain ⟨j, hj, hje, _⟩ := rootRegion_leaf hb hc
      cases hje
      have : It.lev k ∈ b.region := region_all.2 ((hag k hk hj hK).1 (region_all.1 hx))
      simp [this]
    · simp [hc]
  · intro x hx
    obtain ⟨k, hk, rfl, hK⟩ := region_leaf hb hbb hx
    by_cases hc : It.lev k ∈ rootRegion as
    · obtain ⟨j, hj, hje, _⟩ := rootRegion_leaf ha hc
      cases hje
      have : It.lev k ∈ a.region := region_all.2 ((hag k hj hk hK).2 (region_all.1 hx))
      simp [this]
    · simp [hc]

/-! ### union -/

theorem mem_union_iters {a b : Point} {x : It} :
    x ∈ (unionPoints a b).iters ↔ x ∈ a.iters ∨ x ∈ b.iters := by simp [unionPoints, mkPoint]

theorem mem_union_locs {a b : Point} {x : It} :
    x ∈ (unionPoints a b).locs ↔ x ∈ a.locs ∨ x ∈ b.locs := by simp [unionPoints, mkPoint]

theorem mem_union_all {a b : Point} {x : It} :
    x ∈ (unionPoints a b).all ↔ x ∈ a.all ∨ x ∈ b.all := by
  simp only [Point.mem_all, mem_union_iters, mem_union_locs]
  constructor
  · rintro ((h | h) | (h | h)) <;> simp [h]
  · rintro ((h | h) | (h | h)) <;> simp [h]

theorem all_leaf {K : Ctx} {e : Expr V} {L : List Point} (h : RawOK K e L) {p : Point} (hp : p ∈ L)
    {k : Nat} (hx : .lev k ∈ p.all) : k ∈ e.leaves ∧ K k ≠ none := by
  rcases Point.mem_all.1 hx with h' | h'
  · exact ⟨(h.iters p hp k h').1, by rw [(h.iters p hp k h').2]; simp⟩
  · obtain ⟨j, hj, hk, hd⟩ := h.locs p hp _ h'
    cases hj; exact ⟨hk, by rw [hd]; simp⟩

/-- Where two points agree, their combination is the point of the operand on the accesses of the operand. -/
theorem zRest_left {K : Ctx} {l r : Expr V} {bs : List Point} (hb : RawOK K r bs)
    {a b p : Point} (hag : agree K l r a b) (hbb : b ∈ bs)
    (hp : ∀ k, It.lev k ∈ p.all ↔ It.lev k ∈ a.all ∨ It.lev k ∈ b.all) :
    ∀ k ∈ l.leaves, zRest K p k = zRest K a k := by
  intro k hk
  have : It.lev k ∈ p.all ↔ It.lev k ∈ a.all := by
    rw [hp]
    constructor
    · rintro (h | h)
      · exact h
      · obtain ⟨hk', hK⟩ := all_leaf hb hbb h
        exact (hag k hk hk' hK).2 h
    · exact Or.inl
  simp only [zRest, this]

theorem zRest_right {K : Ctx} {l r : Expr V} {as : List Point} (ha : RawOK K l as)
    {a b p : Point} (hag : agree K l r a b) (haa : a ∈ as)
    (hp : ∀ k, It.lev k ∈ p.all ↔ It.lev k ∈ a.all ∨ It.lev k ∈ b.all) :
    ∀ k ∈ r.leaves, zRest K p k = zRest K b k := by
  intro k hk
  have : It.lev k ∈ p.all ↔ It.lev k ∈ b.all := by
    rw [hp]
    constructor
    · rintro (h | h)
      · obtain ⟨hk', hK⟩ := all_leaf ha haa h
        exact (hag k hk' hk hK).1 h
      · exact h
    · exact Or.inr
  simp only [zRest, this]

/-- The points that cover `R` in two operands agree. -/
theorem agree_cover {K : Ctx} {l r : Expr V} (hin : InTree K) {R : Nat → Bool}
    (hc : ∀ (R : Nat → Bool) (l' r' : Expr V), l.zeroOut (zAbs K R) = some l' → r.zeroOut (zAbs K R) = some r' →
      ∀ k ∈ l.leaves, k ∈ r.leaves → K k ≠ none → (k ∈ l'.leaves ↔ k ∈ r'.leaves))
    {pa pb : Point} (a3 : l.zeroOut (zRest K pa) = l.zeroOut (zAbs K R))
    (b3 : r.zeroOut (zRest K pb) = r.zeroOut (zAbs K R))
    (a5 : ∀ k, .lev k ∈ pa.all → aliveIn (l.zeroOut (zAbs K R)) k)
    (b5 : ∀ k, .lev k ∈ pb.all → aliveIn (r.zeroOut (zAbs K R)) k)
    (hl : supp K R l = true) (hr : supp K R r = true) : agree K l r pa pb := by
  have back : ∀ {e e' : Expr V} {p : Point}, e.zeroOut (zRest K p) = some e' → ∀ k ∈ e'.leaves, K k ≠ none →
      It.lev k ∈ p.all := by
    intro e e' p he k hk hK
    have := (leaves_zeroOut he k hk).2
    unfold zRest at this
    cases hKk : K k with
    | none => exact absurd hKk hK
    | some a => simpa [hKk] using this
  obtain ⟨l', hl'⟩ := zeroOut_of_supp hin hl
  obtain ⟨r', hr'⟩ := zeroOut_of_supp hin hr
  intro k hk hk' hK
  constructor
  · intro h
    obtain ⟨e', he, hm⟩ := a5 k h
    rw [hl'] at he; cases he
    exact back (b3.trans hr') k ((hc R l' r' hl' hr' k hk hk' hK).1 hm) hK
  · intro h
    obtain ⟨e', he, hm⟩ := b5 k h
    rw [hr'] at he; cases he
    exact back (a3.trans hl') k ((hc R l' r' hl' hr' k hk hk' hK).2 hm) hK

/-- An operand without any point below `R` is zero for a point below `R` of the other operand. -/
theorem zeroOut_dead {K : Ctx} {e e2 : Expr V} (hin : InTree K) {L : List Point} (h2 : RawOK K e2 L)
    {R : Nat → Bool} {p : Point} (hp : p ∈ L) (hpR : spSub p R)
    (hs : supp K R e = false) : e.zeroOut (zRest K p) = none := by
  apply zeroOut_of_not_supp (R := R) (K := K) _ hs
  intro k hk a ha hpi hR
  have hcomp : a = compressedAttr := by
    rcases hin k a ha with rfl | rfl
    · cases hpi
    · rfl
  have : It.lev k ∉ p.all := by
    intro hc
    rcases Point.mem_all.1 hc with h | h
    · rw [hpR k h] at hR; cases hR
    · obtain ⟨j, hj, _, hd⟩ := h2.locs p hp _ h
      cases hj
      rw [ha, hcomp] at hd
      exact absurd hd (by decide)
  simp [zRest, ha, this]

theorem zeroOut_dead_abs {K : Ctx} {e : Expr V} (hin : InTree K) {R : Nat → Bool}
    (hs : supp K R e = false) : e.zeroOut (zAbs K R) = none := by
  apply zeroOut_of_not_supp (R := R) (K := K) _ hs
  intro k hk a ha hpi hR
  rcases hin k a ha with rfl | rfl
  · cases hpi
  · simp [zAbs, ha, hR]

/-- What the union needs about the binary node: `+` or `-`. -/
def disj (b : BinOp) : Bool := match b with | .add => true | .sub => true | _ => false

theorem supp_disj {K : Ctx} {R : Nat → Bool} {b : BinOp} (hb : disj b = true) (l r : Expr V) :
    supp K R (.bin b l r) = (supp K R l || supp K R r) := by
  cases b <;> simp_all [disj, supp]

theorem supp_conj {K : Ctx} {R : Nat → Bool} {b : BinOp} (hb : disj b = false) (l r : Expr V) :
    supp K R (.bin b l r) = (supp K R l && supp K R r) := by
  cases b <;> simp_all [disj, supp]

theorem zeroOut_bin_congr {b : BinOp} {l r : Expr V} {z z' : Nat → Bool}
    (h1 : l.zeroOut z = l.zeroOut z') (h2 : r.zeroOut z = r.zeroOut z') :
    (Expr.bin b l r).zeroOut z = (Expr.bin b l r).zeroOut z' := by
  cases b <;> simp only [zeroOut, h1, h2]

theorem leaves_bin {b : BinOp} {l r : Expr V} {k : Nat} :
    k ∈ (Expr.bin b l r).leaves ↔ k ∈ l.leaves ∨ k ∈ r.leaves := by simp [leaves]

theorem aliveIn_bin {b : BinOp} {l r : Expr V} {z : Nat → Bool} {k : Nat}
    (hl : ∃ l', l.zeroOut z = some l') (hr : ∃ r', r.zeroOut z = some r')
    (h : aliveIn (l.zeroOut z) k ∨ aliveIn (r.zeroOut z) k) : aliveIn ((Expr.bin b l r).zeroOut z) k := by
  obtain ⟨l', hl'⟩ := hl
  obtain ⟨r', hr'⟩ := hr
  have : (Expr.bin b l r).zeroOut z = some (.bin b l' r') := by
    cases b <;> simp only [zeroOut, hl', hr']
  rw [this]
  refine ⟨_, rfl, leaves_bin.2 ?_⟩
  rcases h with ⟨e', he, hm⟩ | ⟨e', he, hm⟩
  · rw [hl'] at he; cases he; exact Or.inl hm
  · rw [hr'] at he; cases he; exact Or.inr hm

theorem aliveIn_left {b : BinOp} (hb : disj b = true) {l r : Expr V} {z : Nat → Bool} {k : Nat}
    (hr : r.zeroOut z = none) (h : aliveIn (l.zeroOut z) k) : aliveIn ((Expr.bin b l r).zeroOut z) k := by
  obtain ⟨e', he, hm⟩ := h
  refine ⟨e', ?_, hm⟩
  cases b <;> simp_all [zeroOut, disj]

theorem aliveIn_right {b : BinOp} (hb : disj b = true) {l r : Expr V} {z : Nat → Bool} {k : Nat}
    (hl : l.zeroOut z = none) (h : aliveIn (r.zeroOut z) k) : aliveIn ((Expr.bin b l r).zeroOut z) k := by
  obtain ⟨e', he, hm⟩ := h
  cases b with
  | add => exact ⟨e', by simp only [zeroOut, hl, he], hm⟩
  | sub => exact ⟨.un .neg e', by simp only [zeroOut, hl, he], by simpa [leaves] using hm⟩
  | mul => cases hb
  | div => cases hb

theorem raw_union {K : Ctx} (hin : InTree K) {l r : Expr V} {b : BinOp} (hb : disj b = true)
    {as bs as' bs' : List Point} (ha : RawOK K l as) (hbs : RawOK K r bs)
    (ha' : RawOK K l as') (hbs' : RawOK K r bs')
    (hma : ∀ p, p ∈ as ↔ p ∈ as') (hmb : ∀ p, p ∈ bs ↔ p ∈ bs')
    (hdisj : ∀ (R : Nat → Bool) (l' r' : Expr V), l.zeroOut (zAbs K R) = some l' →
      r.zeroOut (zAbs K R) = some r' →
      ∀ k ∈ l.leaves, k ∈ r.leaves → K k ≠ none → (k ∈ l'.leaves ↔ k ∈ r'.leaves)) :
    RawOK K (.bin b l r) (combos unionPoints as' bs' ++ as ++ bs) := by
  have hmem : ∀ p, p ∈ combos unionPoints as' bs' ++ as ++ bs →
      (∃ x ∈ as, ∃ y ∈ bs, p = unionPoints x y) ∨ p ∈ as ∨ p ∈ bs := by
    intro p hp
    rw [List.mem_append, List.mem_append, or_assoc] at hp
    rcases hp with hp | hp
    · obtain ⟨x, hx, y, hy, rfl⟩ := combos_sub hp
      exact Or.inl ⟨x, (hma x).2 hx, y, (hmb y).2 hy, rfl⟩
    · exact Or.inr hp
  have hinL : ∀ p ∈ as, p ∈ combos unionPoints as' bs' ++ as ++ bs := fun p hp => by
    rw [List.mem_append, List.mem_append]; exact Or.inl (Or.inr hp)
  have hinR : ∀ p ∈ bs, p ∈ combos unionPoints as' bs' ++ as ++ bs := fun p hp => by
    rw [List.mem_append]; exact Or.inr hp
  constructor
  · intro p hp
    rcases hmem p hp with ⟨x, hx, y, hy, rfl⟩ | hp | hp
    · simp [unionPoints, mkPoint, ha.prod x hx]
    · exact ha.prod p hp
    · exact hbs.prod p hp
  · intro p hp
    rcases hmem p hp with ⟨x, hx, y, hy, rfl⟩ | hp | hp
    · exact nodup_dedup
    · exact ha.nodupI p hp
    · exact hbs.nodupI p hp
  · intro p hp
    rcases hmem p hp with ⟨x, hx, y, hy, rfl⟩ | hp | hp
    · exact nodup_dedup
    · exact ha.nodupL p hp
    · exact hbs.nodupL p hp
  · intro p hp k hk
    rw [leaves_bin]
    rcases hmem p hp with ⟨x, hx, y, hy, rfl⟩ | hp | hp
    · rcases mem_union_iters.1 hk with h | h
      · have := ha.iters x hx k h; exact ⟨Or.inl this.1, this.2⟩
      · have := hbs.iters y hy k h; exact ⟨Or.inr this.1, this.2⟩
    · have := ha.iters p hp k hk; exact ⟨Or.inl this.1, this.2⟩
    · have := hbs.iters p hp k hk; exact ⟨Or.inr this.1, this.2⟩
  · intro p hp x hx
    rcases hmem p hp with ⟨u, hu, v, hv, rfl⟩ | hp | hp
    · rcases mem_union_locs.1 hx with h | h
      · obtain ⟨k, h1, h2, h3⟩ := ha.locs u hu x h; exact ⟨k, h1, leaves_bin.2 (Or.inl h2), h3⟩
      · obtain ⟨k, h1, h2, h3⟩ := hbs.locs v hv x h; exact ⟨k, h1, leaves_bin.2 (Or.inr h2), h3⟩
    · obtain ⟨k, h1, h2, h3⟩ := ha.locs p hp x hx; exact ⟨k, h1, leaves_bin.2 (Or.inl h2), h3⟩
    · obtain ⟨k, h1, h2, h3⟩ := hbs.locs p hp x hx; exact ⟨k, h1, leaves_bin.2 (Or.inr h2), h3⟩
  · intro p hp
    rcases hmem p hp with ⟨u, hu, v, hv, rfl⟩ | hp | hp
    · intro he
      have hne := ha.ne u hu
      cases hui : u.iters with
      | nil => exact hne hui
      | cons x xs =>
        have : x ∈ (unionPoints u v).iters := mem_union_iters.2 (Or.inl (by rw [hui]; exact List.mem_cons_self))
        rw [he] at this; cases this
    · exact ha.ne p hp
    · exact hbs.ne p hp
  · intro p hp hd
    rw [supp_disj hb, Bool.or_eq_true]
    rcases hmem p hp with ⟨u, hu, v, hv, rfl⟩ | hp | hp
    · exact (mem_union_iters.1 hd).imp (ha.dimOnly u hu) (hbs.dimOnly v hv)
    · exact Or.inl (ha.dimOnly p hp hd)
    · exact Or.inr (hbs.dimOnly p hp hd)
  · intro p hp R hR
    rw [supp_disj hb, Bool.or_eq_true]
    rcases hmem p hp with ⟨u, hu, v, hv, rfl⟩ | hp | hp
    · exact Or.inl (ha.sound u hu R (fun k hk => hR k (mem_union_iters.2 (Or.inl hk))))
    · exact Or.inl (ha.sound p hp R hR)
    · exact Or.inr (hbs.sound p hp R hR)
  · intro R hR
    rw [supp_disj hb] at hR
    have hflag : supp K (fun _ => false) (Expr.bin b l r) =
        (supp K (fun _ => false) l || supp K (fun _ => false) r) := supp_disj hb l r
    have hmono : ∀ e : Expr V, supp K R e = false → supp K (fun _ => false) e = false := by
      intro e he
      cases h : supp K (fun _ => false) e with
      | false => rfl
      | true =>
        have := supp_mono (R' := R) (fun k _ h => by cases h) h
        rw [he] at this; cases this
    cases hsl : supp K R l with
    | true =>
      obtain ⟨pa, hpa, a1, a2, a3, a4, a5⟩ := ha.cover' R hsl
      cases hsr : supp K R r with
      | true =>
        obtain ⟨pb, hpb, b1, b2, b3, b4, b5⟩ := hbs.cover' R hsr
        have hag : agree K l r pa pb := agree_cover hin hdisj a3 b3 a5 b5 hsl hsr
        refine ⟨unionPoints pa pb, ?_, ?_, ?_, ?_, ?_, ?_⟩
        · rw [List.mem_append, List.mem_append]
          exact Or.inl (Or.inl (combos_mem ha' hbs' ((hma pa).1 hpa) ((hmb pb).1 hpb) hag))
        · intro k hk
          rcases mem_union_iters.1 hk with h | h
          · exact a1 k h
          · exact b1 k h
        · rw [hflag, Bool.or_eq_true]
          rintro (h | h)
          · exact mem_union_iters.2 (Or.inl (a2 h))
          · exact mem_union_iters.2 (Or.inr (b2 h))
        · apply zeroOut_bin_congr
          · rw [← a3]
            exact zeroOut_congr (zRest_left hbs hag hpb (fun k => mem_union_all))
          · rw [← b3]
            exact zeroOut_congr (zRest_right ha hag hpa (fun k => mem_union_all))
        · intro q hq hqR x hx
          rw [mem_union_all]
          rcases hmem q hq with ⟨u, hu, v, hv, rfl⟩ | hq | hq
          · rcases mem_union_all.1 hx with h | h
            · exact Or.inl (a4 u hu (fun k hk => hqR k (mem_union_iters.2 (Or.inl hk))) h)
            · exact Or.inr (b4 v hv (fun k hk => hqR k (mem_union_iters.2 (Or.inr hk))) h)
          · exact Or.inl (a4 q hq hqR hx)
          · exact Or.inr (b4 q hq hqR hx)
        · intro k hk
          exact aliveIn_bin (zeroOut_of_supp hin hsl) (zeroOut_of_supp hin hsr)
            ((mem_union_all.1 hk).imp (a5 k) (b5 k))
      | false =>
        refine ⟨pa, hinL pa hpa, a1, ?_, ?_, ?_,
          fun k hk => aliveIn_left hb (zeroOut_dead_abs hin hsr) (a5 k hk)⟩
        · rw [hflag, hmono r hsr, Bool.or_false]; exact a2
        · apply zeroOut_bin_congr
          · exact a3
          · rw [zeroOut_dead hin ha hpa a1 hsr, zeroOut_dead_abs hin hsr]
        · intro q hq hqR
          rcases hmem q hq with ⟨u, hu, v, hv, rfl⟩ | hq | hq
          · have := hbs.sound v hv R (fun k hk => hqR k (mem_union_iters.2 (Or.inr hk)))
            rw [hsr] at this; cases this
          · exact a4 q hq hqR
          · have := hbs.sound q hq R hqR
            rw [hsr] at this; cases this
    | false =>
      rw [hsl, Bool.false_or] at hR
      obtain ⟨pb, hpb, b1, b2, b3, b4, b5⟩ := hbs.cover' R hR
      refine ⟨pb, hinR pb hpb, b1, ?_, ?_, ?_,
        fun k hk => aliveIn_right hb (zeroOut_dead_abs hin hsl) (b5 k hk)⟩
      · rw [hflag, hmono l hsl, Bool.false_or]; exact b2
      · apply zeroOut_bin_congr
        · rw [zeroOut_dead hin hbs hpb b1 hsl, zeroOut_dead_abs hin hsl]
        · exact b3
      · intro q hq hqR
        rcases hmem q hq with ⟨u, hu, v, hv, rfl⟩ | hq | hq
        · have := ha.sound u hu R (fun k hk => hqR k (mem_union_iters.2 (Or.inl hk)))
          rw [hsl] at this; cases this
        · have := ha.sound q hq R hqR
          rw [hsl] at this; cases this
        · exact b4 q hq hqR
  · intro k hk hK
    rcases leaves_bin.1 hk with hk | hk
    · obtain ⟨p, hp, h⟩ := ha.leavesIn k hk hK
      exact ⟨p, hinL p hp, h⟩
    · obtain ⟨p, hp, h⟩ := hbs.leavesIn k hk hK
      exact ⟨p, hinR p hp, h⟩

/-! ### intersection -/

theorem hasLocate_iters {K : Ctx} {e : Expr V} {L : List Point} (h : RawOK K e L) {p : Point} (hp : p ∈ L)
    {x : It} (hx : x ∈ p.iters) : x.hasLocate K = false := by
  cases x with
  | dim => rfl
  | lev k => simp [It.hasLocate, (h.iters p hp k hx).2, compressedAttr]

/-- Does intersecting keep the dimension iterator of the left/right operand? -/
theorem mem_intersect_iters {K : Ctx} {l r : Expr V} {as bs : List Point} (ha : RawOK K l as)
    (hb : RawOK K r bs) {a b : Point} (haa : a ∈ as) (hbb : b ∈ bs) (ll : Bool) (x : It) :
    x ∈ (intersectPoints K ll a b).iters ↔
      (x ∈ a.iters ∧ (ll = true → x ≠ .dim)) ∨ (x ∈ b.iters ∧ (ll = false → x ≠ .dim)) := by
  have hx0 : x.isDim = false ↔ x ≠ .dim := by cases x <;> simp [It.isDim]
  cases ll with
  | true =>
    simp only [intersectPoints, mkPoint, if_true, mem_dedup, mem_dedupDims, List.mem_append,
      List.mem_filter, Bool.not_eq_true', hx0]
    constructor
    · rintro (⟨⟨h1, _⟩, h2⟩ | h)
      · exact Or.inl ⟨h1, fun _ => h2⟩
      · exact Or.inr ⟨h, by simp⟩
    · rintro (⟨h1, h2⟩ | ⟨h, _⟩)
      · exact Or.inl ⟨⟨h1, hasLocate_iters ha haa h1⟩, h2 trivial⟩
      · exact Or.inr h
  | false =>
    simp only [intersectPoints, mkPoint, Bool.false_eq_true, if_false, mem_dedup, mem_dedupDims,
      List.mem_append, List.mem_filter, Bool.not_eq_true', hx0]
    constructor
    · rintro (h | ⟨⟨h1, _⟩, h2⟩)
      · exact Or.inl ⟨h, by simp⟩
      · exact Or.inr ⟨h1, fun _ => h2⟩
    · rintro (⟨h, _⟩ | ⟨h1, h2⟩)
      · exact Or.inl h
      · exact Or.inr ⟨⟨h1, hasLocate_iters hb hbb h1⟩, h2 trivial⟩

theorem mem_intersect_locs {K : Ctx} {l r : Expr V} {as bs : List Point} (ha : RawOK K l as)
    (hb : RawOK K r bs) {a b : Point} (haa : a ∈ as) (hbb : b ∈ bs) (ll : Bool) (x : It) :
    x ∈ (intersectPoints K ll a b).locs ↔ x ∈ a.locs ∨ x ∈ b.locs := by
  cases ll with
  | true =>
    simp only [intersectPoints, mkPoint, if_true, mem_dedup, List.mem_append, List.mem_filter]
    constructor
    · rintro ((⟨h1, h2⟩ | h) | h)
      · rw [hasLocate_iters ha haa h1] at h2; cases h2
      · exact Or.inl h
      · exact Or.inr h
    · rintro (h | h)
      · exact Or.inl (Or.inr h)
      · exact Or.inr h
  | false =>
    simp only [intersectPoints, mkPoint, Bool.false_eq_true, if_false, mem_dedup, List.mem_append,
      List.mem_filter]
    constructor
    · rintro ((h | ⟨h1, h2⟩) | h)
      · exact Or.inl h
      · rw [hasLocate_iters hb hbb h1] at h2; cases h2
      · exact Or.inr h
    · rintro (h | h)
      · exact Or.inl (Or.inl h)
      · exact Or.inr h

theorem mem_intersect_all {K : Ctx} {l r : Expr V} {as bs : List Point} (ha : RawOK K l as)
    (hb : RawOK K r bs) {a b : Point} (haa : a ∈ as) (hbb : b ∈ bs) (ll : Bool) (k : Nat) :
    It.lev k ∈ (intersectPoints K ll a b).all ↔ It.lev k ∈ a.all ∨ It.lev k ∈ b.all := by
  rw [Point.mem_all, Point.mem_all, Point.mem_all, mem_intersect_iters ha hb haa hbb,
    mem_intersect_locs ha hb haa hbb]
  constructor
  · rintro ((⟨h, _⟩ | ⟨h, _⟩) | (h | h)) <;> simp [h]
  · rintro ((h | h) | (h | h)) <;> simp [h]

theorem raw_intersect {K : Ctx} (hin : InTree K) {l r : Expr V} {b : BinOp} (hb : disj b = false)
    {as bs : List Point} (ha : RawOK K l as) (hbs : RawOK K r bs) (ll : Bool)
    (hll : ll = (!supp K (fun _ => false) r && supp K (fun _ => false) l))
    (hdisj : ∀ (R : Nat → Bool) (l' r' : Expr V), l.zeroOut (zAbs K R) = some l' →
      r.zeroOut (zAbs K R) = some r' →
      ∀ k ∈ l.leaves, k ∈ r.leaves → K k ≠ none → (k ∈ l'.leaves ↔ k ∈ r'.leaves)) :
    RawOK K (.bin b l r) (combos (intersectPoints K ll) as bs) := by
  have hmem : ∀ p, p ∈ combos (intersectPoints K ll) as bs →
      ∃ x ∈ as, ∃ y ∈ bs, p = intersectPoints K ll x y := fun p hp => combos_sub hp
  have hI : ∀ x ∈ as, ∀ y ∈ bs, ∀ k, It.lev k ∈ (intersectPoints K ll x y).iters ↔
      It.lev k ∈ x.iters ∨ It.lev k ∈ y.iters := by
    intro x hx y hy k
    rw [mem_intersect_iters ha hbs hx hy]
    simp
  constructor
  · intro p hp
    obtain ⟨x, hx, y, hy, rfl⟩ := hmem p hp
    simp [intersectPoints, mkPoint, ha.prod x hx, hbs.prod y hy]
  · intro p hp
    obtain ⟨x, hx, y, hy, rfl⟩ := hmem p hp
    exact nodup_dedup
  · intro p hp
    obtain ⟨x, hx, y, hy, rfl⟩ := hmem p hp
    exact nodup_dedup
  · intro p hp k hk
    obtain ⟨x, hx, y, hy, rfl⟩ := hmem p hp
    rw [leaves_bin]
    rcases (hI x hx y hy k).1 hk with h | h
    · have := ha.iters x hx k h; exact ⟨Or.inl this.1, this.2⟩
    · have := hbs.iters y hy k h; exact ⟨Or.inr this.1, this.2⟩
  · intro p hp x hx
    obtain ⟨u, hu, v, hv, rfl⟩ := hmem p hp
    rcases (mem_intersect_locs ha hbs hu hv ll x).1 hx with h | h
    · obtain ⟨k, h1, h2, h3⟩ := ha.locs u hu x h; exact ⟨k, h1, leaves_bin.2 (Or.inl h2), h3⟩
    · obtain ⟨k, h1, h2, h3⟩ := hbs.locs v hv x h; exact ⟨k, h1, leaves_bin.2 (Or.inr h2), h3⟩
  · intro p hp
    obtain ⟨u, hu, v, hv, rfl⟩ := hmem p hp
    intro he
    have key : ∀ x, x ∉ (intersectPoints K ll u v).iters := by intro x; rw [he]; simp
    cases ll with
    | true =>
      cases hvi : v.iters with
      | nil => exact hbs.ne v hv hvi
      | cons x xs =>
        exact key x ((mem_intersect_iters ha hbs hu hv true x).2
          (Or.inr ⟨by rw [hvi]; exact List.mem_cons_self, by simp⟩))
    | false =>
      cases hui : u.iters with
      | nil => exact ha.ne u hu hui
      | cons x xs =>
        exact key x ((mem_intersect_iters ha hbs hu hv false x).2
          (Or.inl ⟨by rw [hui]; exact List.mem_cons_self, by simp⟩))
  · intro p hp hd
    obtain ⟨u, hu, v, hv, rfl⟩ := hmem p hp
    rw [supp_conj hb, Bool.and_eq_true]
    rcases (mem_intersect_iters ha hbs hu hv ll .dim).1 hd with ⟨h, hn⟩ | ⟨h, hn⟩
    · have hl := ha.dimOnly u hu h
      cases hr : supp K (fun _ => false) r with
      | true => exact ⟨hl, rfl⟩
      | false => rw [hr, hl] at hll; exact absurd rfl (hn hll)
    · have hr := hbs.dimOnly v hv h
      rw [hr] at hll
      exact absurd rfl (hn (by rw [hll]; rfl))
  · intro p hp R hR
    obtain ⟨u, hu, v, hv, rfl⟩ := hmem p hp
    rw [supp_conj hb, Bool.and_eq_true]
    exact ⟨ha.sound u hu R (fun k hk => hR k ((hI u hu v hv k).2 (Or.inl hk))),
      hbs.sound v hv R (fun k hk => hR k ((hI u hu v hv k).2 (Or.inr hk)))⟩
  · intro R hR
    rw [supp_conj hb, Bool.and_eq_true] at hR
    obtain ⟨pa, hpa, a1, a2, a3, a4, a5⟩ := ha.cover' R hR.1
    obtain ⟨pb, hpb, b1, b2, b3, b4, b5⟩ := hbs.cover' R hR.2
    have hag : agree K l r pa pb := agree_cover hin hdisj a3 b3 a5 b5 hR.1 hR.2
    have hflagm : supp K (fun _ => false) (Expr.bin b l r) = true →
        .dim ∈ (intersectPoints K ll pa pb).iters := by
      rw [supp_conj hb, Bool.and_eq_true]
      rintro ⟨h1, h2⟩
      rw [h1, h2] at hll
      subst hll
      exact (mem_intersect_iters ha hbs hpa hpb _ .dim).2 (Or.inl ⟨a2 h1, by simp⟩)
    refine ⟨intersectPoints K ll pa pb, combos_mem ha hbs hpa hpb hag, ?_, hflagm, ?_, ?_, ?_⟩
    · intro k hk
      rcases (hI pa hpa pb hpb k).1 hk with h | h
      · exact a1 k h
      · exact b1 k h
    · apply zeroOut_bin_congr
      · rw [← a3]
        exact zeroOut_congr (zRest_left hbs hag hpb (mem_intersect_all ha hbs hpa hpb ll))
      · rw [← b3]
        exact zeroOut_congr (zRest_right ha hag hpa (mem_intersect_all ha hbs hpa hpb ll))
    · intro q hq hqR x hx
      obtain ⟨u, hu, v, hv, rfl⟩ := hmem q hq
      have hu' := a4 u hu (fun k hk => hqR k ((hI u hu v hv k).2 (Or.inl hk)))
      have hv' := b4 v hv (fun k hk => hqR k ((hI u hu v hv k).2 (Or.inr hk)))
      cases x with
      | lev k =>
        rw [mem_intersect_all ha hbs hpa hpb]
        rcases (mem_intersect_all ha hbs hu hv ll k).1 hx with h | h
        · exact Or.inl (hu' h)
        · exact Or.inr (hv' h)
      | dim =>
        -- the dimension iterator occurs only if both operands have it
        refine Point.mem_all.2 (Or.inl (hflagm ?_))
        rcases Point.mem_all.1 hx with h | h
        · rw [supp_conj hb, Bool.and_eq_true]
          rcases (mem_intersect_iters ha hbs hu hv ll .dim).1 h with ⟨h, hn⟩ | ⟨h, hn⟩
          · have hl := ha.dimOnly u hu h
            cases hr : supp K (fun _ => false) r with
            | true => exact ⟨hl, rfl⟩
            | false => rw [hr, hl] at hll; exact absurd rfl (hn hll)
          · have hr := hbs.dimOnly v hv h
            rw [hr] at hll
            exact absurd rfl (hn (by rw [hll]; rfl))
        · rcases (mem_intersect_locs ha hbs hu hv ll .dim).1 h with h | h
          · obtain ⟨k, hk, _⟩ := ha.locs u hu _ h; cases hk
          · obtain ⟨k, hk, _⟩ := hbs.locs v hv _ h; cases hk
    · intro k hk
      exact aliveIn_bin (zeroOut_of_supp hin hR.1) (zeroOut_of_supp hin hR.2)
        (((mem_intersect_all ha hbs hpa hpb ll k).1 hk).imp (a5 k) (b5 k))
  · intro k hk hK
    have tl := supp_top K l
    have tr := supp_top K r
    obtain ⟨pa, hpa, a1, a2, a3, a4, a5⟩ := ha.cover' (fun _ => true) tl
    obtain ⟨pb, hpb, b1, b2, b3, b4, b5⟩ := hbs.cover' (fun _ => true) tr
    have hag : agree K l r pa pb := agree_cover hin hdisj a3 b3 a5 b5 tl tr
    refine ⟨_, combos_mem ha hbs hpa hpb hag, (mem_intersect_all ha hbs hpa hpb ll k).2 ?_⟩
    rcases leaves_bin.1 hk with hk | hk
    · obtain ⟨p, hp, h⟩ := ha.leavesIn k hk hK
      exact Or.inl (a4 p hp (fun _ _ => rfl) h)
    · obtain ⟨p, hp, h⟩ := hbs.leavesIn k hk hK
      exact Or.inr (b4 p hp (fun _ _ => rfl) h)

/-! ### the optimizations of the union are the identity here -/

theorem insertDim_id {K : Ctx} {e : Expr V} {L : List Point} (h : RawOK K e L) :
    insertDimIfNotOrdered K L = L := by
  unfold insertDimIfNotOrdered
  conv => rhs; rw [← List.map_id L]
  apply List.map_congr_left
  intro p hp
  rw [if_neg]
  · rfl
  · rw [Bool.and_eq_true]
    rintro ⟨h1, _⟩
    rw [List.any_eq_true] at h1
    obtain ⟨x, hx, ho⟩ := h1
    cases x with
    | dim => cases ho
    | lev k =>
      simp [It.isOrdered, (h.iters p hp k hx).2, compressedAttr] at ho

theorem moveLocate_id {K : Ctx} {e : Expr V} {L : List Point} (h : RawOK K e L) :
    moveLocateSubset K L = L := by
  unfold moveLocateSubset
  split
  · rfl
  · rename_i f _ _
    conv => rhs; rw [← List.map_id L]
    apply List.map_congr_left
    intro p hp
    have h1 : p.iters.filter (fun x => !(x.hasLocate K && x != f)) = p.iters := by
      rw [List.filter_eq_self]
      intro x hx
      rw [hasLocate_iters h hp hx]; rfl
    have h2 : p.iters.filter (fun x => x.hasLocate K && x != f) = [] := by
      rw [List.filter_eq_nil_iff]
      intro x hx
      rw [hasLocate_iters h hp hx]; simp
    rw [h1, h2, List.append_nil, mkPoint_self (h.nodupI p hp) (h.nodupL p hp)]
    rfl

/-! ### base cases -/

theorem spSub_dim {locs : List It} {b : Bool} (R : Nat → Bool) : spSub ⟨[.dim], locs, b⟩ R := by
  intro k hk; simp at hk

theorem latOK_acc {K : Ctx} (hin : InTree K) {srt : List Point → List Point} (k : Nat) :
    LatOK (V := V) K (.acc k) (build (V := V) K srt (.acc k)) := by
  simp only [build]
  cases hk : K k with
  | none =>
    have hz : ∀ R, (Expr.acc k : Expr V).zeroOut (zRest K ⟨[.dim], [], false⟩) =
        (Expr.acc k).zeroOut (zAbs K R) := by
      intro R; simp [zeroOut, zRest, zAbs, hk]
    refine { prod := ?_, nodupI := ?_, nodupL := ?_, iters := ?_, locs := ?_, ne := ?_, dimOnly := ?_,
             sound := ?_, cover' := ?_, leavesIn := ?_, sorted := ?_ } <;>
      simp only [modeLattice, mkPoint, dedup, dedupGo, List.mem_singleton, forall_eq,
        List.not_mem_nil, if_false]
    · simp
    · simp
    · simp
    · simp
    · simp
    · intro _; simp [supp, hk]
    · intro R _; simp [supp, hk]
    · intro R _
      exact ⟨_, rfl, spSub_dim R, fun _ => by simp, hz R, fun _ _ hx => hx, fun j hj => by simp [Point.all] at hj⟩
    · intro j hj hK; simp [leaves] at hj; subst hj; exact absurd hk hK
    · simp
  | some a =>
    rcases hin k a hk with rfl | rfl
    · have hz : ∀ R, (Expr.acc k : Expr V).zeroOut (zRest K ⟨[.dim], [.lev k], false⟩) =
          (Expr.acc k).zeroOut (zAbs K R) := by
        intro R
        have hne : (denseAttr = compressedAttr) = False := by decide
        simp [zeroOut, zRest, zAbs, hk, Point.all, hne]
      have hb : (!denseAttr.coordIter && !denseAttr.posIter) = true := rfl
      simp only [hb, if_true]
      refine { prod := ?_, nodupI := ?_, nodupL := ?_, iters := ?_, locs := ?_, ne := ?_, dimOnly := ?_,
               sound := ?_, cover' := ?_, leavesIn := ?_, sorted := ?_ } <;>
        simp only [mkPoint, dedup, dedupGo, List.mem_singleton, forall_eq,
          List.not_mem_nil, if_false]
      · simp
      · simp
      · simp
      · exact ⟨k, rfl, by simp [leaves], hk⟩
      · simp
      · intro _; simp [supp, hk, denseAttr]
      · intro R _; simp [supp, hk, denseAttr]
      · intro R _
        refine ⟨_, rfl, spSub_dim R, fun _ => by simp, hz R, fun _ _ hx => hx, ?_⟩
        intro j hj
        have hjk : j = k := by simpa [Point.all] using hj
        subst hjk
        have hne : (denseAttr = compressedAttr) = False := by decide
        exact ⟨.acc j, by simp [zeroOut, zAbs, hk, hne], by simp [leaves]⟩
      · intro j hj hK; simp [leaves] at hj; subst hj
        exact ⟨_, rfl, by simp [Point.all]⟩
      · simp
    · have hb : (!compressedAttr.coordIter && !compressedAttr.posIter) = false := rfl
      simp only [hb, Bool.false_eq_true, if_false]
      refine { prod := ?_, nodupI := ?_, nodupL := ?_, iters := ?_, locs := ?_, ne := ?_, dimOnly := ?_,
               sound := ?_, cover' := ?_, leavesIn := ?_, sorted := ?_ } <;>
        simp only [mkPoint, dedup, dedupGo, List.mem_singleton, forall_eq,
          List.not_mem_nil, if_false]
      · simp
      · simp
      · intro j hj; cases hj; exact ⟨by simp [leaves], hk⟩
      · simp
      · simp
      · intro h; cases h
      · intro R hR
        have := hR k (by simp)
        simp [supp, hk, compressedAttr, this]
      · intro R hR
        have hRk : R k = true := by simpa [supp, hk, compressedAttr] using hR
        refine ⟨_, rfl, ?_, ?_, ?_, fun _ _ hx => hx, ?_⟩
        · intro j hj; simp at hj; subst hj; exact hRk
        · intro h; simp [supp, hk, compressedAttr] at h
        · simp [zeroOut, zRest, zAbs, hk, Point.all, hRk]
        · intro j hj
          have hjk : j = k := by simpa [Point.all] using hj
          subst hjk
          exact ⟨.acc j, by simp [zeroOut, zAbs, hRk], by simp [leaves]⟩
      · intro j hj hK; simp [leaves] at hj; subst hj
        exact ⟨_, rfl, by simp [Point.all]⟩
      · simp

theorem latOK_lit {K : Ctx} {srt : List Point → List Point} (v : V) :
    LatOK (V := V) K (.lit v) (build K srt (.lit v)) := by
  simp only [build]
  refine { prod := ?_, nodupI := ?_, nodupL := ?_, iters := ?_, locs := ?_, ne := ?_, dimOnly := ?_,
           sound := ?_, cover' := ?_, leavesIn := ?_, sorted := ?_ } <;>
    simp only [modeLattice, mkPoint, dedup, dedupGo, List.mem_singleton, forall_eq,
      List.not_mem_nil, if_false]
  · simp
  · simp
  · simp
  · simp
  · simp
  · intro _; rfl
  · intro R _; rfl
  · intro R _
    exact ⟨_, rfl, spSub_dim R, fun _ => by simp, rfl, fun _ _ hx => hx, fun j hj => by simp [Point.all] at hj⟩
  · intro j hj; simp [leaves] at hj
  · simp

theorem latOK_un {K : Ctx} {e : Expr V} {L : List Point} (u : UnOp) (h : LatOK K e L) :
    LatOK K (.un u e) L where
  prod := h.prod
  nodupI := h.nodupI
  nodupL := h.nodupL
  iters := by simpa [leaves] using h.iters
  locs := by simpa [leaves] using h.locs
  ne := h.ne
  dimOnly := h.dimOnly
  sound := h.sound
  cover' R hR := by
    obtain ⟨p, hp, h1, h2, h3, h4, h5⟩ := h.cover' R hR
    refine ⟨p, hp, h1, h2, by simp only [zeroOut, h3], h4, ?_⟩
    intro k hk
    obtain ⟨e', he, hm⟩ := h5 k hk
    exact ⟨.un u e', by simp only [zeroOut, he], by simpa [leaves] using hm⟩
  leavesIn := by simpa [leaves] using h.leavesIn
  sorted := h.sorted

theorem build_bin_disj {K : Ctx} {srt : List Point → List Point} {b : BinOp} (hb : disj b = true)
    (l r : Expr V) : build K srt (.bin b l r) = unionLattices K srt (build K srt l) (build K srt r) := by
  cases b <;> simp_all [disj, build]

theorem build_bin_conj {K : Ctx} {srt : List Point → List Point} {b : BinOp} (hb : disj b = false)
    (l r : Expr V) : build K srt (.bin b l r) = intersectLattices K srt (build K srt l) (build K srt r) := by
  cases b <;> simp_all [disj, build]

theorem locateFromLeft_eq {K : Ctx} {l r : Expr V} {as bs : List Point} (ha : LatOK K l as)
    (hb : LatOK K r bs) :
    locateFromLeft K as bs = (!supp K (fun _ => false) r && supp K (fun _ => false) l) := by
  unfold locateFromLeft
  rw [ha.root_any, hb.root_any]
  cases hr : supp K (fun _ => false) r <;> cases hl : supp K (fun _ => false) l <;> simp
  -- no dimension iterator on either side: no iterator supports locate
  obtain ⟨p, ps, rfl, _, _⟩ := ha.root
  obtain ⟨q, qs, rfl, _, _⟩ := hb.root
  simp only [latIters]
  have n1 : ∀ x ∈ p.iters, x.hasLocate K = false :=
    fun x hx => hasLocate_iters ha.toRawOK List.mem_cons_self hx
  have n2 : ∀ x ∈ q.iters, x.hasLocate K = false :=
    fun x hx => hasLocate_iters hb.toRawOK List.mem_cons_self hx
  refine fun _ => ⟨fun x hx _ => n1 x hx, ?_⟩
  have : p.iters.countP (fun x => x.hasLocate K) = 0 := by
    rw [List.countP_eq_zero]; intro x hx; rw [n1 x hx]; simp
  rw [this]; exact Nat.zero_le _

theorem latOK_build {K : Ctx} (hin : InTree K) {srt : List Point → List Point} (hs : SortSpec srt)
    (e : Expr V) (hlin : consistent K e) : LatOK K e (build K srt e) := by
  induction e with
  | acc k => exact latOK_acc hin k
  | lit v => exact latOK_lit v
  | un u a ih => exact latOK_un u (ih hlin)
  | bin b l r ihl ihr =>
    obtain ⟨h1, h2, hdisj⟩ := hlin
    have il := ihl h1
    have ir := ihr h2
    have ml : ∀ p, p ∈ build K srt l ↔ p ∈ srt (build K srt l) := fun p => (hs _).1.mem_iff.symm
    have mr : ∀ p, p ∈ build K srt r ↔ p ∈ srt (build K srt r) := fun p => (hs _).1.mem_iff.symm
    have il' := il.toRawOK.perm (L' := srt (build K srt l)) (fun p => (ml p).symm)
    have ir' := ir.toRawOK.perm (L' := srt (build K srt r)) (fun p => (mr p).symm)
    cases hb : disj b with
    | true =>
      rw [build_bin_disj hb]
      have hraw := raw_union hin hb il.toRawOK ir.toRawOK il' ir' ml mr hdisj
      have hfin := finish (b := false) hs hraw
      unfold unionLattices
      simp only
      rw [correct_id_true il.prod, insertDim_id hfin.toRawOK, moveLocate_id hfin.toRawOK]
      exact hfin
    | false =>
      rw [build_bin_conj hb]
      have hraw := raw_intersect hin hb il' ir' (locateFromLeft K (build K srt l) (build K srt r))
        (locateFromLeft_eq il ir) hdisj
      have hfin := finish (b := true) hs hraw
      unfold intersectLattices
      simp only
      have hp : RawOK K (.bin b l r) (srt (combos (intersectPoints K
          (locateFromLeft K (build K srt l) (build K srt r))) (srt (build K srt l)) (srt (build K srt r)))) :=
        hraw.perm (fun p => (hs _).1.mem_iff)
      rw [correct_id_false hp]
      exact hfin

end Verif.Merge
