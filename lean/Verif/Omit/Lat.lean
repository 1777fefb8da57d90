import Verif.Omit.Alg
import Verif.Merge.Lattice
/-! The lattice of a supported description: one point for every set of operands that reaches it,
an omitter exactly when the set is not in the space. -/
namespace Verif.Omit
open Verif.Algebra (Alg dispatch applier Normal)
open Verif.Merge (It Attr Ctx Point mkPoint compressedAttr latIters latLocs intersectLattices
  unionLattices getLoopLattice subLattice exhausted exact St coordOf unexhausted resolve firstCase
  advance loadsOk dedup SortSpec combos hasIntersection rootRegion typedRegions containsSet
  correctPointTypes removeDupRegions removeDuplicatedTensorRegions intersectPoints unionPoints dedupDims
  containsSet_iff mem_dedup mem_dedupDims nodup_dedup dedup_of_nodup length_le_of_subset subset_of_length_le)

/-- The operands merged at a point. -/
def has (p : Point) (k : Nat) : Bool := decide (It.lev k ∈ p.iters)

theorem has_iff {p : Point} {k : Nat} : has p k = true ↔ It.lev k ∈ p.iters := by simp [has]

/-- Two points merge the same operands. -/
def same (p q : Point) : Prop := ∀ k, has p k = has q k

/-- A plain point: no located iterators, no repeated iterators. -/
structure Plain (p : Point) : Prop where
  locs : p.locs = []
  nodup : p.iters.Nodup

theorem Plain.region {p : Point} (h : Plain p) {x : It} : x ∈ p.region ↔ ∃ k, x = .lev k ∧ has p k = true := by
  rw [Point.mem_region, h.locs]
  simp only [List.not_mem_nil, or_false, has_iff]
  cases x with
  | dim => simp [It.isDim]
  | lev k => simp [It.isDim]

theorem Plain.size {p : Point} (h : Plain p) : p.size = p.iters.length := by
  simp [Point.size, h.locs]

theorem same_iff {p q : Point} (hp : Plain p) (hq : Plain q) :
    (∀ x, x ∈ p.region ↔ x ∈ q.region) ↔ same p q := by
  constructor
  · intro h k
    rw [Bool.eq_iff_iff]
    have := h (.lev k)
    rw [hp.region, hq.region] at this
    simpa using this
  · intro h x
    rw [hp.region, hq.region]
    simp only [h _]

theorem iters_sub {p q : Point} (h : ∀ k, has p k = true → has q k = true) (hd : .dim ∈ p.iters → .dim ∈ q.iters) :
    p.iters ⊆ q.iters := by
  intro x hx
  cases x with
  | dim => exact hd hx
  | lev k => exact has_iff.1 (h k (has_iff.2 hx))

theorem size_le {p q : Point} (hp : Plain p) (hq : Plain q) (h : ∀ k, has p k = true → has q k = true)
    (hd : .dim ∈ p.iters → .dim ∈ q.iters) : p.size ≤ q.size := by
  rw [hp.size, hq.size]
  exact length_le_of_subset hp.nodup (iters_sub h hd)

theorem same_of_size {p q : Point} (hp : Plain p) (hq : Plain q) (h : ∀ k, has p k = true → has q k = true)
    (hd : .dim ∈ p.iters → .dim ∈ q.iters) (hs : q.size ≤ p.size) : same p q := by
  rw [hp.size, hq.size] at hs
  have := subset_of_length_le hp.nodup (iters_sub h hd) hs
  intro k
  rw [Bool.eq_iff_iff]
  exact ⟨h k, fun hk => has_iff.2 (this (has_iff.1 hk))⟩

theorem contains_typed {ps : List Point} {om : Bool} {p : Point} (hps : ∀ q ∈ ps, Plain q) (hp : Plain p) :
    containsSet (typedRegions ps om) p.region = true ↔ ∃ q ∈ ps, q.isOm = om ∧ same q p := by
  rw [containsSet_iff]
  unfold typedRegions
  simp only [List.mem_map, List.mem_filter, beq_iff_eq]
  constructor
  · rintro ⟨t, ⟨q, ⟨hq, ho⟩, rfl⟩, h⟩
    exact ⟨q, hq, ho, (same_iff (hps q hq) hp).1 h⟩
  · rintro ⟨q, hq, ho, h⟩
    exact ⟨_, ⟨q, ⟨hq, ho⟩, rfl⟩, (same_iff (hps q hq) hp).2 h⟩

theorem mkPoint_plain {p : Point} (h : Plain p) (b : Bool) : mkPoint p.iters p.locs b = ⟨p.iters, [], b⟩ := by
  unfold mkPoint
  rw [dedup_of_nodup h.nodup, h.locs]; rfl

theorem has_mk {p : Point} (h : Plain p) (b : Bool) (k : Nat) : has (mkPoint p.iters p.locs b) k = has p k := by
  rw [mkPoint_plain h]; rfl

/-- Removing duplicated regions from a sorted list of plain points. -/
theorem removeDup_spec (prod om : List (List It)) (b : Bool) : ∀ (ps : List Point) (seen : List (List It)),
    (∀ p ∈ ps, Plain p) → ps.Pairwise (fun a b => a.size ≥ b.size) →
    (∀ q ∈ removeDupRegions prod om b seen ps, ∃ p ∈ ps, q.iters = p.iters ∧ q.locs = [] ∧
      q.isOm = (if containsSet prod p.region && containsSet om p.region then b else p.isOm) ∧
      containsSet seen p.region = false ∧ ∀ p' ∈ ps, same p' p → p'.size ≤ p.size) ∧
    (removeDupRegions prod om b seen ps).Pairwise (fun a b => a.size ≥ b.size) ∧
    (removeDupRegions prod om b seen ps).Pairwise (fun a b => ¬ same a b) ∧
    (∀ p ∈ ps, containsSet seen p.region = true ∨ ∃ q ∈ removeDupRegions prod om b seen ps, same q p) := by
  intro ps
  induction ps with
  | nil => intro seen _ _; simp [removeDupRegions]
  | cons p ps ih =>
    intro seen hpl hs
    rw [List.pairwise_cons] at hs
    have hp := hpl p List.mem_cons_self
    have hps : ∀ q ∈ ps, Plain q := fun q hq => hpl q (List.mem_cons_of_mem _ hq)
    cases hc : containsSet seen p.region with
    | true =>
      have he : removeDupRegions prod om b seen (p :: ps) = removeDupRegions prod om b seen ps := by
        rw [removeDupRegions, if_pos hc]
      obtain ⟨h1, h2, h3, h4⟩ := ih seen hps hs.2
      rw [he]
      refine ⟨?_, h2, h3, ?_⟩
      · intro q hq
        obtain ⟨p0, hp0, e1, e2, e3, e4, e5⟩ := h1 q hq
        refine ⟨p0, List.mem_cons_of_mem _ hp0, e1, e2, e3, e4, ?_⟩
        intro p' hp' hsm
        rcases List.mem_cons.1 hp' with rfl | hp'
        · exfalso
          rw [containsSet_iff] at hc
          obtain ⟨t, ht, htx⟩ := hc
          have : containsSet seen p0.region = true := by
            rw [containsSet_iff]
            exact ⟨t, ht, fun x => (htx x).trans ((same_iff hp (hps p0 hp0)).2 hsm x)⟩
          rw [this] at e4; cases e4
        · exact e5 p' hp' hsm
      · intro q hq
        rcases List.mem_cons.1 hq with rfl | hq
        · exact Or.inl hc
        · exact h4 q hq
    | false =>
      have he : ∃ p0, p0.iters = p.iters ∧ p0.locs = [] ∧
          p0.isOm = (if containsSet prod p.region && containsSet om p.region then b else p.isOm) ∧
          removeDupRegions prod om b seen (p :: ps) = p0 :: removeDupRegions prod om b (p.region :: seen) ps := by
        refine ⟨if containsSet prod p.region && containsSet om p.region then mkPoint p.iters p.locs b else p,
          ?_, ?_, ?_, by rw [removeDupRegions, if_neg (by rw [hc]; simp)]⟩
        · split
          · rw [mkPoint_plain hp]
          · rfl
        · split
          · rw [mkPoint_plain hp]
          · exact hp.locs
        · split
          · rw [mkPoint_plain hp]
          · rfl
      obtain ⟨p0, e1, e2, e3, he⟩ := he
      have hp0 : Plain p0 := ⟨e2, by rw [e1]; exact hp.nodup⟩
      have hhas : same p0 p := fun k => by simp [has, e1]
      obtain ⟨h1, h2, h3, h4⟩ := ih (p.region :: seen) hps hs.2
      rw [he]
      refine ⟨?_, ?_, ?_, ?_⟩
      · intro q hq
        rcases List.mem_cons.1 hq with rfl | hq
        · refine ⟨p, List.mem_cons_self, e1, e2, e3, hc, ?_⟩
          intro p' hp' _
          rcases List.mem_cons.1 hp' with rfl | hp'
          · exact Nat.le_refl _
          · exact hs.1 p' hp'
        · obtain ⟨p1, hp1, f1, f2, f3, f4, f5⟩ := h1 q hq
          refine ⟨p1, List.mem_cons_of_mem _ hp1, f1, f2, f3, ?_, ?_⟩
          · cases hx : containsSet seen p1.region with
            | false => rfl
            | true =>
              rw [containsSet_iff] at hx
              obtain ⟨t, ht, htx⟩ := hx
              have : containsSet (p.region :: seen) p1.region = true := by
                rw [containsSet_iff]; exact ⟨t, List.mem_cons_of_mem _ ht, htx⟩
              rw [this] at f4; cases f4
          · intro p' hp' hsm
            rcases List.mem_cons.1 hp' with rfl | hp'
            · exfalso
              have : containsSet (p'.region :: seen) p1.region = true := by
                rw [containsSet_iff]
                exact ⟨_, List.mem_cons_self, (same_iff hp (hps p1 hp1)).2 hsm⟩
              rw [this] at f4; cases f4
            · exact f5 p' hp' hsm
      · rw [List.pairwise_cons]
        refine ⟨?_, h2⟩
        intro q hq
        obtain ⟨p1, hp1, f1, f2, _⟩ := h1 q hq
        have := hs.1 p1 hp1
        have hq' : q.size = p1.size := by simp [Point.size, f1, f2, (hps p1 hp1).locs]
        rw [hq', hp0.size, e1, ← hp.size]; exact this
      · rw [List.pairwise_cons]
        refine ⟨?_, h3⟩
        intro q hq hsm
        obtain ⟨p1, hp1, f1, f2, f3, f4, _⟩ := h1 q hq
        have hq1 : same q p1 := fun k => by simp [has, f1]
        have : containsSet (p.region :: seen) p1.region = true := by
          rw [containsSet_iff]
          refine ⟨_, List.mem_cons_self, (same_iff hp (hps p1 hp1)).2 ?_⟩
          intro k; rw [← hhas k, hsm k, hq1 k]
        rw [this] at f4; cases f4
      · intro q hq
        rcases List.mem_cons.1 hq with rfl | hq
        · exact Or.inr ⟨p0, List.mem_cons_self, hhas⟩
        · rcases h4 q hq with h | ⟨q', hq', hsm⟩
          · rw [containsSet_iff] at h
            obtain ⟨t, ht, htx⟩ := h
            rcases List.mem_cons.1 ht with rfl | ht
            · right
              refine ⟨p0, List.mem_cons_self, ?_⟩
              intro k; rw [hhas k, (same_iff hp (hps q hq)).1 htx k]
            · left; rw [containsSet_iff]; exact ⟨t, ht, htx⟩
          · exact Or.inr ⟨q', List.mem_cons_of_mem _ hq', hsm⟩

/-- What the lattice of a description looks like. -/
structure LatOK (a : Alg) (L : List Point) : Prop where
  sorted : L.Pairwise (fun p q => p.size ≥ q.size)
  plain : ∀ p ∈ L, Plain p
  sub : ∀ p ∈ L, ∀ k, has p k = true → k ∈ regions a
  dim : ∀ p ∈ L, (It.dim ∈ p.iters ↔ reach false (fun _ => false) a = true)
  pts : ∀ p ∈ L, reach false (has p) a = true
  ex : ∀ S : Nat → Bool, (∀ k, S k = true → k ∈ regions a) → reach false S a = true →
    ∃ p ∈ L, ∀ k, has p k = S k
  flag : ∀ p ∈ L, p.isOm = !holds (has p) a
  distinct : L.Pairwise (fun p q => ¬ same p q)

theorem LatOK.full {a : Alg} {L : List Point} (h : LatOK a L) :
    ∃ p ∈ L, ∀ k, has p k = true ↔ k ∈ regions a := by
  obtain ⟨p, hp, hk⟩ := h.ex (fun k => decide (k ∈ regions a)) (fun k hk => by simpa using hk)
    (reach_all a false (fun k hk => by simpa using hk))
  exact ⟨p, hp, fun k => by rw [hk]; simp⟩

theorem LatOK.ne_nil {a : Alg} {L : List Point} (h : LatOK a L) : L ≠ [] := by
  obtain ⟨p, hp, _⟩ := h.full
  intro he; rw [he] at hp; cases hp

/-- The first point of the lattice, and of any sorted arrangement of it, merges all operands. -/
theorem LatOK.head {a : Alg} {L L' : List Point} (h : LatOK a L) (hm : ∀ p, p ∈ L' ↔ p ∈ L)
    (hs : L'.Pairwise (fun p q => p.size ≥ q.size)) :
    ∃ p ps, L' = p :: ps ∧ ∀ k, has p k = true ↔ k ∈ regions a := by
  obtain ⟨f, hf, hfk⟩ := h.full
  cases L' with
  | nil => have := (hm f).2 hf; cases this
  | cons p ps =>
    refine ⟨p, ps, rfl, ?_⟩
    have hp : p ∈ L := (hm p).1 List.mem_cons_self
    rw [List.pairwise_cons] at hs
    have hle : f.size ≤ p.size := by
      rcases List.mem_cons.1 ((hm f).2 hf) with rfl | h'
      · exact Nat.le_refl _
      · exact hs.1 f h'
    have := same_of_size (h.plain p hp) (h.plain f hf) (fun k hk => (hfk k).2 (h.sub p hp k hk))
      (fun hd => (h.dim f hf).2 ((h.dim p hp).1 hd)) hle
    intro k; rw [this k]; exact hfk k

theorem LatOK.root {a : Alg} {L L' : List Point} (h : LatOK a L) (hm : ∀ p, p ∈ L' ↔ p ∈ L)
    (hs : L'.Pairwise (fun p q => p.size ≥ q.size)) (x : It) :
    x ∈ rootRegion L' ↔ ∃ k, x = .lev k ∧ k ∈ regions a := by
  obtain ⟨p, ps, he, hk⟩ := h.head hm hs
  have hp : Plain p := h.plain p ((hm p).1 (by rw [he]; exact List.mem_cons_self))
  rw [he, rootRegion, hp.region]
  simp only [hk]

/-- Two points agree on the operands that both descriptions mention. -/
def agree (a b : Alg) (p q : Point) : Prop :=
  (∀ k, has p k = true → k ∈ regions b → has q k = true) ∧
  (∀ k, has q k = true → k ∈ regions a → has p k = true)

theorem hasIntersection_iff {a b : Alg} {l r l' r' : List Point} (hl : LatOK a l) (hr : LatOK b r)
    (hml : ∀ p, p ∈ l' ↔ p ∈ l) (hsl : l'.Pairwise (fun p q => p.size ≥ q.size))
    (hmr : ∀ p, p ∈ r' ↔ p ∈ r) (hsr : r'.Pairwise (fun p q => p.size ≥ q.size)) {p q : Point}
    (hp : p ∈ l) (hq : q ∈ r) :
    hasIntersection p.region q.region (rootRegion l') (rootRegion r') = true ↔ agree a b p q := by
  unfold hasIntersection agree
  rw [Bool.and_eq_true, List.all_eq_true, List.all_eq_true]
  simp only [Bool.not_eq_true', Bool.and_eq_false_iff, Bool.not_eq_false', decide_eq_true_eq, decide_eq_false_iff_not]
  rw [show (∀ x ∈ p.region, x ∈ q.region ∨ x ∉ rootRegion r') ↔
      ∀ k, has p k = true → k ∈ regions b → has q k = true from ?_,
    show (∀ x ∈ q.region, x ∈ p.region ∨ x ∉ rootRegion l') ↔
      ∀ k, has q k = true → k ∈ regions a → has p k = true from ?_]
  · simp only [hl.root hml hsl, (hl.plain p hp).region, (hr.plain q hq).region]
    constructor
    · intro h k hk hka
      rcases h (.lev k) ⟨k, rfl, hk⟩ with ⟨j, hj, hh⟩ | hn
      · cases hj; exact hh
      · exact absurd ⟨k, rfl, hka⟩ hn
    · rintro h x ⟨k, rfl, hk⟩
      by_cases hka : k ∈ regions a
      · exact Or.inl ⟨k, rfl, h k hk hka⟩
      · right; rintro ⟨j, hj, hh⟩; cases hj; exact hka hh
  · simp only [hr.root hmr hsr, (hl.plain p hp).region, (hr.plain q hq).region]
    constructor
    · intro h k hk hka
      rcases h (.lev k) ⟨k, rfl, hk⟩ with ⟨j, hj, hh⟩ | hn
      · cases hj; exact hh
      · exact absurd ⟨k, rfl, hka⟩ hn
    · rintro h x ⟨k, rfl, hk⟩
      by_cases hka : k ∈ regions b
      · exact Or.inl ⟨k, rfl, h k hk hka⟩
      · right; rintro ⟨j, hj, hh⟩; cases hj; exact hka hh

theorem mem_combos_iff {a b : Alg} {l r l' r' : List Point} (hl : LatOK a l) (hr : LatOK b r)
    (hml : ∀ p, p ∈ l' ↔ p ∈ l) (hsl : l'.Pairwise (fun p q => p.size ≥ q.size))
    (hmr : ∀ p, p ∈ r' ↔ p ∈ r) (hsr : r'.Pairwise (fun p q => p.size ≥ q.size))
    {f : Point → Point → Point} {x : Point} :
    x ∈ combos f l' r' ↔ ∃ p ∈ l, ∃ q ∈ r, agree a b p q ∧ x = f p q := by
  unfold combos
  simp only [List.mem_flatMap, List.mem_filterMap]
  constructor
  · rintro ⟨p, hp, q, hq, h⟩
    rw [hml] at hp; rw [hmr] at hq
    split at h
    · rename_i hi
      exact ⟨p, hp, q, hq, (hasIntersection_iff hl hr hml hsl hmr hsr hp hq).1 hi, (Option.some.inj h).symm⟩
    · cases h
  · rintro ⟨p, hp, q, hq, hag, rfl⟩
    refine ⟨p, (hml p).2 hp, q, (hmr q).2 hq, ?_⟩
    rw [if_pos ((hasIntersection_iff hl hr hml hsl hmr hsr hp hq).2 hag)]

/-! ### combining points -/

theorem hasLocate_K0 (x : It) : x.hasLocate K0 = false := by
  cases x <;> rfl

theorem unionPoints_plain {p q : Point} (hp : Plain p) (hq : Plain q) : Plain (unionPoints p q) := by
  constructor
  · simp [unionPoints, mkPoint, hp.locs, hq.locs, dedup, Merge.dedupGo]
  · exact nodup_dedup

theorem mem_unionPoints {p q : Point} {x : It} : x ∈ (unionPoints p q).iters ↔ x ∈ p.iters ∨ x ∈ q.iters := by
  simp [unionPoints, mkPoint]

theorem has_unionPoints {p q : Point} {k : Nat} : has (unionPoints p q) k = (has p k || has q k) := by
  rw [Bool.eq_iff_iff, Bool.or_eq_true, has_iff, has_iff, has_iff, mem_unionPoints]

theorem intersectPoints_plain {p q : Point} (b : Bool) (hp : Plain p) (hq : Plain q) :
    Plain (intersectPoints K0 b p q) := by
  constructor
  · have hf : ∀ l : List It, l.filter (fun _ => false) = [] := fun l => List.filter_eq_nil_iff.2 (by simp)
    cases b <;> simp [intersectPoints, mkPoint, hp.locs, hq.locs, hasLocate_K0, hf] <;> rfl
  · exact nodup_dedup

theorem has_intersectPoints {p q : Point} {b : Bool} {k : Nat} :
    has (intersectPoints K0 b p q) k = (has p k || has q k) := by
  rw [Bool.eq_iff_iff, Bool.or_eq_true, has_iff, has_iff, has_iff]
  cases b <;> simp [intersectPoints, mkPoint, hasLocate_K0, It.isDim]

theorem dim_intersectPoints {p q : Point} {b : Bool} :
    It.dim ∈ (intersectPoints K0 b p q).iters ↔ if b then It.dim ∈ q.iters else It.dim ∈ p.iters := by
  cases b <;> simp [intersectPoints, mkPoint, hasLocate_K0, It.isDim]

theorem isOm_intersectPoints {p q : Point} {b : Bool} : (intersectPoints K0 b p q).isOm = (p.isOm || q.isOm) := by
  cases b <;> rfl

/-- Restriction of a set to the regions of a description. -/
def restr (a : Alg) (S : Nat → Bool) : Nat → Bool := fun k => S k && decide (k ∈ regions a)

theorem restr_sub {a : Alg} {S : Nat → Bool} {k : Nat} (h : restr a S k = true) : k ∈ regions a := by
  simp [restr] at h; exact h.2

theorem restr_holds {a : Alg} {S : Nat → Bool} : holds (restr a S) a = holds S a :=
  holds_congr a (fun k hk => by simp [restr, hk])

theorem restr_reach {a : Alg} {S : Nat → Bool} : reach false (restr a S) a = reach false S a :=
  reach_congr a _ (fun k hk => by simp [restr, hk])

/-- Points that agree merge, on the regions of each side, what that side merges. -/
theorem agree_left {a b : Alg} {l r : List Point} (_hl : LatOK a l) (hr : LatOK b r) {p q : Point} (hq : q ∈ r)
    (hag : agree a b p q) {k : Nat} (hk : k ∈ regions a) : (has p k || has q k) = has p k := by
  have _ := hr.plain q hq
  cases h : has p k with
  | true => rfl
  | false =>
    cases h' : has q k with
    | false => rfl
    | true => rw [hag.2 k h' hk] at h; cases h

theorem agree_right {a b : Alg} {p q : Point}
    (hag : agree a b p q) {k : Nat} (hk : k ∈ regions b) : (has p k || has q k) = has q k := by
  cases h : has q k with
  | true => simp
  | false =>
    cases h' : has p k with
    | false => rfl
    | true => rw [hag.1 k h' hk] at h; cases h

theorem full_dim {a : Alg} {L : List Point} (h : LatOK a L) :
    (latIters L).any It.isDim = reach false (fun _ => false) a := by
  cases hL : L with
  | nil => exact absurd hL h.ne_nil
  | cons p ps =>
    have hp : p ∈ L := by rw [hL]; exact List.mem_cons_self
    rw [Bool.eq_iff_iff, ← h.dim p hp]
    simp only [latIters, List.any_eq_true]
    constructor
    · rintro ⟨x, hx, hd⟩; rw [Merge.isDim_iff.1 hd] at hx; exact hx
    · intro hd; exact ⟨_, hd, rfl⟩

theorem isFull_K0 {x : It} : x.isFull K0 = true ↔ x = .dim := by
  cases x with
  | dim => simp [It.isFull]
  | lev k => simp [It.isFull, K0, compressedAttr]

/-- The side whose dimension iterator is dropped. -/
theorem locateFromLeft_eq {a b : Alg} {l r : List Point} (hl : LatOK a l) (hr : LatOK b r) :
    Merge.locateFromLeft K0 l r =
      (!reach false (fun _ => false) b && reach false (fun _ => false) a) := by
  unfold Merge.locateFromLeft
  rw [full_dim hl, full_dim hr]
  cases hb : reach false (fun _ => false) b <;> cases ha : reach false (fun _ => false) a <;>
    simp [hasLocate_K0]

theorem reach_inter {S : Nat → Bool} {a b : Alg} :
    reach false S (.inter a b) = (reach false S a && reach false S b) := by simp [reach]
theorem reach_union {S : Nat → Bool} {a b : Alg} :
    reach false S (.union a b) = (reach false S a || reach false S b) := by simp [reach]

theorem latOK_inter {a b : Alg} {l r : List Point} {srt : List Point → List Point} (hs : SortSpec srt)
    (hl : LatOK a l) (hr : LatOK b r) : LatOK (.inter a b) (intersectLattices K0 srt l r) := by
  have hml : ∀ p, p ∈ srt l ↔ p ∈ l := fun p => (hs l).1.mem_iff
  have hmr : ∀ p, p ∈ srt r ↔ p ∈ r := fun p => (hs r).1.mem_iff
  have hcm := fun x => @mem_combos_iff a b l r (srt l) (srt r) hl hr hml (hs l).2 hmr (hs r).2
    (intersectPoints K0 (Merge.locateFromLeft K0 l r)) x
  unfold intersectLattices
  dsimp only
  generalize hC : combos (intersectPoints K0 (Merge.locateFromLeft K0 l r)) (srt l) (srt r) = C at hcm
  have hb := locateFromLeft_eq hl hr
  generalize Merge.locateFromLeft K0 l r = bb at hcm hb hC
  -- facts about every combination
  have hgood : ∀ x ∈ C, Plain x ∧ (∀ k, has x k = true → k ∈ regions (.inter a b)) ∧
      (It.dim ∈ x.iters ↔ reach false (fun _ => false) (.inter a b) = true) ∧
      reach false (has x) (.inter a b) = true ∧ x.isOm = !holds (has x) (.inter a b) := by
    intro x hx
    obtain ⟨p, hp, q, hq, hag, rfl⟩ := (hcm x).1 hx
    have hpl : ∀ k ∈ regions a, has (intersectPoints K0 bb p q) k = has p k := fun k hk => by
      rw [has_intersectPoints, agree_left hl hr hq hag hk]
    have hpr : ∀ k ∈ regions b, has (intersectPoints K0 bb p q) k = has q k := fun k hk => by
      rw [has_intersectPoints, agree_right hag hk]
    refine ⟨intersectPoints_plain _ (hl.plain p hp) (hr.plain q hq), ?_, ?_, ?_, ?_⟩
    · intro k hk
      rw [has_intersectPoints, Bool.or_eq_true] at hk
      simp only [regions, List.mem_append]
      exact hk.imp (hl.sub p hp k) (hr.sub q hq k)
    · rw [dim_intersectPoints, reach_inter, hl.dim p hp, hr.dim q hq, Bool.and_eq_true]
      clear hC hcm hx hpl hpr
      subst hb
      cases reach false (fun _ => false) a <;> cases reach false (fun _ => false) b <;> simp
    · rw [reach_inter, reach_congr a _ hpl, reach_congr b _ hpr, hl.pts p hp, hr.pts q hq]; rfl
    · rw [isOm_intersectPoints]
      simp only [holds]
      rw [holds_congr a hpl, holds_congr b hpr, hl.flag p hp, hr.flag q hq, Bool.not_and]
  have hmS : ∀ x, x ∈ srt C ↔ x ∈ C := fun x => (hs C).1.mem_iff
  -- correcting the types changes nothing
  have hcor : correctPointTypes l r (srt C) false = srt C := by
    unfold correctPointTypes
    conv => rhs; rw [← List.map_id (srt C)]
    apply List.map_congr_left
    intro x hx
    obtain ⟨g1, _, _, _, g5⟩ := hgood x ((hmS x).1 hx)
    split
    · rename_i hc
      rw [Bool.and_eq_true] at hc
      obtain ⟨p, hp, ho, hsm⟩ := (contains_typed hl.plain g1).1 hc.1
      obtain ⟨q, hq, ho', hsm'⟩ := (contains_typed hr.plain g1).1 hc.2
      rw [hl.flag p hp] at ho
      rw [hr.flag q hq] at ho'
      rw [holds_congr a (fun k _ => hsm k)] at ho
      rw [holds_congr b (fun k _ => hsm' k)] at ho'
      rw [mkPoint_plain g1]
      have : x.isOm = false := by rw [g5]; simp only [holds]; simp at ho ho'; rw [ho, ho']; rfl
      show (⟨x.iters, [], false⟩ : Point) = x
      rw [← this, ← g1.locs]
    · rfl
  show LatOK _ (removeDuplicatedTensorRegions (correctPointTypes l r (srt C) false) true)
  rw [hcor]
  unfold removeDuplicatedTensorRegions
  have hplain : ∀ p ∈ srt C, Plain p := fun p hp => (hgood p ((hmS p).1 hp)).1
  obtain ⟨h1, h2, h3, h4⟩ := removeDup_spec (typedRegions (srt C) false) (typedRegions (srt C) true) true
    (srt C) [] hplain (hs C).2
  generalize removeDupRegions (typedRegions (srt C) false) (typedRegions (srt C) true) true [] (srt C) = R at *
  have hR : ∀ q ∈ R, ∃ x ∈ C, q.iters = x.iters ∧ q.locs = [] ∧ q.isOm = x.isOm := by
    intro q hq
    obtain ⟨p, hp, e1, e2, e3, _, _⟩ := h1 q hq
    refine ⟨p, (hmS p).1 hp, e1, e2, ?_⟩
    rw [e3]
    split
    · rename_i hc
      rw [Bool.and_eq_true] at hc
      obtain ⟨p1, hp1, o1, s1⟩ := (contains_typed hplain (hplain p hp)).1 hc.1
      obtain ⟨p2, hp2, o2, s2⟩ := (contains_typed hplain (hplain p hp)).1 hc.2
      rw [(hgood p1 ((hmS p1).1 hp1)).2.2.2.2, holds_congr _ (fun k _ => s1 k)] at o1
      rw [(hgood p2 ((hmS p2).1 hp2)).2.2.2.2, holds_congr _ (fun k _ => s2 k)] at o2
      rw [o1] at o2; cases o2
    · rfl
  have hsame : ∀ q x : Point, q.iters = x.iters → ∀ k, has q k = has x k := fun q x h k => by simp [has, h]
  refine ⟨h2, ?_, ?_, ?_, ?_, ?_, ?_, h3⟩
  · intro q hq
    obtain ⟨x, hx, e1, e2, e3⟩ := hR q hq
    exact ⟨e2, by rw [e1]; exact (hgood x hx).1.nodup⟩
  · intro q hq k hk
    obtain ⟨x, hx, e1, e2, e3⟩ := hR q hq
    exact (hgood x hx).2.1 k (by rw [← hsame q x e1]; exact hk)
  · intro q hq
    obtain ⟨x, hx, e1, e2, e3⟩ := hR q hq
    rw [e1]; exact (hgood x hx).2.2.1
  · intro q hq
    obtain ⟨x, hx, e1, e2, e3⟩ := hR q hq
    rw [reach_congr _ _ (fun k _ => hsame q x e1 k)]; exact (hgood x hx).2.2.2.1
  · intro S hS hre
    rw [reach_inter, Bool.and_eq_true] at hre
    obtain ⟨p, hp, hpk⟩ := hl.ex (restr a S) (fun k hk => restr_sub hk) (by rw [restr_reach]; exact hre.1)
    obtain ⟨q, hq, hqk⟩ := hr.ex (restr b S) (fun k hk => restr_sub hk) (by rw [restr_reach]; exact hre.2)
    have hag : agree a b p q := by
      constructor
      · intro k hk hkb; rw [hpk] at hk; rw [hqk]; simp [restr] at hk ⊢; exact ⟨hk.1, hkb⟩
      · intro k hk hkb; rw [hqk] at hk; rw [hpk]; simp [restr] at hk ⊢; exact ⟨hk.1, hkb⟩
    have hx := (hcm _).2 ⟨p, hp, q, hq, hag, rfl⟩
    rcases h4 _ ((hmS _).2 hx) with h | ⟨q', hq', hsm⟩
    · rw [containsSet_iff] at h; obtain ⟨t, ht, _⟩ := h; cases ht
    · refine ⟨q', hq', fun k => ?_⟩
      rw [hsm k, has_intersectPoints, hpk, hqk]
      cases hk : S k with
      | false => simp [restr, hk]
      | true =>
        have := hS k hk
        simp only [regions, List.mem_append] at this
        simp only [restr, hk, Bool.true_and, Bool.or_eq_true, decide_eq_true_eq]; exact this
  · intro q hq
    obtain ⟨x, hx, e1, e2, e3⟩ := hR q hq
    rw [e3, (hgood x hx).2.2.2.2, holds_congr _ (fun k _ => hsame q x e1 k)]

end Verif.Omit
