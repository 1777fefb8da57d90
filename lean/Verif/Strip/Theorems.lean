import Verif.Strip.Lemmas
/-!
# C73: splitting a loop over compressed operands
-/
namespace Verif.Strip

open Verif.Search Verif.Strip.Spec

/-- All coordinates of the segment are in the dimension `[0,n)`. -/
def InDim (g : Seg) (n : Nat) : Prop :=
  ∀ c p, StoredAt g.crd g.lo g.hi c p → 0 ≤ c ∧ c < n

/-- The loops of `split(i, i0, i1, s)`, possibly with a second `split(i1, i2, i3, s')` whose factor divides
the first. -/
inductive Schedule (n s : Nat) : List Strip → Prop
  | split (hs : 0 < s) : Schedule n s (splitStrips n s)
  | nested (s' : Nat) (hs : 0 < s) (hs' : 0 < s') (hd : s' ∣ s) : Schedule n s (nestedStrips n s s')

theorem Schedule.tiles {n s : Nat} {ts : List Strip} (h : Schedule n s ts) :
    ∃ m : Int, (n : Int) ≤ m ∧ Tiles 0 ts m := by
  have ge : ∀ {s}, 0 < s → (n : Int) ≤ (((n + (s - 1)) / s : Nat) : Int) * s := fun {s} hs => by
    have := ceil_mul_ge n s hs; exact_mod_cast this
  cases h with
  | split hs => exact ⟨_, ge hs, splitStrips_tiles n s⟩
  | nested s' hs hs' hd => exact ⟨_, ge hs, nestedStrips_tiles n s s' hs' hd⟩

/-- C73, one operand. The split loop visits the components the operand stores, each once, by increasing
coordinate: for every dimension, factor, segment and content of the entry behind the segment. Missing
for the full property: the entry has to exist (see `split_overread_fails`). -/
theorem split_one_partial (n s : Nat) (ts : List Strip) (g : Seg) (hts : Schedule n s ts) (hg : Ready g)
    (hn : InDim g n) :
    ∃ vs, runAll (strip1 g) ts = some vs ∧ VisitsStored g.crd g.lo g.hi vs := by
  obtain ⟨m, hm, tl⟩ := hts.tiles
  obtain ⟨vs, e, pw, mem⟩ := runAll_tiles (fun v : Visit => v.1)
    (fun v => StoredAt g.crd g.lo g.hi v.1 v.2) _ (fun t ht => strip1_spec hg ht) ts 0 m tl
  refine ⟨vs, e, pw, fun c p => ?_⟩
  rw [mem]
  exact ⟨fun h => h.1, fun h => ⟨h, (hn c p h).1, Int.lt_of_lt_of_le (hn c p h).2 hm⟩⟩

/-- Two rows of a matrix, the first is looped over; split by 3, and by 4 and then by 2. -/
example : Ready ⟨[1, 4, 7, 0, 2], 0, 3⟩ ∧ InDim ⟨[1, 4, 7, 0, 2], 0, 3⟩ 8 ∧
    Schedule 8 3 (splitStrips 8 3) ∧ Schedule 8 4 (nestedStrips 8 4 2) ∧
    runAll (strip1 ⟨[1, 4, 7, 0, 2], 0, 3⟩) (splitStrips 8 3) = some [(1, 0), (4, 1), (7, 2)] := by
  refine ⟨⟨by decide, by decide, by decide, StrictOn.of_pairwise (by decide)⟩, ?_, .split (by decide),
    .nested 2 (by decide) (by decide) (by decide), by decide +kernel⟩
  intro c p h
  obtain ⟨_, h2, h3⟩ := h
  match p with
  | 0 => simp at h3; omega
  | 1 => simp at h3; omega
  | 2 => simp at h3; omega
  | p + 3 => dsimp only at h2; omega

/-- C73, a product of two operands. The split loop visits the coordinates at which both operands store a
component, each once, by increasing coordinate, with these components. -/
theorem split_intersection_partial (n s : Nat) (ts : List Strip) (a b : Seg) (hts : Schedule n s ts)
    (ha : Ready a) (hb : Ready b) (hn : InDim a n) :
    ∃ vs, runAll (stripIntersection a b) ts = some vs ∧
      VisitsIntersection a.crd a.lo a.hi b.crd b.lo b.hi vs := by
  obtain ⟨m, hm, tl⟩ := hts.tiles
  obtain ⟨vs, e, pw, mem⟩ := runAll_tiles (fun v : Visit2 => v.1)
    (fun v => Component a.crd a.lo a.hi v.1 v.2.1 ∧ Component b.crd b.lo b.hi v.1 v.2.2 ∧
        v.2.1 ≠ none ∧ v.2.2 ≠ none) _ (fun t ht => stripIntersection_spec ha hb ht) ts 0 m tl
  refine ⟨vs, e, pw, fun c x y => ?_⟩
  rw [mem]
  refine ⟨fun h => h.1, fun h => ⟨h, ?_⟩⟩
  cases x with
  | none => exact absurd rfl h.2.2.1
  | some p => have := hn c p h.1; exact ⟨this.1, Int.lt_of_lt_of_le this.2 hm⟩

example : runAll (stripIntersection ⟨[1, 4, 7, 0], 0, 3⟩ ⟨[0, 4, 5, 7, 2], 0, 4⟩) (splitStrips 8 3) =
    some [(4, some 1, some 1), (7, some 2, some 3)] := by decide +kernel

/-- C73, a sum of two operands. The split loop visits the coordinates at which one of the operands stores a
component, each once, by increasing coordinate, with the components stored there. Missing for the full
property: the entry behind the segment of each operand has to exist and must not be smaller than a
coordinate of the other operand (see `split_union_fails`). -/
theorem split_union_partial (n s : Nat) (ts : List Strip) (a b : Seg) (hts : Schedule n s ts)
    (ha : Ready a) (hb : Ready b) (na : InDim a n) (nb : InDim b n) (sa : NoSmaller a b) (sb : NoSmaller b a) :
    ∃ vs, runAll (stripUnion a b) ts = some vs ∧ VisitsUnion a.crd a.lo a.hi b.crd b.lo b.hi vs := by
  obtain ⟨m, hm, tl⟩ := hts.tiles
  obtain ⟨vs, e, pw, mem⟩ := runAll_tiles (fun v : Visit2 => v.1)
    (fun v => Component a.crd a.lo a.hi v.1 v.2.1 ∧ Component b.crd b.lo b.hi v.1 v.2.2 ∧
        (v.2.1 ≠ none ∨ v.2.2 ≠ none)) _ (fun t ht => stripUnion_spec ha hb sa sb ht) ts 0 m tl
  refine ⟨vs, e, pw, fun c x y => ?_⟩
  rw [mem]
  refine ⟨fun h => h.1, fun h => ⟨h, ?_⟩⟩
  have key : 0 ≤ c ∧ c < (n : Int) := by
    rcases h.2.2 with hx | hx
    · cases x with
      | none => exact absurd rfl hx
      | some p => exact na c p h.1
    · cases y with
      | none => exact absurd rfl hx
      | some p => exact nb c p h.2.1
  exact ⟨key.1, Int.lt_of_lt_of_le key.2 hm⟩

/-- The hypotheses hold, for instance, when the next rows start at column 7. -/
example : runAll (stripUnion ⟨[1, 4, 7], 0, 2⟩ ⟨[4, 5, 7], 0, 2⟩) (splitStrips 8 3) =
    some [(1, some 0, none), (4, some 1, some 0), (5, none, some 1)] ∧
    NoSmaller ⟨[1, 4, 7], 0, 2⟩ ⟨[4, 5, 7], 0, 2⟩ ∧ Ready ⟨[1, 4, 7], 0, 2⟩ := by
  refine ⟨by decide +kernel, ?_, ⟨by decide, by decide, by decide, StrictOn.of_pairwise (by decide)⟩⟩
  intro x c q hx hq
  simp at hx; subst hx
  obtain ⟨_, h2, h3⟩ := hq
  match q with
  | 0 => simp at h3; omega
  | 1 => simp at h3; omega
  | q + 2 => dsimp only at h2; omega

/-- C73 is false of sums. Rows 0 of two matrices with columns `{1}` and `{1, 5}`; rows 1 have column 0. Split
by 4, the component of the second matrix in column 5 is visited twice, in the first and in the second strip:
when the first operand is exhausted the code reads column 0 of its next row and takes the strip not to have
ended. In a reduction over the row the component is added twice. -/
theorem split_union_fails : ∃ (n s : Nat) (a b : Seg) (vs : List Visit2), 0 < s ∧ Ready a ∧ Ready b ∧
    InDim a n ∧ InDim b n ∧ runAll (stripUnion a b) (splitStrips n s) = some vs ∧
    vs = [(1, some 0, some 0), (5, none, some 1), (5, none, some 1)] ∧
    ¬ VisitsUnion a.crd a.lo a.hi b.crd b.lo b.hi vs := by
  refine ⟨8, 4, ⟨[1, 0], 0, 1⟩, ⟨[1, 5, 0], 0, 2⟩, _, by decide,
    ⟨by decide, by decide, by decide, StrictOn.of_pairwise (by decide)⟩,
    ⟨by decide, by decide, by decide, StrictOn.of_pairwise (by decide)⟩, ?_, ?_,
    by decide +kernel, rfl, ?_⟩
  · rintro c p ⟨_, h2, h3⟩
    match p with
    | 0 => simp at h3; omega
    | p + 1 => simp at h2
  · rintro c p ⟨_, h2, h3⟩
    match p with
    | 0 => simp at h3; omega
    | 1 => simp at h3; omega
    | p + 2 => dsimp only at h2; omega
  · intro h; exact absurd h.1 (by decide)

/-- The same without a component in the strip: an empty row and a row with column 5, split by 2. The
component is visited in every strip up to its own. -/
theorem split_union_empty_fails :
    runAll (stripUnion ⟨[0], 0, 0⟩ ⟨[5, 0], 0, 1⟩) (splitStrips 8 2) =
      some [(5, none, some 0), (5, none, some 0), (5, none, some 0)] := by decide +kernel

/-- C73 needs an entry behind the segment. A split loop over the last segment of an array (and so over every
compressed vector) reads behind the end of the array, whatever the dimension, the factor and the stored
components are. -/
theorem split_overread_fails (n s : Nat) (g : Seg) (hn : 0 < n) (hs : 0 < s) (hle : g.lo ≤ g.hi)
    (hend : g.hi = g.crd.length) (hsz : g.hi ≤ 1073741824) (hst : StrictOn g.crd g.lo g.hi)
    (hd : InDim g n) : runAll (strip1 g) (splitStrips n s) = none := by
  have hm : 0 < (n + (s - 1)) / s := Nat.div_pos (by omega) hs
  have hge := ceil_mul_ge n s hs
  have hmem : (⟨(((n + (s - 1)) / s - 1 : Nat) : Int) * s, s, .search⟩ : Strip) ∈ splitStrips n s := by
    unfold splitStrips
    refine List.mem_map.mpr ⟨(n + (s - 1)) / s - 1, List.mem_range.mpr ?_, rfl⟩
    simp only [Provenance.splitOuterBounds]; omega
  refine runAll_none hmem ?_
  generalize hb : (((n + (s - 1)) / s - 1 : Nat) : Int) * s = base
  have hub : (n : Int) ≤ base + s := by
    have e : ((n + (s - 1)) / s - 1) * s + s = (n + (s - 1)) / s * s := by
      rw [Nat.sub_mul, Nat.one_mul]
      have : s ≤ (n + (s - 1)) / s * s := Nat.le_mul_of_pos_left s hm
      omega
    have : (n : Int) ≤ (((n + (s - 1)) / s - 1 : Nat) : Int) * s + s := by exact_mod_cast (by omega)
    omega
  unfold strip1 startPos
  dsimp only
  rcases Nat.lt_or_ge g.lo g.hi with hl | hl
  · obtain ⟨p, e, l1, l2, l3, l4⟩ := binarySearchAfter_lowerBound g.crd g.lo g.hi base hl (by omega) hsz hst
    rw [e]
    rcases Nat.lt_or_ge p g.hi with hp | hp
    · have hc : g.crd[p]? = some (g.crd[p]'(by omega)) := List.getElem?_eq_getElem (by omega)
      have hin := (hd _ p ⟨l1, hp, hc⟩).2
      have := loop1_overread hend ⟨base, s, .search⟩ (g.hi - p) p
        (recoverInner ⟨base, s, .search⟩ (g.crd[p]'(by omega))) rfl hp
        (by unfold recoverInner; dsimp only; omega)
        (fun q c h1 h2 h3 => by
          have := (hd c q ⟨by omega, h2, h3⟩).2
          dsimp only; omega)
      simp only [Option.bind_eq_bind, Option.bind_some, hc]; exact this
    · have hc : g.crd[p]? = none := List.getElem?_eq_none (by omega)
      simp only [Option.bind_eq_bind, Option.bind_some, hc, Option.bind_none]
  · have e : g.hi = g.lo := by omega
    have hc : g.crd[g.lo]? = none := List.getElem?_eq_none (by omega)
    unfold binarySearchAfter
    rw [hc]; rfl

/-- A vector with components 1, 4 and 7. -/
example : StrictOn [1, 4, 7] 0 3 ∧ runAll (strip1 ⟨[1, 4, 7], 0, 3⟩) (splitStrips 8 3) = none :=
  ⟨StrictOn.of_pairwise (by decide), by decide +kernel⟩

/-- C73 is false when the factor of a second split does not divide the first: coordinate 5 is visited in the
last strip of the first five coordinates and in the first strip of the next five. -/
theorem nested_fails :
    ∃ vs, runAll (strip1 ⟨[0, 3, 5, 9, 0], 0, 4⟩) (nestedStrips 10 5 3) = some vs ∧
      vs = [(0, 0), (3, 1), (5, 2), (5, 2), (9, 3)] ∧ ¬ VisitsStored [0, 3, 5, 9, 0] 0 4 vs := by
  refine ⟨_, by decide +kernel, rfl, fun h => absurd h.1 (by decide)⟩

/-- C73 is false below a level with duplicates (the column level of a coordinate matrix): every strip starts
at the beginning of the segment, so the components of earlier strips are visited again. -/
theorem chained_fails :
    ∃ vs, runAll (strip1 ⟨[1, 4, 7, 0], 0, 3⟩) (chainedStrips 8 3) = some vs ∧
      vs = [(1, 0), (1, 0), (4, 1), (1, 0), (4, 1), (7, 2)] ∧ ¬ VisitsStored [1, 4, 7, 0] 0 3 vs := by
  refine ⟨_, by decide +kernel, rfl, fun h => absurd h.1 (by decide)⟩

/-- C73 is false when the two loops of a split are exchanged: some components are visited once for every
value of the inner variable, others not at all. -/
theorem reordered_fails :
    ∃ vs, runAll (strip1 ⟨[1, 4, 7, 0], 0, 3⟩) (reorderedStrips 8 3) = some vs ∧
      vs = [(1, 0), (1, 0), (1, 0), (4, 1)] ∧ ¬ VisitsStored [1, 4, 7, 0] 0 3 vs := by
  refine ⟨_, by decide +kernel, rfl, fun h => absurd h.1 (by decide)⟩

/-- With one strip (a factor that is at least the dimension) a level with duplicates is looped over
correctly, for every segment. -/
theorem chained_partial (n s : Nat) (g : Seg) (hn : 0 < n) (hs : n ≤ s) (hg : Ready g) (hd : InDim g n) :
    ∃ vs, runAll (strip1 g) (chainedStrips n s) = some vs ∧ VisitsStored g.crd g.lo g.hi vs := by
  have hm : (n + (s - 1)) / s = 1 := by
    rw [show n + (s - 1) = (n - 1) + s by omega, Nat.add_div_right _ (by omega), Nat.div_eq_of_lt (by omega)]
  have hstr : chainedStrips n s = [⟨0, s, .begin⟩] := by
    simp [chainedStrips, splitStrips, Provenance.splitOuterBounds, Provenance.splitInnerBounds, hm]
  obtain ⟨c, hc⟩ := get_some hg hg.le
  obtain ⟨vs, e, pw, mem, -⟩ := loop1_spec hg ⟨0, s, .begin⟩ (g.hi - g.lo) g.lo
    (recoverInner ⟨0, s, .begin⟩ c) rfl (Nat.le_refl _) hg.le (by
      intro _ c' hc'; rw [hc] at hc'; injection hc' with hc'; subst hc'; unfold recoverInner; dsimp only; omega)
  refine ⟨vs, ?_, pw, fun c p => ?_⟩
  · rw [hstr]; simp [runAll, strip1, startPos, hc, e]
  · rw [mem]
    refine ⟨fun h => h.1, fun h => ⟨h, ?_⟩⟩
    have := (hd c p h).2
    dsimp only; omega

example : runAll (strip1 ⟨[1, 4, 7, 0], 0, 3⟩) (chainedStrips 8 8) = some [(1, 0), (4, 1), (7, 2)] := by
  decide +kernel

end Verif.Strip
