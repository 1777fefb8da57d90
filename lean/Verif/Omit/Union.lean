import Verif.Omit.Lat
/-! The lattice of a union, and of a whole description. -/
namespace Verif.Omit
open Verif.Algebra (Alg dispatch applier Normal)
open Verif.Merge (It Attr Ctx Point mkPoint compressedAttr latIters latLocs intersectLattices
  unionLattices getLoopLattice subLattice exhausted exact St coordOf unexhausted resolve firstCase
  advance loadsOk dedup SortSpec combos hasIntersection rootRegion typedRegions containsSet
  correctPointTypes removeDupRegions removeDuplicatedTensorRegions intersectPoints unionPoints dedupDims
  containsSet_iff mem_dedup mem_dedupDims nodup_dedup dedup_of_nodup length_le_of_subset subset_of_length_le
  insertDimIfNotOrdered moveLocateSubset)

theorem isOrdered_K0 (x : It) : x.isOrdered K0 = true := by cases x <;> rfl

theorem insertDim_K0 (ps : List Point) : insertDimIfNotOrdered K0 ps = ps := by
  unfold insertDimIfNotOrdered
  conv => rhs; rw [← List.map_id ps]
  apply List.map_congr_left
  intro p _
  rw [if_neg]
  · rfl
  · simp [isOrdered_K0]

theorem moveLocate_K0 {ps : List Point} (h : ∀ p ∈ ps, Plain p) : moveLocateSubset K0 ps = ps := by
  unfold moveLocateSubset
  split
  · rfl
  · conv => rhs; rw [← List.map_id ps]
    apply List.map_congr_left
    intro p hp
    have hp := h p hp
    have h1 : ∀ y, p.iters.filter (fun x => !(x.hasLocate K0 && x != y)) = p.iters := fun y =>
      List.filter_eq_self.2 (fun x _ => by simp [hasLocate_K0])
    have h2 : ∀ y, p.iters.filter (fun x => x.hasLocate K0 && x != y) = [] := fun y =>
      List.filter_eq_nil_iff.2 (fun x _ => by simp [hasLocate_K0])
    rw [h1, h2, hp.locs]
    show (⟨dedup p.iters, _, p.isOm⟩ : Point) = p
    rw [dedup_of_nodup hp.nodup]
    show (⟨p.iters, [], p.isOm⟩ : Point) = p
    rw [← hp.locs]

theorem latOK_union {a b : Alg} {l r : List Point} {srt : List Point → List Point} (hs : SortSpec srt)
    (hl : LatOK a l) (hr : LatOK b r) (ha : alone false a = true) (hb : alone false b = true) :
    LatOK (.union a b) (unionLattices K0 srt l r) := by
  have hml : ∀ p, p ∈ srt l ↔ p ∈ l := fun p => (hs l).1.mem_iff
  have hmr : ∀ p, p ∈ srt r ↔ p ∈ r := fun p => (hs r).1.mem_iff
  have hcm := fun x => @mem_combos_iff a b l r (srt l) (srt r) hl hr hml (hs l).2 hmr (hs r).2 unionPoints x
  unfold unionLattices
  dsimp only
  generalize hC : combos unionPoints (srt l) (srt r) = C at hcm
  have hmS : ∀ x, x ∈ srt (C ++ l ++ r) ↔ x ∈ C ∨ x ∈ l ∨ x ∈ r := fun x => by
    rw [(hs (C ++ l ++ r)).1.mem_iff]; simp [or_assoc]
  have hsorted := (hs (C ++ l ++ r)).2
  generalize srt (C ++ l ++ r) = P at hmS hsorted
  -- combinations
  have hCg : ∀ x ∈ C, Plain x ∧ (∀ k, has x k = true → k ∈ regions (.union a b)) ∧
      (It.dim ∈ x.iters ↔ reach false (fun _ => false) (.union a b) = true) ∧
      reach false (has x) (.union a b) = true ∧ x.isOm = !holds (has x) (.union a b) := by
    intro x hx
    obtain ⟨p, hp, q, hq, hag, rfl⟩ := (hcm x).1 hx
    have hpl : ∀ k ∈ regions a, has (unionPoints p q) k = has p k := fun k hk => by
      rw [has_unionPoints, agree_left hl hr hq hag hk]
    have hpr : ∀ k ∈ regions b, has (unionPoints p q) k = has q k := fun k hk => by
      rw [has_unionPoints, agree_right hag hk]
    refine ⟨unionPoints_plain (hl.plain p hp) (hr.plain q hq), ?_, ?_, ?_, ?_⟩
    · intro k hk
      rw [has_unionPoints, Bool.or_eq_true] at hk
      simp only [regions, List.mem_append]
      exact hk.imp (hl.sub p hp k) (hr.sub q hq k)
    · rw [mem_unionPoints, reach_union, hl.dim p hp, hr.dim q hq, Bool.or_eq_true]
    · rw [reach_union, reach_congr a _ hpl, hl.pts p hp]; rfl
    · show (p.isOm && q.isOm) = _
      simp only [holds]
      rw [holds_congr a hpl, holds_congr b hpr, hl.flag p hp, hr.flag q hq, Bool.not_or]
  have hplain : ∀ p ∈ P, Plain p := by
    intro p hp
    rcases (hmS p).1 hp with h | h | h
    · exact (hCg p h).1
    · exact hl.plain p h
    · exact hr.plain p h
  -- a producer point is in the space
  have hprod : ∀ p ∈ P, p.isOm = false → holds (has p) (.union a b) = true := by
    intro p hp ho
    rcases (hmS p).1 hp with h | h | h
    · have := (hCg p h).2.2.2.2; rw [ho] at this; simpa using this.symm
    · have := hl.flag p h; rw [ho] at this; simp only [holds]; simp at this; rw [this]; rfl
    · have := hr.flag p h; rw [ho] at this; simp only [holds]; simp at this; rw [this]; simp
  -- a point in the space has a producer with the same operands
  have hprod' : ∀ p ∈ P, holds (has p) (.union a b) = true → ∃ q ∈ P, q.isOm = false ∧ same q p := by
    intro p hp hh
    rcases (hmS p).1 hp with h | h | h
    · have := (hCg p h).2.2.2.2; rw [hh] at this; exact ⟨p, hp, this, fun _ => rfl⟩
    · cases hha : holds (has p) a with
      | true => exact ⟨p, hp, by rw [hl.flag p h, hha]; rfl, fun _ => rfl⟩
      | false =>
        simp only [holds, hha, Bool.false_or] at hh
        obtain ⟨q, hq, hqk⟩ := hr.ex (restr b (has p)) (fun k hk => restr_sub hk)
          (by rw [restr_reach]; exact reach_of_holds b false hh)
        have hag : agree a b p q := by
          constructor
          · intro k hk hkb; rw [hqk]; simp [restr]; exact ⟨hk, hkb⟩
          · intro k hk _; rw [hqk] at hk; simp [restr] at hk; exact hk.1
        refine ⟨unionPoints p q, (hmS _).2 (Or.inl ((hcm _).2 ⟨p, h, q, hq, hag, rfl⟩)), ?_, ?_⟩
        · show (p.isOm && q.isOm) = false
          rw [hr.flag q hq, holds_congr b (fun k _ => hqk k), restr_holds, hh]; simp
        · intro k; rw [has_unionPoints, hqk]; cases hk : has p k <;> simp [restr, hk]
    · cases hhb : holds (has p) b with
      | true => exact ⟨p, hp, by rw [hr.flag p h, hhb]; rfl, fun _ => rfl⟩
      | false =>
        simp only [holds, hhb, Bool.or_false] at hh
        obtain ⟨q, hq, hqk⟩ := hl.ex (restr a (has p)) (fun k hk => restr_sub hk)
          (by rw [restr_reach]; exact reach_of_holds a false hh)
        have hag : agree a b q p := by
          constructor
          · intro k hk _; rw [hqk] at hk; simp [restr] at hk; exact hk.1
          · intro k hk hkb; rw [hqk]; simp [restr]; exact ⟨hk, hkb⟩
        refine ⟨unionPoints q p, (hmS _).2 (Or.inl ((hcm _).2 ⟨q, hq, p, h, hag, rfl⟩)), ?_, ?_⟩
        · show (q.isOm && p.isOm) = false
          rw [hl.flag q hq, holds_congr a (fun k _ => hqk k), restr_holds, hh]; simp
        · intro k; rw [has_unionPoints, hqk]; cases hk : has p k <;> simp [restr, hk]
  -- correcting the types changes nothing
  have hcor : correctPointTypes l r P true = P := by
    unfold correctPointTypes
    conv => rhs; rw [← List.map_id P]
    apply List.map_congr_left
    intro x hx
    have g1 := hplain x hx
    split
    · rename_i hc
      rw [Bool.and_eq_true] at hc
      obtain ⟨p, hp, ho, hsm⟩ := (contains_typed hl.plain g1).1 hc.1
      obtain ⟨q, hq, ho', hsm'⟩ := (contains_typed hr.plain g1).1 hc.2
      rw [hl.flag p hp] at ho
      rw [hr.flag q hq] at ho'
      rw [holds_congr a (fun k _ => hsm k)] at ho
      rw [holds_congr b (fun k _ => hsm' k)] at ho'
      rw [mkPoint_plain g1]
      have : x.isOm = true := by
        cases hx' : x.isOm with
        | true => rfl
        | false =>
          have := hprod x hx hx'
          simp only [holds] at this
          simp at ho ho'
          rw [ho, ho'] at this; cases this
      show (⟨x.iters, [], true⟩ : Point) = x
      rw [← this, ← g1.locs]
    · rfl
  rw [hcor]
  unfold removeDuplicatedTensorRegions
  obtain ⟨h1, h2, h3, h4⟩ := removeDup_spec (typedRegions P false) (typedRegions P true) false
    P [] hplain hsorted
  generalize removeDupRegions (typedRegions P false) (typedRegions P true) false [] P = R at *
  have hRplain : ∀ q ∈ R, Plain q := by
    intro q hq
    obtain ⟨p, hp, e1, e2, _⟩ := h1 q hq
    exact ⟨e2, by rw [e1]; exact (hplain p hp).nodup⟩
  rw [insertDim_K0, moveLocate_K0 hRplain]
  have hsame : ∀ q x : Point, q.iters = x.iters → ∀ k, has q k = has x k := fun q x h k => by simp [has, h]
  -- operands and reach of every point
  have hsub : ∀ p ∈ P, ∀ k, has p k = true → k ∈ regions (.union a b) := by
    intro p hp k hk
    rcases (hmS p).1 hp with h | h | h
    · exact (hCg p h).2.1 k hk
    · simp only [regions, List.mem_append]; exact Or.inl (hl.sub p h k hk)
    · simp only [regions, List.mem_append]; exact Or.inr (hr.sub p h k hk)
  have hpts : ∀ p ∈ P, reach false (has p) (.union a b) = true := by
    intro p hp
    rcases (hmS p).1 hp with h | h | h
    · exact (hCg p h).2.2.2.1
    · rw [reach_union, hl.pts p h]; rfl
    · rw [reach_union, hr.pts p h]; simp
  refine ⟨h2, hRplain, ?_, ?_, ?_, ?_, ?_, h3⟩
  · intro q hq k hk
    obtain ⟨p, hp, e1, _⟩ := h1 q hq
    exact hsub p hp k (by rw [← hsame q p e1]; exact hk)
  · intro q hq
    obtain ⟨p, hp, e1, e2, e3, e4, e5⟩ := h1 q hq
    rw [e1]
    rcases (hmS p).1 hp with h | h | h
    · exact (hCg p h).2.2.1
    · rw [reach_union, Bool.or_eq_true, ← hl.dim p h]
      constructor
      · exact Or.inl
      · rintro (hd | hd)
        · exact hd
        · -- the combination with the right side is larger
          obtain ⟨q', hq', hqk⟩ := hr.ex (restr b (has p)) (fun k hk => restr_sub hk)
            (reach_mono b false (by simp) hd)
          have hag : agree a b p q' := by
            constructor
            · intro k hk hkb; rw [hqk]; simp [restr]; exact ⟨hk, hkb⟩
            · intro k hk _; rw [hqk] at hk; simp [restr] at hk; exact hk.1
          have hmem : unionPoints p q' ∈ P := (hmS _).2 (Or.inl ((hcm _).2 ⟨p, h, q', hq', hag, rfl⟩))
          have hsm : same (unionPoints p q') p := by
            intro k; rw [has_unionPoints, hqk]; cases hk : has p k <;> simp [restr, hk]
          have hle := e5 _ hmem hsm
          have hsub' : p.iters ⊆ (unionPoints p q').iters := fun x hx => mem_unionPoints.2 (Or.inl hx)
          rw [(hplain _ hmem).size, (hplain p hp).size] at hle
          exact subset_of_length_le (hplain p hp).nodup hsub' hle (mem_unionPoints.2 (Or.inr ((hr.dim q' hq').2 hd)))
    · rw [reach_union, Bool.or_eq_true, ← hr.dim p h]
      constructor
      · exact Or.inr
      · rintro (hd | hd)
        · obtain ⟨q', hq', hqk⟩ := hl.ex (restr a (has p)) (fun k hk => restr_sub hk)
            (reach_mono a false (by simp) hd)
          have hag : agree a b q' p := by
            constructor
            · intro k hk _; rw [hqk] at hk; simp [restr] at hk; exact hk.1
            · intro k hk hkb; rw [hqk]; simp [restr]; exact ⟨hk, hkb⟩
          have hmem : unionPoints q' p ∈ P := (hmS _).2 (Or.inl ((hcm _).2 ⟨q', hq', p, h, hag, rfl⟩))
          have hsm : same (unionPoints q' p) p := by
            intro k; rw [has_unionPoints, hqk]; cases hk : has p k <;> simp [restr, hk]
          have hle := e5 _ hmem hsm
          have hsub' : p.iters ⊆ (unionPoints q' p).iters := fun x hx => mem_unionPoints.2 (Or.inr hx)
          rw [(hplain _ hmem).size, (hplain p hp).size] at hle
          exact subset_of_length_le (hplain p hp).nodup hsub' hle (mem_unionPoints.2 (Or.inl ((hl.dim q' hq').2 hd)))
        · exact hd
  · intro q hq
    obtain ⟨p, hp, e1, _⟩ := h1 q hq
    rw [reach_congr _ _ (fun k _ => hsame q p e1 k)]; exact hpts p hp
  · intro S hS hre
    have hfind : ∃ p ∈ P, ∀ k, has p k = S k := by
      rw [reach_union, Bool.or_eq_true] at hre
      have hmemS : ∀ k, S k = true → k ∈ regions a ∨ k ∈ regions b := fun k hk => by
        have := hS k hk; simpa [regions] using this
      cases hra : reach false S a with
      | true =>
        obtain ⟨p, hp, hpk⟩ := hl.ex (restr a S) (fun k hk => restr_sub hk) (by rw [restr_reach]; exact hra)
        cases hrb : reach false S b with
        | true =>
          obtain ⟨q, hq, hqk⟩ := hr.ex (restr b S) (fun k hk => restr_sub hk) (by rw [restr_reach]; exact hrb)
          have hag : agree a b p q := by
            constructor
            · intro k hk hkb; rw [hpk] at hk; rw [hqk]; simp [restr] at hk ⊢; exact ⟨hk.1, hkb⟩
            · intro k hk hkb; rw [hqk] at hk; rw [hpk]; simp [restr] at hk ⊢; exact ⟨hk.1, hkb⟩
          refine ⟨_, (hmS _).2 (Or.inl ((hcm _).2 ⟨p, hp, q, hq, hag, rfl⟩)), fun k => ?_⟩
          rw [has_unionPoints, hpk, hqk]
          cases hk : S k with
          | false => simp [restr, hk]
          | true => simp only [restr, hk, Bool.true_and, Bool.or_eq_true, decide_eq_true_eq]; exact hmemS k hk
        | false =>
          refine ⟨p, (hmS _).2 (Or.inr (Or.inl hp)), fun k => ?_⟩
          rw [hpk]
          cases hk : S k with
          | false => simp [restr, hk]
          | true =>
            rcases hmemS k hk with h | h
            · simp [restr, hk, h]
            · rw [reach_of_alone hb h hk] at hrb; cases hrb
      | false =>
        rw [hra] at hre
        have hrb : reach false S b = true := by simpa using hre
        obtain ⟨q, hq, hqk⟩ := hr.ex (restr b S) (fun k hk => restr_sub hk) (by rw [restr_reach]; exact hrb)
        refine ⟨q, (hmS _).2 (Or.inr (Or.inr hq)), fun k => ?_⟩
        rw [hqk]
        cases hk : S k with
        | false => simp [restr, hk]
        | true =>
          rcases hmemS k hk with h | h
          · rw [reach_of_alone ha h hk] at hra; cases hra
          · simp [restr, hk, h]
    obtain ⟨p, hp, hpk⟩ := hfind
    rcases h4 p hp with h | ⟨q', hq', hsm⟩
    · rw [containsSet_iff] at h; obtain ⟨t, ht, _⟩ := h; cases ht
    · exact ⟨q', hq', fun k => by rw [hsm k, hpk k]⟩
  · intro q hq
    obtain ⟨p, hp, e1, e2, e3, _⟩ := h1 q hq
    rw [holds_congr _ (fun k _ => hsame q p e1 k), e3]
    have hmt := @contains_typed P true p hplain (hplain p hp)
    have hmf := @contains_typed P false p hplain (hplain p hp)
    cases hh : holds (has p) (.union a b) with
    | true =>
      obtain ⟨q', hq', ho, hsm⟩ := hprod' p hp hh
      split
      · rfl
      · rename_i hc
        cases hpo : p.isOm with
        | false => rfl
        | true =>
          exfalso; apply hc
          rw [Bool.and_eq_true]
          exact ⟨hmf.2 ⟨q', hq', ho, hsm⟩, hmt.2 ⟨p, hp, hpo, fun _ => rfl⟩⟩
    | false =>
      have hno : ∀ q' ∈ P, same q' p → q'.isOm = true := by
        intro q' hq' hsm
        cases ho : q'.isOm with
        | true => rfl
        | false =>
          have := hprod q' hq' ho
          rw [holds_congr _ (fun k _ => hsm k), hh] at this; cases this
      split
      · rename_i hc
        rw [Bool.and_eq_true] at hc
        obtain ⟨q', hq', ho, hsm⟩ := hmf.1 hc.1
        rw [hno q' hq' hsm] at ho; cases ho
      · rw [hno p hp (fun _ => rfl)]; rfl

/-! ### regions and whole descriptions -/

theorem latOK_region (k : Nat) : LatOK (.region k) [mkPoint [.lev k] [] false] := by
  have hi : (mkPoint [.lev k] [] false).iters = [.lev k] := rfl
  have hh : ∀ j, has (mkPoint [.lev k] [] false) j = (j == k) := by
    intro j; rw [Bool.eq_iff_iff, has_iff, hi]; simp
  refine ⟨by simp, ?_, ?_, ?_, ?_, ?_, ?_, by simp⟩
  · intro p hp; rw [List.mem_singleton] at hp; subst hp
    exact ⟨rfl, by rw [hi]; simp⟩
  · intro p hp j hj; rw [List.mem_singleton] at hp; subst hp
    rw [hh] at hj; simp at hj; simp [regions, hj]
  · intro p hp; rw [List.mem_singleton] at hp; subst hp
    rw [hi]; simp [reach]
  · intro p hp; rw [List.mem_singleton] at hp; subst hp
    simp [reach, hh]
  · intro S hS hr
    simp [reach] at hr
    refine ⟨_, List.mem_singleton.2 rfl, fun j => ?_⟩
    rw [hh]
    cases hj : S j with
    | true => have := hS j hj; simp [regions] at this; simp [this]
    | false => rw [beq_eq_false_iff_ne]; rintro rfl; rw [hr] at hj; cases hj
  · intro p hp; rw [List.mem_singleton] at hp; subst hp
    simp [holds, hh]; rfl

theorem complementPoints_region (k : Nat) :
    complementPoints [mkPoint [.lev k] [] false] = [⟨[.lev k, .dim], [], true⟩, ⟨[.dim], [], false⟩] := by
  rfl

theorem latOK_compl (k : Nat) : LatOK (.compl (.region k)) (complementPoints [mkPoint [.lev k] [] false]) := by
  rw [complementPoints_region]
  have hh : ∀ j, has ⟨[.lev k, .dim], [], true⟩ j = (j == k) := by
    intro j; rw [Bool.eq_iff_iff, has_iff]; simp
  have hh' : ∀ j, has ⟨[.dim], [], false⟩ j = false := by
    intro j; simp [has]
  refine ⟨by simp [Point.size], ?_, ?_, ?_, ?_, ?_, ?_, ?_⟩
  · intro p hp
    simp only [List.mem_cons, List.not_mem_nil, or_false] at hp
    rcases hp with rfl | rfl
    · exact ⟨rfl, by simp⟩
    · exact ⟨rfl, by simp⟩
  · intro p hp j hj
    simp only [List.mem_cons, List.not_mem_nil, or_false] at hp
    rcases hp with rfl | rfl
    · rw [hh] at hj; simp at hj; simp [regions, hj]
    · rw [hh'] at hj; cases hj
  · intro p hp
    simp only [List.mem_cons, List.not_mem_nil, or_false] at hp
    rcases hp with rfl | rfl <;> simp [reach]
  · intro p _; simp [reach]
  · intro S hS _
    cases hk : S k with
    | true =>
      refine ⟨_, List.mem_cons_self, fun j => ?_⟩
      rw [hh]
      cases hj : S j with
      | true => have := hS j hj; simp [regions] at this; simp [this]
      | false => rw [beq_eq_false_iff_ne]; rintro rfl; rw [hk] at hj; cases hj
    | false =>
      refine ⟨_, List.mem_cons_of_mem _ (List.mem_singleton.2 rfl), fun j => ?_⟩
      rw [hh']
      cases hj : S j with
      | true => have := hS j hj; simp [regions] at this; rw [this, hk] at hj; cases hj
      | false => rfl
  · intro p hp
    simp only [List.mem_cons, List.not_mem_nil, or_false] at hp
    rcases hp with rfl | rfl
    · simp [holds, hh]
    · simp [holds, hh']
  · simp only [List.pairwise_cons, List.mem_singleton, List.not_mem_nil, false_implies, implies_true,
      List.Pairwise.nil, and_self, and_true]
    rintro q rfl h
    have := h k; rw [hh, hh'] at this; simp at this

theorem latOK_build {srt : List Point → List Point} (hs : SortSpec srt) : ∀ (a : Alg), Normal a →
    covered false a = true → ∃ L, build srt a = some L ∧ LatOK a L
  | .region k, _, _ => ⟨_, rfl, latOK_region k⟩
  | .compl (.region k), _, _ => ⟨_, rfl, latOK_compl k⟩
  | .compl (.compl a), hn, _ => by simp [Normal] at hn
  | .compl (.inter a b), hn, _ => by simp [Normal] at hn
  | .compl (.union a b), hn, _ => by simp [Normal] at hn
  | .inter a b, hn, hc => by
    simp only [covered, Bool.and_eq_true] at hc
    obtain ⟨l, hl, hlo⟩ := latOK_build hs a hn.1 hc.1.1
    obtain ⟨r, hr, hro⟩ := latOK_build hs b hn.2 hc.1.2
    refine ⟨_, ?_, latOK_inter hs hlo hro⟩
    simp only [build, hl, hr]
    rw [if_neg]
    simp [hlo.ne_nil, hro.ne_nil]
  | .union a b, hn, hc => by
    simp only [covered, Bool.false_or, Bool.and_eq_true] at hc
    obtain ⟨l, hl, hlo⟩ := latOK_build hs a hn.1 hc.1.1
    obtain ⟨r, hr, hro⟩ := latOK_build hs b hn.2 hc.1.2
    refine ⟨_, ?_, latOK_union hs hlo hro hc.2.1 hc.2.2⟩
    simp only [build, hl, hr]
    rw [if_neg (by simp [hlo.ne_nil]), if_neg (by simp [hro.ne_nil])]

/-- The loop lattice keeps every point. -/
theorem getLoopLattice_eq {a : Alg} {L M : List Point} (h : LatOK a L) (hM : M.Sublist L) :
    getLoopLattice K0 M = M := by
  have hmem : ∀ p ∈ M, p ∈ L := fun p hp => hM.subset hp
  have h1 : Merge.removeLackFull K0 M = M := by
    unfold Merge.removeLackFull
    rw [List.filter_eq_self]
    intro p hp
    rw [List.all_eq_true]
    intro x hx
    rw [List.mem_filter] at hx
    have hd := isFull_K0.1 hx.2
    subst hd
    rw [decide_eq_true_eq, h.dim p (hmem p hp)]
    have hx := hx.1
    cases hMe : M with
    | nil => rw [hMe] at hx; cases hx
    | cons q qs =>
      rw [hMe] at hx
      exact (h.dim q (hmem q (by rw [hMe]; exact List.mem_cons_self))).1 hx
  unfold getLoopLattice
  rw [h1]
  have : ∀ (ps : List Point) (seen : List (List It)),
      ps.Pairwise (fun p q => ¬ same p q) →
      (∀ p ∈ ps, containsSet seen p.iters = false) → Merge.removeIdentical seen ps = ps := by
    intro ps
    induction ps with
    | nil => intros; rfl
    | cons p ps ih =>
      intro seen hd hse
      rw [List.pairwise_cons] at hd
      rw [Merge.removeIdentical, if_neg (by rw [hse p List.mem_cons_self]; simp)]
      rw [ih _ hd.2]
      intro q hq
      cases hc : containsSet (p.iters :: seen) q.iters with
      | false => rfl
      | true =>
        rw [containsSet_iff] at hc
        obtain ⟨t, ht, htx⟩ := hc
        rcases List.mem_cons.1 ht with rfl | ht
        · exfalso; apply hd.1 q hq
          intro k; rw [Bool.eq_iff_iff, has_iff, has_iff]; exact htx _
        · have := hse q (List.mem_cons_of_mem _ hq)
          have h2 : containsSet seen q.iters = true := by rw [containsSet_iff]; exact ⟨t, ht, htx⟩
          rw [h2] at this; cases this
  exact this M [] (h.distinct.sublist hM) (fun p _ => by simp [containsSet])

end Verif.Omit
