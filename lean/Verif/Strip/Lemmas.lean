import Verif.Strip.Model
import Verif.Strip.Spec
import Verif.Search.Theorems
namespace Verif.Strip

open Verif.Search Verif.Strip.Spec

/-- What the generated loop needs from a segment: it is a strictly increasing range of positions of an
array of coordinates with fewer than `2^30` entries, and the array has one more entry behind the segment
(the first coordinate of the next segment, or unused memory of the allocation). -/
structure Ready (g : Seg) : Prop where
  le : g.lo ≤ g.hi
  slot : g.hi < g.crd.length
  size : g.hi ≤ 1073741824
  strict : StrictOn g.crd g.lo g.hi

theorem get_some {g : Seg} (h : Ready g) {p : Nat} (hp : p ≤ g.hi) : ∃ c, g.crd[p]? = some c :=
  ⟨_, List.getElem?_eq_getElem (by have := h.slot; omega)⟩

theorem start_spec {g : Seg} (h : Ready g) {t : Strip} (ht : t.start = .search) :
    ∃ p, startPos t g = some p ∧ IsLowerBound g.crd g.lo g.hi t.base p := by
  unfold startPos; rw [ht]; dsimp only
  rcases Nat.lt_or_ge g.lo g.hi with hl | hl
  · exact binarySearchAfter_lowerBound _ _ _ _ hl (by have := h.slot; omega) h.size h.strict
  · have he : g.hi = g.lo := by have := h.le; omega
    obtain ⟨c, hc⟩ := get_some h h.le
    refine ⟨g.lo, ?_, ?_⟩
    · rw [he]; unfold binarySearchAfter; rw [hc]; dsimp only
      by_cases hv : c ≥ t.base
      · rw [if_pos hv]
      · rw [if_neg hv]; unfold bsLoop; rw [dif_neg (by omega)]
    · exact ⟨Nat.le_refl _, h.le, by intro i v h1 h2; omega, by intro h'; omega⟩

/-! ## Components of a segment -/

theorem strict_ge {crd : List Int} {lo hi p q : Nat} {x y : Int} (h : StrictOn crd lo hi)
    (h1 : lo ≤ p) (h2 : p ≤ q) (h3 : q < hi) (hx : crd[p]? = some x) (hy : crd[q]? = some y) : x ≤ y := by
  rcases Nat.lt_or_ge p q with hl | hl
  · exact Int.le_of_lt (h p q x y h1 hl h3 hx hy)
  · have : q = p := by omega
    subst this; rw [hx] at hy; injection hy with hy; omega

theorem stored_unique {crd : List Int} {lo hi p q : Nat} {c : Int} (h : StrictOn crd lo hi)
    (hp : StoredAt crd lo hi c p) (hq : StoredAt crd lo hi c q) : p = q := by
  rcases Nat.lt_trichotomy p q with hl | hl | hl
  · have := h p q c c hp.1 hl hq.2.1 hp.2.2 hq.2.2; omega
  · exact hl
  · have := h q p c c hq.1 hl hp.2.1 hq.2.2 hp.2.2; omega

theorem comp_exists (crd : List Int) (lo hi : Nat) (c : Int) : ∃ u, Component crd lo hi c u := by
  by_cases h : ∃ p, StoredAt crd lo hi c p
  · obtain ⟨p, hp⟩ := h; exact ⟨some p, hp⟩
  · exact ⟨none, fun p hp => h ⟨p, hp⟩⟩

theorem comp_head_eq {crd : List Int} {lo hi : Nat} {c : Int} (h : StrictOn crd lo hi) (hl : lo < hi)
    (hc : crd[lo]? = some c) (u : Option Nat) : Component crd lo hi c u ↔ u = some lo := by
  have hs : StoredAt crd lo hi c lo := ⟨Nat.le_refl _, hl, hc⟩
  cases u with
  | none => simp [Component]; exact ⟨lo, hs⟩
  | some p =>
    simp only [Component, Option.some.injEq]
    exact ⟨fun hp => stored_unique h hp hs, fun e => e ▸ hs⟩

theorem comp_head_ne {crd : List Int} {lo hi : Nat} {c x : Int} (hx : crd[lo]? = some x) (hn : x ≠ c)
    (u : Option Nat) : Component crd lo hi c u ↔ Component crd (lo + 1) hi c u := by
  have key : ∀ p, StoredAt crd lo hi c p ↔ StoredAt crd (lo + 1) hi c p := by
    intro p
    refine ⟨fun h => ⟨?_, h.2⟩, fun h => ⟨by have := h.1; omega, h.2⟩⟩
    rcases Nat.lt_or_ge lo p with hl | hl
    · omega
    · have e : p = lo := by have := h.1; omega
      have h3 := h.2.2; rw [e, hx] at h3; exact absurd (Option.some.inj h3) hn
  cases u with
  | none => simp only [Component]; exact ⟨fun h p hp => h p ((key p).mpr hp), fun h p hp => h p ((key p).mp hp)⟩
  | some p => exact key p

theorem comp_above {crd : List Int} {lo hi : Nat} {c : Int}
    (h : ∀ p x, lo ≤ p → p < hi → crd[p]? = some x → c < x) (u : Option Nat) :
    Component crd lo hi c u ↔ u = none := by
  cases u with
  | none => simp [Component, StoredAt]; intro p h1 h2 h3; have := h p c h1 h2 h3; omega
  | some p => simp [Component, StoredAt]; intro h1 h2 h3; have := h p c h1 h2 h3; omega

/-! ## Loops -/

theorem loop1_spec {g : Seg} (h : Ready g) (t : Strip) : ∀ (k p : Nat) (inner : Int), k = g.hi - p →
    g.lo ≤ p → p ≤ g.hi →
    (p < g.hi → ∀ c, g.crd[p]? = some c → (inner < t.len ↔ c < t.base + t.len)) →
    ∃ vs, loop1 t g k p inner = some vs ∧ vs.Pairwise (fun v w => v.1 < w.1) ∧
      (∀ c q, (c, q) ∈ vs ↔ StoredAt g.crd p g.hi c q ∧ c < t.base + t.len) ∧
      (vs ≠ [] → p < g.hi ∧ inner < t.len) := by
  intro k
  induction k with
  | zero =>
    intro p inner hk h1 h2 _
    refine ⟨[], rfl, List.Pairwise.nil, ?_, by simp⟩
    intro c q; simp [StoredAt]; intro a b; omega
  | succ k ih =>
    intro p inner hk h1 h2 hin
    have hp : p < g.hi := by omega
    obtain ⟨c, hc⟩ := get_some h (Nat.le_of_lt hp)
    have hin' := hin hp c hc
    have tail : ∀ q x, p ≤ q → q < g.hi → g.crd[q]? = some x → c ≤ x := fun q x a b e =>
      strict_ge h.strict h1 a b hc e
    by_cases hl : inner < t.len
    · obtain ⟨d, hd⟩ := get_some h (p := p + 1) (by omega)
      obtain ⟨vs, e, pw, mem, -⟩ := ih (p + 1) (recoverInner t d) (by omega) (by omega) (by omega)
        (by intro _ c' hc'; rw [hd] at hc'; injection hc' with hc'; subst hc'; unfold recoverInner; omega)
      refine ⟨(c, p) :: vs, ?_, ?_, ?_, fun _ => ⟨hp, hl⟩⟩
      · unfold loop1; rw [if_pos ⟨hp, hl⟩]; simp [hc, hd, e]
      · refine List.pairwise_cons.mpr ⟨?_, pw⟩
        rintro ⟨c', q⟩ hm
        obtain ⟨hs, _⟩ := (mem c' q).mp hm
        exact h.strict p q c c' h1 (by have := hs.1; omega) hs.2.1 hc hs.2.2
      · intro c' q
        rw [List.mem_cons, mem]
        constructor
        · rintro (e' | ⟨hs, hlt⟩)
          · injection e' with e1 e2; subst e1 e2
            exact ⟨⟨Nat.le_refl _, hp, hc⟩, hin'.mp hl⟩
          · exact ⟨⟨by have := hs.1; omega, hs.2⟩, hlt⟩
        · rintro ⟨hs, hlt⟩
          rcases Nat.lt_or_ge p q with hq | hq
          · right; exact ⟨⟨hq, hs.2⟩, hlt⟩
          · left
            have e' : q = p := by have := hs.1; omega
            subst e'
            have := hs.2.2; rw [hc] at this; injection this with this; rw [this]
    · refine ⟨[], ?_, List.Pairwise.nil, ?_, by simp⟩
      · unfold loop1; rw [if_neg (by simp [hl])]
      · intro c' q
        simp only [List.not_mem_nil, false_iff]
        rintro ⟨hs, hlt⟩
        have := tail q c' hs.1 hs.2.1 hs.2.2
        have : ¬ c < t.base + t.len := fun hh => hl (hin'.mpr hh)
        omega

/-- One strip with one operand visits the components with coordinates in the strip. -/
theorem strip1_spec {g : Seg} (h : Ready g) {t : Strip} (ht : t.start = .search) :
    ∃ vs, strip1 g t = some vs ∧ vs.Pairwise (fun v w => v.1 < w.1) ∧
      ∀ v : Visit, v ∈ vs ↔ StoredAt g.crd g.lo g.hi v.1 v.2 ∧ t.base ≤ v.1 ∧ v.1 < t.base + t.len := by
  obtain ⟨p, e, l1, l2, l3, l4⟩ := start_spec h ht
  obtain ⟨c, hc⟩ := get_some h l2
  obtain ⟨vs, e', pw, mem, -⟩ := loop1_spec h t (g.hi - p) p (recoverInner t c) rfl l1 l2
    (by intro _ c' hc'; rw [hc] at hc'; injection hc' with hc'; subst hc'; unfold recoverInner; omega)
  refine ⟨vs, by unfold strip1; simp [e, hc, e'], pw, ?_⟩
  rintro ⟨c', q⟩
  rw [mem]
  dsimp only
  constructor
  · rintro ⟨hs, hlt⟩
    refine ⟨⟨by have := hs.1; omega, hs.2⟩, ?_, hlt⟩
    obtain ⟨v, hv, hb⟩ := l4 (by have := hs.1; have := hs.2.1; omega)
    have := strict_ge h.strict l1 hs.1 hs.2.1 hv hs.2.2
    omega
  · rintro ⟨hs, hb, hlt⟩
    refine ⟨⟨?_, hs.2⟩, hlt⟩
    rcases Nat.lt_or_ge q p with hq | hq
    · have := l3 q c' hs.1 hq hs.2.2; omega
    · exact hq

/-- What the loop with both operands establishes. -/
structure Loop2Spec (t : Strip) (a b : Seg) (pa pb : Nat) (vs : List Visit2) (pa' pb' : Nat) (x' y' : Int) :
    Prop where
  a1 : pa ≤ pa'
  a2 : pa' ≤ a.hi
  b1 : pb ≤ pb'
  b2 : pb' ≤ b.hi
  hx : a.crd[pa']? = some x'
  hy : b.crd[pb']? = some y'
  exit : pa' = a.hi ∨ pb' = b.hi ∨ t.base + t.len ≤ min x' y'
  pw : vs.Pairwise (fun v w => v.1 < w.1)
  below : ∀ v ∈ vs, v.1 < t.base + t.len ∧ (pa' < a.hi → v.1 < x') ∧ (pb' < b.hi → v.1 < y')
  mem : ∀ c u w, (c, u, w) ∈ vs ↔
    Component a.crd pa pa' c u ∧ Component b.crd pb pb' c w ∧ (u ≠ none ∨ w ≠ none)

theorem StrictOn.sub {crd : List Int} {lo hi lo' hi' : Nat} (h : StrictOn crd lo hi) (h1 : lo ≤ lo')
    (h2 : hi' ≤ hi) : StrictOn crd lo' hi' :=
  fun i j x y a b c d e => h i j x y (by omega) b (by omega) d e

theorem loop2_spec {a b : Seg} (ha : Ready a) (hb : Ready b) (t : Strip) :
    ∀ (k pa pb : Nat) (x y : Int), (a.hi - pa) + (b.hi - pb) ≤ k → a.lo ≤ pa → pa ≤ a.hi → b.lo ≤ pb →
    pb ≤ b.hi → a.crd[pa]? = some x → b.crd[pb]? = some y →
    ∃ vs pa' pb' x' y', loop2 t a b k pa pb (recoverInner t (min x y)) =
      some (vs, pa', pb', recoverInner t (min x' y')) ∧ Loop2Spec t a b pa pb vs pa' pb' x' y' := by
  intro k
  induction k with
  | zero =>
    intro pa pb x y hk h1 h2 h3 h4 hx hy
    have e1 : pa = a.hi := by omega
    have e2 : pb = b.hi := by omega
    refine ⟨[], pa, pb, x, y, rfl, ⟨Nat.le_refl _, h2, Nat.le_refl _, h4, hx, hy, Or.inl e1,
      List.Pairwise.nil, by simp, ?_⟩⟩
    intro c u w
    simp only [List.not_mem_nil, false_iff]
    rintro ⟨cu, cw, hn⟩
    rcases hn with hn | hn
    · cases u with
      | none => exact hn rfl
      | some p => have := cu.1; have := cu.2.1; omega
    · cases w with
      | none => exact hn rfl
      | some p => have := cw.1; have := cw.2.1; omega
  | succ k ih =>
    intro pa pb x y hk h1 h2 h3 h4 hx hy
    by_cases hg : pa < a.hi ∧ pb < b.hi ∧ recoverInner t (min x y) < t.len
    · obtain ⟨g1, g2, g3⟩ := hg
      have hin : min x y < t.base + t.len := by unfold recoverInner at g3; omega
      have ageq : ∀ q z, pa ≤ q → q < a.hi → a.crd[q]? = some z → x ≤ z := fun q z i j e =>
        strict_ge ha.strict h1 i j hx e
      have bgeq : ∀ q z, pb ≤ q → q < b.hi → b.crd[q]? = some z → y ≤ z := fun q z i j e =>
        strict_ge hb.strict h3 i j hy e
      have agt : ∀ q z, pa + 1 ≤ q → q < a.hi → a.crd[q]? = some z → x < z := fun q z i j e =>
        ha.strict pa q x z h1 (by omega) j hx e
      have bgt : ∀ q z, pb + 1 ≤ q → q < b.hi → b.crd[q]? = some z → y < z := fun q z i j e =>
        hb.strict pb q y z h3 (by omega) j hy e
      rcases Int.lt_trichotomy x y with hlt | heq | hgt
      · have hm : min x y = x := by omega
        obtain ⟨x1, hx1⟩ := get_some ha (p := pa + 1) (by omega)
        obtain ⟨vs, pa', pb', x', y', e, S⟩ := ih (pa + 1) pb x1 y (by omega) (by omega) (by omega) h3 h4 hx1 hy
        refine ⟨(x, some pa, none) :: vs, pa', pb', x', y', ?_, ?_⟩
        · unfold loop2; rw [if_pos ⟨g1, g2, g3⟩]
          simp [hx, hy, hm, advance, component, hx1, e, show ¬ y = x by omega]
        · have a1 := S.a1
          refine ⟨by omega, S.a2, S.b1, S.b2, S.hx, S.hy, S.exit, ?_, ?_, ?_⟩
          · refine List.pairwise_cons.mpr ⟨?_, S.pw⟩
            rintro ⟨c, u, w⟩ hmem
            obtain ⟨cu, cw, hn⟩ := (S.mem c u w).mp hmem
            dsimp only
            rcases hn with hn | hn
            · cases u with
              | none => exact absurd rfl hn
              | some p => exact agt p c cu.1 (by have := cu.2.1; have := S.a2; omega) cu.2.2
            · cases w with
              | none => exact absurd rfl hn
              | some p =>
                have := bgeq p c cw.1 (by have := cw.2.1; have := S.b2; omega) cw.2.2
                omega
          · intro v hv
            rcases List.mem_cons.mp hv with rfl | hv
            · refine ⟨by omega, fun hl => agt pa' x' a1 hl S.hx, fun hl => ?_⟩
              have := bgeq pb' y' S.b1 hl S.hy
              dsimp only; omega
            · exact S.below v hv
          · intro c u w
            rw [List.mem_cons, S.mem]
            by_cases hc : x = c
            · subst hc
              rw [comp_head_eq (StrictOn.sub ha.strict h1 S.a2) (by omega) hx,
                comp_above (fun p z i j e => agt p z i (by have := S.a2; omega) e),
                comp_above (fun p z i j e => by have := bgeq p z i (by have := S.b2; omega) e; omega)]
              constructor
              · rintro (e' | ⟨rfl, rfl, hn⟩)
                · injection e' with _ e'; injection e' with e1 e2; subst e1 e2; simp
                · simp at hn
              · rintro ⟨rfl, rfl, _⟩; simp
            · rw [comp_head_ne hx hc]
              constructor
              · rintro (e' | hh)
                · injection e' with e1 _; exact absurd e1.symm hc
                · exact hh
              · exact Or.inr
      · subst heq
        have hm : min x x = x := by omega
        obtain ⟨x1, hx1⟩ := get_some ha (p := pa + 1) (by omega)
        obtain ⟨y1, hy1⟩ := get_some hb (p := pb + 1) (by omega)
        obtain ⟨vs, pa', pb', x', y', e, S⟩ := ih (pa + 1) (pb + 1) x1 y1 (by omega) (by omega) (by omega)
          (by omega) (by omega) hx1 hy1
        refine ⟨(x, some pa, some pb) :: vs, pa', pb', x', y', ?_, ?_⟩
        · unfold loop2; rw [if_pos ⟨g1, g2, g3⟩]
          simp [hx, hy, hm, advance, component, hx1, hy1, e]
        · have a1 := S.a1
          have b1 := S.b1
          refine ⟨by omega, S.a2, by omega, S.b2, S.hx, S.hy, S.exit, ?_, ?_, ?_⟩
          · refine List.pairwise_cons.mpr ⟨?_, S.pw⟩
            rintro ⟨c, u, w⟩ hmem
            obtain ⟨cu, cw, hn⟩ := (S.mem c u w).mp hmem
            dsimp only
            rcases hn with hn | hn
            · cases u with
              | none => exact absurd rfl hn
              | some p => exact agt p c cu.1 (by have := cu.2.1; have := S.a2; omega) cu.2.2
            · cases w with
              | none => exact absurd rfl hn
              | some p => exact bgt p c cw.1 (by have := cw.2.1; have := S.b2; omega) cw.2.2
          · intro v hv
            rcases List.mem_cons.mp hv with rfl | hv
            · exact ⟨by omega, fun hl => agt pa' x' a1 hl S.hx, fun hl => bgt pb' y' b1 hl S.hy⟩
            · exact S.below v hv
          · intro c u w
            rw [List.mem_cons, S.mem]
            by_cases hc : x = c
            · subst hc
              rw [comp_head_eq (StrictOn.sub ha.strict h1 S.a2) (by omega) hx,
                comp_head_eq (StrictOn.sub hb.strict h3 S.b2) (by omega) hy,
                comp_above (fun p z i j e => agt p z i (by have := S.a2; omega) e),
                comp_above (fun p z i j e => bgt p z i (by have := S.b2; omega) e)]
              constructor
              · rintro (e' | ⟨rfl, rfl, hn⟩)
                · injection e' with _ e'; injection e' with e1 e2; subst e1 e2; simp
                · simp at hn
              · rintro ⟨rfl, rfl, _⟩; simp
            · rw [comp_head_ne hx hc, comp_head_ne hy hc]
              constructor
              · rintro (e' | hh)
                · injection e' with e1 _; exact absurd e1.symm hc
                · exact hh
              · exact Or.inr
      · have hm : min x y = y := by omega
        obtain ⟨y1, hy1⟩ := get_some hb (p := pb + 1) (by omega)
        obtain ⟨vs, pa', pb', x', y', e, S⟩ := ih pa (pb + 1) x y1 (by omega) h1 h2 (by omega) (by omega) hx hy1
        refine ⟨(y, none, some pb) :: vs, pa', pb', x', y', ?_, ?_⟩
        · unfold loop2; rw [if_pos ⟨g1, g2, g3⟩]
          simp [hx, hy, hm, advance, component, hy1, e, show ¬ x = y by omega]
        · have b1 := S.b1
          refine ⟨S.a1, S.a2, by omega, S.b2, S.hx, S.hy, S.exit, ?_, ?_, ?_⟩
          · refine List.pairwise_cons.mpr ⟨?_, S.pw⟩
            rintro ⟨c, u, w⟩ hmem
            obtain ⟨cu, cw, hn⟩ := (S.mem c u w).mp hmem
            dsimp only
            rcases hn with hn | hn
            · cases u with
              | none => exact absurd rfl hn
              | some p =>
                have := ageq p c cu.1 (by have := cu.2.1; have := S.a2; omega) cu.2.2
                omega
            · cases w with
              | none => exact absurd rfl hn
              | some p => exact bgt p c cw.1 (by have := cw.2.1; have := S.b2; omega) cw.2.2
          · intro v hv
            rcases List.mem_cons.mp hv with rfl | hv
            · refine ⟨by omega, fun hl => ?_, fun hl => bgt pb' y' b1 hl S.hy⟩
              have := ageq pa' x' S.a1 hl S.hx
              dsimp only; omega
            · exact S.below v hv
          · intro c u w
            rw [List.mem_cons, S.mem]
            by_cases hc : y = c
            · subst hc
              rw [comp_head_eq (StrictOn.sub hb.strict h3 S.b2) (by omega) hy,
                comp_above (fun p z i j e => bgt p z i (by have := S.b2; omega) e),
                comp_above (fun p z i j e => by have := ageq p z i (by have := S.a2; omega) e; omega)]
              constructor
              · rintro (e' | ⟨rfl, rfl, hn⟩)
                · injection e' with _ e'; injection e' with e1 e2; subst e1 e2; simp
                · simp at hn
              · rintro ⟨rfl, rfl, _⟩; simp
            · rw [comp_head_ne hy hc]
              constructor
              · rintro (e' | hh)
                · injection e' with e1 _; exact absurd e1.symm hc
                · exact hh
              · exact Or.inr
    · refine ⟨[], pa, pb, x, y, ?_, ⟨Nat.le_refl _, h2, Nat.le_refl _, h4, hx, hy, ?_,
        List.Pairwise.nil, by simp, ?_⟩⟩
      · unfold loop2; rw [if_neg hg]
      · unfold recoverInner at hg; omega
      · intro c u w
        simp only [List.not_mem_nil, false_iff]
        rintro ⟨cu, cw, hn⟩
        rcases hn with hn | hn
        · cases u with
          | none => exact hn rfl
          | some p => have := cu.1; have := cu.2.1; omega
        · cases w with
          | none => exact hn rfl
          | some p => have := cw.1; have := cw.2.1; omega

/-! ## Strips with two operands -/

/-- What the code of a strip has established when the loop with both operands has ended. -/
theorem both_spec {a b : Seg} (ha : Ready a) (hb : Ready b) {t : Strip} (ht : t.start = .search) :
    ∃ pa pb vs pa' pb' x' y', both a b t = some (vs, pa', pb', recoverInner t (min x' y')) ∧
      IsLowerBound a.crd a.lo a.hi t.base pa ∧ IsLowerBound b.crd b.lo b.hi t.base pb ∧
      Loop2Spec t a b pa pb vs pa' pb' x' y' := by
  obtain ⟨pa, ea, la⟩ := start_spec ha ht
  obtain ⟨pb, eb, lb⟩ := start_spec hb ht
  obtain ⟨x, hx⟩ := get_some ha la.2.1
  obtain ⟨y, hy⟩ := get_some hb lb.2.1
  obtain ⟨vs, pa', pb', x', y', e, S⟩ := loop2_spec ha hb t _ pa pb x y (Nat.le_refl _) la.1 la.2.1 lb.1 lb.2.1 hx hy
  exact ⟨pa, pb, vs, pa', pb', x', y', by unfold both; simp [ea, eb, hx, hy, e], la, lb, S⟩

theorem stored_ge {g : Seg} (h : Ready g) {base c : Int} {p q : Nat}
    (l : IsLowerBound g.crd g.lo g.hi base p) (hq : StoredAt g.crd g.lo g.hi c q) : base ≤ c ↔ p ≤ q := by
  constructor
  · intro hc
    rcases Nat.lt_or_ge q p with hl | hl
    · have := l.2.2.1 q c hq.1 hl hq.2.2; omega
    · exact hl
  · intro hl
    obtain ⟨v, hv, hb⟩ := l.2.2.2 (by have := hq.2.1; omega)
    have := strict_ge h.strict l.1 hl hq.2.1 hv hq.2.2
    omega

/-- Components visited by the loop with both operands have coordinates below what is left. -/
theorem left_lt {t : Strip} {a b : Seg} {pa pb pa' pb' : Nat} {vs : List Visit2} {x' y' c : Int} {q : Nat}
    (S : Loop2Spec t a b pa pb vs pa' pb' x' y') (hq : StoredAt a.crd pa pa' c q) :
    c < t.base + t.len ∧ (pa' < a.hi → c < x') ∧ (pb' < b.hi → c < y') := by
  obtain ⟨w, hw⟩ := comp_exists b.crd pb pb' c
  exact S.below (c, some q, w) ((S.mem c (some q) w).mpr ⟨hq, hw, Or.inl (by simp)⟩)

theorem right_lt {t : Strip} {a b : Seg} {pa pb pa' pb' : Nat} {vs : List Visit2} {x' y' c : Int} {q : Nat}
    (S : Loop2Spec t a b pa pb vs pa' pb' x' y') (hq : StoredAt b.crd pb pb' c q) :
    c < t.base + t.len ∧ (pa' < a.hi → c < x') ∧ (pb' < b.hi → c < y') := by
  obtain ⟨w, hw⟩ := comp_exists a.crd pa pa' c
  exact S.below (c, w, some q) ((S.mem c w (some q)).mpr ⟨hw, hq, Or.inr (by simp)⟩)

/-- Restricting a segment to the part that contains a coordinate. -/
theorem comp_restrict {g : Seg} {lo' hi' : Nat} {c : Int} {u : Option Nat} (hl : g.lo ≤ lo') (hh : hi' ≤ g.hi)
    (h : ∀ q, StoredAt g.crd g.lo g.hi c q → lo' ≤ q ∧ q < hi') :
    Component g.crd g.lo g.hi c u ↔ Component g.crd lo' hi' c u := by
  have key : ∀ q, StoredAt g.crd g.lo g.hi c q ↔ StoredAt g.crd lo' hi' c q := fun q =>
    ⟨fun hq => ⟨(h q hq).1, (h q hq).2, hq.2.2⟩,
     fun hq => ⟨by have := hq.1; omega, by have := hq.2.1; omega, hq.2.2⟩⟩
  cases u with
  | none => exact ⟨fun hh p hp => hh p ((key p).mpr hp), fun hh p hp => hh p ((key p).mp hp)⟩
  | some p => exact key p

/-- The first coordinate that is left bounds the others. -/
theorem rest_ge {g : Seg} (h : Ready g) {p q : Nat} {x c : Int} (hl : g.lo ≤ p) (hx : g.crd[p]? = some x)
    (hq : StoredAt g.crd p g.hi c q) : x ≤ c :=
  strict_ge h.strict hl hq.1 hq.2.1 hx hq.2.2

theorem stripIntersection_spec {a b : Seg} (ha : Ready a) (hb : Ready b) {t : Strip} (ht : t.start = .search) :
    ∃ vs, stripIntersection a b t = some vs ∧ vs.Pairwise (fun v w => v.1 < w.1) ∧
      ∀ v : Visit2, v ∈ vs ↔ (Component a.crd a.lo a.hi v.1 v.2.1 ∧ Component b.crd b.lo b.hi v.1 v.2.2 ∧
        v.2.1 ≠ none ∧ v.2.2 ≠ none) ∧ t.base ≤ v.1 ∧ v.1 < t.base + t.len := by
  obtain ⟨pa, pb, vs, pa', pb', x', y', e, la, lb, S⟩ := both_spec ha hb ht
  refine ⟨_, by unfold stripIntersection; simp only [e]; rfl, S.pw.filter _, ?_⟩
  have a1 := S.a1; have a2 := S.a2; have b1 := S.b1; have b2 := S.b2
  rintro ⟨c, u, w⟩
  rw [List.mem_filter, S.mem]
  dsimp only
  constructor
  · rintro ⟨⟨cu, cw, -⟩, hs⟩
    cases u with
    | none => simp at hs
    | some p =>
      cases w with
      | none => simp at hs
      | some q =>
        have hp : StoredAt a.crd a.lo a.hi c p :=
          ⟨by have := cu.1; have := la.1; omega, by have := cu.2.1; omega, cu.2.2⟩
        have hq : StoredAt b.crd b.lo b.hi c q :=
          ⟨by have := cw.1; have := lb.1; omega, by have := cw.2.1; omega, cw.2.2⟩
        exact ⟨⟨hp, hq, by simp, by simp⟩, (stored_ge ha la hp).mpr cu.1, (left_lt S cu).1⟩
  · rintro ⟨⟨cu, cw, nu, nw⟩, hlo, hhi⟩
    cases u with
    | none => exact absurd rfl nu
    | some p =>
      cases w with
      | none => exact absurd rfl nw
      | some q =>
        have p1 := (stored_ge ha la cu).mp hlo
        have q1 := (stored_ge hb lb cw).mp hlo
        have hp2 : StoredAt a.crd pa a.hi c p := ⟨p1, cu.2⟩
        have hq2 : StoredAt b.crd pb b.hi c q := ⟨q1, cw.2⟩
        have pl : p < pa' := by
          rcases Nat.lt_or_ge p pa' with hl | hl
          · exact hl
          · exfalso
            have hlt : pa' < a.hi := by have := cu.2.1; omega
            have xc := rest_ge ha (by have := la.1; omega) S.hx (⟨hl, cu.2⟩ : StoredAt a.crd pa' a.hi c p)
            rcases Nat.lt_or_ge q pb' with hl' | hl'
            · have := (right_lt S ⟨q1, hl', cw.2.2⟩).2.1 hlt; omega
            · have := rest_ge hb (by have := lb.1; omega) S.hy (⟨hl', cw.2⟩ : StoredAt b.crd pb' b.hi c q)
              have := cw.2.1
              rcases S.exit with h | h | h <;> omega
        have ql : q < pb' := by
          rcases Nat.lt_or_ge q pb' with hl | hl
          · exact hl
          · exfalso
            have := (left_lt S ⟨p1, pl, cu.2.2⟩).2.2 (by have := cw.2.1; omega)
            have := rest_ge hb (by have := lb.1; omega) S.hy (⟨hl, cw.2⟩ : StoredAt b.crd pb' b.hi c q)
            omega
        exact ⟨⟨⟨p1, pl, cu.2.2⟩, ⟨q1, ql, cw.2.2⟩, Or.inl (by simp)⟩, by simp⟩

/-- What is behind the segment of one operand does not make a coordinate of the other look smaller. -/
def NoSmaller (g other : Seg) : Prop :=
  ∀ x c q, g.crd[g.hi]? = some x → StoredAt other.crd other.lo other.hi c q → c ≤ x

theorem innerAfter_spec {g : Seg} (h : Ready g) (t : Strip) {p : Nat} {vs : List Visit} (inner : Int)
    (hm : ∀ c q, (c, q) ∈ vs → StoredAt g.crd p g.hi c q) :
    ∃ i, innerAfter t g vs inner = some i ∧ (vs = [] → i = inner) := by
  unfold innerAfter
  cases hl : vs.getLast? with
  | none => exact ⟨inner, rfl, fun _ => rfl⟩
  | some v =>
    obtain ⟨c, hc⟩ := get_some h (p := v.2 + 1) (by
      have := hm v.1 v.2 (List.mem_of_getLast? hl); have := this.2.1; omega)
    refine ⟨recoverInner t c, by simp [hc], fun e => ?_⟩
    subst e; simp at hl

theorem stripUnion_spec {a b : Seg} (ha : Ready a) (hb : Ready b) (sa : NoSmaller a b) (sb : NoSmaller b a)
    {t : Strip} (ht : t.start = .search) :
    ∃ vs, stripUnion a b t = some vs ∧ vs.Pairwise (fun v w => v.1 < w.1) ∧
      ∀ v : Visit2, v ∈ vs ↔ (Component a.crd a.lo a.hi v.1 v.2.1 ∧ Component b.crd b.lo b.hi v.1 v.2.2 ∧
        (v.2.1 ≠ none ∨ v.2.2 ≠ none)) ∧ t.base ≤ v.1 ∧ v.1 < t.base + t.len := by
  obtain ⟨pa, pb, vs, pa', pb', x', y', e, la, lb, S⟩ := both_spec ha hb ht
  have a1 := S.a1; have a2 := S.a2; have b1 := S.b1; have b2 := S.b2
  have la1 := la.1; have lb1 := lb.1
  have sx : pb' < b.hi → pa' = a.hi → y' ≤ x' := fun h1 h2 =>
    sa x' y' pb' (h2 ▸ S.hx) ⟨by omega, h1, S.hy⟩
  have sy : pa' < a.hi → pb' = b.hi → x' ≤ y' := fun h1 h2 =>
    sb y' x' pa' (h2 ▸ S.hy) ⟨by omega, h1, S.hx⟩
  obtain ⟨va, ea, pwa, mema, nea⟩ := loop1_spec ha t (a.hi - pa') pa' (recoverInner t (min x' y')) rfl
    (by omega) a2 (by
      intro hl c hc
      rw [S.hx] at hc; injection hc with hc; subst hc
      unfold recoverInner
      rcases S.exit with h | h | h
      · omega
      · have := sy hl h; omega
      · omega)
  obtain ⟨i, ei, hi⟩ := innerAfter_spec ha t (recoverInner t (min x' y')) (fun c q hm => ((mema c q).mp hm).1)
  have hva : va ≠ [] → pb' = b.hi := by
    intro hn
    obtain ⟨h1, h2⟩ := nea hn
    unfold recoverInner at h2
    rcases S.exit with h | h | h
    · omega
    · exact h
    · omega
  obtain ⟨vb, eb, pwb, memb, neb⟩ := loop1_spec hb t (b.hi - pb') pb' i rfl (by omega) b2 (by
      intro hl c hc
      rw [S.hy] at hc; injection hc with hc; subst hc
      have hnil : va = [] := by
        cases hv : va with
        | nil => rfl
        | cons _ _ => have := hva (by simp [hv]); omega
      rw [hi hnil]
      unfold recoverInner
      rcases S.exit with h | h | h
      · have := sx hl h; omega
      · omega
      · omega)
  have hvb : vb ≠ [] → va = [] := by
    intro hn
    have := (neb hn).1
    cases hv : va with
    | nil => rfl
    | cons _ _ => have := hva (by simp [hv]); omega
  refine ⟨vs ++ va.map (fun v => (v.1, some v.2, none)) ++ vb.map (fun v => (v.1, none, some v.2)), ?_, ?_, ?_⟩
  · unfold stripUnion; simp [e, ea, ei, eb]
  · rw [List.pairwise_append, List.pairwise_append]
    refine ⟨⟨S.pw, List.pairwise_map.mpr pwa, ?_⟩, List.pairwise_map.mpr pwb, ?_⟩
    · rintro v hv w hw
      obtain ⟨⟨c, q⟩, hm, rfl⟩ := List.mem_map.mp hw
      have hs := ((mema c q).mp hm).1
      have hl : pa' < a.hi := by have := hs.1; have := hs.2.1; omega
      have := (S.below v hv).2.1 hl
      have := rest_ge ha (by omega) S.hx hs
      dsimp only; omega
    · rintro v hv w hw
      obtain ⟨⟨c, q⟩, hm, rfl⟩ := List.mem_map.mp hw
      have hs := ((memb c q).mp hm).1
      have hl : pb' < b.hi := by have := hs.1; have := hs.2.1; omega
      rw [hvb (by intro h; rw [h] at hm; simp at hm)] at hv
      simp only [List.map_nil, List.append_nil] at hv
      have := (S.below v hv).2.2 hl
      have := rest_ge hb (by omega) S.hy hs
      dsimp only; omega
  · rintro ⟨c, u, w⟩
    rw [List.mem_append, List.mem_append, S.mem]
    dsimp only
    constructor
    · rintro ((⟨cu, cw, hn⟩ | hm) | hm)
      · -- visited while both operands were left
        have key : (c < t.base + t.len ∧ (pa' < a.hi → c < x') ∧ (pb' < b.hi → c < y')) ∧ t.base ≤ c := by
          rcases hn with hn | hn
          · cases u with
            | none => exact absurd rfl hn
            | some p =>
              exact ⟨left_lt S cu, (stored_ge ha la ⟨by have := cu.1; omega, by have := cu.2.1; omega, cu.2.2⟩).mpr cu.1⟩
          · cases w with
            | none => exact absurd rfl hn
            | some p =>
              exact ⟨right_lt S cw, (stored_ge hb lb ⟨by have := cw.1; omega, by have := cw.2.1; omega, cw.2.2⟩).mpr cw.1⟩
        obtain ⟨⟨k1, k2, k3⟩, k4⟩ := key
        refine ⟨⟨(comp_restrict la1 (by omega) ?_).mpr cu, (comp_restrict lb1 (by omega) ?_).mpr cw, hn⟩, k4, k1⟩
        · intro q hq
          refine ⟨(stored_ge ha la hq).mp k4, ?_⟩
          rcases Nat.lt_or_ge q pa' with hl | hl
          · exact hl
          · have := k2 (by have := hq.2.1; omega)
            have := rest_ge ha (by omega) S.hx (⟨hl, hq.2⟩ : StoredAt a.crd pa' a.hi c q)
            omega
        · intro q hq
          refine ⟨(stored_ge hb lb hq).mp k4, ?_⟩
          rcases Nat.lt_or_ge q pb' with hl | hl
          · exact hl
          · have := k3 (by have := hq.2.1; omega)
            have := rest_ge hb (by omega) S.hy (⟨hl, hq.2⟩ : StoredAt b.crd pb' b.hi c q)
            omega
      · obtain ⟨⟨c', q⟩, hm', e'⟩ := List.mem_map.mp hm
        replace hm := hm'
        injection e' with e1 e2; injection e2 with e2 e3; dsimp only at e1 e2; subst e1 e2 e3
        obtain ⟨hs, hlt⟩ := (mema c' q).mp hm
        have hq : StoredAt a.crd a.lo a.hi c' q := ⟨by have := hs.1; omega, hs.2⟩
        have hlo : t.base ≤ c' := (stored_ge ha la hq).mpr (by have := hs.1; omega)
        have hbe : pb' = b.hi := hva (by intro h; rw [h] at hm; simp at hm)
        refine ⟨⟨hq, ?_, Or.inl (by simp)⟩, hlo, hlt⟩
        intro r hr
        have := (right_lt S ⟨(stored_ge hb lb hr).mp hlo, by rw [hbe]; exact hr.2.1, hr.2.2⟩).2.1
          (by have := hs.1; have := hs.2.1; omega)
        have := rest_ge ha (by omega) S.hx hs
        omega
      · obtain ⟨⟨c', q⟩, hm', e'⟩ := List.mem_map.mp hm
        replace hm := hm'
        injection e' with e1 e2; injection e2 with e2 e3; dsimp only at e1 e3; subst e1 e2 e3
        obtain ⟨hs, hlt⟩ := (memb c' q).mp hm
        have hq : StoredAt b.crd b.lo b.hi c' q := ⟨by have := hs.1; omega, hs.2⟩
        have hlo : t.base ≤ c' := (stored_ge hb lb hq).mpr (by have := hs.1; omega)
        have hvn : va = [] := hvb (by intro h; rw [h] at hm; simp at hm)
        refine ⟨⟨?_, hq, Or.inr (by simp)⟩, hlo, hlt⟩
        intro r hr
        rcases Nat.lt_or_ge r pa' with hl | hl
        · have := (left_lt S ⟨(stored_ge ha la hr).mp hlo, hl, hr.2.2⟩).2.2
            (by have := hs.1; have := hs.2.1; omega)
          have := rest_ge hb (by omega) S.hy hs
          omega
        · have : (c', r) ∈ va := (mema c' r).mpr ⟨⟨hl, hr.2⟩, hlt⟩
          rw [hvn] at this; simp at this
    · rintro ⟨⟨cu, cw, hn⟩, hlo, hhi⟩
      -- a coordinate that is stored before `pa'` or `pb'` has been visited with both operands
      by_cases hb4 : (∃ p, StoredAt a.crd pa pa' c p) ∨ (∃ p, StoredAt b.crd pb pb' c p)
      · have key : (c < t.base + t.len ∧ (pa' < a.hi → c < x') ∧ (pb' < b.hi → c < y')) := by
          rcases hb4 with ⟨p, hp⟩ | ⟨p, hp⟩
          · exact left_lt S hp
          · exact right_lt S hp
        left; left
        refine ⟨(comp_restrict la1 (by omega) ?_).mp cu, (comp_restrict lb1 (by omega) ?_).mp cw, hn⟩
        · intro q hq
          refine ⟨(stored_ge ha la hq).mp hlo, ?_⟩
          rcases Nat.lt_or_ge q pa' with hl | hl
          · exact hl
          · have := key.2.1 (by have := hq.2.1; omega)
            have := rest_ge ha (by omega) S.hx (⟨hl, hq.2⟩ : StoredAt a.crd pa' a.hi c q)
            omega
        · intro q hq
          refine ⟨(stored_ge hb lb hq).mp hlo, ?_⟩
          rcases Nat.lt_or_ge q pb' with hl | hl
          · exact hl
          · have := key.2.2 (by have := hq.2.1; omega)
            have := rest_ge hb (by omega) S.hy (⟨hl, hq.2⟩ : StoredAt b.crd pb' b.hi c q)
            omega
      · have na : ∀ p, StoredAt a.crd a.lo a.hi c p → pa' ≤ p := by
          intro p hp
          rcases Nat.lt_or_ge p pa' with hl | hl
          · exact absurd (Or.inl ⟨p, (stored_ge ha la hp).mp hlo, hl, hp.2.2⟩) hb4
          · exact hl
        have nb : ∀ p, StoredAt b.crd b.lo b.hi c p → pb' ≤ p := by
          intro p hp
          rcases Nat.lt_or_ge p pb' with hl | hl
          · exact absurd (Or.inr ⟨p, (stored_ge hb lb hp).mp hlo, hl, hp.2.2⟩) hb4
          · exact hl
        cases u with
        | some p =>
          have hl := na p cu
          have hm : (c, p) ∈ va := (mema c p).mpr ⟨⟨hl, cu.2⟩, hhi⟩
          have hbe : pb' = b.hi := hva (by intro h; rw [h] at hm; simp at hm)
          cases w with
          | none => left; right; exact List.mem_map.mpr ⟨(c, p), hm, rfl⟩
          | some q => have := nb q cw; have := cw.2.1; omega
        | none =>
          cases w with
          | none => simp at hn
          | some q =>
            right
            exact List.mem_map.mpr ⟨(c, q), (memb c q).mpr ⟨⟨nb q cw, cw.2⟩, hhi⟩, rfl⟩

/-! ## Sequences of strips -/

/-- The strips are searched and cover `[x,y)` without gaps and overlaps, in order. -/
def Tiles : Int → List Strip → Int → Prop
  | x, [], y => x = y
  | x, t :: ts, y => t.base = x ∧ t.start = .search ∧ 0 ≤ t.len ∧ Tiles (x + t.len) ts y

theorem tiles_le {x y : Int} {ts : List Strip} (h : Tiles x ts y) : x ≤ y := by
  induction ts generalizing x with
  | nil => exact Int.le_of_eq h
  | cons t ts ih => have := ih h.2.2.2; have := h.2.2.1; omega

theorem tiles_append {x y z : Int} {ts us : List Strip} (h : Tiles x ts y) (h' : Tiles y us z) :
    Tiles x (ts ++ us) z := by
  induction ts generalizing x with
  | nil => cases h; exact h'
  | cons t ts ih => exact ⟨h.1, h.2.1, h.2.2.1, ih h.2.2.2⟩

theorem runAll_tiles {α : Type} (key : α → Int) (P : α → Prop) (f : Strip → Option (List α))
    (hf : ∀ t : Strip, t.start = .search → ∃ vs, f t = some vs ∧ vs.Pairwise (fun v w => key v < key w) ∧
      ∀ v, v ∈ vs ↔ P v ∧ t.base ≤ key v ∧ key v < t.base + t.len) :
    ∀ (ts : List Strip) (x y : Int), Tiles x ts y →
    ∃ vs, runAll f ts = some vs ∧ vs.Pairwise (fun v w => key v < key w) ∧
      ∀ v, v ∈ vs ↔ P v ∧ x ≤ key v ∧ key v < y := by
  intro ts
  induction ts with
  | nil =>
    intro x y h
    cases h
    exact ⟨[], rfl, List.Pairwise.nil, by intro v; simp⟩
  | cons t ts ih =>
    intro x y h
    obtain ⟨h1, h2, h3, h4⟩ := h
    obtain ⟨v, e, pw, mem⟩ := hf t h2
    obtain ⟨w, e', pw', mem'⟩ := ih _ _ h4
    refine ⟨v ++ w, by simp [runAll, e, e'], ?_, ?_⟩
    · rw [List.pairwise_append]
      refine ⟨pw, pw', fun p hp q hq => ?_⟩
      have := ((mem p).mp hp).2.2
      have := ((mem' q).mp hq).2.1
      omega
    · intro p
      rw [List.mem_append, mem, mem']
      have := tiles_le h4
      constructor
      · rintro (⟨hp, hl, hr⟩ | ⟨hp, hl, hr⟩)
        · exact ⟨hp, by omega, by omega⟩
        · exact ⟨hp, by omega, by omega⟩
      · rintro ⟨hp, hl, hr⟩
        by_cases hh : key p < x + t.len
        · exact Or.inl ⟨hp, by omega, by omega⟩
        · exact Or.inr ⟨hp, by omega, by omega⟩

theorem tiles_range (x : Int) (s m : Nat) :
    Tiles x ((List.range m).map fun (o : Nat) => (⟨x + (o : Int) * s, s, .search⟩ : Strip)) (x + (m : Int) * s) := by
  induction m with
  | zero => simp [Tiles]
  | succ m ih =>
    rw [List.range_succ, List.map_append]
    refine tiles_append ih ⟨rfl, rfl, by simp, ?_⟩
    show x + (m : Int) * s + (s : Int) = _
    rw [Int.natCast_add, Int.add_mul]; simp; omega

theorem ceil_mul_ge (n s : Nat) (hs : 0 < s) : n ≤ (n + (s - 1)) / s * s := by
  have := Nat.div_add_mod (n + (s - 1)) s
  have := Nat.mod_lt (n + (s - 1)) hs
  rw [Nat.mul_comm]; omega

theorem splitStrips_tiles (n s : Nat) :
    Tiles 0 (splitStrips n s) ((((n + (s - 1)) / s : Nat) : Int) * s) := by
  have := tiles_range 0 s ((n + (s - 1)) / s)
  simpa [splitStrips, Provenance.splitOuterBounds, Provenance.splitInnerBounds] using this

theorem nestedStrips_tiles (n s s' : Nat) (hs : 0 < s') (hd : s' ∣ s) :
    Tiles 0 (nestedStrips n s s') ((((n + (s - 1)) / s : Nat) : Int) * s) := by
  obtain ⟨q, rfl⟩ := hd
  have hq : (s' * q + (s' - 1)) / s' = q := by
    rw [Nat.mul_add_div hs, Nat.div_eq_of_lt (by omega)]; rfl
  unfold nestedStrips
  simp only [Provenance.splitOuterBounds, Provenance.splitInnerBounds, hq]
  generalize (n + (s' * q - 1)) / (s' * q) = m
  induction m with
  | zero => simp [Tiles]
  | succ m ih =>
    rw [List.range_succ, List.flatMap_append]
    refine tiles_append ih ?_
    have := tiles_range ((m : Int) * (s' * q : Nat)) s' q
    simp only [List.flatMap_cons, List.flatMap_nil, List.append_nil]
    have e : (m : Int) * ((s' * q : Nat) : Int) + (q : Int) * s' = ((m + 1 : Nat) : Int) * ((s' * q : Nat) : Int) := by
      push_cast; rw [Int.add_mul, Int.mul_comm (q : Int)]; simp
    rw [e] at this
    exact this

/-! ## Reading behind the segment -/

theorem loop1_overread {g : Seg} (hs : g.hi = g.crd.length) (t : Strip) :
    ∀ (k p : Nat) (inner : Int), k = g.hi - p → p < g.hi → inner < t.len →
    (∀ q c, p < q → q < g.hi → g.crd[q]? = some c → c < t.base + t.len) →
    loop1 t g k p inner = none := by
  intro k
  induction k with
  | zero => intro p inner hk hp; omega
  | succ k ih =>
    intro p inner hk hp hl hb
    unfold loop1
    rw [if_pos ⟨hp, hl⟩]
    rw [List.getElem?_eq_getElem (by omega)]
    rcases Nat.lt_or_ge (p + 1) g.hi with h | h
    · have hc : g.crd[p + 1]? = some (g.crd[p + 1]'(by omega)) := List.getElem?_eq_getElem (by omega)
      rw [hc]
      have := hb (p + 1) _ (by omega) h hc
      rw [show ∀ (x y : Int) , (do
        let i ← some x
        let next ← some y
        let rest ← loop1 t g k (p + 1) (recoverInner t next)
        some ((i, p) :: rest)) = (do
        let rest ← loop1 t g k (p + 1) (recoverInner t y)
        some ((x, p) :: rest) : Option (List Visit)) from fun _ _ => rfl]
      rw [ih (p + 1) _ (by omega) h (by unfold recoverInner; omega)
        (fun q c h1 h2 h3 => hb q c (by omega) h2 h3)]
      rfl
    · rw [List.getElem?_eq_none (by omega : g.crd.length ≤ p + 1)]; rfl

theorem runAll_none {α : Type} {f : Strip → Option (List α)} {ts : List Strip} {t : Strip} (hm : t ∈ ts)
    (h : f t = none) : runAll f ts = none := by
  induction ts with
  | nil => simp at hm
  | cons u us ih =>
    unfold runAll
    rcases List.mem_cons.mp hm with rfl | hm
    · rw [h]; rfl
    · rw [ih hm]; cases f u <;> rfl

end Verif.Strip
