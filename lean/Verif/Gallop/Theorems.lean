import Verif.Gallop.Lemmas
/-!
C64. `mergeby(i, MergeStrategy::Gallop)` does not change what a program computes: both strategies execute
the body for the coordinates that all levels store, in increasing order.
-/
namespace Verif.Gallop
open Verif.Search Verif.Window

/-! ### The two-finger loop -/

theorem twoFinger_step (st : St) (hne : st ≠ [])
    (hinv : ∀ x ∈ st, x.1.window = none ∧ Ordered (rem x))
    (hall : st.all (fun x => decide (x.2 < x.1.e)) = true) :
    StepOK .twoFinger (fun st => ∀ x ∈ st, x.1.window = none ∧ Ordered (rem x)) st := by
  have hlt : ∀ x ∈ st, x.2 < x.1.e := fun x hx => by simpa using List.all_eq_true.1 hall x hx
  have hlen : ∀ x ∈ st, x.2 < x.1.crd.length := fun x hx =>
    Nat.lt_of_lt_of_le (hlt x hx) (hinv x hx).2.inside
  obtain ⟨cs, l1, l2⟩ := loadAll_heads st (fun x hx => ⟨(hinv x hx).1, hlen x hx⟩)
  obtain ⟨hmin, hmem⟩ := resolve_min (heads_ne hne l2)
  generalize hc : resolve .twoFinger cs = c at hmin hmem
  obtain ⟨rs, r1⟩ := ranges_some c st (fun x hx => ⟨(hinv x hx).2, hlt x hx⟩)
  have hadv : ∀ m : Bool, ∀ x ∈ st, ∀ v ∈ cs, x.1.crd[x.2]? = some v →
      ∃ p', advanceOne .twoFinger c m x v = some p' ∧ Cut c x p' ∧
        (x.1.window = none ∧ Ordered (rem (x.1, p'))) := by
    intro m x hx v hv hxv
    have hcv := hmin v hv
    obtain ⟨q, g1, g2, g3⟩ := rangeEnd_spec (hinv x hx).2 (hlt x hx) hxv hcv
    have stay : v ≠ c → Cut c x x.2 := fun hvc =>
      ⟨Nat.le_refl _, Nat.le_of_lt (hlt x hx), by omega, by
        intro i w h1 h2 hw
        by_cases hi : i = x.2
        · subst hi; rw [hxv] at hw; cases hw; omega
        · have := ((hinv x hx).2.sorted x.2 i v w (Nat.le_refl _) (by omega) h2 hxv hw).1
          omega⟩
    have fin : ∀ p', advanceOne .twoFinger c m x v = some p' → Cut c x p' →
        ∃ p', advanceOne .twoFinger c m x v = some p' ∧ Cut c x p' ∧
        (x.1.window = none ∧ Ordered (rem (x.1, p'))) := fun p' a b =>
      ⟨p', a, b, (hinv x hx).1, ordered_move (hinv x hx).2 b.lo b.hi⟩
    cases hu : x.1.unique with
    | true =>
      by_cases hvc : v = c
      · have hq : q = x.2 + 1 := by
          simp only [rangeEnd, hu, if_true] at g1
          exact (Option.some.inj g1).symm
        refine fin (x.2 + 1) (by simp only [advanceOne, hu, if_true, hvc]) ?_
        rw [← hq]; exact (g2 hvc).1
      · exact fin x.2 (by simp only [advanceOne, hu, if_true, if_neg hvc]; rfl) (stay hvc)
    | false =>
      have ha : advanceOne .twoFinger c m x v = some q := by
        simp [advanceOne, hu, g1]
      by_cases hvc : v = c
      · exact fin q ha (g2 hvc).1
      · rw [g3 hvc hu] at ha
        exact fin x.2 ha (stay hvc)
  obtain ⟨st', a1, a2, a3⟩ := advance_cut (strat := .twoFinger) (m := cs.all (fun v => v == c))
    (P := fun it p => it.window = none ∧ Ordered (rem (it, p))) l2 (hadv _)
  obtain ⟨x, hx, hxc⟩ := heads_mem l2 hmem
  refine ⟨if cs.all (fun v => v == c) then [(c, rs)] else [], st', c, ?_, a2, a3,
    ⟨x, hx, c, hxc, Int.le_refl _⟩, ?_, ?_⟩
  · simp only [step, hall, if_true, l1, hc, r1, a1]
  · intro d ds
    by_cases hm : cs.all (fun v => v == c) = true
    · have heq : ∀ v ∈ cs, v = c := fun v hv => by simpa using List.all_eq_true.1 hm v hv
      obtain ⟨rs', k1, k2⟩ := ranges_spec l2 heq (fun x hx => ⟨(hinv x hx).2, hlt x hx⟩)
      rw [r1] at k1
      cases k1
      rw [if_pos hm]
      constructor
      · intro h
        cases List.mem_singleton.1 h
        exact ⟨Int.le_refl _, k2⟩
      · rintro ⟨h1, h2⟩
        have := allStored_ge l2 (fun x hx => (hinv x hx).2) h2 c hmem
        have hdc : d = c := by omega
        subst hdc
        rw [allStored_unique h2 k2]
        exact List.mem_singleton.2 rfl
    · rw [if_neg hm]
      refine ⟨fun h => (by cases h), ?_⟩
      rintro ⟨h1, h2⟩
      exfalso
      apply hm
      rw [List.all_eq_true]
      intro v hv
      have := allStored_ge l2 (fun x hx => (hinv x hx).2) h2 v hv
      have := hmin v hv
      simp; omega
  · split <;> simp

theorem init_plain : ∀ (its : List Iter), (∀ it ∈ its, it.window = none) →
    init its = some (its.map (fun it => (it, it.s)))
  | [], _ => rfl
  | it :: its, h => by
    simp only [init, initOne, h it List.mem_cons_self,
      init_plain its (fun x hx => h x (List.mem_cons_of_mem _ hx)), List.map_cons]

theorem map_rem_init (its : List Iter) : (its.map (fun it => (it, it.s))).map rem = its := by
  induction its with
  | nil => rfl
  | cons it its ih => simp only [List.map_cons, ih]; rfl

theorem remaining_init (its : List Iter) :
    remaining (its.map (fun it => (it, it.s))) = entries its := by
  simp [remaining, entries, List.map_map, Function.comp_def]

/-- C64, C11. The two-finger loop visits exactly the coordinates that all levels store, each once and in
increasing order, with all the positions at which each level stores it. Any mix of levels with and without
duplicates is allowed. -/
theorem twoFinger_intersection_partial (its : List Iter) (hne : its ≠ [])
    (hw : ∀ it ∈ its, it.window = none) (ho : ∀ it ∈ its, Ordered it) :
    ∃ evs, Intersection its evs ∧
      ∀ fuel, entries its < fuel → run .twoFinger fuel its = some (evs, true) := by
  have key : ∀ fuel, entries its < fuel → ∃ evs, run .twoFinger fuel its = some (evs, true) ∧
      Intersection its evs := by
    intro fuel hf
    have := loop_spec .twoFinger _ twoFinger_step fuel (its.map (fun it => (it, it.s)))
      (by simpa using hne) (by
        intro x hx
        obtain ⟨it, hit, rfl⟩ := List.mem_map.1 hx
        exact ⟨hw it hit, ho it hit⟩) (by rw [remaining_init]; exact hf)
    rw [map_rem_init] at this
    simpa only [run, init_plain its hw] using this
  obtain ⟨evs, h1, h2⟩ := key (entries its + 1) (by omega)
  refine ⟨evs, h2, fun fuel hf => ?_⟩
  obtain ⟨evs', g1, g2⟩ := key fuel hf
  rw [intersection_unique h2 g2]
  exact g1

/-! ### The galloping loop -/

/-- What the galloping loop needs of a level: no duplicates, no window, and the array goes on after the
segment (`taco_gallop` reads the element after the last one). -/
structure Gallopable (it : Iter) : Prop where
  unique : it.unique = true
  window : it.window = none
  beyond : it.e < it.crd.length
  small : it.e < 1073741824

theorem gallop_advance {x : Iter × Nat} (ho : Ordered (rem x)) (hg : Gallopable x.1) (hp : x.2 < x.1.e)
    {v c : Int} (hv : x.1.crd[x.2]? = some v) :
    (∃ p', advanceOne .gallop c false x v = some p' ∧ Cut (c - 1) x p') ∧
    (v = c → ∃ p', advanceOne .gallop c true x v = some p' ∧ Cut c x p') := by
  have hso : ∀ i j a b, x.2 ≤ i → i < j → j < x.1.e → x.1.crd[i]? = some a → x.1.crd[j]? = some b →
    a ≤ b ∧ (x.1.unique = true → a < b) := ho.sorted
  have lb : ∀ p t, x.2 ≤ p → p < x.1.e → ∃ r, gallop x.1.crd p x.1.e t = some r ∧ p ≤ r ∧ r ≤ x.1.e ∧
      (∀ i w, p ≤ i → i < r → x.1.crd[i]? = some w → w < t) ∧
      (∀ i w, r ≤ i → i < x.1.e → x.1.crd[i]? = some w → t ≤ w) := by
    intro p t h1 h2
    obtain ⟨r, k1, k2, k3, k4, k5⟩ := gallop_lowerBound x.1.crd p x.1.e t h2 (Nat.le_of_lt hg.beyond) hg.small
      (fun i j a b g1 g2 g3 g4 g5 => (hso i j a b (by omega) g2 g3 g4 g5).1)
    refine ⟨r, k1, k2, k3, k4, ?_⟩
    intro i w g1 g2 hw
    obtain ⟨u, hu, hut⟩ := k5 (by omega)
    by_cases hi : i = r
    · subst hi; rw [hu] at hw; cases hw; exact hut
    · have := (hso r i u w (by omega) (by omega) g2 hu hw).1
      omega
  constructor
  · obtain ⟨r, k1, k2, k3, k4, k5⟩ := lb x.2 c (Nat.le_refl _) hp
    refine ⟨r, ?_, k2, k3, ?_, ?_⟩
    · simp only [advanceOne, hg.unique, if_true]; exact k1
    · intro i w g1 g2 hw; have := k4 i w g1 g2 hw; omega
    · intro i w g1 g2 hw; have := k5 i w g1 g2 hw; omega
  · intro hvc
    have habove : ∀ i w, x.2 + 1 ≤ i → i < x.1.e → x.1.crd[i]? = some w → c < w := by
      intro i w g1 g2 hw
      have := (hso x.2 i v w (Nat.le_refl _) (by omega) g2 hv hw).2 hg.unique
      omega
    have hres : gallop x.1.crd (x.2 + 1) x.1.e c = some (x.2 + 1) := by
      have hlen : x.2 + 1 < x.1.crd.length := by have := hg.beyond; omega
      unfold gallop
      rw [List.getElem?_eq_getElem hlen]
      simp only
      by_cases he : x.2 + 1 < x.1.e
      · rw [if_pos (Or.inl (Int.le_of_lt (habove _ _ (Nat.le_refl _) he (List.getElem?_eq_getElem hlen))))]
      · rw [if_pos (Or.inr (by omega))]
    refine ⟨x.2 + 1, ?_, by omega, by omega, ?_, habove⟩
    · simp only [advanceOne, hg.unique, if_true]; exact hres
    · intro i w g1 g2 hw
      have : i = x.2 := by omega
      subst this
      rw [hv] at hw
      cases hw
      omega

theorem gallop_step (st : St) (hne : st ≠ [])
    (hinv : ∀ x ∈ st, Gallopable x.1 ∧ Ordered (rem x))
    (hall : st.all (fun x => decide (x.2 < x.1.e)) = true) :
    StepOK .gallop (fun st => ∀ x ∈ st, Gallopable x.1 ∧ Ordered (rem x)) st := by
  have hlt : ∀ x ∈ st, x.2 < x.1.e := fun x hx => by simpa using List.all_eq_true.1 hall x hx
  have hlen : ∀ x ∈ st, x.2 < x.1.crd.length := fun x hx =>
    Nat.lt_of_lt_of_le (hlt x hx) (hinv x hx).2.inside
  obtain ⟨cs, l1, l2⟩ := loadAll_heads st (fun x hx => ⟨(hinv x hx).1.window, hlen x hx⟩)
  obtain ⟨hmax, hmem⟩ := resolve_max (heads_ne hne l2)
  generalize hc : resolve .gallop cs = c at hmax hmem
  obtain ⟨rs, r1⟩ := ranges_some c st (fun x hx => ⟨(hinv x hx).2, hlt x hx⟩)
  by_cases hm : cs.all (fun v => v == c) = true
  · have heq : ∀ v ∈ cs, v = c := fun v hv => by simpa using List.all_eq_true.1 hm v hv
    obtain ⟨st', a1, a2, a3⟩ := advance_cut (strat := .gallop) (c := c) (t := c) (m := true)
      (P := fun it p => Gallopable it ∧ Ordered (rem (it, p))) l2 (by
        intro x hx v hv hxv
        obtain ⟨p', b1, b2⟩ := (gallop_advance (c := c) (hinv x hx).2 (hinv x hx).1 (hlt x hx) hxv).2 (heq v hv)
        exact ⟨p', b1, b2, (hinv x hx).1, ordered_move (hinv x hx).2 b2.lo b2.hi⟩)
    obtain ⟨x, hx, hxc⟩ := heads_mem l2 hmem
    obtain ⟨rs', k1, k2⟩ := ranges_spec l2 heq (fun x hx => ⟨(hinv x hx).2, hlt x hx⟩)
    rw [r1] at k1
    cases k1
    refine ⟨[(c, rs)], st', c, ?_, a2, a3, ⟨x, hx, c, hxc, Int.le_refl _⟩, ?_, by simp⟩
    · simp only [step, hall, if_true, l1, hc, r1, hm, a1]
    · intro d ds
      constructor
      · intro h
        cases List.mem_singleton.1 h
        exact ⟨Int.le_refl _, k2⟩
      · rintro ⟨h1, h2⟩
        have := allStored_ge l2 (fun x hx => (hinv x hx).2) h2 c hmem
        have hdc : d = c := by omega
        subst hdc
        rw [allStored_unique h2 k2]
        exact List.mem_singleton.2 rfl
  · have hm' : cs.all (fun v => v == c) = false := by simpa using hm
    obtain ⟨st', a1, a2, a3⟩ := advance_cut (strat := .gallop) (c := c) (t := c - 1) (m := false)
      (P := fun it p => Gallopable it ∧ Ordered (rem (it, p))) l2 (by
        intro x hx v hv hxv
        obtain ⟨p', b1, b2⟩ := (gallop_advance (c := c) (hinv x hx).2 (hinv x hx).1 (hlt x hx) hxv).1
        exact ⟨p', b1, b2, (hinv x hx).1, ordered_move (hinv x hx).2 b2.lo b2.hi⟩)
    obtain ⟨v, hv, hvc⟩ : ∃ v ∈ cs, v ≠ c := by
      apply Classical.byContradiction
      intro hn
      apply hm
      rw [List.all_eq_true]
      intro v hv
      have : v = c := Classical.byContradiction fun h => hn ⟨v, hv, h⟩
      simp [this]
    obtain ⟨x, hx, hxv⟩ := heads_mem l2 hv
    refine ⟨[], st', c - 1, ?_, a2, a3, ⟨x, hx, v, hxv, by have := hmax v hv; omega⟩, ?_, by simp⟩
    · simp only [step, hall, if_true, l1, hc, r1, hm', a1]
      rfl
    · intro d ds
      refine ⟨fun h => (by cases h), ?_⟩
      rintro ⟨h1, h2⟩
      have := allStored_ge l2 (fun x hx => (hinv x hx).2) h2 c hmem
      omega

/-- C64. The galloping loop visits exactly the coordinates that all levels store, each once and in
increasing order, for levels without duplicates and windows whose array does not end with the segment. -/
theorem gallop_intersection_partial (its : List Iter) (hne : its ≠ [])
    (hg : ∀ it ∈ its, Gallopable it) (ho : ∀ it ∈ its, Ordered it) :
    ∃ evs, Intersection its evs ∧
      ∀ fuel, entries its < fuel → run .gallop fuel its = some (evs, true) := by
  have hw : ∀ it ∈ its, it.window = none := fun it hit => (hg it hit).window
  have key : ∀ fuel, entries its < fuel → ∃ evs, run .gallop fuel its = some (evs, true) ∧
      Intersection its evs := by
    intro fuel hf
    have := loop_spec .gallop _ gallop_step fuel (its.map (fun it => (it, it.s)))
      (by simpa using hne) (by
        intro x hx
        obtain ⟨it, hit, rfl⟩ := List.mem_map.1 hx
        exact ⟨hg it hit, ho it hit⟩) (by rw [remaining_init]; exact hf)
    rw [map_rem_init] at this
    simpa only [run, init_plain its hw] using this
  obtain ⟨evs, h1, h2⟩ := key (entries its + 1) (by omega)
  refine ⟨evs, h2, fun fuel hf => ?_⟩
  obtain ⟨evs', g1, g2⟩ := key fuel hf
  rw [intersection_unique h2 g2]
  exact g1

/-- C64. Choosing the galloping strategy does not change the executions of the loop body, and the loop
still terminates. -/
theorem mergeby_preserves_partial (its : List Iter) (hne : its ≠ [])
    (hg : ∀ it ∈ its, Gallopable it) (ho : ∀ it ∈ its, Ordered it) (fuel : Nat)
    (hf : entries its < fuel) :
    run .gallop fuel its = run .twoFinger fuel its ∧ ∃ evs, run .gallop fuel its = some (evs, true) := by
  obtain ⟨evs, h1, h2⟩ := gallop_intersection_partial its hne hg ho
  obtain ⟨evs', g1, g2⟩ := twoFinger_intersection_partial its hne (fun it hit => (hg it hit).window) ho
  rw [h2 fuel hf, g2 fuel hf, intersection_unique h1 g1]
  exact ⟨rfl, evs', rfl⟩

/-- `[1,4,6,9]`, `[4,5,6,7,8,9]` and `[0,4,9]` with an element after each segment. -/
def exA : Iter := { crd := [1, 4, 6, 9, 0], s := 0, e := 4 }
def exB : Iter := { crd := [4, 5, 6, 7, 8, 9, 2], s := 0, e := 6 }
def exC : Iter := { crd := [3, 0, 4, 9, 0], s := 1, e := 4 }

theorem ordered_of_pairwise {it : Iter} (h1 : it.s ≤ it.e) (h2 : it.e ≤ it.crd.length)
    (h3 : ((it.crd.take it.e).drop it.s).Pairwise (· < ·)) : Ordered it := by
  refine ⟨h1, h2, fun i j x y a b c d e => ?_⟩
  have := StrictOn.of_pairwise h3 i j x y a b c d e
  exact ⟨Int.le_of_lt this, fun _ => this⟩

theorem ordered_of_sorted {it : Iter} (h0 : it.unique = false) (h1 : it.s ≤ it.e)
    (h2 : it.e ≤ it.crd.length) (h3 : ((it.crd.take it.e).drop it.s).Pairwise (· ≤ ·)) : Ordered it :=
  ⟨h1, h2, fun i j x y a b c d e =>
    ⟨SortedOn.of_pairwise h3 i j x y a b c d e, fun hu => by rw [h0] at hu; cases hu⟩⟩

example : (∀ it ∈ [exA, exB, exC], Gallopable it) ∧ (∀ it ∈ [exA, exB, exC], Ordered it) ∧
    entries [exA, exB, exC] = 13 ∧
    run .gallop 14 [exA, exB, exC] =
      some ([(4, [(1, 2), (0, 1), (2, 3)]), (9, [(3, 4), (5, 6), (3, 4)])], true) := by
  refine ⟨?_, ?_, by decide, by decide +kernel⟩
  · intro it hit
    simp only [List.mem_cons, List.not_mem_nil, or_false] at hit
    rcases hit with rfl | rfl | rfl <;> exact ⟨rfl, rfl, by decide, by decide⟩
  · intro it hit
    simp only [List.mem_cons, List.not_mem_nil, or_false] at hit
    rcases hit with rfl | rfl | rfl <;> exact ordered_of_pairwise (by decide) (by decide) (by decide)

/-- Rows of a COO matrix `[0,2,2,5]` against `[2,5,5]`: the two-finger loop passes the whole run of equal
coordinates to the body. -/
example : ∃ its : List Iter, (∀ it ∈ its, it.window = none) ∧ (∀ it ∈ its, Ordered it) ∧
    run .twoFinger 8 its = some ([(2, [(1, 3), (0, 1)]), (5, [(3, 4), (1, 3)])], true) := by
  refine ⟨[{ crd := [0, 2, 2, 5], s := 0, e := 4, unique := false, leaf := false },
    { crd := [2, 5, 5], s := 0, e := 3, unique := false, leaf := false }], ?_, ?_, by decide +kernel⟩
  · intro it hit
    simp only [List.mem_cons, List.not_mem_nil, or_false] at hit
    rcases hit with rfl | rfl <;> rfl
  · intro it hit
    simp only [List.mem_cons, List.not_mem_nil, or_false] at hit
    rcases hit with rfl | rfl <;> exact ordered_of_sorted rfl (by decide) (by decide) (by decide)

/-! ### Where galloping goes wrong -/

theorem advance_none {strat : Strategy} {c : Int} {m : Bool} : ∀ {st : St} {cs : List Int}, Heads st cs →
    ∀ x ∈ st, (∀ v, x.1.crd[x.2]? = some v → advanceOne strat c m x v = none) → advance strat c m st cs = none
  | [], _, _, _, hx, _ => by cases hx
  | _ :: _, [], h, _, _, _ => h.elim
  | y :: ys, v :: vs, ⟨h1, h2⟩, x, hx, h => by
    rcases List.mem_cons.1 hx with rfl | hx
    · simp only [advance, h v h1]
    · simp only [advance, advance_none h2 x hx h]
      cases advanceOne strat c m y v <;> rfl

theorem advance_cut_or {strat : Strategy} {c t : Int} {m : Bool} : ∀ {st : St} {cs : List Int}, Heads st cs →
    (∀ x ∈ st, ∀ v ∈ cs, x.1.crd[x.2]? = some v → ∀ p', advanceOne strat c m x v = some p' → Cut t x p') →
    ∀ st', advance strat c m st cs = some st' → CutAll t st st'
  | [], [], _, _, st', h => by
    simp only [advance, Option.some.injEq] at h
    subst h
    exact trivial
  | [], _ :: _, h, _, _, _ => h.elim
  | _ :: _, [], h, _, _, _ => h.elim
  | x :: xs, v :: vs, ⟨h1, h2⟩, h, st', hst => by
    simp only [advance] at hst
    split at hst
    · rename_i p st'' hp hs
      cases hst
      exact ⟨rfl, h x List.mem_cons_self v List.mem_cons_self h1 p hp,
        advance_cut_or h2 (fun y hy w hw => h y (List.mem_cons_of_mem _ hy) w (List.mem_cons_of_mem _ hw)) _ hs⟩
    · cases hst

theorem cutAll_mem {t : Int} : ∀ {st st' : St}, CutAll t st st' → ∀ x ∈ st, ∃ y ∈ st', y.1 = x.1
  | [], _, _, _, hx => by cases hx
  | _ :: _, [], h, _, _ => h.elim
  | z :: zs, w :: ws, ⟨h1, _, h3⟩, x, hx => by
    rcases List.mem_cons.1 hx with rfl | hx
    · exact ⟨w, List.mem_cons_self, h1⟩
    · obtain ⟨y, hy, hyx⟩ := cutAll_mem h3 x hx
      exact ⟨y, List.mem_cons_of_mem _ hy, hyx⟩

theorem cutAll_back {t : Int} : ∀ {st st' : St}, CutAll t st st' → ∀ y ∈ st', ∃ x ∈ st, y.1 = x.1 ∧ Cut t x y.2
  | [], [], _, _, hy => by cases hy
  | [], _ :: _, h, _, _ => h.elim
  | _ :: _, [], h, _, _ => h.elim
  | z :: zs, w :: ws, ⟨h1, h2, h3⟩, y, hy => by
    rcases List.mem_cons.1 hy with rfl | hy
    · exact ⟨z, List.mem_cons_self, h1, h2⟩
    · obtain ⟨x, hx, hyx⟩ := cutAll_back h3 y hy
      exact ⟨x, List.mem_cons_of_mem _ hx, hyx⟩

/-- A level that can be galloped except that nothing is known about the end of the array. -/
structure Plain (it : Iter) : Prop where
  unique : it.unique = true
  window : it.window = none
  small : it.e < 1073741824

theorem plain_advance {x : Iter × Nat} (ho : Ordered (rem x)) (hg : Plain x.1) (hp : x.2 < x.1.e)
    {v c : Int} (hv : x.1.crd[x.2]? = some v) :
    (∀ p', advanceOne .gallop c false x v = some p' → Cut (c - 1) x p') ∧
    (v = c → ∀ p', advanceOne .gallop c true x v = some p' → Cut c x p') := by
  have hso : ∀ i j a b, x.2 ≤ i → i < j → j < x.1.e → x.1.crd[i]? = some a → x.1.crd[j]? = some b →
    a ≤ b ∧ (x.1.unique = true → a < b) := ho.sorted
  have hin : x.1.e ≤ x.1.crd.length := ho.inside
  constructor
  · intro p' hp'
    simp only [advanceOne, hg.unique, if_true] at hp'
    obtain ⟨r, k1, k2, k3, k4, k5⟩ := gallop_lowerBound x.1.crd x.2 x.1.e c hp hin hg.small
      (fun i j a b g1 g2 g3 g4 g5 => (hso i j a b (by omega) g2 g3 g4 g5).1)
    have hrp : r = p' := Option.some.inj (k1.symm.trans hp')
    subst hrp
    refine ⟨k2, k3, fun i w g1 g2 hw => by have := k4 i w g1 g2 hw; omega, ?_⟩
    intro i w g1 g2 hw
    obtain ⟨u, hu, hut⟩ := k5 (by omega)
    by_cases hi : i = r
    · subst hi; rw [hu] at hw; cases hw; omega
    · have := (hso r i u w (by omega) (by omega) g2 hu hw).1
      omega
  · intro hvc p' hp'
    have habove : ∀ i w, x.2 + 1 ≤ i → i < x.1.e → x.1.crd[i]? = some w → c < w := by
      intro i w g1 g2 hw
      have := (hso x.2 i v w (Nat.le_refl _) (by omega) g2 hv hw).2 hg.unique
      omega
    have hp2 : p' = x.2 + 1 := by
      simp only [advanceOne, hg.unique, if_true] at hp'
      unfold gallop at hp'
      cases hr : x.1.crd[x.2 + 1]? with
      | none => rw [hr] at hp'; cases hp'
      | some w =>
        rw [hr] at hp'
        simp only at hp'
        rw [if_pos (by
          by_cases he : x.2 + 1 < x.1.e
          · exact Or.inl (Int.le_of_lt (habove _ _ (Nat.le_refl _) he hr))
          · exact Or.inr (by omega))] at hp'
        exact (Option.some.inj hp').symm
    subst hp2
    refine ⟨by omega, by omega, ?_, habove⟩
    intro i w g1 g2 hw
    have : i = x.2 := by omega
    subst this
    rw [hv] at hw
    cases hw
    omega

theorem gallop_loop_undefined (last : Int) (it0 : Iter) (hend : it0.e = it0.crd.length)
    (hlast : it0.crd[it0.e - 1]? = some last) (rs : List (Nat × Nat)) : ∀ n st,
    (∀ x ∈ st, Plain x.1 ∧ Ordered (rem x)) → AllStored last (st.map rem) rs →
    (∃ x ∈ st, x.1 = it0) → remaining st < n → loop .gallop n st = none
  | 0, _, _, _, _, h => by omega
  | n + 1, st, hinv, hst, ⟨x0, hx0, hx0e⟩, hn => by
    have hall : st.all (fun x => decide (x.2 < x.1.e)) = true := by
      cases hc : st.all (fun x => decide (x.2 < x.1.e)) with
      | true => rfl
      | false => exact absurd hst (not_allStored_exhausted hc)
    have hne : st ≠ [] := fun h => by subst h; cases hx0
    have hlt : ∀ x ∈ st, x.2 < x.1.e := fun x hx => by simpa using List.all_eq_true.1 hall x hx
    have hlen : ∀ x ∈ st, x.2 < x.1.crd.length := fun x hx =>
      Nat.lt_of_lt_of_le (hlt x hx) (hinv x hx).2.inside
    obtain ⟨cs, l1, l2⟩ := loadAll_heads st (fun x hx => ⟨(hinv x hx).1.window, hlen x hx⟩)
    obtain ⟨hmax, hmem⟩ := resolve_max (heads_ne hne l2)
    generalize hc : resolve .gallop cs = c at hmax hmem
    obtain ⟨rs', r1⟩ := ranges_some c st (fun x hx => ⟨(hinv x hx).2, hlt x hx⟩)
    have hcl := allStored_ge l2 (fun x hx => (hinv x hx).2) hst c hmem
    -- after a cut below `last` the situation is the same
    have next : ∀ t st', t < last → CutAll t st st' → (∃ v ∈ cs, v ≤ t) → loop .gallop n st' = none := by
      intro t st' ht hcut ⟨v, hv, hvt⟩
      obtain ⟨x, hx, hxv⟩ := heads_mem l2 hv
      have hrem := remaining_lt hcut x hx (hlt x hx) ⟨v, hxv, hvt⟩
      refine gallop_loop_undefined last it0 hend hlast rs n st' ?_ ((allStored_cut hcut ht).2 hst) ?_ (by omega)
      · intro y hy
        obtain ⟨z, hz, hyz, hyc⟩ := cutAll_back hcut y hy
        have := ordered_move (hinv z hz).2 hyc.lo hyc.hi
        rw [← hyz] at this
        exact ⟨by rw [hyz]; exact (hinv z hz).1, this⟩
      · obtain ⟨y, hy, hyx⟩ := cutAll_mem hcut x0 hx0
        exact ⟨y, hy, hyx.trans hx0e⟩
    by_cases hm : cs.all (fun v => v == c) = true
    · have heq : ∀ v ∈ cs, v = c := fun v hv => by simpa using List.all_eq_true.1 hm v hv
      by_cases hce : c = last
      · -- the last element of `it0` is reached
        have : advance .gallop c true st cs = none := by
          refine advance_none l2 x0 hx0 ?_
          intro v hv
          have hp : x0.2 + 1 = x0.1.crd.length := by
            rw [← hx0e] at hend hlast
            have hlt0 := hlt x0 hx0
            have hvc : v = c := by
              have : ∀ {st : St} {cs : List Int}, Heads st cs → ∀ x ∈ st, ∀ v, x.1.crd[x.2]? = some v → v ∈ cs := by
                intro st
                induction st with
                | nil => intro cs _ x hx; cases hx
                | cons z zs ih =>
                  intro cs h x hx v hv
                  cases cs with
                  | nil => exact h.elim
                  | cons a as =>
                    rcases List.mem_cons.1 hx with rfl | hx
                    · rw [h.1] at hv; cases hv; exact List.mem_cons_self
                    · exact List.mem_cons_of_mem _ (ih h.2 x hx v hv)
              exact heq v (this l2 x0 hx0 v hv)
            apply Classical.byContradiction
            intro hne'
            have h3 := ((hinv x0 hx0).2.sorted x0.2 (x0.1.e - 1) v last (Nat.le_refl _) (by omega)
              (by simp only [rem]; omega) hv hlast).2 (hinv x0 hx0).1.unique
            omega
          simp [advanceOne, (hinv x0 hx0).1.unique, gallop, hp]
        simp only [loop, step, hall, if_true, l1, hc, r1, hm, this]
      · cases ha : advance .gallop c true st cs with
        | none => simp only [loop, step, hall, if_true, l1, hc, r1, hm, ha]
        | some st' =>
          have hcut := advance_cut_or (t := c) l2 (fun x hx v hv hxv p' hp' =>
            (plain_advance (hinv x hx).2 (hinv x hx).1 (hlt x hx) hxv).2 (heq v hv) p' hp') st' ha
          simp only [loop, step, hall, if_true, l1, hc, r1, hm, ha,
            next c st' (by omega) hcut ⟨c, hmem, Int.le_refl _⟩]
    · have hm' : cs.all (fun v => v == c) = false := by simpa using hm
      obtain ⟨v, hv, hvc⟩ : ∃ v ∈ cs, v ≠ c := by
        apply Classical.byContradiction
        intro hn
        apply hm
        rw [List.all_eq_true]
        intro v hv
        have : v = c := Classical.byContradiction fun h => hn ⟨v, hv, h⟩
        simp [this]
      cases ha : advance .gallop c false st cs with
      | none => simp only [loop, step, hall, if_true, l1, hc, r1, hm', ha]
      | some st' =>
        have hcut := advance_cut_or (t := c - 1) l2 (fun x hx v hv hxv p' hp' =>
          (plain_advance (hinv x hx).2 (hinv x hx).1 (hlt x hx) hxv).1 p' hp') st' ha
        simp only [loop, step, hall, if_true, l1, hc, r1, hm', ha,
          next (c - 1) st' (by omega) hcut ⟨v, hv, by have := hmax v hv; omega⟩]

/-- C64, full statement fails. Whenever the last coordinate of an array is common to all levels, the
galloping loop reads past the end of that array: the body moves the position to the end of the segment and
`taco_gallop` reads there before it compares the position with the end. Arrays made by packing end with
their last segment, so this is so for any product of vectors whose last nonzeros coincide. -/
theorem gallop_past_end_fails (its : List Iter) (hp : ∀ it ∈ its, Plain it) (ho : ∀ it ∈ its, Ordered it)
    (it0 : Iter) (h0 : it0 ∈ its) (hend : it0.e = it0.crd.length) (last : Int)
    (hlast : it0.crd[it0.e - 1]? = some last) (rs : List (Nat × Nat)) (hall : AllStored last its rs)
    (fuel : Nat) (hf : entries its < fuel) : run .gallop fuel its = none := by
  rw [run, init_plain its (fun it hit => (hp it hit).window)]
  refine gallop_loop_undefined last it0 hend hlast rs fuel _ ?_ (by rw [map_rem_init]; exact hall) ?_
    (by rw [remaining_init]; exact hf)
  · intro x hx
    obtain ⟨it, hit, rfl⟩ := List.mem_map.1 hx
    exact ⟨hp it hit, ho it hit⟩
  · exact ⟨(it0, it0.s), List.mem_map.2 ⟨it0, h0, rfl⟩, rfl⟩

/-- `[1,3]` and `[2,3]`: the two-finger loop is defined, the galloping loop is not. -/
example : run .gallop 5 [{ crd := [1, 3], s := 0, e := 2 }, { crd := [2, 3], s := 0, e := 2 }] = none ∧
    run .twoFinger 5 [{ crd := [1, 3], s := 0, e := 2 }, { crd := [2, 3], s := 0, e := 2 }] =
      some ([(3, [(1, 2), (1, 2)])], true) ∧
    AllStored 3 [{ crd := [1, 3], s := 0, e := 2 }, { crd := [2, 3], s := 0, e := 2 }] [(1, 2), (1, 2)] := by
  refine ⟨by decide +kernel, by decide +kernel, ⟨by decide, by decide, by decide, ?_⟩,
    ⟨by decide, by decide, by decide, ?_⟩, trivial⟩ <;>
  · intro i h1 h2
    simp only at h1 h2
    match i, h2 with
    | 0, _ => decide
    | 1, _ => decide

instance : DecidableEq St := inferInstanceAs (DecidableEq (List (Iter × Nat)))
instance : DecidableEq (List Event × St) := inferInstance

theorem loop_stuck {strat : Strategy} {st : St} (h : step strat st = some (some ([], st))) :
    ∀ n, loop strat n st = some ([], false)
  | 0 => rfl
  | n + 1 => by simp only [loop, h, loop_stuck h n]; rfl

/-- C64, full statement fails for windows. With a window that starts after `0` the galloping loop searches
for the coordinate of the loop, not for that of the tensor, and does not terminate. -/
theorem gallop_window_fails : ∃ its : List Iter, (∀ it ∈ its, Ordered it ∧ it.unique = true ∧
    it.e < it.crd.length) ∧ (∀ fuel, run .gallop fuel its = some ([], false)) ∧
    run .twoFinger 6 its = some ([(2, [(1, 2), (0, 1)])], true) := by
  refine ⟨[{ crd := [2, 4, 0], s := 0, e := 2, window := some ⟨2, 6, 1⟩ }, { crd := [2, 0], s := 0, e := 1 }],
    ?_, ?_, by decide +kernel⟩
  · intro it hit
    simp only [List.mem_cons, List.not_mem_nil, or_false] at hit
    rcases hit with rfl | rfl <;>
      exact ⟨ordered_of_pairwise (by decide) (by decide) (by decide), rfl, by decide⟩
  · intro fuel
    have : init [{ crd := [2, 4, 0], s := 0, e := 2, window := some ⟨2, 6, 1⟩ },
        { crd := [2, 0], s := 0, e := 1 }] =
        some [({ crd := [2, 4, 0], s := 0, e := 2, window := some ⟨2, 6, 1⟩ }, 0),
          ({ crd := [2, 0], s := 0, e := 1 }, 0)] := by decide +kernel
    rw [run, this]
    exact loop_stuck (by decide +kernel) fuel

/-- C64, full statement fails for levels with duplicates, such as the rows of a coordinate (COO) matrix.
Such a level is moved past the coordinate of the loop, which is the largest, even if no other level has
reached it: the common row `2` is missed. -/
theorem gallop_duplicates_fails : ∃ its : List Iter, (∀ it ∈ its, Ordered it ∧ it.window = none ∧
    it.e < it.crd.length) ∧ run .gallop 4 its = some ([], true) ∧
    run .twoFinger 4 its = some ([(2, [(1, 2), (0, 1)])], true) := by
  refine ⟨[{ crd := [0, 2, 0], s := 0, e := 2, unique := false, leaf := false },
    { crd := [2, 0], s := 0, e := 1, unique := false, leaf := false }], ?_, by decide +kernel, by decide +kernel⟩
  intro it hit
  simp only [List.mem_cons, List.not_mem_nil, or_false] at hit
  rcases hit with rfl | rfl <;>
    exact ⟨ordered_of_sorted rfl (by decide) (by decide) (by decide), rfl, by decide⟩

/-- C64, full statement fails for a level with duplicates against one without: the former is never moved up
to the coordinate of the latter, and the galloping loop does not terminate. -/
theorem gallop_duplicates_unique_fails : ∃ its : List Iter, (∀ it ∈ its, Ordered it ∧ it.window = none ∧
    it.e < it.crd.length) ∧ (∀ fuel, run .gallop fuel its = some ([], false)) ∧
    run .twoFinger 4 its = some ([(2, [(1, 2), (0, 1)])], true) := by
  refine ⟨[{ crd := [0, 2, 0], s := 0, e := 2, unique := false, leaf := false },
    { crd := [2, 0], s := 0, e := 1 }], ?_, ?_, by decide +kernel⟩
  · intro it hit
    simp only [List.mem_cons, List.not_mem_nil, or_false] at hit
    rcases hit with rfl | rfl
    · exact ⟨ordered_of_sorted rfl (by decide) (by decide) (by decide), rfl, by decide⟩
    · exact ⟨ordered_of_pairwise (by decide) (by decide) (by decide), rfl, by decide⟩
  · intro fuel
    exact loop_stuck (st := [({ crd := [0, 2, 0], s := 0, e := 2, unique := false, leaf := false }, 0),
      ({ crd := [2, 0], s := 0, e := 1 }, 0)]) (by decide +kernel) fuel

/-- C64, full statement fails for a vector with duplicates: the deduplication loop and the body both move
the position, and the coordinate `3` is skipped. -/
theorem gallop_duplicates_leaf_fails : ∃ its : List Iter, (∀ it ∈ its, Ordered it ∧ it.window = none ∧
    it.e < it.crd.length) ∧ run .gallop 7 its = some ([(1, [(0, 2), (0, 1)])], true) ∧
    run .twoFinger 7 its = some ([(1, [(0, 2), (0, 1)]), (3, [(2, 3), (1, 2)])], true) := by
  refine ⟨[{ crd := [1, 1, 3, 0], s := 0, e := 3, unique := false },
    { crd := [1, 3, 0], s := 0, e := 2 }], ?_, by decide +kernel, by decide +kernel⟩
  intro it hit
  simp only [List.mem_cons, List.not_mem_nil, or_false] at hit
  rcases hit with rfl | rfl
  · exact ⟨ordered_of_sorted rfl (by decide) (by decide) (by decide), rfl, by decide⟩
  · exact ⟨ordered_of_pairwise (by decide) (by decide) (by decide), rfl, by decide⟩

/-- C41, C64: the two-finger loop over a window of a level with duplicates. The deduplication loop compares
the coordinates of the tensor with that of the loop, so the body gets the empty range `[0,0)` although the
level stores the coordinate, and when both levels are such windows the loop does not terminate. -/
theorem window_duplicates_fails :
    run .twoFinger 4 [{ crd := [2], s := 0, e := 1, unique := false, leaf := false, window := some ⟨2, 4, 1⟩ },
      { crd := [0], s := 0, e := 1 }] = some ([(0, [(0, 0), (0, 1)])], true) ∧
    ∀ fuel, ∃ evs, run .twoFinger fuel
      [{ crd := [2], s := 0, e := 1, unique := false, leaf := false, window := some ⟨2, 4, 1⟩ },
       { crd := [2], s := 0, e := 1, unique := false, leaf := false, window := some ⟨2, 4, 1⟩ }] =
      some (evs, false) := by
  refine ⟨by decide +kernel, ?_⟩
  intro fuel
  have hi : init [{ crd := [2], s := 0, e := 1, unique := false, leaf := false, window := some ⟨2, 4, 1⟩ },
       { crd := [2], s := 0, e := 1, unique := false, leaf := false, window := some ⟨2, 4, 1⟩ }] =
      some [({ crd := [2], s := 0, e := 1, unique := false, leaf := false, window := some ⟨2, 4, 1⟩ }, 0),
       ({ crd := [2], s := 0, e := 1, unique := false, leaf := false, window := some ⟨2, 4, 1⟩ }, 0)] := by
    decide +kernel
  rw [run, hi]
  simp only
  have hs : step .twoFinger
      [({ crd := [2], s := 0, e := 1, unique := false, leaf := false, window := some ⟨2, 4, 1⟩ }, 0),
       ({ crd := [2], s := 0, e := 1, unique := false, leaf := false, window := some ⟨2, 4, 1⟩ }, 0)] =
      some (some ([(0, [(0, 0), (0, 0)])],
      [({ crd := [2], s := 0, e := 1, unique := false, leaf := false, window := some ⟨2, 4, 1⟩ }, 0),
       ({ crd := [2], s := 0, e := 1, unique := false, leaf := false, window := some ⟨2, 4, 1⟩ }, 0)])) := by
    decide +kernel
  induction fuel with
  | zero => exact ⟨[], rfl⟩
  | succ n ih =>
    obtain ⟨evs, h⟩ := ih
    exact ⟨_, by rw [loop, hs]; simp only; rw [h]⟩

/-- C41: a window below a level with duplicates is not searched for, so that coordinates before the window
take part in the loop with negative coordinates. -/
theorem window_chained_fails :
    run .twoFinger 6 [{ crd := [0, 3], s := 0, e := 2, window := some ⟨2, 4, 1⟩, chained := true },
      { crd := [0, 3], s := 0, e := 2, window := some ⟨2, 4, 1⟩, chained := true }] =
      some ([(-2, [(0, 1), (0, 1)]), (1, [(1, 2), (1, 2)])], true) ∧
    run .twoFinger 6 [{ crd := [0, 3], s := 0, e := 2, window := some ⟨2, 4, 1⟩ },
      { crd := [0, 3], s := 0, e := 2, window := some ⟨2, 4, 1⟩ }] =
      some ([(1, [(1, 2), (1, 2)])], true) := by
  exact ⟨by decide +kernel, by decide +kernel⟩

end Verif.Gallop
