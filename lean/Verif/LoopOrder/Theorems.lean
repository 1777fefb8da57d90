import Verif.LoopOrder.Lemmas
/-!
# C23 Automatic loop ordering respects storage orders, C30 Dimension checking accepts exactly the consistent
# expressions, C31 Transposition check rejects exactly unorderable accesses
-/
namespace Verif.LoopOrder

/-! ### C23 -/

/-- The automatic loop order is a permutation of the loop variables in which the levels of every tensor come in the
order of storage, wherever one of the two levels enforces that. -/
theorem loop_order_sound {sort : List Entry → List Entry} (hs : IsSort sort) {loops : List Loop} (hn : (loops.map (·.var)).Nodup) {accs : List Access}
    {r : List Var} (h : loopOrder sort loops accs = some r) : r.Perm (loops.map (·.var)) ∧ RespectsLevels loops r := by
  obtain ⟨h1, h2⟩ := topoSort_sound _ _ _ _ hn (by simp) r h
  refine ⟨h1, ?_⟩
  intro t v₁ l₁ h₁ v₂ l₂ h₂ i1 i2 hl hh
  refine h2 v₂ ?_ v₁ (hardDeps_of_levels hs i1 i2 hl hh)
  obtain ⟨loop, hm, hv, _⟩ := i2
  exact List.mem_map.mpr ⟨loop, hm, hv⟩

/-- The statement is rejected exactly when no such order exists, if no tensor level is iterated over by two loops.
Missing: several accesses to one tensor, see `loop_order_repeated_fails`. -/
theorem loop_order_complete_partial {sort : List Entry → List Entry} (hs : IsSort sort) {loops : List Loop} (hn : (loops.map (·.var)).Nodup)
    (hsa : SingleAccess loops) (accs : List Access) :
    loopOrder sort loops accs = none ↔ ¬ ∃ order : List Var, order.Perm (loops.map (·.var)) ∧ RespectsLevels loops order := by
  constructor
  · rintro h ⟨order, hp, hr⟩
    obtain ⟨r, hr', _⟩ := topoSort_complete loops.length (hardDeps sort loops) (softDeps accs) _ hn (by simp) order hp (fun w _ u hu => by
      obtain ⟨t, l₁, h₁, l₂, h₂, i1, i2, hl, hh⟩ := levels_of_hardDeps hs hsa hu
      exact hr t u l₁ h₁ w l₂ h₂ i1 i2 hl hh)
    unfold loopOrder at h
    rw [h] at hr'
    simp at hr'
  · intro h
    cases hc : loopOrder sort loops accs with
    | none => rfl
    | some r => exact absurd ⟨r, loop_order_sound hs hn hc⟩ h

/-- If there is an order of the loops in which every tensor, whatever its formats, is traversed in the order of its
storage, then the automatic loop order is such an order. -/
theorem loop_order_storage {sort : List Entry → List Entry} (hs : IsSort sort) {loops : List Loop} (hn : (loops.map (·.var)).Nodup)
    (hsa : SingleAccess loops) {accs : List Access} (hin : ∀ a ∈ accs, ∀ v ∈ levelVars a, v ∈ loops.map (·.var))
    (hex : ∃ order : List Var, order.Perm (loops.map (·.var)) ∧ RespectsLevels loops order ∧ ∀ a ∈ accs, (levelVars a).Sublist order) :
    ∃ r, loopOrder sort loops accs = some r ∧ ∀ a ∈ accs, (levelVars a).Sublist r := by
  obtain ⟨order, hp, hr, ha⟩ := hex
  obtain ⟨r, hr', hsoft⟩ := topoSort_complete loops.length (hardDeps sort loops) (softDeps accs) _ hn (by simp) order hp (fun w _ u hu => by
    obtain ⟨t, l₁, h₁, l₂, h₂, i1, i2, hl, hh⟩ := levels_of_hardDeps hs hsa hu
    exact hr t u l₁ h₁ w l₂ h₂ i1 i2 hl hh)
  have hsoft := hsoft (fun w _ u hu => by
    obtain ⟨a, ha', hu⟩ := List.mem_flatMap.mp hu
    exact steps_before (ha a ha') ((mem_chainDeps _ _ _).mp hu))
  refine ⟨r, hr', ?_⟩
  obtain ⟨h1, _⟩ := loop_order_sound hs hn hr'
  intro a haa
  refine chain_sublist (h1.symm.nodup hn) _ (fun v hv => h1.mem_iff.mpr (hin a haa v hv)) ?_
  intro u v hst
  refine hsoft v ?_ u (List.mem_flatMap.mpr ⟨a, haa, (mem_chainDeps _ _ _).mpr hst⟩)
  obtain ⟨x, y, e⟩ := hst
  exact hin a haa v (by rw [e]; simp)

/-- The loops that are built have the variables of that order and keep their parallel units and race strategies. -/
theorem loop_order_attributes_partial {sort : List Entry → List Entry} (hs : IsSort sort) {loops : List Loop} (hn : (loops.map (·.var)).Nodup)
    {accs : List Access} {r : List Var} (h : loopOrder sort loops accs = some r) :
    ∃ new, reorderLoops sort loops accs = some new ∧ new.map (·.var) = r ∧
      ∀ l ∈ loops, ∃ n ∈ new, n.var = l.var ∧ n.unit = l.unit ∧ n.race = l.race := by
  have hattr : ∀ l ∈ loops, attrs loops l.var = some (l.unit, l.race) := by
    intro l hl
    unfold attrs
    have hn' : (loops.reverse.map (·.var)).Nodup := by
      rw [List.map_reverse]; exact (List.reverse_perm _).symm.nodup hn
    have hl' : l ∈ loops.reverse := List.mem_reverse.mpr hl
    revert hn' hl'
    generalize loops.reverse = ls
    intro hn' hl'
    induction ls with
    | nil => simp at hl'
    | cons x xs ih =>
      rw [List.map_cons, List.nodup_cons] at hn'
      rcases List.mem_cons.mp hl' with rfl | hm
      · simp
      · have hx : x.var ≠ l.var := fun e => hn'.1 (e ▸ List.mem_map.mpr ⟨l, hm, rfl⟩)
        rw [List.find?_cons]
        simp only [hx, decide_false]
        exact ih hn'.2 hm
  obtain ⟨hp, _⟩ := loop_order_sound hs hn h
  cases hh : loops.head? with
  | none =>
    have : loops = [] := by simpa using hh
    subst this
    have : r = [] := by simpa using hp
    subst this
    exact ⟨[], by simp [reorderLoops], rfl, by simp⟩
  | some outer =>
    have hm : ∀ vs : List Var, (∀ v ∈ vs, v ∈ loops.map (·.var)) →
        ∃ new : List NewLoop, (vs.mapM fun v => (attrs loops v).map fun a => (⟨v, a.1, a.2, outer.merge, outer.unroll⟩ : NewLoop)) = some new ∧ new.map (·.var) = vs ∧
          ∀ l ∈ loops, l.var ∈ vs → ∃ n ∈ new, n.var = l.var ∧ n.unit = l.unit ∧ n.race = l.race := by
      intro vs
      induction vs with
      | nil => intro _; exact ⟨[], by simp, rfl, by simp⟩
      | cons v vs ih =>
        intro hv
        obtain ⟨new, n1, n2, n3⟩ := ih fun x hx => hv x (by simp [hx])
        obtain ⟨l₀, hl₀, rfl⟩ := List.mem_map.mp (hv v (by simp))
        refine ⟨⟨l₀.var, l₀.unit, l₀.race, outer.merge, outer.unroll⟩ :: new, ?_, by simp [n2], ?_⟩
        · rw [List.mapM_cons, hattr l₀ hl₀, n1]; rfl
        · intro l hl hlv
          rcases List.mem_cons.mp hlv with e | hlv
          · have : l.unit = l₀.unit ∧ l.race = l₀.race := by
              have h1 := hattr l hl
              rw [e, hattr l₀ hl₀] at h1
              simp at h1
              exact ⟨h1.1.symm, h1.2.symm⟩
            exact ⟨_, List.mem_cons_self, e.symm, this.1.symm, this.2.symm⟩
          · obtain ⟨n, hn1, hn2⟩ := n3 l hl hlv
            exact ⟨n, by simp [hn1], hn2⟩
    obtain ⟨new, n1, n2, n3⟩ := hm r (fun v hv => hp.mem_iff.mp hv)
    refine ⟨new, ?_, n2, ?_⟩
    · unfold reorderLoops
      rw [hh, h]
      exact n1
    · intro l hl
      exact n3 l hl (hp.mem_iff.mpr (List.mem_map.mpr ⟨l, hl, rfl⟩))

/-- Insertion sort, which is what `std::sort` does for short ranges. -/
def insertSort : List Entry → List Entry
  | [] => []
  | e :: es => ins e (insertSort es)
where
  /-- insertion before the first element that is not smaller -/
  ins (e : Entry) : List Entry → List Entry
    | [] => [e]
    | x :: xs => if e.level ≤ x.level then e :: x :: xs else x :: ins e xs

theorem insertSort_isSort : IsSort insertSort := by
  have hp : ∀ (e : Entry) (es : List Entry), (insertSort.ins e es).Perm (e :: es) := by
    intro e es
    induction es with
    | nil => exact List.Perm.refl _
    | cons x xs ih =>
      rw [insertSort.ins]
      by_cases h : e.level ≤ x.level
      · rw [if_pos h]
      · rw [if_neg h]; exact (ih.cons x).trans (List.Perm.swap e x xs)
  constructor
  · intro es
    induction es with
    | nil => exact List.Perm.refl _
    | cons x xs ih => exact (hp x _).trans (ih.cons x)
  · intro es
    induction es with
    | nil => exact List.Pairwise.nil
    | cons x xs ih =>
      rw [insertSort]
      revert ih
      generalize insertSort xs = ys
      intro ih
      induction ys with
      | nil => simp [insertSort.ins]
      | cons y ys ihy =>
        obtain ⟨p1, p2⟩ := List.pairwise_cons.mp ih
        rw [insertSort.ins]
        by_cases h : x.level ≤ y.level
        · rw [if_pos h]
          refine List.pairwise_cons.mpr ⟨?_, ih⟩
          intro a ha
          rcases List.mem_cons.mp ha with rfl | ha
          · exact h
          · have := p1 a ha; omega
        · rw [if_neg h]
          refine List.pairwise_cons.mpr ⟨?_, ihy p2⟩
          intro a ha
          rcases List.mem_cons.mp ((hp x ys).mem_iff.mp ha) with rfl | ha
          · omega
          · exact p1 a ha

/-- A decidable form of `RespectsLevels`. -/
theorem respectsLevels_of_check {loops : List Loop} {order : List Var}
    (h : ∀ x ∈ loops, ∀ a ∈ x.levels, ∀ y ∈ loops, ∀ b ∈ y.levels, a.1 = b.1 → a.2.1 < b.2.1 → (a.2.2 || b.2.2) = true → [x.var, y.var].Sublist order) :
    RespectsLevels loops order := by
  rintro t v₁ l₁ h₁ v₂ l₂ h₂ ⟨x, hx, rfl, hxm⟩ ⟨y, hy, rfl, hym⟩ hl hh
  exact h x hx _ hxm y hy _ hym rfl hl hh

/-- A decidable form of `SingleAccess`. -/
theorem singleAccess_of_check {loops : List Loop}
    (h : ∀ x ∈ loops, ∀ a ∈ x.levels, ∀ y ∈ loops, ∀ b ∈ y.levels, a.1 = b.1 → a.2.1 = b.2.1 → x.var = y.var ∧ a.2.2 = b.2.2) : SingleAccess loops := by
  rintro t v₁ v₂ l h₁ h₂ ⟨x, hx, rfl, hxm⟩ ⟨y, hy, rfl, hym⟩
  exact h x hx _ hxm y hy _ hym rfl rfl

/-- Sparse matrix times sparse matrix, `C(i,j) = A(i,k) * B(k,j)`, all compressed by rows: variables `i` = 0, `j` = 1,
`k` = 2, loops in the order `i`, `j`, `k`. -/
def spgemm : List Loop :=
  [⟨0, [("A", 1, false), ("C", 1, false)], 1, 1, 1, 1⟩, ⟨1, [("B", 2, true), ("C", 2, true)], 1, 1, 1, 1⟩, ⟨2, [("A", 2, true), ("B", 1, false)], 1, 1, 1, 1⟩]

/-- The accesses of `spgemm`. -/
def spgemmAccs : List Access := [⟨[0, 1], [0, 1]⟩, ⟨[0, 2], [0, 1]⟩, ⟨[2, 1], [0, 1]⟩]

/-- The loops are put into the order `i`, `k`, `j`. -/
example : loopOrder insertSort spgemm spgemmAccs = some [0, 2, 1] := by decide +kernel

example : ∃ r, loopOrder insertSort spgemm spgemmAccs = some r ∧ ∀ a ∈ spgemmAccs, (levelVars a).Sublist r :=
  loop_order_storage insertSort_isSort (by decide) (singleAccess_of_check (by decide +kernel)) (by decide)
    ⟨[0, 2, 1], by decide, respectsLevels_of_check (by decide +kernel), by decide⟩

/-- A sparse matrix plus the transpose of one: no order exists, the statement is rejected. -/
example : loopOrder insertSort [⟨0, [("A", 1, true), ("B", 2, true)], 1, 1, 1, 1⟩, ⟨1, [("A", 2, true), ("B", 1, true)], 1, 1, 1, 1⟩] [] = none := by
  decide +kernel

/-- `C(i,k) = A(i,j) * A(k,j)` with `A` compressed in both modes and `C` compressed by columns: `i` and `k` both iterate
over the first level of `A`, which is taken for a constraint between them. The statement is rejected although the
order `k`, `i`, `j` respects all levels. -/
theorem loop_order_repeated_fails :
    let loops : List Loop := [⟨0, [("A", 1, true), ("C", 2, true)], 1, 1, 1, 1⟩, ⟨1, [("A", 1, true), ("C", 1, true)], 1, 1, 1, 1⟩, ⟨2, [("A", 2, true)], 1, 1, 1, 1⟩]
    loopOrder insertSort loops [⟨[0, 1], [1, 0]⟩, ⟨[0, 2], [0, 1]⟩, ⟨[1, 2], [0, 1]⟩] = none ∧ IsSort insertSort ∧
      ∃ order : List Var, order.Perm (loops.map (·.var)) ∧ RespectsLevels loops order :=
  ⟨by decide +kernel, insertSort_isSort, [1, 0, 2], by decide, respectsLevels_of_check (by decide +kernel)⟩

/-- All loops get the merge strategy and the unroll factor of the outermost loop. -/
theorem loop_order_attributes_fails :
    reorderLoops insertSort [⟨0, [], 1, 1, 1, 1⟩, ⟨1, [], 1, 1, 2, 4⟩] [] = some [⟨0, 1, 1, 1, 1⟩, ⟨1, 1, 1, 1, 1⟩] := by decide +kernel

/-! ### C31 -/

/-- The transposition check returns for every assignment, and fires if and only if there is no order of the variables
in which the variables of every access come in the order of the tensor's levels. -/
theorem transposition_check (accs : List Access) (hwf : ∀ a ∈ accs, a.WF) :
    ∃ b, containsTranspose accs = some b ∧ (b = true ↔ ¬ ∃ order : List Var, order.Nodup ∧ ∀ a ∈ accs, (levelVars a).Sublist order) := by
  have hks : ∀ v ∈ keys accs, ∀ s ∈ successors accs v, s ∈ keys accs := by
    intro v _ s hs
    obtain ⟨a, ha, hs⟩ := List.mem_flatMap.mp hs
    unfold keys
    rw [List.mem_eraseDups, List.mem_flatMap]
    refine ⟨a, ha, ?_⟩
    by_cases h0 : a.vars = []
    · rw [if_pos h0] at hs; simp at hs
    · rw [if_neg h0] at hs ⊢
      obtain ⟨x, y, e⟩ := (mem_chainSuccs _ _ _).mp hs
      rw [e]; simp
  have hempty : ∀ a ∈ accs, a.vars = [] → levelVars a = [] := by
    intro a ha h0
    have := (hwf a ha).1
    rw [h0] at this
    have : a.ordering = [] := List.eq_nil_of_length_eq_zero this
    simp [levelVars, this]
  have hstep : ∀ a ∈ accs, ∀ u v, Steps (levelVars a) u v → v ∈ successors accs u := by
    intro a ha u v hs
    refine List.mem_flatMap.mpr ⟨a, ha, ?_⟩
    by_cases h0 : a.vars = []
    · obtain ⟨x, y, e⟩ := hs
      rw [hempty a ha h0] at e
      simp at e
    · rw [if_neg h0]; exact (mem_chainSuccs _ _ _).mpr hs
  have htodo : todo (keys accs) ⟨[], []⟩ < (keys accs).length + 1 := by
    have := List.length_filter_le (fun k => decide (k ∉ (⟨[], []⟩ : Marks).visited)) (keys accs)
    unfold todo; omega
  obtain ⟨b, hb, hp⟩ := anyCycle_spec hks ((keys accs).length + 1) (keys accs) ⟨[], []⟩ [] (fun _ h => h) ⟨trivial, by simp, by simp⟩ htodo (by simp)
  refine ⟨b, hb, ?_⟩
  cases b with
  | true =>
    simp only [if_true] at hp
    obtain ⟨u, hu⟩ := hp
    refine ⟨fun _ => ?_, fun _ => rfl⟩
    rintro ⟨order, hn, hs⟩
    refine before_irrefl hn (path_before hn (fun u v huv => ?_) hu)
    obtain ⟨a, ha, huv⟩ := List.mem_flatMap.mp huv
    by_cases h0 : a.vars = []
    · rw [if_pos h0] at huv; simp at huv
    · rw [if_neg h0] at huv
      exact steps_before (hs a ha) ((mem_chainSuccs _ _ _).mp huv)
  | false =>
    simp only [Bool.false_eq_true, if_false] at hp
    obtain ⟨done, h1, _, h3⟩ := hp
    refine ⟨fun h => by simp at h, fun h => absurd ⟨done, closed_nodup h1, ?_⟩ h⟩
    intro a ha
    have hmem : ∀ v ∈ levelVars a, v ∈ done := by
      intro v hv
      apply h3
      unfold keys
      rw [List.mem_eraseDups, List.mem_flatMap]
      refine ⟨a, ha, ?_⟩
      by_cases h0 : a.vars = []
      · rw [hempty a ha h0] at hv; simp at hv
      · rw [if_neg h0]; exact hv
    refine chain_sublist (closed_nodup h1) _ hmem ?_
    intro u v hs
    have hu : u ∈ levelVars a := by
      obtain ⟨x, y, e⟩ := hs; rw [e]; simp
    exact closed_before h1 u (hmem u hu) v (hstep a ha u v hs)

/-- `A(i,j) = B(j,i)` with both stored by rows; with `B` stored by columns; and `a(i) = B(i,i)`. -/
example : containsTranspose [⟨[0, 1], [0, 1]⟩, ⟨[1, 0], [0, 1]⟩] = some true ∧ containsTranspose [⟨[0, 1], [0, 1]⟩, ⟨[1, 0], [1, 0]⟩] = some false ∧
    containsTranspose [⟨[0], [0]⟩, ⟨[0, 0], [0, 1]⟩] = some true := by decide +kernel

example : ∀ a ∈ ([⟨[0, 1], [0, 1]⟩, ⟨[1, 0], [1, 0]⟩] : List Access), a.WF := by
  simp [Access.WF]

/-! ### C30 -/

theorem mem_uses {accs : List ShapedAccess} {v : Var} {d : Dim} : (v, d) ∈ accs.flatMap uses ↔ Uses accs v d := by
  unfold Uses
  rw [List.mem_flatMap]
  refine exists_congr fun a => and_congr_right fun _ => ?_
  unfold uses
  rw [List.mem_map]
  constructor
  · rintro ⟨u, hu, he⟩
    obtain ⟨i, hi⟩ := List.mem_iff_getElem?.mp hu
    rw [List.getElem?_zip_eq_some] at hi
    obtain ⟨h1, h2⟩ := hi
    rw [List.getElem?_zip_eq_some] at h2
    injection he with e1 e2
    exact ⟨i, u.2.1, u.2.2, by rw [← e1]; exact h1, h2.1, h2.2, e2.symm⟩
  · rintro ⟨i, d₀, r, h1, h2, h3, rfl⟩
    refine ⟨(v, d₀, r), List.mem_iff_getElem?.mpr ⟨i, ?_⟩, rfl⟩
    rw [List.getElem?_zip_eq_some]
    exact ⟨h1, by rw [List.getElem?_zip_eq_some]; exact ⟨h2, h3⟩⟩

theorem checkUses_iff : ∀ (us m : List (Var × Dim)), (∀ u ∈ us, u.2.sizedBy u.1 = false) → (∀ v d, lookupDim m v = some d → d.sizedBy v = false) →
    (checkUses m us = [] ↔ (∀ u ∈ us, ∀ d, lookupDim m u.1 = some d → SameSize d u.2) ∧ ∀ u ∈ us, ∀ w ∈ us, u.1 = w.1 → SameSize u.2 w.2)
  | [], m, _, _ => by simp [checkUses]
  | (v, d) :: rest, m, hu, hm => by
    have hd : d.sizedBy v = false := hu (v, d) (by simp)
    have hrest : ∀ u ∈ rest, u.2.sizedBy u.1 = false := fun u h => hu u (by simp [h])
    rw [checkUses]
    cases hl : lookupDim m v with
    | some d' =>
      have hd' := hm v d' hl
      simp only
      by_cases hs : d'.same d = false ∧ d'.sizedBy v = false ∧ d.sizedBy v = false
      · rw [if_pos hs]
        refine ⟨fun h => absurd h (by simp), fun h => ?_⟩
        have := h.1 (v, d) (by simp) d' hl
        rw [← same_iff] at this
        rw [this] at hs
        simp at hs
      · rw [if_neg hs]
        have hsame : SameSize d' d := by
          rw [← same_iff]
          cases hb : d'.same d with
          | true => rfl
          | false => exact absurd ⟨hb, hd', hd⟩ hs
        rw [checkUses_iff rest m hrest hm]
        constructor
        · rintro ⟨h1, h2⟩
          refine ⟨?_, ?_⟩
          · intro u hu' e he
            rcases List.mem_cons.mp hu' with rfl | hu'
            · rw [hl] at he; injection he with he; subst he; exact hsame
            · exact h1 u hu' e he
          · intro u hu' w hw huw
            rcases List.mem_cons.mp hu' with rfl | hu'
            · rcases List.mem_cons.mp hw with rfl | hw
              · exact sameSize_refl _
              · have := h1 w hw d' (by rw [← huw]; exact hl)
                exact sameSize_trans (sameSize_symm hsame) this
            · rcases List.mem_cons.mp hw with rfl | hw
              · have := h1 u hu' d' (by rw [huw]; exact hl)
                exact sameSize_trans (sameSize_symm this) hsame
              · exact h2 u hu' w hw huw
        · rintro ⟨h1, h2⟩
          exact ⟨fun u hu' => h1 u (by simp [hu']), fun u hu' w hw => h2 u (by simp [hu']) w (by simp [hw])⟩
    | none =>
      simp only
      have hm' : ∀ x e, lookupDim (m ++ [(v, d)]) x = some e → e.sizedBy x = false := by
        intro x e he
        rw [lookupDim_append] at he
        cases hx : lookupDim m x with
        | some e' => rw [hx] at he; simp at he; subst he; exact hm x e' hx
        | none =>
          rw [hx] at he
          by_cases hvx : v = x
          · simp [hvx] at he; subst he; subst hvx; exact hd
          · simp [hvx] at he
      rw [checkUses_iff rest _ hrest hm']
      constructor
      · rintro ⟨h1, h2⟩
        refine ⟨?_, ?_⟩
        · intro u hu' e he
          rcases List.mem_cons.mp hu' with rfl | hu'
          · rw [hl] at he; simp at he
          · exact h1 u hu' e (by rw [lookupDim_append, he]; rfl)
        · intro u hu' w hw huw
          rcases List.mem_cons.mp hu' with rfl | hu'
          · rcases List.mem_cons.mp hw with rfl | hw
            · exact sameSize_refl _
            · exact h1 w hw d (by rw [lookupDim_append, ← huw, hl]; simp)
          · rcases List.mem_cons.mp hw with rfl | hw
            · exact sameSize_symm (h1 u hu' d (by rw [lookupDim_append, huw, hl]; simp))
            · exact h2 u hu' w hw huw
      · rintro ⟨h1, h2⟩
        refine ⟨?_, fun u hu' w hw => h2 u (by simp [hu']) w (by simp [hw])⟩
        intro u hu' e he
        rw [lookupDim_append] at he
        cases hx : lookupDim m u.1 with
        | some e' => rw [hx] at he; simp at he; subst he; exact h1 u (by simp [hu']) e' hx
        | none =>
          rw [hx] at he
          by_cases hvx : v = u.1
          · simp [hvx] at he; subst he; exact h2 (v, d) (by simp) u (by simp [hu']) hvx
          · simp [hvx] at he

/-- An assignment passes the dimension check if and only if every index variable is used with one single dimension, if
no mode is declared to have the size of the very variable that indexes it.
Missing: such modes, see `dimension_check_sized_fails`. -/
theorem dimension_check_partial (accs : List ShapedAccess) (h : ∀ v, ¬ Uses accs v (.sized v)) :
    dimensionsTypecheck accs = true ↔ ∀ v d d', Uses accs v d → Uses accs v d' → SameSize d d' := by
  have hno : ∀ u ∈ accs.flatMap uses, u.2.sizedBy u.1 = false := by
    intro u hu
    cases hd : u.2 with
    | sized w =>
      by_cases hw : w = u.1
      · exact absurd (mem_uses.mp (show (u.1, Dim.sized u.1) ∈ accs.flatMap uses by
            have e : u = (u.1, Dim.sized u.1) := Prod.ext rfl (by rw [hd, hw])
            rw [← e]; exact hu)) (h u.1)
      · simp [Dim.sizedBy, hw]
    | fixed _ => rfl
    | dynamic => rfl
  have := checkUses_iff (accs.flatMap uses) [] hno (by simp [lookupDim])
  unfold dimensionsTypecheck
  rw [List.isEmpty_iff, this]
  constructor
  · rintro ⟨_, h2⟩ v d d' hd hd'
    exact h2 (v, d) (mem_uses.mpr hd) (v, d') (mem_uses.mpr hd') rfl
  · intro h'
    refine ⟨by simp [lookupDim], ?_⟩
    rintro ⟨v, d⟩ hu ⟨w, d'⟩ hw rfl
    exact h' v d d' (mem_uses.mp hu) (mem_uses.mp hw)

/-- `y(i) = A(i,j) * x(j)` with a 3x4 matrix, and with a vector of the wrong size; a window of `x` of the right size. -/
example : dimensionsTypecheck [⟨[0], [.fixed 3], [.none]⟩, ⟨[0, 1], [.fixed 3, .fixed 4], [.none, .none]⟩, ⟨[1], [.fixed 4], [.none]⟩] = true ∧
    dimensionsTypecheck [⟨[0], [.fixed 3], [.none]⟩, ⟨[0, 1], [.fixed 3, .fixed 4], [.none, .none]⟩, ⟨[1], [.fixed 5], [.none]⟩] = false ∧
    dimensionsTypecheck [⟨[0], [.fixed 3], [.none]⟩, ⟨[0, 1], [.fixed 3, .fixed 4], [.none, .none]⟩, ⟨[1], [.fixed 9], [.window 1 9 2]⟩] = true := by
  decide +kernel

/-- The hypothesis holds for tensors with fixed and dynamic dimensions. -/
example : ∀ v, ¬ Uses [⟨[0], [.fixed 3], [.none]⟩, ⟨[0, 1], [.fixed 3, .dynamic], [.none, .none]⟩] v (.sized v) := by
  intro v h
  have h := mem_uses.mpr h
  simp [uses, modeDim] at h

/-- A mode with the size of its variable that comes first lets every other dimension of that variable pass; in another
order the same dimensions are rejected. -/
theorem dimension_check_sized_fails :
    dimensionsTypecheck [⟨[0], [.sized 0], [.none]⟩, ⟨[0], [.fixed 3], [.none]⟩, ⟨[0], [.fixed 4], [.none]⟩] = true ∧
    dimensionsTypecheck [⟨[0], [.fixed 3], [.none]⟩, ⟨[0], [.sized 0], [.none]⟩, ⟨[0], [.fixed 4], [.none]⟩] = false := by decide +kernel

end Verif.LoopOrder
