import Verif.LoopOrder.Spec
/-!
Lemmas for `Verif.LoopOrder.Theorems`.
-/
namespace Verif.LoopOrder

/-! ### Orders -/

theorem before_mem {order : List Var} {u v : Var} (h : Before order u v) : u ∈ order ∧ v ∈ order :=
  ⟨h.subset (by simp), h.subset (by simp)⟩

theorem before_head {order : List Var} {u v : Var} (hn : (v :: order).Nodup) : ¬ Before (v :: order) u v := by
  intro h
  have hv : v ∉ order := (List.nodup_cons.mp hn).1
  rcases List.sublist_cons_iff.mp h with h | ⟨r, hr, h⟩
  · exact hv (h.subset (by simp))
  · injection hr with h1 h2
    subst h2
    exact hv (h.subset (by simp))

theorem before_cons {order : List Var} {u v w : Var} (h : Before order u v) : Before (w :: order) u v := h.trans (List.sublist_cons_self _ _)

theorem before_first {order : List Var} {u v : Var} (h : v ∈ order) : Before (u :: order) u v :=
  (List.singleton_sublist.mpr h).cons_cons u

theorem before_of_cons {order : List Var} {u v w : Var} (h : Before (w :: order) u v) (hw : u ≠ w) : Before order u v := by
  rcases List.sublist_cons_iff.mp h with h | ⟨r, hr, h⟩
  · exact h
  · injection hr with h1 h2
    exact absurd h1 hw

theorem before_filter {order : List Var} {u v w : Var} (h : Before order u v) (hu : u ≠ w) (hv : v ≠ w) : Before (order.filter (· ≠ w)) u v := by
  have := h.filter (fun x => decide (x ≠ w))
  simpa [hu, hv, Before] using this

theorem before_irrefl {order : List Var} (hn : order.Nodup) {u : Var} : ¬ Before order u u := by
  intro h
  have := h.nodup hn
  simp at this

theorem before_trans {order : List Var} (hn : order.Nodup) {u v w : Var} (h1 : Before order u v) (h2 : Before order v w) : Before order u w := by
  induction order with
  | nil => exact absurd (before_mem h1).1 (by simp)
  | cons x xs ih =>
    have hx := List.nodup_cons.mp hn
    by_cases hu : u = x
    · subst hu
      have hvu : v ≠ u := fun e => before_irrefl hn (e ▸ h1 : Before (u :: xs) u u)
      have := before_of_cons h2 hvu
      exact before_first (before_mem this).2
    · have h1' := before_of_cons h1 hu
      have hv : v ≠ x := fun e => hx.1 (e ▸ (before_mem h1').2)
      exact before_cons (ih hx.2 h1' (before_of_cons h2 hv))

/-- Consecutive elements of a list. -/
def Steps (l : List Var) (u v : Var) : Prop := ∃ a b, l = a ++ u :: v :: b

theorem steps_cons {l : List Var} {u v w : Var} (h : Steps l u v) : Steps (w :: l) u v := by
  obtain ⟨a, b, rfl⟩ := h
  exact ⟨w :: a, b, rfl⟩

theorem steps_before {l order : List Var} (h : l.Sublist order) {u v : Var} (hs : Steps l u v) : Before order u v := by
  obtain ⟨a, b, rfl⟩ := hs
  refine List.Sublist.trans ?_ h
  refine List.Sublist.trans ?_ (List.sublist_append_right a _)
  exact ((List.nil_sublist b).cons_cons v).cons_cons u

theorem chain_sublist {order : List Var} (hn : order.Nodup) : ∀ (l : List Var), (∀ v ∈ l, v ∈ order) → (∀ u v, Steps l u v → Before order u v) → l.Sublist order := by
  induction order with
  | nil =>
    intro l hm _
    cases l with
    | nil => exact List.nil_sublist _
    | cons v _ => exact absurd (hm v (by simp)) (by simp)
  | cons x xs ih =>
    intro l hm hs
    have hx := List.nodup_cons.mp hn
    cases l with
    | nil => exact List.nil_sublist _
    | cons v vs =>
      -- everything after the first element comes after it
      have hafter : ∀ (l : List Var) (v : Var), (∀ u w, Steps (v :: l) u w → Before (x :: xs) u w) → ∀ w ∈ l, Before (x :: xs) v w := by
        intro l
        induction l with
        | nil => intro v _ w hw; simp at hw
        | cons y ys ihl =>
          intro v hs w hw
          have h1 := hs v y ⟨[], ys, rfl⟩
          rcases List.mem_cons.mp hw with rfl | hw
          · exact h1
          · exact before_trans hn h1 (ihl y (fun u w h => hs u w (steps_cons h)) w hw)
      have hrest : ∀ w ∈ vs, w ∈ xs := by
        intro w hw
        have hb := hafter vs v hs w hw
        rcases List.mem_cons.mp (before_mem hb).2 with rfl | h
        · exact absurd hb (before_head hn)
        · exact h
      have hsteps : ∀ u w, Steps vs u w → Before xs u w := by
        intro u w hst
        have hu : u ∈ vs := by
          obtain ⟨a, b, rfl⟩ := hst; simp
        exact before_of_cons (hs u w (steps_cons hst)) (fun e => hx.1 (e ▸ hrest u hu))
      by_cases hv : v = x
      · subst hv
        exact (ih hx.2 vs hrest hsteps).cons_cons v
      · refine (ih hx.2 (v :: vs) ?_ ?_).cons x
        · intro w hw
          rcases List.mem_cons.mp hw with rfl | hw
          · rcases List.mem_cons.mp (hm w (by simp)) with rfl | h
            · exact absurd rfl hv
            · exact h
          · exact hrest w hw
        · intro u w hst
          have hu : u ≠ x := by
            intro e
            obtain ⟨a, b, hab⟩ := hst
            cases a with
            | nil => injection hab with h1 _; exact hv (h1.trans e)
            | cons y ys =>
              injection hab with _ h2
              exact hx.1 (e ▸ hrest u (by rw [h2]; simp))
          exact before_of_cons (hs u w hst) hu

theorem mem_chainDeps : ∀ (l : List Var) (u v : Var), u ∈ chainDeps l v ↔ Steps l u v
  | [], u, v => by simp [chainDeps, Steps]
  | [a], u, v => by
    simp only [chainDeps, List.not_mem_nil, false_iff]
    rintro ⟨x, y, h⟩
    have := congrArg List.length h
    simp at this
    omega
  | a :: b :: rest, u, v => by
    have ih := mem_chainDeps (b :: rest) u v
    simp only [chainDeps, List.mem_append, ih]
    constructor
    · rintro (h | h)
      · by_cases hb : b = v
        · simp [hb] at h
          exact ⟨[], rest, by rw [h, hb]; rfl⟩
        · simp [hb] at h
      · exact steps_cons h
    · rintro ⟨x, y, h⟩
      cases x with
      | nil =>
        injection h with h1 h2
        injection h2 with h2 h3
        exact .inl (by simp [h2, h1])
      | cons c cs =>
        injection h with h1 h2
        exact .inr ⟨cs, y, h2⟩

theorem mem_chainSuccs : ∀ (l : List Var) (u v : Var), v ∈ chainSuccs l u ↔ Steps l u v
  | [], u, v => by simp [chainSuccs, Steps]
  | [a], u, v => by
    simp only [chainSuccs, List.not_mem_nil, false_iff]
    rintro ⟨x, y, h⟩
    have := congrArg List.length h
    simp at this
    omega
  | a :: b :: rest, u, v => by
    have ih := mem_chainSuccs (b :: rest) u v
    simp only [chainSuccs, List.mem_append, ih]
    constructor
    · rintro (h | h)
      · by_cases hb : a = u
        · simp [hb] at h
          exact ⟨[], rest, by rw [h, hb]; rfl⟩
        · simp [hb] at h
      · exact steps_cons h
    · rintro ⟨x, y, h⟩
      cases x with
      | nil =>
        injection h with h1 h2
        injection h2 with h2 h3
        exact .inl (by simp [h2, h1])
      | cons c cs =>
        injection h with h1 h2
        exact .inr ⟨cs, y, h2⟩

theorem mem_pairDeps : ∀ (l : List (Var × Bool)) (u v : Var), u ∈ pairDeps l v ↔ ∃ h₁ h₂, [(u, h₁), (v, h₂)].Sublist l ∧ (h₁ || h₂) = true
  | [], u, v => by simp [pairDeps]
  | a :: rest, u, v => by
    have ih := mem_pairDeps rest u v
    simp only [pairDeps, List.mem_append, ih]
    constructor
    · rintro (h | ⟨h₁, h₂, h, hh⟩)
      · obtain ⟨b, hb, hbv⟩ := List.mem_filterMap.mp h
        by_cases hc : b.1 = v ∧ (a.2 || b.2) = true
        · rw [if_pos hc] at hbv
          injection hbv with hbv
          refine ⟨a.2, b.2, ?_, hc.2⟩
          have : (u, a.2) = a := by rw [← hbv]
          have hb' : (v, b.2) = b := by rw [← hc.1]
          rw [this, hb']
          exact (List.singleton_sublist.mpr hb).cons_cons a
        · rw [if_neg hc] at hbv; simp at hbv
      · exact ⟨h₁, h₂, h.cons a, hh⟩
    · rintro ⟨h₁, h₂, h, hh⟩
      rcases List.sublist_cons_iff.mp h with h | ⟨r, hr, h⟩
      · exact .inr ⟨h₁, h₂, h, hh⟩
      · injection hr with e1 e2
        subst e2
        refine .inl (List.mem_filterMap.mpr ⟨(v, h₂), List.singleton_sublist.mp h, ?_⟩)
        rw [← e1]
        simp [hh]

/-! ### Topological sorting -/

/-- What the scan has found among the variables `pre`. -/
def Found (hard soft : Var → List Var) (pre : List Var) : Option (Nat × Var × Nat) → Prop
  | none => ∀ w ∈ pre, hard w ≠ []
  | some b => pre[b.1]? = some b.2.1 ∧ hard b.2.1 = [] ∧ b.2.2 = (soft b.2.1).length ∧ ∀ w ∈ pre, hard w = [] → b.2.2 ≤ (soft w).length

theorem improve_spec {hard soft : Var → List Var} {pre : List Var} {best : Option (Nat × Var × Nat)} (h : Found hard soft pre best) (v : Var) :
    Found hard soft (pre ++ [v]) (improve hard soft pre.length v best) := by
  cases best with
  | none =>
    simp only [Found] at h
    by_cases hv : hard v = []
    · simp only [improve, if_pos hv, Found]
      refine ⟨by simp, hv, trivial, ?_⟩
      intro w hw hw0
      rcases List.mem_append.mp hw with hw | hw
      · exact absurd hw0 (h w hw)
      · simp at hw; subst hw; exact Nat.le_refl _
    · simp only [improve, if_neg hv, Found]
      intro w hw
      rcases List.mem_append.mp hw with hw | hw
      · exact h w hw
      · simp at hw; subst hw; exact hv
  | some b =>
    obtain ⟨h1, h2, h3, h4⟩ := h
    have hlt : b.1 < pre.length := by
      rcases Nat.lt_or_ge b.1 pre.length with h | h
      · exact h
      · rw [List.getElem?_eq_none h] at h1; simp at h1
    by_cases hs : hard v = [] ∧ (soft v).length < b.2.2
    · simp only [improve, if_pos hs, Found]
      refine ⟨by simp, hs.1, trivial, ?_⟩
      intro w hw hw0
      rcases List.mem_append.mp hw with hw | hw
      · have := h4 w hw hw0; omega
      · simp at hw; subst hw; exact Nat.le_refl _
    · simp only [improve, if_neg hs, Found]
      refine ⟨by rw [List.getElem?_append_left hlt]; exact h1, h2, h3, ?_⟩
      intro w hw hw0
      rcases List.mem_append.mp hw with hw | hw
      · exact h4 w hw hw0
      · simp at hw; subst hw
        rcases Nat.lt_or_ge (soft w).length b.2.2 with h | h
        · exact absurd ⟨hw0, h⟩ hs
        · exact h

theorem scan_spec (hard soft : Var → List Var) : ∀ (vs pre : List Var) (best : Option (Nat × Var × Nat)), Found hard soft pre best →
    Found hard soft (pre ++ vs) (scan hard soft pre.length best vs)
  | [], pre, best, h => by simpa [scan] using h
  | v :: vs, pre, best, h => by
    have key := scan_spec hard soft vs (pre ++ [v]) _ (improve_spec h v)
    have e : (pre ++ [v]).length = pre.length + 1 := by simp
    rw [e, List.append_assoc, List.singleton_append] at key
    exact key

theorem scan_none {hard soft : Var → List Var} {vs : List Var} (h : scan hard soft 0 none vs = none) : ∀ w ∈ vs, hard w ≠ [] := by
  have := scan_spec hard soft vs [] none (by simp [Found])
  simp only [List.length_nil, h, List.nil_append, Found] at this
  exact this

theorem scan_some {hard soft : Var → List Var} {vs : List Var} {i : Nat} {v : Var} {n : Nat} (h : scan hard soft 0 none vs = some (i, v, n)) :
    vs[i]? = some v ∧ hard v = [] ∧ ∀ w ∈ vs, hard w = [] → (soft v).length ≤ (soft w).length := by
  have := scan_spec hard soft vs [] none (by simp [Found])
  simp only [List.length_nil, h, List.nil_append, Found] at this
  obtain ⟨h1, h2, h3, h4⟩ := this
  exact ⟨h1, h2, fun w hw h0 => h3 ▸ h4 w hw h0⟩

theorem eraseIdx_filter : ∀ (l : List Var), l.Nodup → ∀ (i : Nat) (v : Var), l[i]? = some v → l.eraseIdx i = l.filter (· ≠ v)
  | [], _, i, v, h => by simp at h
  | x :: xs, hn, 0, v, h => by
    simp at h; subst h
    have hx := List.nodup_cons.mp hn
    rw [List.eraseIdx_cons_zero, List.filter_cons]
    simp only [ne_eq, not_true, decide_false, Bool.false_eq_true, if_false]
    symm
    rw [List.filter_eq_self]
    intro a ha
    have : a ≠ x := fun e => hx.1 (e ▸ ha)
    simpa using this
  | x :: xs, hn, i + 1, v, h => by
    have hx := List.nodup_cons.mp hn
    simp at h
    have hv : x ≠ v := fun e => hx.1 (e ▸ List.mem_of_getElem? h)
    rw [List.eraseIdx_cons_succ, eraseIdx_filter xs hx.2 i v h, List.filter_cons]
    simp [hv]

theorem mem_without {deps : Var → List Var} {v w u : Var} : u ∈ without deps v w ↔ u ∈ deps w ∧ u ≠ v := by
  simp [without]

theorem perm_filter_cons {l : List Var} (hn : l.Nodup) {v : Var} (hv : v ∈ l) : l.Perm (v :: l.filter (· ≠ v)) := by
  induction l with
  | nil => simp at hv
  | cons x xs ih =>
    have hx := List.nodup_cons.mp hn
    by_cases h : x = v
    · subst h
      have : xs.filter (· ≠ x) = xs := by
        rw [List.filter_eq_self]
        intro a ha
        have : a ≠ x := fun e => hx.1 (e ▸ ha)
        simpa using this
      rw [List.filter_cons]
      simp only [ne_eq, not_true, decide_false, Bool.false_eq_true, if_false]
      have h2 : (xs.filter fun a => decide (¬ a = x)) = xs := this
      rw [h2]
    · have hv' : v ∈ xs := by
        rcases List.mem_cons.mp hv with e | h'
        · exact absurd e.symm h
        · exact h'
      rw [List.filter_cons]
      simp only [ne_eq, h, not_false_eq_true, decide_true, if_true]
      exact ((ih hx.2 hv').cons x).trans (List.Perm.swap v x _)

/-- The order found is a permutation and respects the hard dependencies. -/
theorem topoSort_sound : ∀ (n : Nat) (hard soft : Var → List Var) (vars : List Var), vars.Nodup → vars.length = n → ∀ r, topoSort n hard soft vars = some r →
    r.Perm vars ∧ ∀ w ∈ vars, ∀ u ∈ hard w, Before r u w
  | 0, hard, soft, vars, _, hl, r, h => by
    have : vars = [] := List.eq_nil_of_length_eq_zero hl
    subst this
    simp [topoSort] at h
    subst h
    exact ⟨List.Perm.nil, by simp⟩
  | n + 1, hard, soft, vars, hn, hl, r, h => by
    rw [topoSort] at h
    cases hs : scan hard soft 0 none vars with
    | none => rw [hs] at h; simp at h
    | some b =>
      obtain ⟨i, v, k⟩ := b
      rw [hs] at h
      obtain ⟨h1, h2, _⟩ := scan_some hs
      simp only [Option.map_eq_some_iff] at h
      obtain ⟨r', hr', rfl⟩ := h
      have hv : v ∈ vars := List.mem_of_getElem? h1
      rw [eraseIdx_filter vars hn i v h1] at hr'
      have hp := perm_filter_cons hn hv
      have hlen : (vars.filter (· ≠ v)).length = n := by
        have := hp.length_eq; simp only [List.length_cons] at this; omega
      obtain ⟨i1, i2⟩ := topoSort_sound n _ _ _ (hn.filter _) hlen r' hr'
      have hperm : (v :: r').Perm vars := (i1.cons v).trans hp.symm
      refine ⟨hperm, ?_⟩
      intro w hw u hu
      have hwv : w ≠ v := by
        intro e; subst e; rw [h2] at hu; simp at hu
      have hw' : w ∈ vars.filter (· ≠ v) := by simp [hw, hwv]
      by_cases huv : u = v
      · subst huv
        exact before_first (i1.mem_iff.mpr hw')
      · exact before_cons (i2 w hw' u (mem_without.mpr ⟨hu, huv⟩))

/-- An order is found when there is one, and it respects the soft dependencies when some order respects both. -/
theorem topoSort_complete : ∀ (n : Nat) (hard soft : Var → List Var) (vars : List Var), vars.Nodup → vars.length = n →
    ∀ order : List Var, order.Perm vars → (∀ w ∈ vars, ∀ u ∈ hard w, Before order u w) →
    ∃ r, topoSort n hard soft vars = some r ∧ ((∀ w ∈ vars, ∀ u ∈ soft w, Before order u w) → ∀ w ∈ vars, ∀ u ∈ soft w, Before r u w)
  | 0, hard, soft, vars, _, hl, order, hp, ho => by
    have : vars = [] := List.eq_nil_of_length_eq_zero hl
    subst this
    exact ⟨[], rfl, by simp⟩
  | n + 1, hard, soft, vars, hn, hl, order, hp, ho => by
    have hno : order.Nodup := hp.symm.nodup hn
    obtain ⟨hd, tl, rfl⟩ : ∃ hd tl, order = hd :: tl := by
      cases order with
      | nil => have := hp.length_eq; simp at this; omega
      | cons a b => exact ⟨a, b, rfl⟩
    have hhd : hd ∈ vars := hp.mem_iff.mp (by simp)
    have hfree : hard hd = [] := by
      cases hh : hard hd with
      | nil => rfl
      | cons u us => exact absurd (ho hd hhd u (by rw [hh]; simp)) (before_head hno)
    rw [topoSort]
    cases hs : scan hard soft 0 none vars with
    | none => exact absurd hfree (scan_none hs hd hhd)
    | some b =>
      obtain ⟨i, v, k⟩ := b
      obtain ⟨h1, h2, h3⟩ := scan_some hs
      have hv : v ∈ vars := List.mem_of_getElem? h1
      simp only
      rw [eraseIdx_filter vars hn i v h1]
      have hpf := perm_filter_cons hn hv
      have hlen : (vars.filter (· ≠ v)).length = n := by
        have := hpf.length_eq; simp only [List.length_cons] at this; omega
      obtain ⟨r', hr', hsoft⟩ := topoSort_complete n (without hard v) (without soft v) _ (hn.filter _) hlen ((hd :: tl).filter (· ≠ v)) (hp.filter _)
        (fun w hw u hu => by
          simp only [List.mem_filter, ne_eq, decide_not, Bool.not_eq_eq_eq_not, Bool.not_true, decide_eq_false_iff_not] at hw
          obtain ⟨hu1, hu2⟩ := mem_without.mp hu
          exact before_filter (ho w hw.1 u hu1) hu2 hw.2)
      refine ⟨v :: r', by rw [hr']; rfl, ?_⟩
      intro hso w hw u hu
      have hsv : soft v = [] := by
        have hsd : soft hd = [] := by
          cases hh : soft hd with
          | nil => rfl
          | cons u us => exact absurd (hso hd hhd u (by rw [hh]; simp)) (before_head hno)
        have := h3 hd hhd hfree
        rw [hsd] at this
        exact List.eq_nil_of_length_eq_zero (by simpa using this)
      have hwv : w ≠ v := by
        intro e; subst e; rw [hsv] at hu; simp at hu
      have hw' : w ∈ vars.filter (· ≠ v) := by simp [hw, hwv]
      obtain ⟨i1, _⟩ := topoSort_sound n _ _ _ (hn.filter _) hlen r' hr'
      by_cases huv : u = v
      · subst huv
        exact before_first (i1.mem_iff.mpr hw')
      · refine before_cons (hsoft (fun w hw u hu => ?_) w hw' u (mem_without.mpr ⟨hu, huv⟩))
        simp only [List.mem_filter, ne_eq, decide_not, Bool.not_eq_eq_eq_not, Bool.not_true, decide_eq_false_iff_not] at hw
        obtain ⟨hu1, hu2⟩ := mem_without.mp hu
        exact before_filter (hso w hw.1 u hu1) hu2 hw.2

theorem mem_tensorEntries {loops : List Loop} {t : String} {e : Entry} : e ∈ tensorEntries loops t ↔ Iterates loops t e.var e.level e.hard := by
  unfold tensorEntries Iterates
  rw [List.mem_eraseDups, List.mem_flatMap]
  constructor
  · rintro ⟨l, hl, he⟩
    obtain ⟨d, hd, hde⟩ := List.mem_filterMap.mp he
    by_cases ht : d.1 = t
    · rw [if_pos ht] at hde
      injection hde with hde
      subst hde
      exact ⟨l, hl, rfl, by subst ht; exact hd⟩
    · rw [if_neg ht] at hde; simp at hde
  · rintro ⟨l, hl, hv, hm⟩
    exact ⟨l, hl, List.mem_filterMap.mpr ⟨_, hm, by rw [if_pos rfl, hv]⟩⟩

theorem mem_tensors {loops : List Loop} {t : String} {v : Var} {l : Nat} {h : Bool} (hi : Iterates loops t v l h) : t ∈ tensors loops := by
  obtain ⟨loop, hl, _, hm⟩ := hi
  unfold tensors
  rw [List.mem_eraseDups, List.mem_flatMap]
  exact ⟨loop, hl, List.mem_map.mpr ⟨_, hm, rfl⟩⟩

/-- The constraints that `depsFromVarOrders` derives contain those of the levels. -/
theorem hardDeps_of_levels {sort : List Entry → List Entry} (hs : IsSort sort) {loops : List Loop} {t : String} {v₁ v₂ : Var} {l₁ l₂ : Nat} {h₁ h₂ : Bool}
    (hi₁ : Iterates loops t v₁ l₁ h₁) (hi₂ : Iterates loops t v₂ l₂ h₂) (hl : l₁ < l₂) (hh : (h₁ || h₂) = true) : v₁ ∈ hardDeps sort loops v₂ := by
  unfold hardDeps
  refine List.mem_flatMap.mpr ⟨t, mem_tensors hi₁, (mem_pairDeps _ _ _).mpr ⟨h₁, h₂, ?_, hh⟩⟩
  unfold varOrder
  have m1 : (⟨v₁, l₁, h₁⟩ : Entry) ∈ sort (tensorEntries loops t) := (hs.perm _).mem_iff.mpr (mem_tensorEntries.mpr hi₁)
  have m2 : (⟨v₂, l₂, h₂⟩ : Entry) ∈ sort (tensorEntries loops t) := (hs.perm _).mem_iff.mpr (mem_tensorEntries.mpr hi₂)
  have key : ∀ (es : List Entry) (a b : Entry), es.Pairwise (fun a b => a.level ≤ b.level) → a ∈ es → b ∈ es → a.level < b.level → [a, b].Sublist es := by
    intro es a b hp ha hb hlt
    induction es with
    | nil => simp at ha
    | cons x xs ih =>
      obtain ⟨p1, p2⟩ := List.pairwise_cons.mp hp
      rcases List.mem_cons.mp ha with rfl | ha
      · rcases List.mem_cons.mp hb with rfl | hb
        · omega
        · exact (List.singleton_sublist.mpr hb).cons_cons a
      · rcases List.mem_cons.mp hb with e | hb
        · have := p1 a ha; rw [e] at hlt; omega
        · exact (ih p2 ha hb).cons x
  have := (key _ _ _ (hs.sorted _) m1 m2 hl).map fun e => (e.var, e.hard)
  simpa using this

theorem eraseDups_nodup {α : Type} [BEq α] [LawfulBEq α] : ∀ (n : Nat) (l : List α), l.length = n → l.eraseDups.Nodup := by
  intro n
  induction n using Nat.strongRecOn with
  | ind n ih =>
    intro l hl
    cases l with
    | nil => simp
    | cons x xs =>
      rw [List.eraseDups_cons, List.nodup_cons]
      refine ⟨?_, ih _ ?_ _ rfl⟩
      · rw [List.mem_eraseDups]; simp
      · have := List.length_filter_le (fun b => !b == x) xs
        simp at hl; omega

/-- They contain nothing else when no tensor level is iterated over twice. -/
theorem levels_of_hardDeps {sort : List Entry → List Entry} (hs : IsSort sort) {loops : List Loop} (hsa : SingleAccess loops) {u v : Var} (h : u ∈ hardDeps sort loops v) :
    ∃ t l₁ h₁ l₂ h₂, Iterates loops t u l₁ h₁ ∧ Iterates loops t v l₂ h₂ ∧ l₁ < l₂ ∧ (h₁ || h₂) = true := by
  obtain ⟨t, _, h⟩ := List.mem_flatMap.mp h
  obtain ⟨h₁, h₂, hsub, hh⟩ := (mem_pairDeps _ _ _).mp h
  obtain ⟨l, hl, hmap⟩ := List.sublist_map_iff.mp hsub
  obtain ⟨a, b, rfl⟩ : ∃ a b, l = [a, b] := by
    have := congrArg List.length hmap
    simp at this
    match l, this with
    | [a, b], _ => exact ⟨a, b, rfl⟩
  simp at hmap
  obtain ⟨⟨ha1, ha2⟩, hb1, hb2⟩ := hmap
  have hma : a ∈ tensorEntries loops t := (hs.perm _).mem_iff.mp (hl.subset (by simp))
  have hmb : b ∈ tensorEntries loops t := (hs.perm _).mem_iff.mp (hl.subset (by simp))
  have ia := mem_tensorEntries.mp hma
  have ib := mem_tensorEntries.mp hmb
  have hle : a.level ≤ b.level := by
    have := (hs.sorted (tensorEntries loops t)).sublist hl
    simpa using this
  have hne : a ≠ b := by
    have hnd : (tensorEntries loops t).Nodup := eraseDups_nodup _ _ rfl
    have := hl.nodup ((hs.perm _).symm.nodup hnd)
    simpa using this
  have hlt : a.level < b.level := by
    rcases Nat.lt_or_eq_of_le hle with h | h
    · exact h
    · exfalso
      rw [h] at ia
      obtain ⟨e1, e2⟩ := hsa t _ _ _ _ _ ia ib
      exact hne (by cases a; cases b; simp_all)
  subst ha1 hb1 ha2 hb2
  exact ⟨t, a.level, _, b.level, _, ia, ib, hlt, hh⟩

/-! ### Cycles -/

/-- A path with at least one edge. -/
inductive Path (succ : Var → List Var) : Var → Var → Prop
  | edge {u v} : v ∈ succ u → Path succ u v
  | step {u v w} : Path succ u v → w ∈ succ v → Path succ u w

theorem path_before {succ : Var → List Var} {order : List Var} (hn : order.Nodup) (h : ∀ u v, v ∈ succ u → Before order u v) {u v : Var} (hp : Path succ u v) :
    Before order u v := by
  induction hp with
  | edge e => exact h _ _ e
  | step _ e ih => exact before_trans hn ih (h _ _ e)

/-- A list in which all successors of an element come after it. -/
def Closed (succ : Var → List Var) : List Var → Prop
  | [] => True
  | v :: rest => v ∉ rest ∧ (∀ w ∈ succ v, w ∈ rest) ∧ Closed succ rest

theorem closed_nodup {succ : Var → List Var} : ∀ {l : List Var}, Closed succ l → l.Nodup
  | [], _ => List.nodup_nil
  | _ :: _, ⟨h1, _, h3⟩ => List.nodup_cons.mpr ⟨h1, closed_nodup h3⟩

theorem closed_before {succ : Var → List Var} : ∀ {l : List Var}, Closed succ l → ∀ u ∈ l, ∀ v ∈ succ u, Before l u v
  | [], _, u, hu, _, _ => by simp at hu
  | x :: rest, ⟨h1, h2, h3⟩, u, hu, v, hv => by
    rcases List.mem_cons.mp hu with rfl | hu
    · exact before_first (h2 v hv)
    · exact before_cons (closed_before h3 u hu v hv)

/-- Nodes that have not been visited. -/
def todo (ks : List Var) (m : Marks) : Nat := (ks.filter fun k => decide (k ∉ m.visited)).length

theorem filter_le {α : Type} (p q : α → Bool) : ∀ (l : List α), (∀ x ∈ l, p x = true → q x = true) → (l.filter p).length ≤ (l.filter q).length
  | [], _ => Nat.le_refl _
  | x :: xs, h => by
    have ih := filter_le p q xs fun y hy => h y (by simp [hy])
    by_cases hp : p x = true
    · have hq := h x (by simp) hp
      simp [hp, hq, ih]
    · by_cases hq : q x = true
      · simp [hp, hq]; omega
      · simp [hp, hq, ih]

theorem filter_lt {α : Type} (p q : α → Bool) : ∀ (l : List α), (∀ x ∈ l, p x = true → q x = true) → (∃ x ∈ l, p x = false ∧ q x = true) →
    (l.filter p).length < (l.filter q).length
  | [], _, ⟨x, hx, _⟩ => by simp at hx
  | x :: xs, h, hex => by
    obtain ⟨y, hy, hpy, hqy⟩ := hex
    have hle := filter_le p q xs fun y hy => h y (by simp [hy])
    by_cases hp : p x = true
    · have hq := h x (by simp) hp
      have hyx : y ∈ xs := by
        rcases List.mem_cons.mp hy with rfl | hy
        · rw [hp] at hpy; simp at hpy
        · exact hy
      have ih := filter_lt p q xs (fun y hy => h y (by simp [hy])) ⟨y, hyx, hpy, hqy⟩
      simp [hp, hq, ih]
    · by_cases hq : q x = true
      · simp [hp, hq]; omega
      · have hyx : y ∈ xs := by
          rcases List.mem_cons.mp hy with rfl | hy
          · exact absurd hqy hq
          · exact hy
        have ih := filter_lt p q xs (fun y hy => h y (by simp [hy])) ⟨y, hyx, hpy, hqy⟩
        simp [hp, hq, ih]

/-- The state between two calls: `done` is the list of the nodes left for good. -/
structure Inv (succ : Var → List Var) (m : Marks) (done : List Var) : Prop where
  closed : Closed succ done
  visited : ∀ v, v ∈ m.visited ↔ v ∈ done ∨ v ∈ m.marked
  disjoint : ∀ v ∈ done, v ∉ m.marked

/-- What a call does. -/
def Post (succ : Var → List Var) (ks : List Var) (m : Marks) (done : List Var) (r : Bool × Marks) (goal : List Var → Prop) : Prop :=
  if r.1 then ∃ u, Path succ u u
  else ∃ done', Inv succ r.2 done' ∧ (∀ v ∈ done, v ∈ done') ∧ (∀ v, v ∈ r.2.marked ↔ v ∈ m.marked) ∧ todo ks r.2 ≤ todo ks m ∧ goal done'

theorem todo_mono {succ : Var → List Var} {ks : List Var} {m m' : Marks} {d d' : List Var} (hi : Inv succ m d) (hi' : Inv succ m' d') (hd : ∀ v ∈ d, v ∈ d')
    (hm : ∀ v, v ∈ m'.marked ↔ v ∈ m.marked) : todo ks m' ≤ todo ks m := by
  apply filter_le
  intro x _ hx
  simp only [decide_eq_true_eq] at hx ⊢
  intro hv
  apply hx
  rcases (hi.visited x).mp hv with h | h
  · exact (hi'.visited x).mpr (.inl (hd x h))
  · exact (hi'.visited x).mpr (.inr ((hm x).mpr h))

theorem scanSuccs_spec {succ : Var → List Var} {ks : List Var} {rec : Var → Marks → Option (Bool × Marks)} {v : Var} {f : Nat}
    (hrec : ∀ s m done, s ∈ ks → Inv succ m done → todo ks m < f → s ∉ m.visited → (∀ x ∈ m.marked, Path succ x s) →
      ∃ r, rec s m = some r ∧ Post succ ks m done r (fun d => s ∈ d)) :
    ∀ (ss : List Var) (m : Marks) (done : List Var), (∀ s ∈ ss, s ∈ succ v) → (∀ s ∈ succ v, s ∈ ks) → Inv succ m done → todo ks m < f → v ∈ m.marked →
      (∀ x ∈ m.marked, x = v ∨ Path succ x v) →
      ∃ r, scanSuccs rec ss m = some r ∧ Post succ ks m done r (fun d => ∀ s ∈ ss, s ∈ d)
  | [], m, done, _, _, hi, hf, _, _ => ⟨(false, m), rfl, by
      unfold Post; exact ⟨done, hi, fun _ h => h, fun _ => Iff.rfl, Nat.le_refl _, by simp⟩⟩
  | s :: ss, m, done, hss, hks, hi, hf, hv, hreach => by
    have hsv : s ∈ succ v := hss s (by simp)
    have hreach' : ∀ x ∈ m.marked, Path succ x s := by
      intro x hx
      rcases hreach x hx with rfl | h
      · exact .edge hsv
      · exact .step h hsv
    rw [scanSuccs]
    by_cases hvis : s ∈ m.visited
    · rw [if_pos hvis]
      by_cases hmk : s ∈ m.marked
      · rw [if_pos hmk]
        exact ⟨_, rfl, by unfold Post; exact ⟨s, hreach' s hmk⟩⟩
      · rw [if_neg hmk]
        have hdone : s ∈ done := by
          rcases (hi.visited s).mp hvis with h | h
          · exact h
          · exact absurd h hmk
        obtain ⟨r, hr, hp⟩ := scanSuccs_spec hrec ss m done (fun s h => hss s (by simp [h])) hks hi hf hv hreach
        refine ⟨r, hr, ?_⟩
        unfold Post at hp ⊢
        by_cases hb : r.1 = true
        · rw [if_pos hb] at hp ⊢; exact hp
        · rw [if_neg hb] at hp ⊢
          obtain ⟨d', p1, p2, p3, p4, p5⟩ := hp
          refine ⟨d', p1, p2, p3, p4, ?_⟩
          intro x hx
          rcases List.mem_cons.mp hx with rfl | hx
          · exact p2 _ hdone
          · exact p5 x hx
    · rw [if_neg hvis]
      obtain ⟨r, hr, hp⟩ := hrec s m done (hks s hsv) hi hf hvis hreach'
      rw [hr]
      obtain ⟨b, m'⟩ := r
      unfold Post at hp
      cases b with
      | true =>
        refine ⟨_, rfl, ?_⟩
        unfold Post
        simpa using hp
      | false =>
        simp only [Bool.false_eq_true, if_false] at hp
        obtain ⟨d1, p1, p2, p3, p4, p5⟩ := hp
        have hns : s ∉ m'.marked := p1.disjoint s p5
        simp only
        rw [if_neg hns]
        obtain ⟨r, hr, hp⟩ := scanSuccs_spec hrec ss m' d1 (fun s h => hss s (by simp [h])) hks p1 (by omega) ((p3 v).mpr hv)
          (fun x hx => hreach x ((p3 x).mp hx))
        refine ⟨r, hr, ?_⟩
        unfold Post at hp ⊢
        by_cases hb : r.1 = true
        · rw [if_pos hb] at hp ⊢; exact hp
        · rw [if_neg hb] at hp ⊢
          obtain ⟨d', q1, q2, q3, q4, q5⟩ := hp
          refine ⟨d', q1, fun v hv => q2 v (p2 v hv), fun v => (q3 v).trans (p3 v), by omega, ?_⟩
          intro x hx
          rcases List.mem_cons.mp hx with rfl | hx
          · exact q2 _ p5
          · exact q5 x hx

theorem hasCycle_spec {succ : Var → List Var} {ks : List Var} (hks : ∀ v ∈ ks, ∀ s ∈ succ v, s ∈ ks) : ∀ (f : Nat) (v : Var) (m : Marks) (done : List Var),
    v ∈ ks → Inv succ m done → todo ks m < f → v ∉ m.visited → (∀ x ∈ m.marked, Path succ x v) →
      ∃ r, hasCycle succ f v m = some r ∧ Post succ ks m done r (fun d => v ∈ d)
  | 0, _, m, _, _, _, hf, _, _ => by omega
  | f + 1, v, m, done, hv, hi, hf, hnv, hreach => by
    rw [hasCycle, if_neg hnv]
    have hnd : v ∉ done := fun h => hnv ((hi.visited v).mpr (.inl h))
    have hnm : v ∉ m.marked := fun h => hnv ((hi.visited v).mpr (.inr h))
    have hi1 : Inv succ ⟨v :: m.visited, v :: m.marked⟩ done := by
      refine ⟨hi.closed, ?_, ?_⟩
      · intro x
        simp only [List.mem_cons, hi.visited x]
        constructor
        · rintro (h | h | h)
          · exact .inr (.inl h)
          · exact .inl h
          · exact .inr (.inr h)
        · rintro (h | h | h)
          · exact .inr (.inl h)
          · exact .inl h
          · exact .inr (.inr h)
      · intro x hx
        simp only [List.mem_cons, not_or]
        exact ⟨fun e => hnd (e ▸ hx), hi.disjoint x hx⟩
    have ht : todo ks ⟨v :: m.visited, v :: m.marked⟩ < todo ks m := by
      apply filter_lt
      · intro x _ hx
        simp only [decide_eq_true_eq, List.mem_cons, not_or] at hx ⊢
        exact hx.2
      · exact ⟨v, hv, by simp, by simpa using hnv⟩
    obtain ⟨r, hr, hp⟩ := scanSuccs_spec (ks := ks) (v := v) (f := f) (rec := hasCycle succ f)
      (fun s m done hs hi hf hns hre => hasCycle_spec hks f s m done hs hi hf hns hre) (succ v) ⟨v :: m.visited, v :: m.marked⟩ done
      (fun _ h => h) (hks v hv) hi1 (by omega) (by simp) (by
        intro x hx
        rcases List.mem_cons.mp hx with h | h
        · exact .inl h
        · exact .inr (hreach x h))
    rw [hr]
    obtain ⟨b, m'⟩ := r
    unfold Post at hp
    cases b with
    | true => exact ⟨_, rfl, by unfold Post; simpa using hp⟩
    | false =>
      simp only [Bool.false_eq_true, if_false] at hp
      obtain ⟨d', p1, p2, p3, p4, p5⟩ := hp
      refine ⟨_, rfl, ?_⟩
      unfold Post
      simp only [Bool.false_eq_true, if_false]
      have hvm : v ∈ m'.marked := (p3 v).mpr (by simp)
      have hvd : v ∉ d' := fun h => p1.disjoint v h hvm
      have hmk : ∀ x, x ∈ m'.marked.filter (· ≠ v) ↔ x ∈ m.marked := by
        intro x
        simp only [List.mem_filter, ne_eq, decide_not, Bool.not_eq_eq_eq_not, Bool.not_true, decide_eq_false_iff_not, p3 x, List.mem_cons]
        constructor
        · rintro ⟨h | h, h2⟩
          · exact absurd h h2
          · exact h
        · intro h
          exact ⟨.inr h, fun e => hnm (e ▸ h)⟩
      have hi2 : Inv succ ⟨m'.visited, m'.marked.filter (· ≠ v)⟩ (v :: d') := by
        refine ⟨⟨hvd, p5, p1.closed⟩, ?_, ?_⟩
        · intro x
          show x ∈ m'.visited ↔ _
          rw [p1.visited x, hmk x, p3 x]
          simp only [List.mem_cons]
          constructor
          · rintro (h | h | h)
            · exact .inl (.inr h)
            · exact .inl (.inl h)
            · exact .inr h
          · rintro ((h | h) | h)
            · exact .inr (.inl h)
            · exact .inl h
            · exact .inr (.inr h)
        · intro x hx
          rw [hmk x]
          intro hxm
          rcases List.mem_cons.mp hx with rfl | hx
          · exact hnm hxm
          · exact p1.disjoint x hx ((p3 x).mpr (by simp [hxm]))
      exact ⟨v :: d', hi2, fun x hx => by simp [p2 x hx], hmk, todo_mono hi hi2 (fun x hx => by simp [p2 x hx]) hmk, by simp⟩

theorem anyCycle_spec {succ : Var → List Var} {ks : List Var} (hks : ∀ v ∈ ks, ∀ s ∈ succ v, s ∈ ks) (f : Nat) : ∀ (vs : List Var) (m : Marks) (done : List Var),
    (∀ v ∈ vs, v ∈ ks) → Inv succ m done → todo ks m < f → (∀ v, v ∉ m.marked) →
      ∃ b, anyCycle succ f vs m = some b ∧ if b then ∃ u, Path succ u u else ∃ done', Closed succ done' ∧ (∀ v ∈ done, v ∈ done') ∧ ∀ v ∈ vs, v ∈ done'
  | [], m, done, _, hi, _, _ => ⟨false, rfl, by simp; exact ⟨done, hi.closed, fun _ h => h⟩⟩
  | v :: vs, m, done, hvs, hi, hf, hmk => by
    rw [anyCycle]
    have hv : v ∈ ks := hvs v (by simp)
    by_cases hvis : v ∈ m.visited
    · have hd : v ∈ done := by
        rcases (hi.visited v).mp hvis with h | h
        · exact h
        · exact absurd h (hmk v)
      cases f with
      | zero => omega
      | succ f =>
        rw [hasCycle, if_pos hvis]
        have hmk' : ∀ x, x ∉ m.marked.filter (· ≠ v) := fun x hx => hmk x (List.mem_filter.mp hx).1
        obtain ⟨b, hb, hp⟩ := anyCycle_spec hks (f + 1) vs ⟨m.visited, m.marked.filter (· ≠ v)⟩ done (fun x hx => hvs x (by simp [hx]))
          ⟨hi.closed, fun x => by
              have := hi.visited x
              show x ∈ m.visited ↔ _
              rw [this]
              constructor
              · rintro (h | h)
                · exact .inl h
                · exact absurd h (hmk x)
              · rintro (h | h)
                · exact .inl h
                · exact absurd h (hmk' x), fun x _ => hmk' x⟩ hf hmk'
        refine ⟨b, hb, ?_⟩
        cases b with
        | true => exact hp
        | false =>
          simp only [Bool.false_eq_true, if_false] at hp ⊢
          obtain ⟨d', h1, h2, h3⟩ := hp
          refine ⟨d', h1, h2, ?_⟩
          intro x hx
          rcases List.mem_cons.mp hx with rfl | hx
          · exact h2 _ hd
          · exact h3 x hx
    · obtain ⟨r, hr, hp⟩ := hasCycle_spec hks f v m done hv hi hf hvis (fun x hx => absurd hx (hmk x))
      rw [hr]
      obtain ⟨b, m'⟩ := r
      unfold Post at hp
      cases b with
      | true => exact ⟨true, rfl, by simpa using hp⟩
      | false =>
        simp only [Bool.false_eq_true, if_false] at hp
        obtain ⟨d1, p1, p2, p3, p4, p5⟩ := hp
        obtain ⟨b, hb, hp⟩ := anyCycle_spec hks f vs m' d1 (fun x hx => hvs x (by simp [hx])) p1 (by omega) (fun x hx => hmk x ((p3 x).mp hx))
        refine ⟨b, hb, ?_⟩
        cases b with
        | true => exact hp
        | false =>
          simp only [Bool.false_eq_true, if_false] at hp ⊢
          obtain ⟨d', h1, h2, h3⟩ := hp
          refine ⟨d', h1, fun x hx => h2 x (p2 x hx), ?_⟩
          intro x hx
          rcases List.mem_cons.mp hx with rfl | hx
          · exact h2 _ p5
          · exact h3 x hx

/-! ### Dimensions -/

theorem same_iff (a b : Dim) : a.same b = true ↔ SameSize a b := by
  cases a <;> cases b <;> simp [Dim.same, SameSize]

theorem sameSize_refl (a : Dim) : SameSize a a := by cases a <;> simp [SameSize]

theorem sameSize_symm {a b : Dim} (h : SameSize a b) : SameSize b a := by
  cases a <;> cases b <;> simp_all [SameSize]

theorem sameSize_trans {a b c : Dim} (h : SameSize a b) (h' : SameSize b c) : SameSize a c := by
  cases a <;> cases b <;> cases c <;> simp_all [SameSize]

theorem lookupDim_append (m : List (Var × Dim)) (v w : Var) (d : Dim) :
    lookupDim (m ++ [(w, d)]) v = (lookupDim m v).or (if w = v then some d else none) := by
  induction m with
  | nil => simp [lookupDim]
  | cons x xs ih =>
    obtain ⟨y, e⟩ := x
    simp only [List.cons_append, lookupDim]
    by_cases h : y = v
    · simp [h]
    · simp [h, ih]

end Verif.LoopOrder
