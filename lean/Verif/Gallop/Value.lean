import Verif.Gallop.Theorems
/-!
C64: the value computed by a kernel `y = sum(i, a(i) * b(i) * ...)` over vectors, for both merge strategies.
-/
namespace Verif.Gallop

variable {V : Type}

theorem reduceFrom_spec (o : Arith V) (vals : List V) : ∀ n p acc, p + n ≤ vals.length →
    reduceFrom o vals n p acc =
      some ((List.range' p n).foldl (fun a i => o.add a (vals[i]?.getD o.zero)) acc)
  | 0, _, _, _ => rfl
  | n + 1, p, acc, h => by
    have hp : p < vals.length := by omega
    simp only [reduceFrom, List.getElem?_eq_getElem hp, List.range'_succ, List.foldl_cons, Option.getD_some]
    exact reduceFrom_spec o vals n (p + 1) _ (by omega)

theorem foldl_skip {α : Type} (f : V → α → V) (P : α → Prop) [DecidablePred P] :
    ∀ (l : List α) (acc : V), (∀ i ∈ l, ¬ P i) → l.foldl (fun a i => if P i then f a i else a) acc = acc
  | [], _, _ => rfl
  | x :: xs, acc, h => by
    rw [List.foldl_cons, if_neg (h x List.mem_cons_self)]
    exact foldl_skip f P xs acc (fun i hi => h i (List.mem_cons_of_mem _ hi))

theorem foldl_take {α : Type} (f : V → α → V) (P : α → Prop) [DecidablePred P] :
    ∀ (l : List α) (acc : V), (∀ i ∈ l, P i) →
      l.foldl (fun a i => if P i then f a i else a) acc = l.foldl f acc
  | [], _, _ => rfl
  | x :: xs, acc, h => by
    rw [List.foldl_cons, if_pos (h x List.mem_cons_self), List.foldl_cons]
    exact foldl_take f P xs _ (fun i hi => h i (List.mem_cons_of_mem _ hi))

theorem component_stored (o : Arith V) {it : Iter} {c : Int} {p q : Nat} (h : Stored it c p q) (vals : List V) :
    component o it vals c = (List.range' p (q - p)).foldl (fun a i => o.add a (vals[i]?.getD o.zero)) o.zero := by
  obtain ⟨h1, h2, h3, h4⟩ := h
  have hs : List.range' it.s (it.e - it.s) =
      List.range' it.s (p - it.s) ++ (List.range' p (q - p) ++ List.range' q (it.e - q)) := by
    have e1 : it.e - it.s = (p - it.s) + ((q - p) + (it.e - q)) := by omega
    have e2 : it.s + (p - it.s) = p := by omega
    have e3 : p + (q - p) = q := by omega
    rw [e1, ← List.range'_append_1, e2, ← List.range'_append_1, e3]
  unfold component
  rw [hs, List.foldl_append, List.foldl_append]
  rw [foldl_skip (fun a i => o.add a (vals[i]?.getD o.zero)) (fun i => it.crd[i]? = some c) _ _
    (by intro i hi; rw [List.mem_range'_1] at hi; rw [h4 i (by omega) (by omega)]; omega)]
  rw [foldl_take (fun a i => o.add a (vals[i]?.getD o.zero)) (fun i => it.crd[i]? = some c) _ _
    (by intro i hi; rw [List.mem_range'_1] at hi; rw [h4 i (by omega) (by omega)]; omega)]
  rw [foldl_skip (fun a i => o.add a (vals[i]?.getD o.zero)) (fun i => it.crd[i]? = some c) _ _
    (by intro i hi; rw [List.mem_range'_1] at hi; rw [h4 i (by omega) (by omega)]; omega)]

theorem operandVal_spec (o : Arith V) (hl : Laws o) {it : Iter} {c : Int} {r : Nat × Nat} {vals : List V}
    (h : Stored it c r.1 r.2) (ho : Ordered it) (hv : it.e ≤ vals.length) :
    operandVal o it vals r = some (component o it vals c) := by
  rw [component_stored o h]
  obtain ⟨h1, h2, h3, h4⟩ := h
  unfold operandVal
  cases hu : it.unique with
  | true =>
    have hq : r.2 = r.1 + 1 := by
      apply Classical.byContradiction
      intro hn
      have a := (h4 r.1 h1 (by omega)).2 ⟨by omega, h2⟩
      have b := (h4 (r.1 + 1) (by omega) (by omega)).2 ⟨by omega, by omega⟩
      have := (ho.sorted r.1 (r.1 + 1) c c h1 (by omega) (by omega) a b).2 hu
      omega
    have hp : r.1 < vals.length := by omega
    have he : r.2 - r.1 = 1 := by omega
    simp [he, List.getElem?_eq_getElem hp, hl.zero_add]
  | false =>
    simp only [Bool.false_eq_true, if_false]
    exact reduceFrom_spec o vals (r.2 - r.1) r.1 o.zero (by omega)

theorem operandVals_spec (o : Arith V) (hl : Laws o) {c : Int} : ∀ {xs : List (Iter × List V)}
    {rs : List (Nat × Nat)}, AllStored c (xs.map (·.1)) rs → (∀ x ∈ xs, Ordered x.1 ∧ x.1.e ≤ x.2.length) →
    operandVals o xs rs = some (xs.map (fun x => component o x.1 x.2 c))
  | [], [], _, _ => rfl
  | [], _ :: _, h, _ => h.elim
  | _ :: _, [], h, _ => h.elim
  | x :: xs, r :: rs, ⟨h1, h2⟩, h => by
    obtain ⟨a, b⟩ := h x List.mem_cons_self
    simp only [operandVals, operandVal_spec o hl h1 a b,
      operandVals_spec o hl h2 (fun y hy => h y (List.mem_cons_of_mem _ hy)), List.map_cons]

theorem accumulate_spec (o : Arith V) (hl : Laws o) (xs : List (Iter × List V))
    (h : ∀ x ∈ xs, Ordered x.1 ∧ x.1.e ≤ x.2.length) : ∀ (evs : List Event) (acc : V),
    (∀ ev ∈ evs, AllStored ev.1 (xs.map (·.1)) ev.2) →
    accumulate o xs evs acc = some (evs.foldl
      (fun a ev => o.add a (product o (xs.map (fun x => component o x.1 x.2 ev.1)))) acc)
  | [], _, _ => rfl
  | ev :: evs, acc, hs => by
    simp only [accumulate, operandVals_spec o hl (hs ev List.mem_cons_self) h, List.foldl_cons]
    exact accumulate_spec o hl xs h evs _ (fun e he => hs e (List.mem_cons_of_mem _ he))

theorem product_zero (o : Arith V) (hl : Laws o) (vs : List V) (h : o.zero ∈ vs) : product o vs = o.zero := by
  have key : ∀ (vs : List V) (a : V), (a = o.zero ∨ o.zero ∈ vs) → vs.foldl o.mul a = o.zero := by
    intro vs
    induction vs with
    | nil => intro a h; rcases h with h | h; exact h; cases h
    | cons v vs ih =>
      intro a h
      rw [List.foldl_cons]
      apply ih
      rcases h with h | h
      · left; rw [h, hl.zero_mul]
      · rcases List.mem_cons.1 h with h | h
        · left; rw [← h, hl.mul_zero]
        · exact Or.inr h
  cases vs with
  | nil => rfl
  | cons v vs =>
    apply key
    rcases List.mem_cons.1 h with h | h
    · exact Or.inl h.symm
    · exact Or.inr h

theorem times_eq (o : Arith V) : ∀ (vs : List V), times o vs = product o vs
  | [] => by rw [times]; rfl
  | v :: vs => by
    have key : ∀ (vs : List V) (v : V), times o (v :: vs) = vs.foldl o.mul v := by
      intro vs
      induction vs with
      | nil => intro v; rw [times]; rfl
      | cons w vs ih => intro v; rw [times, ih]; rfl
    exact key vs v

/-- A coordinate that a sorted segment stores is stored in one range. -/
theorem stored_exists {it : Iter} (ho : Ordered it) {c : Int} {i : Nat} (h1 : it.s ≤ i) (h2 : i < it.e)
    (h3 : it.crd[i]? = some c) : ∃ p q, Stored it c p q := by
  have hp : ∃ p, it.s ≤ p ∧ p ≤ i ∧ it.crd[p]? = some c ∧ ∀ j, it.s ≤ j → j < p → it.crd[j]? ≠ some c := by
    have : ∀ k, ∀ i, i - it.s ≤ k → it.s ≤ i → it.crd[i]? = some c →
        ∃ p, it.s ≤ p ∧ p ≤ i ∧ it.crd[p]? = some c ∧ ∀ j, it.s ≤ j → j < p → it.crd[j]? ≠ some c := by
      intro k
      induction k with
      | zero => intro i a b d; exact ⟨i, b, Nat.le_refl _, d, by omega⟩
      | succ k ih =>
        intro i a b d
        by_cases hex : ∃ j, it.s ≤ j ∧ j < i ∧ it.crd[j]? = some c
        · obtain ⟨j, j1, j2, j3⟩ := hex
          obtain ⟨p, p1, p2, p3, p4⟩ := ih j (by omega) j1 j3
          exact ⟨p, p1, by omega, p3, p4⟩
        · exact ⟨i, b, Nat.le_refl _, d, fun j j1 j2 j3 => hex ⟨j, j1, j2, j3⟩⟩
    exact this _ i (Nat.le_refl _) h1 h3
  obtain ⟨p, p1, p2, p3, p4⟩ := hp
  obtain ⟨q, q1, q2, q3, q4, q5⟩ := dupEnd_spec it.crd it.e c ho.inside (it.e - p) p (by omega) (by omega)
  have hpq : p < q := by
    apply Classical.byContradiction
    intro hn
    have : q = p := by omega
    subst this
    obtain ⟨v, hv, hvc⟩ := q5 (by omega)
    rw [p3] at hv
    cases hv
    exact hvc rfl
  refine ⟨p, q, p1, hpq, q3, ?_⟩
  intro j j1 j2
  constructor
  · intro hj
    have hpj : p ≤ j := by
      apply Classical.byContradiction
      intro hn
      exact p4 j j1 (by omega) hj
    refine ⟨hpj, ?_⟩
    apply Classical.byContradiction
    intro hn
    obtain ⟨v, hv, hvc⟩ := q5 (by omega)
    have a1 := (ho.sorted p q c v p1 hpq (by omega) p3 hv).1
    by_cases hjq : j = q
    · subst hjq; rw [hv] at hj; cases hj; exact hvc rfl
    · have a2 := (ho.sorted q j v c (by omega) (by omega) j2 hv hj).1
      omega
  · rintro ⟨a, b⟩
    exact q4 j a b

theorem component_zero (o : Arith V) {it : Iter} (ho : Ordered it) {c : Int} (vals : List V)
    (h : ¬ ∃ p q, Stored it c p q) : component o it vals c = o.zero := by
  unfold component
  apply foldl_skip (fun a i => o.add a (vals[i]?.getD o.zero)) (fun i => it.crd[i]? = some c)
  intro i hi hc
  rw [List.mem_range'_1] at hi
  exact h (stored_exists ho (by omega) (by omega) hc)

theorem allStored_or_zero (o : Arith V) (c : Int) : ∀ (xs : List (Iter × List V)),
    (∀ x ∈ xs, Ordered x.1) → (∃ rs, AllStored c (xs.map (·.1)) rs) ∨
      o.zero ∈ xs.map (fun x => component o x.1 x.2 c)
  | [], _ => Or.inl ⟨[], trivial⟩
  | x :: xs, h => by
    rcases allStored_or_zero o c xs (fun y hy => h y (List.mem_cons_of_mem _ hy)) with ⟨rs, hr⟩ | hz
    · by_cases hx : ∃ p q, Stored x.1 c p q
      · obtain ⟨p, q, hpq⟩ := hx
        exact Or.inl ⟨(p, q) :: rs, hpq, hr⟩
      · right
        rw [List.map_cons, component_zero o (h x List.mem_cons_self) x.2 hx]
        exact List.mem_cons_self
    · exact Or.inr (List.mem_cons_of_mem _ hz)

/-- Summing over a range a function that vanishes off an increasing list of coordinates. -/
theorem sum_range_events (o : Arith V) (hl : Laws o) (F : Int → V) : ∀ (m a : Nat) (evs : List Event) (acc : V),
    evs.Pairwise (fun x y => x.1 < y.1) → (∀ ev ∈ evs, (a : Int) ≤ ev.1 ∧ ev.1 < (a + m : Nat)) →
    (∀ c : Nat, a ≤ c → c < a + m → (∀ ev ∈ evs, ev.1 ≠ (c : Int)) → F c = o.zero) →
    (List.range' a m).foldl (fun s (c : Nat) => o.add s (F c)) acc =
      evs.foldl (fun s ev => o.add s (F ev.1)) acc
  | 0, a, evs, acc, _, hb, _ => by
    cases evs with
    | nil => rfl
    | cons ev evs => have := hb ev List.mem_cons_self; omega
  | m + 1, a, evs, acc, hp, hb, hz => by
    rw [List.range'_succ, List.foldl_cons]
    have rest : ∀ (evs' : List Event) (acc' : V), evs'.Pairwise (fun x y => x.1 < y.1) →
        (∀ ev ∈ evs', (a : Int) + 1 ≤ ev.1 ∧ ev ∈ evs) →
        (∀ ev ∈ evs, ev ∈ evs' ∨ ev.1 = (a : Int)) →
        (List.range' (a + 1) m).foldl (fun s (c : Nat) => o.add s (F c)) acc' =
          evs'.foldl (fun s ev => o.add s (F ev.1)) acc' := by
      intro evs' acc' h1 h2 h3
      apply sum_range_events o hl F m (a + 1) evs' acc' h1
      · intro ev hev
        have := h2 ev hev
        have := hb ev this.2
        omega
      · intro c c1 c2 c3
        apply hz c (by omega) (by omega)
        intro ev hev
        rcases h3 ev hev with h | h
        · exact c3 ev h
        · omega
    cases evs with
    | nil =>
      rw [hz a (Nat.le_refl _) (by omega) (by simp), hl.add_zero]
      exact rest [] acc List.Pairwise.nil (by simp) (by simp)
    | cons ev evs =>
      rw [List.pairwise_cons] at hp
      by_cases he : ev.1 = (a : Int)
      · rw [List.foldl_cons, he]
        apply rest evs _ hp.2
        · intro e' he'
          have := hp.1 e' he'
          exact ⟨by omega, List.mem_cons_of_mem _ he'⟩
        · intro e' he'
          rcases List.mem_cons.1 he' with rfl | h
          · exact Or.inr he
          · exact Or.inl h
      · have hlt : ∀ e' ∈ ev :: evs, (a : Int) + 1 ≤ e'.1 := by
          intro e' he'
          have h0 := (hb ev List.mem_cons_self).1
          rcases List.mem_cons.1 he' with rfl | h
          · omega
          · have := hp.1 e' h; omega
        rw [hz a (Nat.le_refl _) (by omega) (fun e' he' => by have := hlt e' he'; omega), hl.add_zero]
        exact rest (ev :: evs) acc (List.pairwise_cons.2 hp) (fun e' he' => ⟨hlt e' he', he'⟩)
          (fun e' he' => Or.inl he')

theorem kernel_value (o : Arith V) (hl : Laws o) (n : Nat) (xs : List (Iter × List V)) (hne : xs ≠ [])
    (ho : ∀ x ∈ xs, Ordered x.1 ∧ x.1.e ≤ x.2.length)
    (hn : ∀ x ∈ xs, ∀ i v, x.1.s ≤ i → i < x.1.e → x.1.crd[i]? = some v → 0 ≤ v ∧ v < (n : Int))
    (strat : Strategy) (fuel : Nat) (evs : List Event) (hi : Intersection (xs.map (·.1)) evs)
    (hr : run strat fuel (xs.map (·.1)) = some (evs, true)) :
    kernel o strat fuel xs = some (sumProduct o n xs) := by
  simp only [kernel, hr]
  rw [accumulate_spec o hl xs ho evs o.zero (fun ev hev => (hi.2 ev.1 ev.2).1 hev)]
  congr 1
  unfold sumProduct
  simp only [times_eq]
  rw [List.range_eq_range']
  symm
  apply sum_range_events o hl (fun c => product o (xs.map (fun x => component o x.1 x.2 c))) n 0 evs o.zero hi.1
  · intro ev hev
    have := (hi.2 ev.1 ev.2).1 hev
    cases xs with
    | nil => exact absurd rfl hne
    | cons x xs =>
      rw [List.map_cons] at this
      cases hr2 : ev.2 with
      | nil => rw [hr2] at this; exact this.elim
      | cons r rs =>
        rw [hr2] at this
        obtain ⟨a1, a2, a3, a4⟩ := this.1
        have := hn x List.mem_cons_self r.1 ev.1 a1 (by omega) ((a4 r.1 a1 (by omega)).2 ⟨by omega, a2⟩)
        omega
  · intro c _ _ hc
    apply product_zero o hl
    rcases allStored_or_zero o (c : Int) xs (fun x hx => (ho x hx).1) with ⟨rs, h⟩ | h
    · exact absurd rfl (hc (c, rs) ((hi.2 c rs).2 h))
    · exact h

/-- C64, C10. The two-finger kernel computes the sum of the products of the components, for vectors with or
without duplicates. -/
theorem twoFinger_value_partial (o : Arith V) (hl : Laws o) (n : Nat) (xs : List (Iter × List V)) (hne : xs ≠ [])
    (hw : ∀ x ∈ xs, x.1.window = none) (ho : ∀ x ∈ xs, Ordered x.1 ∧ x.1.e ≤ x.2.length)
    (hn : ∀ x ∈ xs, ∀ i v, x.1.s ≤ i → i < x.1.e → x.1.crd[i]? = some v → 0 ≤ v ∧ v < (n : Int))
    (fuel : Nat) (hf : entries (xs.map (·.1)) < fuel) :
    kernel o .twoFinger fuel xs = some (sumProduct o n xs) := by
  obtain ⟨evs, h1, h2⟩ := twoFinger_intersection_partial (xs.map (·.1)) (by simpa using hne)
    (by intro it hit; obtain ⟨x, hx, rfl⟩ := List.mem_map.1 hit; exact hw x hx)
    (by intro it hit; obtain ⟨x, hx, rfl⟩ := List.mem_map.1 hit; exact (ho x hx).1)
  exact kernel_value o hl n xs hne ho hn .twoFinger fuel evs h1 (h2 fuel hf)

/-- C64. The galloping kernel computes the sum of the products of the components. -/
theorem gallop_value_partial (o : Arith V) (hl : Laws o) (n : Nat) (xs : List (Iter × List V)) (hne : xs ≠ [])
    (hg : ∀ x ∈ xs, Gallopable x.1) (ho : ∀ x ∈ xs, Ordered x.1 ∧ x.1.e ≤ x.2.length)
    (hn : ∀ x ∈ xs, ∀ i v, x.1.s ≤ i → i < x.1.e → x.1.crd[i]? = some v → 0 ≤ v ∧ v < (n : Int))
    (fuel : Nat) (hf : entries (xs.map (·.1)) < fuel) :
    kernel o .gallop fuel xs = some (sumProduct o n xs) := by
  obtain ⟨evs, h1, h2⟩ := gallop_intersection_partial (xs.map (·.1)) (by simpa using hne)
    (by intro it hit; obtain ⟨x, hx, rfl⟩ := List.mem_map.1 hit; exact hg x hx)
    (by intro it hit; obtain ⟨x, hx, rfl⟩ := List.mem_map.1 hit; exact (ho x hx).1)
  exact kernel_value o hl n xs hne ho hn .gallop fuel evs h1 (h2 fuel hf)

/-- Integers. -/
def intArith : Arith Int := ⟨0, (· + ·), (· * ·)⟩

theorem intArith_laws : Laws intArith := by
  constructor <;> intros <;> simp [intArith]

/-- `2·5·1` at `4` and `4·10·3` at `9`. -/
example : kernel intArith .gallop 14 [(exA, [1, 2, 3, 4]), (exB, [5, 6, 7, 8, 9, 10]), (exC, [0, 0, 1, 3])] = some 130 ∧
    sumProduct intArith 10 [(exA, [1, 2, 3, 4]), (exB, [5, 6, 7, 8, 9, 10]), (exC, [0, 0, 1, 3])] = 130 := by
  exact ⟨by decide +kernel, by decide +kernel⟩

/-- A vector with duplicates: `(1 + 2)·10` at `1`. -/
example : kernel intArith .twoFinger 7 [({ crd := [1, 1, 3], s := 0, e := 3, unique := false }, [1, 2, 3]),
    ({ crd := [1, 2], s := 0, e := 2 }, [10, 20])] = some 30 := by decide +kernel

end Verif.Gallop
