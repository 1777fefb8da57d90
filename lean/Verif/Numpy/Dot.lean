import Verif.Numpy.Products

/-!
# Products over chosen axes
-/

namespace Verif.Numpy

/-! ### Setting positions -/

theorem fill_length : ∀ (is : List Int) (vs : List Var) (l : List (Option Var)), (fill l is vs).length = l.length
  | [], _, _ => rfl
  | _ :: _, [], _ => rfl
  | i :: is, v :: vs, l => by
    show (fill (setItem l i (some v)) is vs).length = _
    rw [fill_length is vs]
    exact List.length_set

theorem setItem_nat {α : Type} (l : List α) (p : Nat) (x : α) : setItem l (p : Int) x = l.set p x := by
  unfold setItem bound
  rw [if_neg (by omega)]
  rfl

theorem fill_not {p : Nat} : ∀ (ps : List Nat) (vs : List Var) (l : List (Option Var)), p ∉ ps →
    (fill l (ps.map fun i : Nat => (i : Int)) vs)[p]? = l[p]?
  | [], _, _, _ => rfl
  | _ :: _, [], _, _ => rfl
  | q :: ps, v :: vs, l, h => by
    show (fill (setItem l (q : Int) (some v)) (ps.map fun i : Nat => (i : Int)) vs)[p]? = _
    rw [fill_not ps vs _ (fun hp => h (List.mem_cons_of_mem _ hp)), setItem_nat,
      List.getElem?_set_ne (fun hq => h (by rw [hq]; exact List.mem_cons_self))]

theorem fill_get {p k : Nat} {v : Var} : ∀ (ps : List Nat) (vs : List Var) (l : List (Option Var)), ps.Nodup → p < l.length →
    ps[k]? = some p → vs[k]? = some v → (fill l (ps.map fun i : Nat => (i : Int)) vs)[p]? = some (some v) := by
  induction k with
  | zero =>
    intro ps vs l hn hp h1 h2
    cases ps with
    | nil => exact nomatch h1
    | cons q ps =>
      cases vs with
      | nil => exact nomatch h2
      | cons w vs =>
        have h1 : q = p := Option.some.inj h1
        have h2 : w = v := Option.some.inj h2
        subst h1
        subst h2
        show (fill (setItem l (q : Int) (some w)) (ps.map fun i : Nat => (i : Int)) vs)[q]? = _
        rw [fill_not ps vs _ (List.nodup_cons.1 hn).1, setItem_nat, List.getElem?_set_self hp]
  | succ k ih =>
    intro ps vs l hn hp h1 h2
    cases ps with
    | nil => exact nomatch h1
    | cons q ps =>
      cases vs with
      | nil => exact nomatch h2
      | cons w vs =>
        show (fill (setItem l (q : Int) (some w)) (ps.map fun i : Nat => (i : Int)) vs)[p]? = _
        refine ih ps vs _ (List.nodup_cons.1 hn).2 ?_ h1 h2
        rw [setItem_nat, List.length_set]
        exact hp

/-! ### The other positions -/

/-- The positions that are not among `axes`. -/
def others (axes : List Nat) (n : Nat) : List Nat := (List.range n).filter fun k => decide (k ∉ axes)

theorem notIn_eq (n : Nat) (axes : List Nat) : notIn n (axes.map fun i : Nat => (i : Int)) = others axes n := by
  unfold notIn others
  congr 1
  funext k
  congr 1
  refine propext (not_congr ?_)
  rw [List.mem_map]
  constructor
  · rintro ⟨a, ha, hak⟩
    have : a = k := by omega
    rw [← this]
    exact ha
  · intro h
    exact ⟨k, h, rfl⟩

theorem mem_others {axes : List Nat} {n p : Nat} : p ∈ others axes n ↔ p < n ∧ p ∉ axes := by
  unfold others
  rw [List.mem_filter, List.mem_range, decide_eq_true_iff]

theorem others_nodup (axes : List Nat) (n : Nat) : (others axes n).Nodup := List.filter_sublist.nodup List.nodup_range

theorem without_range' {α : Type} (axes : List Nat) (g : Nat → α) : ∀ (l : List α) (k : Nat),
    (∀ j x, l[j]? = some x → g (k + j) = x) →
    without axes k l = ((List.range' k l.length).filter fun i => decide (i ∉ axes)).map g
  | [], _, _ => rfl
  | x :: l, k, h => by
    have ih := without_range' axes g l (k + 1) fun j y hj => by
      rw [← h (j + 1) y hj]
      congr 1
      omega
    have hx : g k = x := h 0 x rfl
    rw [List.length_cons, List.range'_succ]
    by_cases hk : k ∈ axes
    · rw [List.filter_cons_of_neg (by simpa using hk), ← ih]
      unfold without
      rw [if_pos hk]
      cases l <;> rfl
    · rw [List.filter_cons_of_pos (by simpa using hk), List.map_cons, ← ih, hx]
      show (if k ∈ axes then _ else _) = _
      rw [if_neg hk]

theorem without_others {axes l : List Nat} : without axes 0 l = (others axes l.length).map fun p => l[p]?.getD 0 := by
  unfold others
  rw [without_range' axes (fun p => l[p]?.getD 0) l 0, ← List.range_eq_range']
  intro j x h
  show l[0 + j]?.getD 0 = x
  rw [Nat.zero_add, h]
  rfl

/-! ### The variables of an operand -/

/-- The variables of an operand with `n` modes. -/
structure Placed (n : Nat) (axes : List Nat) (red static V : List Var) : Prop where
  length : V.length = n
  red : ∀ {k p : Nat}, axes[k]? = some p → V[p]? = red[k]?
  static : ∀ {j p : Nat}, (others axes n)[j]? = some p → V[p]? = static[j]?

theorem placed {n : Nat} {axes : List Nat} {red static : List Var} (hn : axes.Nodup) (hlt : ∀ p ∈ axes, p < n)
    (h1 : red.length = axes.length) (h2 : static.length = (others axes n).length) :
    Placed n axes red static (dotVars n (axes.map fun i : Nat => (i : Int)) red static) := by
  constructor
  · unfold dotVars
    rw [List.length_map, fill_length, fill_length, List.length_replicate]
  · intro k p h
    unfold dotVars
    rw [notIn_eq, List.getElem?_map, fill_not _ _ _ (fun hp => (mem_others.1 hp).2 (List.mem_of_getElem? h))]
    have hk := (List.getElem?_eq_some_iff.1 h).1
    obtain ⟨v, hv⟩ : ∃ v, red[k]? = some v := ⟨red[k]'(by omega), List.getElem?_eq_getElem (by omega)⟩
    rw [fill_get axes red _ hn (by rw [List.length_replicate]; exact hlt p (List.mem_of_getElem? h)) h hv, hv]
    rfl
  · intro j p h
    unfold dotVars
    rw [notIn_eq, List.getElem?_map]
    have hj := (List.getElem?_eq_some_iff.1 h).1
    obtain ⟨v, hv⟩ : ∃ v, static[j]? = some v := ⟨static[j]'(by omega), List.getElem?_eq_getElem (by omega)⟩
    rw [fill_get _ static _ (others_nodup _ _)
      (by rw [fill_length, List.length_replicate]; exact (mem_others.1 (List.mem_of_getElem? h)).1) h hv, hv]
    rfl

namespace Placed

variable {n : Nat} {axes : List Nat} {red static V : List Var}

theorem cases (h : Placed n axes red static V) {p : Nat} {v : Var} (hv : V[p]? = some v) :
    (∃ k : Nat, axes[k]? = some p ∧ red[k]? = some v) ∨ (∃ j : Nat, (others axes n)[j]? = some p ∧ static[j]? = some v) := by
  by_cases hp : p ∈ axes
  · obtain ⟨k, hk⟩ := List.mem_iff_getElem?.1 hp
    exact .inl ⟨k, hk, (h.red hk).symm.trans hv⟩
  · have hpn : p < n := by
      rw [← h.length]
      exact (List.getElem?_eq_some_iff.1 hv).1
    obtain ⟨j, hj⟩ := List.mem_iff_getElem?.1 (mem_others.2 ⟨hpn, hp⟩)
    exact .inr ⟨j, hj, (h.static hj).symm.trans hv⟩

theorem mem (h : Placed n axes red static V) {v : Var} (hv : v ∈ V) : v ∈ red ∨ v ∈ static := by
  obtain ⟨p, hp⟩ := List.mem_iff_getElem?.1 hv
  rcases h.cases hp with ⟨k, _, hk⟩ | ⟨j, _, hj⟩
  · exact .inl (List.mem_of_getElem? hk)
  · exact .inr (List.mem_of_getElem? hj)

theorem nodup_index {α : Type} {l : List α} (hn : l.Nodup) {i j : Nat} {x : α} (h1 : l[i]? = some x) (h2 : l[j]? = some x) :
    i = j := by
  obtain ⟨hi, h1⟩ := List.getElem?_eq_some_iff.1 h1
  obtain ⟨hj, h2⟩ := List.getElem?_eq_some_iff.1 h2
  have hp := List.pairwise_iff_getElem.1 hn
  rcases Nat.lt_trichotomy i j with h | h | h
  · exact absurd (h1.trans h2.symm) (hp i j hi hj h)
  · exact h
  · exact absurd (h2.trans h1.symm) (hp j i hj hi h)

theorem nodup (h : Placed n axes red static V) (hn : (red ++ static).Nodup) : V.Nodup := by
  obtain ⟨hr, hs, hd⟩ := List.nodup_append.1 hn
  refine List.pairwise_iff_getElem.2 fun i j hi hj hij he => ?_
  have h1 : V[i]? = some V[i] := List.getElem?_eq_getElem hi
  have h2 : V[j]? = some V[i] := by rw [he]; exact List.getElem?_eq_getElem hj
  have : i = j := by
    rcases h.cases h1 with ⟨k, hk, hk'⟩ | ⟨k, hk, hk'⟩ <;> rcases h.cases h2 with ⟨m, hm, hm'⟩ | ⟨m, hm, hm'⟩
    · have := nodup_index hr hk' hm'
      subst this
      exact Option.some.inj (hk.symm.trans hm)
    · exact absurd rfl (hd _ (List.mem_of_getElem? hk') _ (List.mem_of_getElem? hm'))
    · exact absurd rfl (hd _ (List.mem_of_getElem? hm') _ (List.mem_of_getElem? hk'))
    · have := nodup_index hs hk' hm'
      subst this
      exact Option.some.inj (hk.symm.trans hm)
  omega

theorem rest (h : Placed n axes red static V) (hl : static.length = (others axes n).length) :
    without axes 0 V = static := by
  refine List.ext_getElem? fun j => ?_
  rw [show without axes 0 V = _ from without_others (l := V), h.length, List.getElem?_map]
  cases hj : (others axes n)[j]? with
  | none =>
    have := List.getElem?_eq_none_iff.1 hj
    rw [Option.map_none, List.getElem?_eq_none (by omega)]
  | some p =>
    have hjl := (List.getElem?_eq_some_iff.1 hj).1
    have hjs : static[j]? = some (static[j]'(by omega)) := List.getElem?_eq_getElem (by omega)
    rw [Option.map_some, h.static hj, hjs]
    rfl

end Placed

/-- Coordinates that agree on the axes are given by values of the variables. -/
theorem glue {n1 n2 : Nat} {ax1 ax2 : List Nat} {red st1 st2 V1 V2 : List Var} (h1 : Placed n1 ax1 red st1 V1)
    (h2 : Placed n2 ax2 red st2 V2) (hn1 : V1.Nodup) (hn2 : V2.Nodup) (hd1 : ∀ v ∈ st2, v ∉ V1)
    (hlt1 : ∀ p ∈ ax1, p < n1)
    {c1 c2 : List Nat} (hl1 : c1.length = n1) (hl2 : c2.length = n2) (ha : Agree ax1 ax2 c1 c2) :
    ∃ e : Env, V1.map e = c1 ∧ V2.map e = c2 := by
  have m1 := map_bindEnv (vs := V1) (c := c1) hn1 (by rw [h1.length, hl1])
  have m2 := map_bindEnv (vs := V2) (c := c2) hn2 (by rw [h2.length, hl2])
  have g1 : ∀ {p : Nat} {v : Var}, V1[p]? = some v → c1[p]? = some (bindEnv V1 c1 v) := by
    intro p v h
    conv => lhs; rw [← m1]
    rw [List.getElem?_map, h]
    rfl
  have g2 : ∀ {p : Nat} {v : Var}, V2[p]? = some v → c2[p]? = some (bindEnv V2 c2 v) := by
    intro p v h
    conv => lhs; rw [← m2]
    rw [List.getElem?_map, h]
    rfl
  refine ⟨fun v => if v ∈ V1 then bindEnv V1 c1 v else bindEnv V2 c2 v, ?_, ?_⟩
  · refine Eq.trans (List.map_congr_left fun v hv => ?_) m1
    exact if_pos hv
  · refine Eq.trans (List.map_congr_left fun v hv => ?_) m2
    obtain ⟨q, hq⟩ := List.mem_iff_getElem?.1 hv
    show (if v ∈ V1 then _ else _) = _
    rcases h2.cases hq with ⟨k, hk, hk'⟩ | ⟨j, _, hj⟩
    · have hkl := (List.getElem?_eq_some_iff.1 hk).1
      have hp : ax1[k]? = some (ax1[k]'(by rw [ha.1]; exact hkl)) := List.getElem?_eq_getElem _
      have hv1 : V1[ax1[k]'(by rw [ha.1]; exact hkl)]? = some v := (h1.red hp).trans hk'
      rw [if_pos (List.mem_of_getElem? hv1)]
      have := ha.2 k _ _ hp hk
      rw [g1 hv1, g2 hq] at this
      exact Option.some.inj this
    · rw [if_neg (hd1 v (List.mem_of_getElem? hj))]

/-! ### Axes -/

theorem item_position {l : List Nat} {i : Int} {x : Nat} (h : item l i = some x) :
    ∃ p, Position l.length i p ∧ l[p]? = some x ∧ normalize l.length i = p := by
  unfold item at h
  unfold normalize
  split at h
  · rename_i hi
    rw [if_pos hi]
    split at h
    · exact nomatch h
    · rename_i hl
      have := (List.getElem?_eq_some_iff.1 h).1
      exact ⟨_, ⟨this, .inr (by omega)⟩, h, by omega⟩
  · rename_i hi
    rw [if_neg hi]
    have := (List.getElem?_eq_some_iff.1 h).1
    exact ⟨_, ⟨this, .inl (by omega)⟩, h, by omega⟩

theorem position_item {l : List Nat} {i : Int} {p : Nat} (h : Position l.length i p) :
    item l i = l[p]? ∧ normalize l.length i = p := by
  obtain ⟨h1, h2⟩ := h
  unfold item normalize
  split
  · rename_i hi
    rw [if_neg (by omega)]
    refine ⟨?_, by omega⟩
    congr 1
    omega
  · rename_i hi
    refine ⟨?_, by omega⟩
    congr 1
    omega

theorem Positions.cons {n : Nat} {i : Int} {p : Nat} {is : List Int} {ps : List Nat} (h1 : Position n i p)
    (h2 : Positions n is ps) : Positions n (i :: is) (p :: ps) := by
  refine ⟨by rw [List.length_cons, List.length_cons, h2.1], fun k => ?_⟩
  cases k with
  | zero =>
    intro i' p' hi hp
    have hi : i = i' := Option.some.inj hi
    have hp : p = p' := Option.some.inj hp
    subst hi
    subst hp
    exact h1
  | succ k => exact h2.2 k

theorem Agree.cons {p q : Nat} {ps qs a b : List Nat} (h1 : a[p]? = b[q]?) (h2 : Agree ps qs a b) :
    Agree (p :: ps) (q :: qs) a b := by
  refine ⟨by rw [List.length_cons, List.length_cons, h2.1], fun k => ?_⟩
  cases k with
  | zero =>
    intro p' q' hi hp
    have hi : p = p' := Option.some.inj hi
    have hp : q = q' := Option.some.inj hp
    subst hi
    subst hp
    exact h1
  | succ k => exact h2.2 k

theorem matchAxes_some {s1 s2 : List Nat} : ∀ {A B : List Int} {r : List Int × List Int}, matchAxes s1 s2 A B = some r →
    ∃ ax1 ax2, Positions s1.length A ax1 ∧ Positions s2.length B ax2 ∧ Agree ax1 ax2 s1 s2 ∧
      r = (ax1.map fun i : Nat => (i : Int), ax2.map fun i : Nat => (i : Int))
  | [], [], r, h => by
    refine ⟨[], [], ⟨rfl, fun _ _ _ h => nomatch h⟩, ⟨rfl, fun _ _ _ h => nomatch h⟩, ⟨rfl, fun _ _ _ h => nomatch h⟩, ?_⟩
    exact (Option.some.inj h).symm
  | [], _ :: _, r, h => nomatch h
  | _ :: _, [], r, h => nomatch h
  | a :: as, b :: bs, r, h => by
    obtain ⟨x, hx, h⟩ := Option.bind_eq_some_iff.1 h
    obtain ⟨y, hy, h⟩ := Option.bind_eq_some_iff.1 h
    split at h
    · exact nomatch h
    · rename_i hxy
      have hxy : x = y := Classical.byContradiction fun h => hxy h
      subst hxy
      obtain ⟨r', hr', rfl⟩ := Option.map_eq_some_iff.1 h
      obtain ⟨ax1, ax2, h1, h2, h3, rfl⟩ := matchAxes_some hr'
      obtain ⟨p, hp, hpx, hpn⟩ := item_position hx
      obtain ⟨q, hq, hqx, hqn⟩ := item_position hy
      refine ⟨p :: ax1, q :: ax2, .cons hp h1, .cons hq h2, .cons (hpx.trans hqx.symm) h3, ?_⟩
      rw [hpn, hqn]
      rfl

theorem matchAxes_of {s1 s2 : List Nat} : ∀ {A B : List Int} {ax1 ax2 : List Nat}, Positions s1.length A ax1 →
    Positions s2.length B ax2 → Agree ax1 ax2 s1 s2 →
    matchAxes s1 s2 A B = some (ax1.map fun i : Nat => (i : Int), ax2.map fun i : Nat => (i : Int))
  | [], [], [], [], _, _, _ => rfl
  | [], _, _ :: _, _, h, _, _ => nomatch h.1
  | _ :: _, _, [], _, h, _, _ => nomatch h.1
  | _, [], _, _ :: _, _, h, _ => nomatch h.1
  | _, _ :: _, _, [], _, h, _ => nomatch h.1
  | _, _, [], _ :: _, _, _, h => nomatch h.1
  | _, _, _ :: _, [], _, _, h => nomatch h.1
  | a :: as, b :: bs, p :: ps, q :: qs, h1, h2, h3 => by
    have ih := matchAxes_of (s1 := s1) (s2 := s2) (A := as) (B := bs) (ax1 := ps) (ax2 := qs)
      ⟨Nat.succ.inj h1.1, fun k => h1.2 (k + 1)⟩ ⟨Nat.succ.inj h2.1, fun k => h2.2 (k + 1)⟩
      ⟨Nat.succ.inj h3.1, fun k => h3.2 (k + 1)⟩
    have hp := h1.2 0 a p rfl rfl
    have hq := h2.2 0 b q rfl rfl
    obtain ⟨hpi, hpn⟩ := position_item hp
    obtain ⟨hqi, hqn⟩ := position_item hq
    have hpq : s1[p]? = s2[q]? := h3.2 0 p q rfl rfl
    have hx : s1[p]? = some (s1[p]'hp.1) := List.getElem?_eq_getElem _
    show ((item s1 a).bind fun x => (item s2 b).bind fun y =>
      if x ≠ y then none
      else (matchAxes s1 s2 as bs).map fun r => (normalize s1.length a :: r.1, normalize s2.length b :: r.2)) = _
    rw [hpi, hqi, ← hpq, hx, Option.bind_some, Option.bind_some, if_neg (fun h => h rfl), ih, hpn, hqn]
    rfl

theorem Positions.lt {n : Nat} {is : List Int} {ps : List Nat} (h : Positions n is ps) : ∀ p ∈ ps, p < n := by
  intro p hp
  obtain ⟨k, hk⟩ := List.mem_iff_getElem?.1 hp
  have hkl := (List.getElem?_eq_some_iff.1 hk).1
  exact (h.2 k _ p (List.getElem?_eq_getElem (by rw [h.1]; exact hkl)) hk).1

theorem sizesAt_others {s : List Nat} {axes : List Nat} : sizesAt s (others axes s.length) = without axes 0 s :=
  without_others.symm

theorem tensordot_terms (c : Nat) {s1 s2 : List Nat} {axes : Axes} {ax1 ax2 : List Nat}
    (h1 : Positions s1.length (axesOf axes).1 ax1) (h2 : Positions s2.length (axesOf axes).2 ax2)
    (ha : Agree ax1 ax2 s1 s2) (hn1 : ax1.Nodup) (hn2 : ax2.Nodup) :
    ∃ a, tensordot c s1 s2 axes = some a ∧ a.shape = without ax1 0 s1 ++ without ax2 0 s2 ∧
      ∀ r, InBox a.shape r → Lists (terms a r) fun cs => ∃ c1 c2, cs = [c1, c2] ∧ InBox s1 c1 ∧ InBox s2 c2 ∧
        without ax1 0 c1 ++ without ax2 0 c2 = r ∧ Agree ax1 ax2 c1 c2 := by
  let st1 := fresh c (others ax1 s1.length).length
  let st2 := fresh (c + (others ax1 s1.length).length) (others ax2 s2.length).length
  let red := fresh (c + (others ax1 s1.length).length + (others ax2 s2.length).length) ax1.length
  let V1 := dotVars s1.length (ax1.map fun i : Nat => (i : Int)) red st1
  let V2 := dotVars s2.length (ax2.map fun i : Nat => (i : Int)) red st2
  let a : Assignment := ⟨without ax1 0 s1 ++ without ax2 0 s2, st1 ++ st2, [⟨s1, V1⟩, ⟨s2, V2⟩]⟩
  have p1 : Placed s1.length ax1 red st1 V1 := placed hn1 h1.lt (fresh_length _ _) (fresh_length _ _)
  have p2 : Placed s2.length ax2 red st2 V2 := placed hn2 h2.lt ((fresh_length _ _).trans ha.1) (fresh_length _ _)
  have r1 : without ax1 0 V1 = st1 := p1.rest (fresh_length _ _)
  have r2 : without ax2 0 V2 = st2 := p2.rest (fresh_length _ _)
  have b1 : ∀ {v : Nat}, v ∈ st1 → c ≤ v ∧ v < c + (others ax1 s1.length).length := fun h => mem_fresh.1 h
  have b2 : ∀ {v : Nat}, v ∈ st2 → c + (others ax1 s1.length).length ≤ v ∧
    v < c + (others ax1 s1.length).length + (others ax2 s2.length).length := fun h => mem_fresh.1 h
  have b3 : ∀ {v : Nat}, v ∈ red → c + (others ax1 s1.length).length + (others ax2 s2.length).length ≤ v :=
    fun h => (mem_fresh.1 h).1
  have n1 : V1.Nodup := p1.nodup (List.nodup_append.2 ⟨fresh_nodup _ _, fresh_nodup _ _, fun x hx y hy hxy => by
    have hxy : @Eq Nat x y := hxy
    have := b3 hx
    have := b1 hy
    omega⟩)
  have n2 : V2.Nodup := p2.nodup (List.nodup_append.2 ⟨fresh_nodup _ _, fresh_nodup _ _, fun x hx y hy hxy => by
    have hxy : @Eq Nat x y := hxy
    have := b3 hx
    have := b2 hy
    omega⟩)
  have hd : ∀ v ∈ st2, v ∉ V1 := by
    intro v hv hV
    have := b2 hv
    rcases p1.mem hV with h | h
    · have := b3 h
      omega
    · have := b1 h
      omega
  have hlhs : (st1 ++ st2).Nodup := by
    rw [← fresh_append]
    exact fresh_nodup _ _
  have hc : assign a = some a := by
    obtain ⟨f, hf1, hf2⟩ := glue p1 p2 n1 n2 hd h1.lt rfl rfl ha
    refine consistent_of f ?_ ?_
    · show (st1 ++ st2).map f = _
      rw [List.map_append, ← r1, ← r2, map_without, map_without, hf1, hf2]
    · intro o ho
      simp only [a, List.mem_cons, List.not_mem_nil, or_false] at ho
      rcases ho with rfl | rfl
      · exact hf1
      · exact hf2
  refine ⟨a, ?_, rfl, ?_⟩
  · unfold tensordot
    rw [matchAxes_of h1 h2 ha, Option.bind_some]
    show assign ⟨sizesAt s1 (notIn s1.length (ax1.map fun i : Nat => (i : Int))) ++
      sizesAt s2 (notIn s2.length (ax2.map fun i : Nat => (i : Int))), _, _⟩ = _
    simp only [notIn_eq, sizesAt_others, List.length_map]
    exact hc
  · intro r hr
    refine (terms_lists hc hlhs hr).congr fun cs => ⟨?_, ?_⟩
    · rintro ⟨e, h, he, rfl⟩
      refine ⟨V1.map e, V2.map e, rfl, h _ List.mem_cons_self, h _ (List.mem_cons_of_mem _ List.mem_cons_self), ?_, ha.1, ?_⟩
      · rw [← map_without, ← map_without, r1, r2, ← List.map_append]
        exact he
      · intro k p q hp hq
        rw [List.getElem?_map, List.getElem?_map, p1.red hp, p2.red hq]
    · rintro ⟨c1, c2, rfl, hc1, hc2, hcr, hca⟩
      obtain ⟨e, he1, he2⟩ := glue p1 p2 n1 n2 hd h1.lt hc1.1 hc2.1 hca
      refine ⟨e, ?_, ?_, ?_⟩
      · intro o ho
        simp only [a, List.mem_cons, List.not_mem_nil, or_false] at ho
        rcases ho with rfl | rfl
        · show InBox s1 (V1.map e)
          rw [he1]
          exact hc1
        · show InBox s2 (V2.map e)
          rw [he2]
          exact hc2
      · show (st1 ++ st2).map e = r
        rw [List.map_append, ← r1, ← r2, map_without, map_without, he1, he2]
        exact hcr
      · show [c1, c2] = [V1.map e, V2.map e]
        rw [he1, he2]

end Verif.Numpy
