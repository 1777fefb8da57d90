import Verif.Numpy.Dot

/-!
# C89: the Python functions compute what NumPy's functions of the same names compute

The component `r` of a result is the sum over `terms a r`; every term says which components of the operands are
combined (Spec.lean).
-/

namespace Verif.Numpy

/-! ### Element-wise functions -/

/-- **`a + b`, `a * b`, `a > b`, ...** are accepted exactly when one shape is the end of the other one. -/
theorem binary_accepts (c : Nat) (s1 s2 : List Nat) : (binary c s1 s2).isSome ↔ Fits s1 s2 := by
  constructor
  · intro h
    obtain ⟨a, ha⟩ := Option.isSome_iff_exists.1 h
    exact binary_fits ha
  · intro h
    obtain ⟨a, ha, _⟩ := binary_terms c h
    rw [ha]
    rfl

/-- The result has the shape of the operand of the higher order, and its component at `r` combines the components
of the operands at the ends of `r` — whatever variables are used. -/
theorem binary_spec (c : Nat) (s1 s2 : List Nat) (h : Fits s1 s2) : ∃ a, binary c s1 s2 = some a ∧
    a.shape = longer s1 s2 ∧
    ∀ r, InBox (longer s1 s2) r → terms a r = [[last s1.length r, last s2.length r]] := binary_terms c h

/-- A matrix and a vector. -/
example : Fits [2, 3] [3] ∧ (binary 7 [2, 3] [3]).map (fun a => (a.shape, terms a [1, 2])) =
    some ([2, 3], [[[1, 2], [2]]]) := ⟨.inr ⟨[2], rfl⟩, by decide⟩

/-- A number and a matrix. -/
example : (binary 0 [] [2, 3]).map (fun a => (a.shape, terms a [1, 2])) = some ([2, 3], [[[], [1, 2]]]) := by decide

/-- **NumPy also repeats an operand along modes of size 1; here this is an exception.** -/
theorem broadcast_one_fails (c n m : Nat) (h : m ≠ 1) : binary c [n, m] [n, 1] = none ∧ binary c [n, m] [1, m] = none ∨
    n = 1 := by
  by_cases hn : n = 1
  · exact .inr hn
  · refine .inl ⟨?_, ?_⟩
    · show (outShape [n, m] [n, 1]).bind _ = none
      unfold outShape
      rw [show isBroadcastable [n, m] [n, 1] = false by simp [isBroadcastable, h]]
      rfl
    · show (outShape [n, m] [1, m]).bind _ = none
      unfold outShape
      rw [show isBroadcastable [n, m] [1, m] = false by simp [isBroadcastable, hn]]
      rfl

/-- **`abs(a)`, `sqrt(a)`, `logical_not(a)`, ...** are applied to every component. -/
theorem unary_spec (c : Nat) (s : List Nat) : ∃ a, unary c s = some a ∧ a.shape = s ∧
    ∀ r, InBox s r → terms a r = [[r]] := unary_terms c s

example : InBox [2, 3] [1, 2] ∧ (unary 5 [2, 3]).map (fun a => terms a [1, 2]) = some [[[1, 2]]] :=
  ⟨⟨rfl, fun
    | 0, _, _, h1, h2 => by cases h1; cases h2; decide
    | 1, _, _, h1, h2 => by cases h1; cases h2; decide
    | _ + 2, _, _, h1, _ => nomatch h1⟩, by decide⟩

/-- **`a // b` raises an exception for all types**: the test asks for a type that is both signed and unsigned. -/
theorem floordiv_fails (c : Nat) (s1 s2 : List Nat) (dtype : Types.Kind) : floordiv c s1 s2 dtype = none := by
  cases dtype <;> rfl

/-! ### Sums -/

/-- **`tensor_sum(a, axis=[...])`** is accepted exactly when all axes are between 0 and the order. -/
theorem sum_accepts (c : Nat) (s : List Nat) (l : List Int) :
    (sum c s (.list l)).isSome ↔ ∀ i ∈ l, 0 ≤ i ∧ i < s.length := by
  constructor
  · intro h
    obtain ⟨a, ha⟩ := Option.isSome_iff_exists.1 h
    obtain ⟨sh, hs, _⟩ := Option.bind_eq_some_iff.1 ha
    exact removeAt_some hs
  · intro h
    rw [ints_of fun i hi => (h i hi).1, (sum_eq c s (l.map Int.toNat) ?_).1]
    · rfl
    · intro i hi
      obtain ⟨j, hj, rfl⟩ := List.mem_map.1 hi
      have := h j hj
      omega

/-- The result has the modes that are not among the axes, and its component at `r` is the sum over the components of
the operand whose other coordinates are `r`: each once, also if an axis is given twice. -/
theorem sum_spec (c : Nat) (s axes : List Nat) (h : ∀ i ∈ axes, i < s.length) :
    ∃ a, sum c s (.list (axes.map fun i : Nat => (i : Int))) = some a ∧ a.shape = without axes 0 s ∧
      ∀ r, InBox a.shape r → Lists (terms a r) fun cs => ∃ x, cs = [x] ∧ InBox s x ∧ without axes 0 x = r := by
  obtain ⟨h1, h2⟩ := sum_eq c s axes h
  exact ⟨_, h1, rfl, fun r hr => reduce_terms (fresh_nodup _ _) (fresh_length _ _) rfl h2 hr⟩

/-- One axis. -/
theorem sum_one (c : Nat) (s : List Nat) (i : Int) : sum c s (.int i) = sum c s (.list [i]) := rfl

/-- **`tensor_sum(a)`** is the sum over all components. -/
theorem sum_all (c : Nat) (s : List Nat) : ∃ a, sum c s .none = some a ∧ a.shape = [] ∧
    Lists (terms a []) fun cs => ∃ x, cs = [x] ∧ InBox s x := by
  obtain ⟨h1, h2⟩ := sum_none_eq c s
  refine ⟨_, h1, rfl, ?_⟩
  have hw : ∀ {α : Type} (l : List α), l.length = s.length → without (List.range s.length) 0 l = [] := fun l hl =>
    without_all 0 l fun i _ hi => List.mem_range.2 (by omega)
  refine (reduce_terms (axes := List.range s.length) (fresh_nodup _ _) (fresh_length _ _) (hw _ (fresh_length _ _)).symm h2
    inBox_nil).congr fun cs => ⟨?_, ?_⟩
  · rintro ⟨x, h, hx, _⟩
    exact ⟨x, h, hx⟩
  · rintro ⟨x, h, hx⟩
    exact ⟨x, h, hx, hw x hx.1⟩

example : (sum 3 [2, 3, 2] (.list [2, 0])).map (fun a => (a.shape, terms a [1])) =
    some ([3], [[[0, 1, 0]], [[0, 1, 1]], [[1, 1, 0]], [[1, 1, 1]]]) := by decide

example : (sum 3 [2, 3] .none).map (fun a => (a.shape, (terms a []).length)) = some ([], 6) := by decide

/-- **The documented tuples of axes are never accepted**: `_as_list` makes a list whose element is the tuple. -/
theorem sum_tuple_fails (c : Nat) (s : List Nat) (l : List Int) : sum c s (.tuple l) = none := rfl

/-- **Negative axes, which NumPy accepts, are never accepted.** -/
theorem sum_negative_fails (c : Nat) (s : List Nat) (i : Int) (h : i < 0) : sum c s (.int i) = none := by
  rw [sum_one]
  cases hs : sum c s (.list [i]) with
  | none => rfl
  | some a =>
    have := (sum_accepts c s [i]).1 (by rw [hs]; rfl) i List.mem_cons_self
    omega

/-! ### Products -/

/-- **`matmul(a, b)`** is accepted exactly for stacks of matrices whose inner sizes agree and whose other sizes fit. -/
theorem matmul_accepts (c : Nat) (s1 s2 : List Nat) : (matmul c s1 s2).isSome ↔
    ∃ b1 b2 m k n, s1 = b1 ++ [m, k] ∧ s2 = b2 ++ [k, n] ∧ Fits b1 b2 := by
  constructor
  · intro h
    obtain ⟨a, ha⟩ := Option.isSome_iff_exists.1 h
    exact matmul_accepted ha
  · rintro ⟨b1, b2, m, k, n, rfl, rfl, h⟩
    obtain ⟨a, ha, _⟩ := matmul_terms c (m := m) (k := k) (n := n) h
    rw [ha]
    rfl

/-- The product of the matrices of the stacks. -/
theorem matmul_spec (c : Nat) (b1 b2 : List Nat) (m k n : Nat) (h : Fits b1 b2) :
    ∃ a, matmul c (b1 ++ [m, k]) (b2 ++ [k, n]) = some a ∧ a.shape = longer b1 b2 ++ [m, n] ∧
      ∀ b i j, InBox (longer b1 b2) b → i < m → j < n → Lists (terms a (b ++ [i, j])) fun cs =>
        ∃ l, l < k ∧ cs = [last b1.length b ++ [i, l], last b2.length b ++ [l, j]] := matmul_terms c h

example : Fits [2] [] ∧ (matmul 4 ([2] ++ [3, 2]) ([] ++ [2, 5])).map (fun a => (a.shape, terms a ([1] ++ [2, 4]))) =
    some ([2, 3, 5], [[[1, 2, 0], [0, 4]], [[1, 2, 1], [1, 4]]]) := ⟨.inr (List.nil_suffix), by decide⟩

/-- **`inner(a, b)`**: accepted exactly for a number as operand or equal last sizes. -/
theorem inner_accepts (c : Nat) (s1 s2 : List Nat) : (inner c s1 s2).isSome ↔
    s1 = [] ∨ s2 = [] ∨ ∃ a1 a2 k, s1 = a1 ++ [k] ∧ s2 = a2 ++ [k] := by
  constructor
  · intro h
    obtain ⟨a, ha⟩ := Option.isSome_iff_exists.1 h
    exact inner_accepted ha
  · rintro (rfl | rfl | ⟨a1, a2, k, rfl, rfl⟩)
    · unfold inner
      rw [if_pos (.inl rfl)]
      exact (binary_accepts c _ _).2 (.inl List.nil_suffix)
    · unfold inner
      rw [if_pos (.inr rfl)]
      exact (binary_accepts c _ _).2 (.inr List.nil_suffix)
    · obtain ⟨a, ha, _⟩ := inner_terms c (a1 := a1) (a2 := a2) (k := k)
      rw [ha]
      rfl

/-- The sum over the last modes. -/
theorem inner_spec (c : Nat) (a1 a2 : List Nat) (k : Nat) :
    ∃ a, inner c (a1 ++ [k]) (a2 ++ [k]) = some a ∧ a.shape = a1 ++ a2 ∧
      ∀ x y, InBox a1 x → InBox a2 y → Lists (terms a (x ++ y)) fun cs =>
        ∃ l, l < k ∧ cs = [x ++ [l], y ++ [l]] := inner_terms c

/-- A number as operand: the product by this number. -/
theorem inner_number (c : Nat) (s : List Nat) : ∃ a, inner c [] s = some a ∧ a.shape = s ∧
    ∀ r, InBox s r → terms a r = [[[], r]] := by
  obtain ⟨a, h1, h2, h3⟩ := binary_terms c (s1 := []) (s2 := s) (.inl List.nil_suffix)
  have hl : longer [] s = s := by
    cases s <;> rfl
  rw [hl] at h2 h3
  refine ⟨a, ?_, h2, fun r hr => ?_⟩
  · unfold inner
    rw [if_pos (.inl rfl)]
    exact h1
  · rw [h3 r hr]
    unfold last
    rw [hr.1, Nat.sub_self, List.length_nil, Nat.sub_zero, ← hr.1, List.drop_length]
    rfl

example : (inner 4 ([2] ++ [3]) ([2] ++ [3])).map (fun a => (a.shape, terms a ([1] ++ [0]))) =
    some ([2, 2], [[[1, 0], [0, 0]], [[1, 1], [0, 1]], [[1, 2], [0, 2]]]) := by decide

/-- **`dot(a, b)`** with a matrix (or more modes) on the right: accepted exactly if the last size of `a` is the last
but one of `b`. -/
theorem dot_accepts (c : Nat) (s1 s2 : List Nat) (h1 : s1 ≠ []) (h2 : 2 ≤ s2.length) : (dot c s1 s2).isSome ↔
    ∃ a1 a2 k n, s1 = a1 ++ [k] ∧ s2 = a2 ++ [k, n] := by
  constructor
  · intro h
    obtain ⟨a, ha⟩ := Option.isSome_iff_exists.1 h
    exact dot_accepted h1 h2 ha
  · rintro ⟨a1, a2, k, n, rfl, rfl⟩
    obtain ⟨a, ha, _⟩ := dot_terms c (a1 := a1) (a2 := a2) (k := k) (n := n)
    rw [ha]
    rfl

/-- The sum over the last mode of `a` and the last but one of `b`. -/
theorem dot_spec (c : Nat) (a1 a2 : List Nat) (k n : Nat) :
    ∃ a, dot c (a1 ++ [k]) (a2 ++ [k, n]) = some a ∧ a.shape = a1 ++ (a2 ++ [n]) ∧
      ∀ x y j, InBox a1 x → InBox a2 y → j < n → Lists (terms a (x ++ (y ++ [j]))) fun cs =>
        ∃ l, l < k ∧ cs = [x ++ [l], y ++ [l, j]] := dot_terms c

/-- A vector or a number on the right, or a number on the left: as `inner`. -/
theorem dot_vector (c : Nat) (s1 s2 : List Nat) (h : s1 = [] ∨ s2.length ≤ 1) : dot c s1 s2 = inner c s1 s2 := by
  unfold dot
  rw [if_pos]
  rcases h with rfl | h
  · exact .inl rfl
  · exact .inr h

example : (dot 4 ([3] ++ [2]) ([2] ++ [2, 5])).map (fun a => (a.shape, terms a ([2] ++ ([1] ++ [4])))) =
    some ([3, 2, 5], [[[2, 0], [1, 0, 4]], [[2, 1], [1, 1, 4]]]) := by decide

/-- **`outer(a, b)`** of two vectors. -/
theorem outer_spec (c m n : Nat) : ∃ a, outer c [m] [n] = some a ∧ a.shape = [m, n] ∧
    ∀ i j, i < m → j < n → terms a [i, j] = [[[i], [j]]] := outer_terms c m n

/-- Other operands are not accepted, unless one of them is a number. -/
theorem outer_accepts (c : Nat) (s1 s2 : List Nat) (h1 : s1 ≠ []) (h2 : s2 ≠ []) : (outer c s1 s2).isSome ↔
    ∃ m n, s1 = [m] ∧ s2 = [n] := by
  constructor
  · intro h
    unfold outer at h
    rw [if_neg (fun h0 => h0.elim (fun h0 => h1 (List.eq_nil_of_length_eq_zero h0))
      fun h0 => h2 (List.eq_nil_of_length_eq_zero h0))] at h
    split at h
    · exact nomatch h
    · rename_i l1
      split at h
      · exact nomatch h
      · rename_i l2
        obtain ⟨m, rfl⟩ := List.length_eq_one_iff.1 (Classical.byContradiction fun h => l1 h)
        obtain ⟨n, rfl⟩ := List.length_eq_one_iff.1 (Classical.byContradiction fun h => l2 h)
        exact ⟨m, n, rfl, rfl⟩
  · rintro ⟨m, n, rfl, rfl⟩
    obtain ⟨a, ha, _⟩ := outer_terms c m n
    rw [ha]
    rfl

example : (outer 4 [3] [2]).map (fun a => (a.shape, terms a [2, 1])) = some ([3, 2], [[[2], [1]]]) := by decide

/-- **`tensordot(a, b, axes)`** is only accepted for axes that exist in both operands and have the same sizes there;
negative ones count from the end. -/
theorem tensordot_accepts (c : Nat) (s1 s2 : List Nat) (A B : List Int) (h : (tensordot c s1 s2 (.pair A B)).isSome) :
    ∃ ax1 ax2, Positions s1.length A ax1 ∧ Positions s2.length B ax2 ∧ Agree ax1 ax2 s1 s2 := by
  obtain ⟨a, ha⟩ := Option.isSome_iff_exists.1 h
  obtain ⟨p, hp, _⟩ := Option.bind_eq_some_iff.1 ha
  obtain ⟨ax1, ax2, h1, h2, h3, _⟩ := matchAxes_some hp
  exact ⟨ax1, ax2, h1, h2, h3⟩

/-- **Such axes, if none is given twice, are accepted**, the result has the other modes of `a` and then those of `b`,
and its component at `r` is the sum over all pairs of components whose coordinates agree on the axes and are `r`
elsewhere.  Missing: axes given twice (`tensordot_repeated_fails`). -/
theorem tensordot_partial (c : Nat) (s1 s2 : List Nat) (A B : List Int) (ax1 ax2 : List Nat)
    (h1 : Positions s1.length A ax1) (h2 : Positions s2.length B ax2) (ha : Agree ax1 ax2 s1 s2)
    (hn1 : ax1.Nodup) (hn2 : ax2.Nodup) :
    ∃ a, tensordot c s1 s2 (.pair A B) = some a ∧ a.shape = without ax1 0 s1 ++ without ax2 0 s2 ∧
      ∀ r, InBox a.shape r → Lists (terms a r) fun cs => ∃ c1 c2, cs = [c1, c2] ∧ InBox s1 c1 ∧ InBox s2 c2 ∧
        without ax1 0 c1 ++ without ax2 0 c2 = r ∧ Agree ax1 ax2 c1 c2 :=
  tensordot_terms c (axes := .pair A B) h1 h2 ha hn1 hn2

example : (tensordot 4 [2, 3, 2] [3, 4, 2] (.pair [1, -1] [0, 2])).map (fun a => (a.shape, terms a [1, 3])) =
    some ([2, 4], [[[1, 0, 0], [0, 3, 0]], [[1, 0, 1], [0, 3, 1]], [[1, 1, 0], [1, 3, 0]], [[1, 1, 1], [1, 3, 1]],
      [[1, 2, 0], [2, 3, 0]], [[1, 2, 1], [2, 3, 1]]]) := by decide +kernel

/-- The hypotheses are met: axes 1 and -1 of `2×3×2`, 0 and 2 of `3×4×2`. -/
example : Positions 3 [1, -1] [1, 2] ∧ Positions 3 [0, 2] [0, 2] ∧ Agree [1, 2] [0, 2] [2, 3, 2] [3, 4, 2] :=
  ⟨.cons ⟨by decide, .inl rfl⟩ (.cons ⟨by decide, .inr rfl⟩ ⟨rfl, fun _ _ _ h => nomatch h⟩),
   .cons ⟨by decide, .inl rfl⟩ (.cons ⟨by decide, .inl rfl⟩ ⟨rfl, fun _ _ _ h => nomatch h⟩),
   .cons rfl (.cons rfl ⟨rfl, fun _ _ _ h => nomatch h⟩)⟩

theorem without_append {α : Type} {axes : List Nat} : ∀ (k : Nat) (l m : List α),
    without axes k (l ++ m) = without axes k l ++ without axes (k + l.length) m
  | _, [], _ => rfl
  | k, x :: l, m => by
    have ih := without_append (axes := axes) (k + 1) l m
    rw [Nat.add_right_comm, Nat.add_assoc] at ih
    show (if k ∈ axes then without axes (k + 1) (l ++ m) else x :: without axes (k + 1) (l ++ m)) =
      (if k ∈ axes then without axes (k + 1) l else x :: without axes (k + 1) l) ++ _
    rw [ih]
    split <;> rfl

theorem without_none {α : Type} {axes : List Nat} : ∀ (k : Nat) (l : List α), (∀ i, k ≤ i → i < k + l.length → i ∉ axes) →
    without axes k l = l
  | _, [], _ => rfl
  | k, x :: l, h => by
    show (if k ∈ axes then _ else _) = _
    rw [if_neg (h k (Nat.le_refl _) (by rw [List.length_cons]; omega)), without_none (k + 1) l]
    intro i h1 h2
    exact h i (by omega) (by rw [List.length_cons]; omega)

theorem agree_middle {x l l' y : List Nat} {n m : Nat} (hx : x.length = n) (hl : l.length = m) (hl' : l'.length = m) :
    Agree (List.range' n m) (List.range' 0 m) (x ++ l) (l' ++ y) ↔ l = l' := by
  constructor
  · intro h
    refine List.ext_getElem? fun k => ?_
    by_cases hk : k < m
    · have := h.2 k (n + k) k (by rw [List.getElem?_range' hk]; simp) (by rw [List.getElem?_range' hk]; simp)
      rw [List.getElem?_append_right (by omega), List.getElem?_append_left (by omega)] at this
      rw [← this, show n + k - x.length = k by omega]
    · rw [List.getElem?_eq_none (by omega), List.getElem?_eq_none (by omega)]
  · rintro rfl
    refine ⟨by rw [List.length_range', List.length_range'], fun k p q hp hq => ?_⟩
    have hk : k < m := by
      have := (List.getElem?_eq_some_iff.1 hp).1
      rwa [List.length_range'] at this
    rw [List.getElem?_range' hk] at hp hq
    have hp : n + 1 * k = p := Option.some.inj hp
    have hq : 0 + 1 * k = q := Option.some.inj hq
    rw [List.getElem?_append_right (by omega), List.getElem?_append_left (by omega)]
    congr 1
    omega

/-- **A number of axes**: the last ones of `a` and the first ones of `b`, in the same order. -/
theorem tensordot_count (c : Nat) (a1 m a2 : List Nat) :
    ∃ a, tensordot c (a1 ++ m) (m ++ a2) (.count m.length) = some a ∧ a.shape = a1 ++ a2 ∧
      ∀ x y, InBox a1 x → InBox a2 y → Lists (terms a (x ++ y)) fun cs =>
        ∃ l, InBox m l ∧ cs = [x ++ l, l ++ y] := by
  have w1 : ∀ {α : Type} (x l : List α), x.length = a1.length → l.length = m.length →
      without (List.range' a1.length m.length) 0 (x ++ l) = x := by
    intro α x l hx hl
    rw [without_append, without_none 0 x, without_all _ l, List.append_nil]
    · intro i h1 h2
      exact List.mem_range'_1.2 ⟨by omega, by omega⟩
    · intro i h1 h2 h
      have := (List.mem_range'_1.1 h).1
      omega
  have w2 : ∀ {α : Type} (l y : List α), l.length = m.length →
      without (List.range' 0 m.length) 0 (l ++ y) = y := by
    intro α l y hl
    rw [without_append, without_all 0 l, without_none _ y, List.nil_append]
    · intro i h1 h2 h
      have := (List.mem_range'_1.1 h).2
      omega
    · intro i h1 h2
      exact List.mem_range'_1.2 ⟨by omega, by omega⟩
  have h1 : Positions (a1 ++ m).length (axesOf (.count m.length)).1 (List.range' a1.length m.length) := by
    refine ⟨by simp [axesOf], fun k i p hi hp => ?_⟩
    have hk : k < m.length := by
      have := (List.getElem?_eq_some_iff.1 hp).1
      rwa [List.length_range'] at this
    rw [List.getElem?_range' hk] at hp
    have hp : a1.length + 1 * k = p := Option.some.inj hp
    have hi : ((List.range (m.length : Int).toNat).map fun k : Nat => (k : Int) - m.length)[k]? = some i := hi
    rw [List.getElem?_map, Int.toNat_natCast, List.getElem?_range hk] at hi
    have hi : (k : Int) - m.length = i := Option.some.inj hi
    refine ⟨?_, .inr ?_⟩
    · rw [List.length_append]
      omega
    · rw [List.length_append, Int.natCast_add]
      omega
  have h2 : Positions (m ++ a2).length (axesOf (.count m.length)).2 (List.range' 0 m.length) := by
    refine ⟨by simp [axesOf], fun k i p hi hp => ?_⟩
    have hk : k < m.length := by
      have := (List.getElem?_eq_some_iff.1 hp).1
      rwa [List.length_range'] at this
    rw [List.getElem?_range' hk] at hp
    have hp : 0 + 1 * k = p := Option.some.inj hp
    have hi : ((List.range (m.length : Int).toNat).map fun k : Nat => (k : Int))[k]? = some i := hi
    rw [List.getElem?_map, Int.toNat_natCast, List.getElem?_range hk] at hi
    have hi : (k : Int) = i := Option.some.inj hi
    refine ⟨?_, .inl ?_⟩
    · rw [List.length_append]
      omega
    · omega
  obtain ⟨a, h3, h4, h5⟩ := tensordot_terms c h1 h2 ((agree_middle rfl rfl rfl).2 rfl) List.nodup_range' List.nodup_range'
  rw [w1 a1 m rfl rfl, w2 m a2 rfl] at h4
  refine ⟨a, h3, h4, fun x y hx hy => ?_⟩
  refine (h5 (x ++ y) (by rw [h4]; exact (inBox_append hx.1).2 ⟨hx, hy⟩)).congr fun cs => ⟨?_, ?_⟩
  · rintro ⟨c1, c2, rfl, hc1, hc2, hr, hag⟩
    have l1 : c1.length = a1.length + m.length := by rw [hc1.1, List.length_append]
    have l2 : c2.length = m.length + a2.length := by rw [hc2.1, List.length_append]
    have t1 : (c1.take a1.length).length = a1.length := by rw [List.length_take]; omega
    have t2 : (c1.drop a1.length).length = m.length := by rw [List.length_drop]; omega
    have t3 : (c2.take m.length).length = m.length := by rw [List.length_take]; omega
    rw [← List.take_append_drop a1.length c1, ← List.take_append_drop m.length c2] at hr hag
    rw [← List.take_append_drop a1.length c1] at hc1
    rw [w1 _ _ t1 t2, w2 _ _ t3] at hr
    have hl := (agree_middle t1 t2 t3).1 hag
    obtain ⟨e1, e2⟩ := List.append_inj hr (by rw [t1, hx.1])
    refine ⟨c1.drop a1.length, ((inBox_append t1).1 hc1).2, ?_⟩
    rw [← e1, ← e2]
    conv => rhs; rw [show c1.drop a1.length ++ c2.drop m.length = c2.take m.length ++ c2.drop m.length by rw [hl]]
    rw [List.take_append_drop, List.take_append_drop]
  · rintro ⟨l, hl, rfl⟩
    refine ⟨_, _, rfl, (inBox_append hx.1).2 ⟨hx, hl⟩, (inBox_append hl.1).2 ⟨hl, hy⟩, ?_, ?_⟩
    · rw [w1 x l hx.1 hl.1, w2 l y hl.1]
    · exact (agree_middle hx.1 hl.1 hl.1).2 rfl

example : (tensordot 4 ([5] ++ [2, 3]) ([2, 3] ++ [4]) (.count 2)).map (fun a => (a.shape, (terms a [1, 3]).length)) =
    some ([5, 4], 6) := by decide +kernel

/-- **An axis given twice** is accepted although NumPy rejects it (its shapes do not match), and the result is not
what contracting axis 0 of `a` with both axes of `b` means: there are four terms, two of which use components of `b`
off the diagonal. -/
theorem tensordot_repeated_fails : ∃ a, tensordot 0 [2] [2, 2] (.pair [0, 0] [0, 1]) = some a ∧ a.shape = [] ∧
    terms a [] = [[[0], [0, 0]], [[0], [1, 0]], [[1], [0, 1]], [[1], [1, 1]]] ∧
    ¬ Agree [0, 0] [0, 1] [1] [0, 1] :=
  ⟨_, rfl, rfl, by decide +kernel, fun h => absurd (h.2 0 0 0 rfl rfl) (by decide)⟩

/-! ### Numbers -/

/-- **Integers below 2^24 are kept** when a Python number is used as an operand: the tensor made from it has single
precision.  Missing: other numbers (`number_fails`). -/
theorem number_partial (n : Int) (h1 : -(2 ^ 24) < n) (h2 : n < 2 ^ 24) : numberType = .float32 ∧ IsFloat32 n :=
  ⟨rfl, n, 0, h1, h2, by omega⟩

/-- **16777217, added to a tensor of doubles or of 64-bit integers, is not added exactly.** -/
theorem number_fails : numberType = .float32 ∧ ¬ IsFloat32 16777217 := by
  refine ⟨rfl, ?_⟩
  rintro ⟨m, e, h1, h2, h3⟩
  cases e with
  | zero => omega
  | succ e =>
    rw [Int.pow_succ, ← Int.mul_assoc] at h3
    omega

end Verif.Numpy
