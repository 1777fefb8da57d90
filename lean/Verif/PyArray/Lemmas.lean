import Verif.PyArray.Model

/-!
# Lemmas
-/

namespace Verif.PyArray

variable {V : Type}

/-! ### Boxes -/

theorem inBox_cons {n x : Nat} {dims c : List Nat} : InBox (n :: dims) (x :: c) ↔ x < n ∧ InBox dims c := by
  constructor
  · intro h
    exact ⟨h.2 0 x n rfl rfl, Nat.succ.inj h.1, fun i => h.2 (i + 1)⟩
  · rintro ⟨h1, h2, h3⟩
    refine ⟨by rw [List.length_cons, List.length_cons, h2], fun i => ?_⟩
    cases i with
    | zero =>
      intro y m hy hm
      have hy : x = y := Option.some.inj hy
      have hm : n = m := Option.some.inj hm
      subst hy
      subst hm
      exact h1
    | succ i => exact h3 i

theorem inBox_reverse {dims c : List Nat} (h : InBox dims c) : InBox dims.reverse c.reverse := by
  refine ⟨by rw [List.length_reverse, List.length_reverse, h.1], fun i x n hx hn => ?_⟩
  have hi : i < c.length := by
    have := (List.getElem?_eq_some_iff.1 hx).1
    rwa [List.length_reverse] at this
  rw [List.getElem?_reverse hi] at hx
  rw [List.getElem?_reverse (by rw [← h.1]; exact hi), ← h.1] at hn
  exact h.2 _ _ _ hx hn

/-! ### Row-major order -/

theorem walk_length : ∀ (dims : List Nat), (walk dims).length = product dims
  | [] => rfl
  | n :: dims => by
    show ((List.range n).flatMap fun x => (walk dims).map (x :: ·)).length = n * product dims
    rw [List.length_flatMap]
    have : ((List.range n).map fun x => ((walk dims).map (x :: ·)).length) = List.replicate n (product dims) := by
      rw [List.eq_replicate_iff]
      refine ⟨by rw [List.length_map, List.length_range], fun b hb => ?_⟩
      obtain ⟨x, _, rfl⟩ := List.mem_map.1 hb
      rw [List.length_map, walk_length dims]
    rw [this, List.sum_replicate_nat]

theorem position_eq : ∀ (dims c : List Nat) (p : Nat), c.length = dims.length →
    position p dims c = p * product dims + position 0 dims c
  | [], [], p, _ => by
    show p = p * 1 + 0
    omega
  | [], _ :: _, _, h => nomatch h
  | _ :: _, [], _, h => nomatch h
  | n :: dims, x :: c, p, h => by
    have hl : c.length = dims.length := Nat.succ.inj h
    show position (p * n + x) dims c = p * (n * product dims) + position (0 * n + x) dims c
    rw [position_eq dims c (p * n + x) hl, position_eq dims c (0 * n + x) hl, Nat.add_mul, Nat.zero_mul, Nat.zero_add,
      Nat.mul_assoc, Nat.add_assoc]

theorem getElem?_flatMap_range {α : Type} {m : Nat} (f : Nat → List α) (hf : ∀ x, (f x).length = m) {j : Nat} (hj : j < m) :
    ∀ {n x : Nat}, x < n → ((List.range n).flatMap f)[x * m + j]? = (f x)[j]? := by
  have hlen : ∀ n, ((List.range n).flatMap f).length = n * m := by
    intro n
    rw [List.length_flatMap]
    have : ((List.range n).map fun x => (f x).length) = List.replicate n m := by
      rw [List.eq_replicate_iff]
      refine ⟨by rw [List.length_map, List.length_range], fun b hb => ?_⟩
      obtain ⟨x, _, rfl⟩ := List.mem_map.1 hb
      exact hf x
    rw [this, List.sum_replicate_nat]
  intro n
  induction n with
  | zero =>
    intro x h
    exact nomatch h
  | succ n ih =>
    intro x h
    rw [List.range_succ, List.flatMap_append]
    by_cases hx : x < n
    · rw [List.getElem?_append_left, ih hx]
      rw [hlen]
      have : (x + 1) * m ≤ n * m := Nat.mul_le_mul_right m hx
      rw [Nat.add_mul] at this
      omega
    · have hx : x = n := by omega
      subst hx
      rw [List.getElem?_append_right (by rw [hlen]; omega), hlen]
      have : x * m + j - x * m = j := by omega
      rw [this]
      simp

theorem position_lt : ∀ {dims c : List Nat}, InBox dims c → position 0 dims c < product dims
  | [], [], _ => Nat.one_pos
  | [], _ :: _, h => nomatch h.1
  | _ :: _, [], h => nomatch h.1
  | n :: dims, x :: c, h => by
    obtain ⟨h1, h2⟩ := inBox_cons.1 h
    show position (0 * n + x) dims c < n * product dims
    rw [position_eq dims c _ h2.1, Nat.zero_mul, Nat.zero_add]
    have := position_lt h2
    have hm : (x + 1) * product dims ≤ n * product dims := Nat.mul_le_mul_right _ h1
    rw [Nat.add_mul] at hm
    omega

/-- The coordinates are where the positions say. -/
theorem walk_position : ∀ {dims c : List Nat}, InBox dims c → (walk dims)[position 0 dims c]? = some c
  | [], [], _ => rfl
  | [], _ :: _, h => nomatch h.1
  | _ :: _, [], h => nomatch h.1
  | n :: dims, x :: c, h => by
    obtain ⟨h1, h2⟩ := inBox_cons.1 h
    show ((List.range n).flatMap fun x => (walk dims).map (x :: ·))[position (0 * n + x) dims c]? = _
    rw [position_eq dims c _ h2.1, Nat.zero_mul, Nat.zero_add,
      getElem?_flatMap_range (m := product dims) _ (fun y => by rw [List.length_map, walk_length]) (position_lt h2) h1,
      List.getElem?_map, walk_position h2]
    rfl

/-! ### Mode orderings -/

theorem pick_range (l : List Nat) : pick l (List.range l.length) = l := by
  refine List.ext_getElem? fun i => ?_
  unfold pick
  rw [List.getElem?_map]
  by_cases h : i < l.length
  · rw [List.getElem?_range h, Option.map_some, List.getElem?_eq_getElem h]
    rfl
  · rw [List.getElem?_eq_none (by rw [List.length_range]; omega), List.getElem?_eq_none (by omega)]
    rfl

theorem pick_reverse (l : List Nat) : pick l (List.range l.length).reverse = l.reverse := by
  unfold pick
  rw [List.map_reverse]
  exact congrArg List.reverse (pick_range l)

/-! ### Strides -/

theorem offset_rowMajor : ∀ {dims c : List Nat}, c.length = dims.length →
    offset c ((rowMajor dims).map fun s : Nat => (s : Int)) = (position 0 dims c : Nat)
  | [], [], _ => rfl
  | [], _ :: _, h => nomatch h
  | _ :: _, [], h => nomatch h
  | n :: dims, x :: c, h => by
    have hl : c.length = dims.length := Nat.succ.inj h
    show (x : Int) * (product dims : Nat) + offset c ((rowMajor dims).map fun s : Nat => (s : Int)) =
      (position (0 * n + x) dims c : Nat)
    rw [offset_rowMajor hl, position_eq dims c (0 * n + x) hl, Nat.zero_mul, Nat.zero_add, Int.natCast_add, Int.natCast_mul]

theorem length_rowMajor : ∀ (dims : List Nat), (rowMajor dims).length = dims.length
  | [] => rfl
  | _ :: dims => by
    show (rowMajor dims).length + 1 = dims.length + 1
    rw [length_rowMajor dims]

/-- The offset as a sum over modes. -/
theorem offset_sum : ∀ (c s : List Nat), c.length = s.length →
    offset c (s.map fun k : Nat => (k : Int)) =
      (((List.range c.length).map fun k => c[k]?.getD 0 * s[k]?.getD 0).sum : Nat)
  | [], [], _ => rfl
  | [], _ :: _, h => nomatch h
  | _ :: _, [], h => nomatch h
  | x :: c, y :: s, h => by
    have hl : c.length = s.length := Nat.succ.inj h
    show (x : Int) * (y : Int) + offset c (s.map fun k : Nat => (k : Int)) = _
    rw [offset_sum c s hl, List.length_cons, List.range_succ_eq_map, List.map_cons, List.map_map, List.sum_cons,
      Int.natCast_add]
    have : ((x * y : Nat) : Int) = (x : Int) * (y : Int) := Int.natCast_mul _ _
    rw [show ((x :: c)[0]?.getD 0 * (y :: s)[0]?.getD 0 : Nat) = x * y from rfl, this]
    rfl

theorem pick_get (l ps : List Nat) {k p : Nat} (h : ps[k]? = some p) : (pick l ps)[k]?.getD 0 = l[p]?.getD 0 := by
  unfold pick
  rw [List.getElem?_map, h]
  rfl

/-! ### Insertions -/

theorem addAll_append (add : V → V → V) : ∀ (l : List (List Nat × V)) (e : List Nat × V) (s : List Nat → V),
    addAll add s (l ++ [e]) = fun c => if c = e.1 then add (addAll add s l c) e.2 else addAll add s l c
  | [], _, _ => rfl
  | _ :: l, e, _ => addAll_append add l e _

theorem runOps_other {k : Nat} : ∀ (ops : List (ArrayOp V)) (h : Heap V), (∀ o ∈ ops, o.block ≠ k) → runOps h ops k = h k
  | [], _, _ => rfl
  | o :: ops, h, hne => by
    show runOps (runOp h o) ops k = h k
    rw [runOps_other ops _ fun o ho => hne o (List.mem_cons_of_mem _ ho)]
    have hk := hne o List.mem_cons_self
    cases o with
    | write b vs => exact if_neg fun h => hk h.symm
    | drop b => exact if_neg fun h => hk h.symm

end Verif.PyArray
